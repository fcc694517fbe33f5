import Verif.Proofs.Square

/-! # `times_mod` with one qubit `b` of either value -/

namespace Verif
open Classical Complex RegOps CircuitBuilder TempBuilder Rooted

/-! ## a qubit that tells the two adders apart -/

/-- the lowest bit of the sum is right whatever the carries do -/
theorem addW_low (ct : Reg) (c0 a0 b0 : ℕ) (as bs : Reg) (ha : as.length = ct.length) (hb : bs.length = ct.length + 1)
    (hn : (c0 :: ct ++ a0 :: as ++ b0 :: bs).Nodup) (x : Asg) :
    On {z | z b0 = xor (x a0) (xor (x b0) (x c0))} (addW (c0 :: ct) (a0 :: as) (b0 :: bs) x) := by
  cases ct with
  | nil =>
    obtain rfl := List.length_eq_zero_iff.mp ha
    obtain ⟨b1, rfl⟩ := List.length_eq_one_iff.mp hb
    have h4 : [c0, a0, b0, b1].Nodup := by simpa using hn
    simp only [List.nodup_cons, List.mem_cons, List.not_mem_nil, or_false, not_or] at h4
    unfold addW
    refine On.ket ?_
    simp only [Set.mem_setOf_eq, sumMap, Function.update_self]
    rw [carryMap_keeps _ _ _ _ _ _ h4.1.2.2, carryMap_keeps _ _ _ _ _ _ h4.2.1.2, carryMap_keeps _ _ _ _ _ _ h4.2.2.1]
  | cons c1 ct =>
    obtain ⟨⟨k1, k2, k3, _⟩, ⟨k4, k5, k6, _⟩, ⟨k7, k8, k9⟩, _⟩ := add_apart hn
    unfold addW
    refine On.map (S := {z | z c0 = x c0 ∧ z a0 = x a0 ∧ z b0 = x b0}) ?_ _ fun y hy => ?_
    · refine On.map (S := {z | z c0 = x c0 ∧ z a0 = x a0 ∧ z b0 = x b0}) ?_ _ fun y hy => ?_
      · refine (addW_keeps (c1 :: ct) as bs _).mono fun z hz => ?_
        exact ⟨by rw [hz c0 (by simpa using k1) k2, carryMap_keeps _ _ _ _ _ _ k3],
          by rw [hz a0 (by simpa using k4) k5, carryMap_keeps _ _ _ _ _ _ k6],
          by rw [hz b0 (by simpa using k7) k8, carryMap_keeps _ _ _ _ _ _ k9]⟩
      · rw [lift_ket]
        exact (carryW_keeps c0 a0 b0 c1 y).mono fun z hz => ⟨(hz _ k3).trans hy.1, (hz _ k6).trans hy.2.1, (hz _ k9).trans hy.2.2⟩
    · rw [lift_ket]
      refine On.ket ?_
      simp only [Set.mem_setOf_eq, sumMap, Function.update_self]
      rw [hy.1, hy.2.1, hy.2.2]

/-- a map that is its own inverse and keeps the qubit `q` -/
theorem On.back {U : Asg → Wave} (hU : ∀ x, lift U (U x) = Verif.ket x) {q : ℕ} {v : Bool} (hk : ∀ x, On {y | y q = x q} (U x)) {ψ : Wave}
    (h : On {y | y q = v} (lift U ψ)) : On {y | y q = v} ψ := by
  rw [← lift_lift_id hU ψ]
  refine h.map _ fun y hy => ?_
  rw [lift_ket]
  exact (hk y).mono fun z hz => (show z q = y q from hz).trans hy

theorem On.forth {U : Asg → Wave} {q : ℕ} {v : Bool} (hk : ∀ x, On {y | y q = x q} (U x)) {ψ : Wave}
    (h : On {y | y q = v} ψ) : On {y | y q = v} (lift U ψ) := by
  refine h.map _ fun y hy => ?_
  rw [lift_ket]
  exact (hk y).mono fun z hz => (show z q = y q from hz).trans hy

/-- if a carry occurs, some qubit of `b` has one value for certain after the adder with the top carry done, but not after the one with
all objects replaced -/
theorem add_tell (ct : Reg) (c0 : ℕ) (a b : Reg) (ha : a.length = ct.length + 1) (hb : b.length = ct.length + 2)
    (hn : (c0 :: ct ++ a ++ b).Nodup) (x y : Asg) (hxy : ∀ q ∈ c0 :: ct ++ a ++ b, x q = y q) (h : ¬ NoCarry (c0 :: ct) a b x) :
    ∃ q ∈ b, ∃ v, On {z | z q = v} (addW (c0 :: ct) a b x) ∧ ¬ On {z | z q = v} (addV (c0 :: ct) a b y) := by
  induction ct generalizing c0 a b with
  | nil =>
    obtain ⟨a0, rfl⟩ := List.length_eq_one_iff.mp ha
    obtain ⟨b0, b1, rfl⟩ := List.length_eq_two.mp hb
    have h4 : [c0, a0, b0, b1].Nodup := by simpa using hn
    have hb01 : b1 ≠ b0 := by
      simp only [List.nodup_cons, List.mem_cons, List.not_mem_nil, or_false, not_or] at h4
      exact Ne.symm h4.2.2.1
    have hm : maj (x c0) (x a0) (x b0) = true := by
      have : ¬ maj (x c0) (x a0) (x b0) = false := h
      simpa using this
    have hm' : maj (y c0) (y a0) (y b0) = true := by rw [← hxy c0 (by simp), ← hxy a0 (by simp), ← hxy b0 (by simp)]; exact hm
    have hk : ∀ z, On {w | w b1 = z b1} (ket (sumMap c0 a0 b0 z)) := fun z => On.ket (sumMap_keeps _ _ _ _ _ hb01)
    refine ⟨b1, by simp, !x b1, ?_, fun hc => ?_⟩
    · unfold addW
      refine On.ket ?_
      rw [Set.mem_setOf_eq, sumMap_keeps _ _ _ _ _ hb01, carryMap, Function.update_self, hm, Bool.xor_true]
    · rw [addV_one] at hc
      have h1 := On.back (sumK c0 a0 b0 (h4.sublist (by simp))) hk hc
      have := on_iff.mp h1 _ (Finsupp.mem_support_iff.mpr (carryW_both (d := b1) hm' (x b1)))
      simp [setQ_eq] at this
  | cons c1 ct ih =>
    obtain ⟨a0, as, rfl⟩ := List.exists_cons_of_length_pos (l := a) (by omega)
    obtain ⟨b0, bs, rfl⟩ := List.exists_cons_of_length_pos (l := b) (by omega)
    have ha' : as.length = ct.length + 1 := by simpa using ha
    have hb' : bs.length = ct.length + 2 := by simpa using hb
    obtain ⟨⟨k1, k2, k3, k0⟩, ⟨k4, k5, k6, k0'⟩, ⟨k7, k8, k9⟩, k10, k11, k12, _⟩ := add_apart hn
    obtain ⟨n1, n2⟩ := add_nodup hn
    have n3 : [c0, a0, b0].Nodup := n1.sublist (by simp)
    have hsum : ∀ q ∈ bs, ∀ z, On {w | w q = z q} (ket (sumMap c0 a0 b0 z)) := fun q hq z =>
      On.ket (sumMap_keeps _ _ _ _ _ fun e => k8 (e ▸ hq))
    have hcar : ∀ q ∈ bs, ∀ z, On {w | w q = z q} (carryW c0 a0 b0 c1 z) := fun q hq z =>
      (carryW_keeps c0 a0 b0 c1 z).mono fun w hw => hw q fun e => k11 (e ▸ hq)
    have hxy' : ∀ q ∈ c1 :: ct ++ as ++ bs, x q = y q := fun q hq => hxy q (by
      simp only [List.mem_append, List.mem_cons] at hq ⊢
      tauto)
    by_cases hm : maj (x c0) (x a0) (x b0) = true
    · have hm' : maj (y c0) (y a0) (y b0) = true := by rw [← hxy c0 (by simp), ← hxy a0 (by simp), ← hxy b0 (by simp)]; exact hm
      obtain ⟨a1, as, rfl⟩ := List.exists_cons_of_length_pos (l := as) (by omega)
      obtain ⟨b1, bs, rfl⟩ := List.exists_cons_of_length_pos (l := bs) (by omega)
      have q1 : a1 ≠ c1 := fun e => k12 (by simp [e])
      have q2 : b1 ≠ c1 := fun e => k11 (by simp [e])
      refine ⟨b1, by simp, xor (x a1) (xor (x b1) (!x c1)), ?_, fun hc => ?_⟩
      · unfold addW
        refine On.forth (hsum b1 (by simp)) (On.forth (hcar b1 (by simp)) ?_)
        have := addW_low ct c1 a1 b1 as bs (by simpa using ha') (by simpa using hb') n2 (carryMap c0 a0 b0 c1 x)
        have e : carryMap c0 a0 b0 c1 x c1 = !x c1 := by rw [carryMap, Function.update_self, hm, Bool.xor_true]
        rw [carryMap_keeps _ _ _ _ _ _ q1, carryMap_keeps _ _ _ _ _ _ q2, e] at this
        exact this
      · rw [addV_cons] at hc
        have h1 := On.back (sumK c0 a0 b0 n3) (hsum b1 (by simp)) hc
        have h2 := On.back (carryW_carryW c0 a0 b0 c1 n1) (hcar b1 (by simp)) h1
        have hlow : On {z | z b1 = xor (y a1) (xor (y b1) (z c1))} (lift (addV (c1 :: ct) (a1 :: as) (b1 :: bs)) (carryW c0 a0 b0 c1 y)) := by
          refine On.map (S := {z | ∀ q, q ≠ c1 → z q = y q}) (carryW_keeps c0 a0 b0 c1 y) _ fun z hz => ?_
          rw [lift_ket]
          refine on_iff.mpr fun w hw => ?_
          have g1 := on_iff.mp (addV_low ct c1 a1 b1 as bs (by simpa using ha') (by simpa using hb') n2 z) w hw
          have g2 := on_iff.mp (addV_keeps ct c1 (a1 :: as) (b1 :: bs) ha' hb' z) w hw c1 k10 k11
          simp only [Set.mem_setOf_eq] at g1 ⊢
          rw [g1, g2, hz a1 q1, hz b1 q2]
        have h3 : On {z | z c1 = !x c1} (lift (addV (c1 :: ct) (a1 :: as) (b1 :: bs)) (carryW c0 a0 b0 c1 y)) := by
          refine on_iff.mpr fun w hw => ?_
          have g1 := on_iff.mp h2 w hw
          have g2 := on_iff.mp hlow w hw
          simp only [Set.mem_setOf_eq] at g1 g2 ⊢
          rw [g1, hxy a1 (by simp), hxy b1 (by simp)] at g2
          revert g2
          cases y a1 <;> cases y b1 <;> cases x c1 <;> cases w c1 <;> simp
        have h4 : On {z | z c1 = !x c1} (carryW c0 a0 b0 c1 y) := by
          rw [← lift_lift_id (subV_addV ct c1 (a1 :: as) (b1 :: bs) ha' hb' n2) (carryW c0 a0 b0 c1 y)]
          refine h3.map _ fun z hz => ?_
          rw [lift_ket]
          exact (subV_keeps ct c1 (a1 :: as) (b1 :: bs) ha' hb' z).mono fun w hw => (hw c1 k10 k11).trans hz
        have := on_iff.mp h4 _ (Finsupp.mem_support_iff.mpr (carryW_both (d := c1) hm' (x c1)))
        simp [setQ_eq] at this
    · have hm0 : maj (x c0) (x a0) (x b0) = false := by simpa using hm
      have hm1 : maj (y c0) (y a0) (y b0) = false := by rw [← hxy c0 (by simp), ← hxy a0 (by simp), ← hxy b0 (by simp)]; exact hm0
      obtain ⟨q, hq, v, g1, g2⟩ := ih c1 as bs ha' hb' n2 hxy' fun hc => h ⟨hm0, hc⟩
      refine ⟨q, by simp [hq], v, ?_, fun hc => g2 ?_⟩
      · unfold addW
        rw [carryMap_off hm0]
        exact On.forth (hsum q hq) (On.forth (hcar q hq) g1)
      · rw [addV_cons, carryW_off hm1, lift_ket] at hc
        exact On.back (carryW_carryW c0 a0 b0 c1 n1) (hcar q hq) (On.back (sumK c0 a0 b0 n3) (hsum q hq) hc)

/-! ## what `add_mod` leaves as it is inside conditions -/

/-- a method inside conditions that changes no qubit of `K` -/
def MovesK (cs : List Reg) {β α : Type} [Rooted β] [Conditionable β] [Sim β] (m : M β α) (a : α) (Q : List ℕ) (K : Set ℕ) : Prop :=
  ∃ U, Moves rotAngle cs m a Q U ∧ ∀ x, On {y | ∀ q ∈ K, y q = x q} (U x)

section
variable {β : Type} [Conditionable β] [Rooted β] [Sim β] {cs : List Reg} {rs : List Reg} {K : Set ℕ}

theorem MovesK.nil : MovesK cs (([] : List (Line β)).foldlM runLine (full rs)) (full rs) rs.flatten K :=
  ⟨_, Moves.lines_nil, fun _ => On.ket fun _ _ => rfl⟩

theorem MovesK.cons {l : Line β} {ls : List (Line β)} (hn : rs.flatten.Nodup) (hv : ValidGroups rs l.groups)
    (h : MovesK cs (l.call rs) (l.groups.map (groupReg rs)) (l.groups.map (groupReg rs)).flatten K)
    (h' : MovesK cs (ls.foldlM runLine (full rs)) (full rs) rs.flatten K) :
    MovesK cs ((l :: ls).foldlM runLine (full rs)) (full rs) rs.flatten K := by
  obtain ⟨U, h1, h2⟩ := h
  obtain ⟨V, h3, h4⟩ := h'
  refine ⟨_, Moves.lines_cons hn hv h1 rfl h3, fun x => ?_⟩
  refine (h2 x).map _ fun y hy => ?_
  rw [lift_ket]
  exact (h4 y).mono fun z hz q hq => (hz q hq).trans (hy q hq)

theorem MovesK.plain {f : List Reg → M β (List Reg)} {gs : List (List Sel)} {as : List Reg} {ls : List (Line β)}
    (hn : rs.flatten.Nodup) (hv : ValidGroups rs gs) (hg : gs.map (groupReg rs) = as)
    (h : MovesK cs (f as) as as.flatten K) (h' : MovesK cs (ls.foldlM runLine (full rs)) (full rs) rs.flatten K) :
    MovesK cs ((.plain f gs :: ls).foldlM runLine (full rs)) (full rs) rs.flatten K := by
  subst hg
  exact MovesK.cons (l := .plain f gs) hn hv h h'

end

section
variable {β : Type} [Recursive β] [Rooted β] [SubSim β] {cs : List Reg}

theorem MovesK.add (hc : cs ≠ []) (c0 : ℕ) (ct a b : Reg) (ha : a.length = ct.length + 1) (hb : b.length = ct.length + 2) :
    MovesK cs (Arith.add [c0 :: ct, a, b] : M β _) [c0 :: ct, a, b] [c0 :: ct, a, b].flatten {q | q ∉ c0 :: ct ∧ q ∉ b} :=
  ⟨_, Moves.add hc c0 ct a b ha hb, fun x => (addW_keeps (c0 :: ct) a b x).mono fun _ hy q hq => hy q (fun h => hq.1 (List.mem_cons_of_mem _ h)) hq.2⟩

theorem MovesK.addInv (hc : cs ≠ []) (c0 : ℕ) (ct a b : Reg) (ha : a.length = ct.length + 1) (hb : b.length = ct.length + 2) :
    MovesK cs (Arith.addInv [c0 :: ct, a, b] : M β _) [c0 :: ct, a, b] [c0 :: ct, a, b].flatten {q | q ∉ c0 :: ct ∧ q ∉ b} :=
  ⟨_, Moves.addInv hc c0 ct a b ha hb, fun x => (subV_keeps ct c0 a b ha hb x).mono fun _ hy q hq => hy q (fun h => hq.1 (List.mem_cons_of_mem _ h)) hq.2⟩

theorem MovesK.mono {α : Type} {m : M β α} {a : α} {Q : List ℕ} {K K' : Set ℕ} (h : MovesK cs m a Q K) (hK : ∀ q ∈ K', q ∈ K) : MovesK cs m a Q K' := by
  obtain ⟨U, h1, h2⟩ := h
  exact ⟨U, h1, fun x => (h2 x).mono fun y hy q hq => hy q (hK q hq)⟩

/-- the lines of `add_mod` inside conditions -/
theorem MovesK.modLines (hcs : cs ≠ []) (n : ℕ) (ra rb rm : Reg) (t c0 : ℕ) (ct : Reg) (ha : ra.length = n) (hm : rm.length = n) (hb : rb.length = n + 1)
    (hc : n = ct.length + 1) (hn : [ra, rb, rm, [t], c0 :: ct].flatten.Nodup) :
    MovesK cs (Verif.program [ra, rb, rm, [t], c0 :: ct]
        [.plain Arith.add [[(4, none)], [(0, none)], [(1, none)]],
         .plain Arith.addInv [[(4, none)], [(2, none)], [(1, none)]],
         .control none (Verif.op1 Gate.x) [[(1, some [n])], [(3, none)]],
         .control none Arith.add [[(3, none)], [(4, none)], [(2, none)], [(1, none)]],
         .plain Arith.addInv [[(4, none)], [(0, none)], [(1, none)]],
         .control (some 0) (Verif.op1 Gate.x) [[(1, some [n])], [(3, none)]],
         .plain Arith.add [[(4, none)], [(0, none)], [(1, none)]]] : M β _) [ra, rb, rm, [t], c0 :: ct]
      [ra, rb, rm, [t], c0 :: ct].flatten {q | q ≠ t ∧ q ∉ c0 :: ct ∧ q ∉ rb} := by
  have hr : ∀ r ∈ [ra, rb, rm, [t], c0 :: ct], r ≠ [] := by
    intro r hr
    simp only [List.mem_cons, List.not_mem_nil, or_false] at hr
    rcases hr with rfl | rfl | rfl | rfl | rfl
    · rintro rfl; simp at ha; omega
    · rintro rfl; simp at hb
    · rintro rfl; simp at hm; omega
    · simp
    · simp
  have hr0 := hr ra (by simp)
  have hr1 := hr rb (by simp)
  have hr2 := hr rm (by simp)
  obtain ⟨rs, hrs⟩ : ∃ rs, rs = [ra, rb, rm, [t], c0 :: ct] := ⟨_, rfl⟩
  rw [← hrs] at hr hn ⊢
  have g0 : groupReg rs [(0, none)] = ra := by rw [groupReg_all, hrs]; rfl
  have g1 : groupReg rs [(1, none)] = rb := by rw [groupReg_all, hrs]; rfl
  have g2 : groupReg rs [(2, none)] = rm := by rw [groupReg_all, hrs]; rfl
  have g3 : groupReg rs [(3, none)] = [t] := by rw [groupReg_all, hrs]; rfl
  have g4 : groupReg rs [(4, none)] = c0 :: ct := by rw [groupReg_all, hrs]; rfl
  have gn : groupReg rs [(1, some [n])] = [rb.getD n 0] := by rw [groupReg_one, hrs]; rfl
  have va : ValidGroups rs [[(4, none)], [(0, none)], [(1, none)]] :=
    valid_sels rs [(4, none), (0, none), (1, none)] (by simp) (by rw [hrs]; simp [SelOK, hr0, hr1])
  have vm : ValidGroups rs [[(4, none)], [(2, none)], [(1, none)]] :=
    valid_sels rs [(4, none), (2, none), (1, none)] (by simp) (by rw [hrs]; simp [SelOK, hr1, hr2])
  have vc : ValidGroups rs [[(3, none)], [(4, none)], [(2, none)], [(1, none)]] :=
    valid_sels rs [(3, none), (4, none), (2, none), (1, none)] (by simp) (by rw [hrs]; simp [SelOK, hr1, hr2])
  have vx : ValidGroups rs [[(1, some [n])], [(3, none)]] :=
    valid_sels rs [(1, some [n]), (3, none)] (by simp) (by rw [hrs]; simp [SelOK, hb])
  have sub : ∀ q ∈ {q | q ≠ t ∧ q ∉ c0 :: ct ∧ q ∉ rb}, q ∈ {q | q ∉ c0 :: ct ∧ q ∉ rb} := fun q hq => hq.2
  have mA := (MovesK.add (β := β) hcs c0 ct ra rb (by omega) (by omega)).mono sub
  have mS := (MovesK.addInv (β := β) hcs c0 ct ra rb (by omega) (by omega)).mono sub
  have mM := (MovesK.addInv (β := β) hcs c0 ct rm rb (by omega) (by omega)).mono sub
  have mC := Moves.add (β := Conditioned β) (cs := [t] :: cs) (by simp) c0 ct rm rb (by omega) (by omega)
  have h1 : MovesK cs _ _ _ {q | q ≠ t ∧ q ∉ c0 :: ct ∧ q ∉ rb} := MovesK.nil (β := β) (rs := rs)
  have h2 := MovesK.plain hn va (as := [c0 :: ct, ra, rb]) (by simp only [List.map_cons, List.map_nil, g0, g1, g4]) mA h1
  have h3 := MovesK.cons (l := .control (some 0) (Verif.op1 Gate.x) [[(1, some [n])], [(3, none)]]) hn vx
    ⟨_, (Maps.control_masked_x gn g3 (by simp)).moves, fun x => On.ket fun q hq => by
      split
      · exact flipQ_of_ne t q hq.1 x
      · rfl⟩ h2
  have h4 := MovesK.plain hn va (as := [c0 :: ct, ra, rb]) (by simp only [List.map_cons, List.map_nil, g0, g1, g4]) mS h3
  have h5 := MovesK.cons (l := .control none Arith.add [[(3, none)], [(4, none)], [(2, none)], [(1, none)]]) hn vc
    ⟨_, Moves.control g3 (as := [c0 :: ct, rm, rb]) (by simp only [List.map_cons, List.map_nil, g1, g2, g4]) (by simp) mC, fun x => by
      split
      · exact (addW_keeps (c0 :: ct) rm rb x).mono fun y hy q hq => hy q (fun h => hq.2.1 (List.mem_cons_of_mem _ h)) hq.2.2
      · exact On.ket fun _ _ => rfl⟩ h4
  have h6 := MovesK.cons (l := .control none (Verif.op1 Gate.x) [[(1, some [n])], [(3, none)]]) hn vx
    ⟨_, (Maps.control_x (by rw [gn]; simp) g3).moves, fun x => On.ket fun q hq => by
      split
      · exact flipQ_of_ne t q hq.1 x
      · rfl⟩ h5
  have h7 := MovesK.plain hn vm (as := [c0 :: ct, rm, rb]) (by simp only [List.map_cons, List.map_nil, g1, g2, g4]) mM h6
  have h8 := MovesK.plain hn va (as := [c0 :: ct, ra, rb]) (by simp only [List.map_cons, List.map_nil, g0, g1, g4]) mA h7
  obtain ⟨U, k1, k2⟩ := h8
  exact ⟨U, Moves.program_nodup hr hn k1, k2⟩

/-- In state `s` the method returns `a` and leaves the qubits `K` of basis states with clean temporaries as they are. -/
def Spares (K : Set ℕ) {α : Type} (m : M β α) (s : β) (a : α) : Prop :=
  ∃ s' seg, m s = .ok a s' ∧ ctl s' = ctl s ∧ (root s').pipeline = (root s).pipeline ++ seg ∧
    ∀ x, Clean (root s) x → On {y | ∀ q ∈ K, y q = x q} (runW rotAngle seg (ket x))

theorem addMod_spares (hcs : cs ≠ []) {s : β} {ra rb rm : Reg} {L : List ℕ} (h0 : ra ≠ []) (hm : rm.length = ra.length) (hb : rb.length = ra.length + 1)
    (hs : ctl s = some cs) (ho : Own (root s) (cs.flatten ++ [ra, rb, rm].flatten ++ L)) :
    Spares {q | q ∈ cs.flatten ++ [ra, rb, rm].flatten ++ L ∧ q ∉ rb} (Arith.addMod [ra, rb, rm]) s [ra, rb, rm] := by
  have hpos := List.length_pos_iff.mpr h0
  obtain ⟨t, b1, h1, h4, h5, h6, -, h8⟩ := makeTemp_local ho
  obtain ⟨s1, k1, k2, k3⟩ := Sim.makeTemp (β := β) (s := s) h1
  subst k2
  obtain ⟨rc, s2, m1, m2, m3, m4, m5, -, -, -, m8⟩ := makeTempRegister_sim (β := β) (n := ra.length) hpos h4
  obtain ⟨c0, ct, rfl⟩ := List.exists_cons_of_length_pos (l := rc) (by omega)
  have hp : ((c0 :: ct) ++ t :: (cs.flatten ++ [ra, rb, rm].flatten ++ L)).Perm (cs.flatten ++ [ra, rb, rm, [t], c0 :: ct].flatten ++ L) := by
    simp only [List.flatten_cons, List.flatten_nil, List.append_nil]
    rw [List.perm_iff_count]
    intro q
    simp only [List.count_append, List.count_cons, List.count_nil]
    omega
  have o2 := m4.perm hp
  have hn : [ra, rb, rm, [t], c0 :: ct].flatten.Nodup := (List.nodup_append.mp (List.nodup_append.mp o2.left).1).2.1
  obtain ⟨U, u1, u2⟩ := MovesK.modLines (β := β) hcs ra.length ra rb rm t c0 ct rfl hm hb (by simpa using m2.symm) hn
  obtain ⟨s3, d1, d2, d3, d4⟩ := u1.does s2 L (m3.trans (k3.trans hs)) o2
  obtain ⟨seg, e1, -, e3⟩ := d4.seg
  have hp3 : (cs.flatten ++ [ra, rb, rm, [t], c0 :: ct].flatten ++ L).Perm ([t] ++ ((c0 :: ct) ++ (cs.flatten ++ [ra, rb, rm].flatten ++ L))) := by
    simp only [List.flatten_cons, List.flatten_nil, List.append_nil]
    rw [List.perm_iff_count]
    intro q
    simp only [List.count_append, List.count_cons, List.count_nil]
    omega
  obtain ⟨b4, f1, f2, f3, -⟩ := returnTempR_local [t] (by simp) (d3.perm hp3)
  obtain ⟨s4, r1, r2, r3⟩ := Sim.returnTemp (β := β) (s := s3) f1
  subst r2
  obtain ⟨b5, i1, i2, i3, -⟩ := returnTempR_local (c0 :: ct) (by simp) f2
  obtain ⟨s5, j1, j2, j3⟩ := Sim.returnTemp (β := β) (s := s4) i1
  subst j2
  refine ⟨s5, seg, ?_, ?_, ?_, fun x hx => ?_⟩
  · rw [Arith.addMod, if_neg (by omega), if_neg (by omega), bind_ok k1, bind_ok m1]
    refine (bind_ok d1).trans ?_
    simp only
    rw [bind_ok r1, bind_ok j1]
    rfl
  · rw [j3, r3, d2, m3, k3]
  · rw [i3, f3, e1, m5, h5]
  · have hx2 := (m8 x (h8 x hx).1).1
    rw [(e3 x hx2).1]
    split
    · refine (u2 x).mono fun y hy q hq => hy q ⟨?_, ?_, hq.2⟩
      · rintro rfl
        exact (List.nodup_cons.mp h4.left).1 hq.1
      · intro hqc
        exact (List.nodup_append.mp m4.left).2.2 q hqc q (List.mem_cons_of_mem _ hq.1) rfl
    · exact On.ket fun _ _ => rfl

end

end Verif
