import Verif.Proofs.Classical

/-! # Methods acting on some qubits -/

namespace Verif
open Classical RegOps CircuitBuilder Rooted

variable {ang : Rot → ℝ} {β : Type} [Conditionable β] [Rooted β] [Sim β] {α γ : Type}

/-- in every builder with conditions `cs`, `m` returns `a` and sends the basis state `x` to `U x` if the conditions hold,
using the qubits `Q` only -/
structure Moves (ang : Rot → ℝ) (cs : List Reg) (m : M β α) (a : α) (Q : List ℕ) (U : Asg → Wave) : Prop where
  keeps : ∀ x, On {y | ∀ q, q ∉ Q → y q = x q} (U x)
  does : ∀ (s : β) (L : List ℕ), ctl s = some cs → Own (root s) (cs.flatten ++ Q ++ L) →
    Does ang m s a (cs.flatten ++ Q ++ L) (fun x => if ∀ c ∈ cs.flatten, x c = true then U x else ket x)

theorem Maps.moves {cs : List Reg} {m : M β α} {a : α} {Q : List ℕ} {φ : Asg → Asg} (h : Maps ang cs m a Q φ) :
    Moves ang cs m a Q (fun x => ket (φ x)) where
  keeps x := On.ket fun q hq => h.keeps x q hq
  does s L hs ho := (h.does s L hs ho).congrU fun x _ => by split <;> rfl

namespace Moves
variable {cs : List Reg} {m : M β α} {a : α} {Q : List ℕ} {U : Asg → Wave}

theorem congr (h : Moves ang cs m a Q U) {V : Asg → Wave} (he : ∀ x, U x = V x) : Moves ang cs m a Q V := by
  rw [← (funext he : U = V)]; exact h

theorem cast (h : Moves ang cs m a Q U) {m' : M β α} {a' : α} (hm : m' = m) (ha : a' = a) : Moves ang cs m' a' Q U := by
  rw [hm, ha]; exact h

theorem mono (h : Moves ang cs m a Q U) {Q' : List ℕ} (hn : Q.Nodup) (hq : ∀ q ∈ Q, q ∈ Q') : Moves ang cs m a Q' U where
  keeps x := (h.keeps x).mono fun _ hy q hq' => hy q fun hc => hq' (hq q hc)
  does s L hs ho := by
    obtain ⟨R, hR⟩ := own_front Q hn hq ho
    exact Does.congr (U := fun x => if ∀ c ∈ cs.flatten, x c = true then U x else ket x) (h.does s R hs (ho.perm hR)) rfl hR.symm fun x _ => rfl

theorem of_nodup (hk : ∀ x, On {y | ∀ q, q ∉ Q → y q = x q} (U x)) (h : Q.Nodup → Moves ang cs m a Q U) : Moves ang cs m a Q U where
  keeps := hk
  does s L hs ho := (h (List.nodup_append.mp (List.nodup_append.mp ho.left).1).2.1).does s L hs ho

theorem lift_keeps {U V : Asg → Wave} (h : ∀ x, On {y | ∀ q, q ∉ Q → y q = x q} (U x)) (h' : ∀ x, On {y | ∀ q, q ∉ Q → y q = x q} (V x)) (x : Asg) :
    On {y | ∀ q, q ∉ Q → y q = x q} (lift V (U x)) := by
  refine (h x).map _ fun z hz => ?_
  rw [lift_ket]
  exact (h' z).mono fun y hy q hq => by rw [hy q hq, hz q hq]

theorem bind (h : Moves ang cs m a Q U) {f : α → M β γ} {c : γ} {V : Asg → Wave} (h' : Moves ang cs (f a) c Q V) :
    Moves ang cs (m >>= f) c Q (fun x => lift V (U x)) where
  keeps := lift_keeps h.keeps h'.keeps
  does s L hs ho := by
    refine (Does.bind (h.does s L hs ho) fun s' hs' ho' => h'.does s' L (hs'.trans hs) ho').congrU fun x _ => ?_
    have hd := disj cs.flatten Q L (root s) ho
    by_cases hx : ∀ c ∈ cs.flatten, x c = true
    · rw [if_pos hx, if_pos hx]
      refine (h.keeps x).agree fun y hy => ?_
      rw [lift_ket, lift_ket, if_pos fun c hc => by rw [hy c (hd c hc)]; exact hx c hc]
    · rw [if_neg hx, if_neg hx, lift_ket, if_neg hx]

theorem map (h : Moves ang cs m a Q U) {f : α → γ} {c : γ} (hf : f a = c) : Moves ang cs (m >>= fun a => Pure.pure (f a)) c Q U :=
  (h.bind (f := fun a => Pure.pure (f a)) (by rw [hf]; exact (Maps.pure c).moves)).congr fun x => by
    have : lift (fun x => ket (id x)) = LinearMap.id := wave_ext fun y => by rw [lift_ket]; rfl
    rw [this]; rfl

/-- one more condition -/
theorem conditioned {cr : Reg} (hc : cr ≠ []) {m : M (Conditioned β) α} (h : Moves ang (cr :: cs) m a Q U) :
    Moves ang cs (Conditioned.conditioned cr m) (a, cr) (cr ++ Q) (fun x => if ∀ c ∈ cr, x c = true then U x else ket x) where
  keeps x := by
    split
    · exact (h.keeps x).mono fun y hy q hq => hy q fun hc => hq (List.mem_append_right _ hc)
    · exact On.ket fun _ _ => rfl
  does s L hs ho := by
    have hp : (cs.flatten ++ (cr ++ Q) ++ L).Perm ((cr :: cs).flatten ++ Q ++ L) := by
      rw [List.flatten_cons]
      simp only [← List.append_assoc]
      exact (List.perm_append_comm.append_right Q).append_right L
    have h1 := h.does ⟨s, some cr⟩ L (conditioned_ctl hs hc) (ho.perm hp)
    refine Does.congr (U := fun x => if ∀ c ∈ (cr :: cs).flatten, x c = true then U x else ket x)
      (Does.conditioned hs hc h1) rfl hp.symm fun x _ => ?_
    have hiff : (∀ c ∈ (cr :: cs).flatten, x c = true) ↔ (∀ c ∈ cr, x c = true) ∧ ∀ c ∈ cs.flatten, x c = true := by
      rw [List.flatten_cons]
      constructor
      · intro h; exact ⟨fun c hc => h c (by simp [hc]), fun c hc => h c (List.mem_append_right _ hc)⟩
      · rintro ⟨h1, h2⟩ c hc
        rcases List.mem_append.mp hc with hc | hc
        · exact h1 c hc
        · exact h2 c hc
    by_cases h1 : ∀ c ∈ cr, x c = true
    · by_cases h2 : ∀ c ∈ cs.flatten, x c = true
      · rw [if_pos (hiff.mpr ⟨h1, h2⟩), if_pos h2, if_pos h1]
      · rw [if_neg fun h => h2 (hiff.mp h).2, if_neg h2]
    · rw [if_neg fun h => h1 (hiff.mp h).1]
      simp only [if_neg h1, ite_self]

/-! ## programs -/

variable {rs : List Reg}

theorem lines_nil : Moves ang cs (([] : List (Line β)).foldlM runLine (full rs)) (full rs) rs.flatten ket := (Maps.lines_nil (β := β)).moves

theorem lines_cons {l : Line β} {ls : List (Line β)} {Q : List ℕ} {V : Asg → Wave} (hn : rs.flatten.Nodup) (hv : ValidGroups rs l.groups)
    (h : Moves ang cs (l.call rs) (l.groups.map (groupReg rs)) Q U) (hQ : Q = (l.groups.map (groupReg rs)).flatten)
    (h' : Moves ang cs (ls.foldlM runLine (full rs)) (full rs) rs.flatten V) :
    Moves ang cs ((l :: ls).foldlM runLine (full rs)) (full rs) rs.flatten (fun x => lift V (U x)) := by
  rw [List.foldlM_cons]
  obtain ⟨g1, g2⟩ := groups_nodup rs hn _ hv
  have h2 := h.mono (Q' := rs.flatten) (by rw [hQ]; exact g1) (by rw [hQ]; exact g2)
  refine Moves.bind (a := full rs) ⟨h2.keeps, fun s L hs ho => ?_⟩ h'
  exact (h2.does s L hs ho).line hn hv

theorem lines_plain {f : List Reg → M β (List Reg)} {gs : List (List Sel)} {as : List Reg} {ls : List (Line β)} {V : Asg → Wave}
    (hn : rs.flatten.Nodup) (hv : ValidGroups rs gs) (hg : gs.map (groupReg rs) = as)
    (h : Moves ang cs (f as) as as.flatten U) (h' : Moves ang cs (ls.foldlM runLine (full rs)) (full rs) rs.flatten V) :
    Moves ang cs ((.plain f gs :: ls).foldlM runLine (full rs)) (full rs) rs.flatten (fun x => lift V (U x)) := by
  subst hg
  exact lines_cons (l := .plain f gs) hn hv h rfl h'

/-- a line that maps basis states to basis states -/
theorem lines_map {f : List Reg → M β (List Reg)} {gs : List (List Sel)} {as : List Reg} {ls : List (Line β)} {V : Asg → Wave} {φ : Asg → Asg}
    (hn : rs.flatten.Nodup) (hv : ValidGroups rs gs) (hg : gs.map (groupReg rs) = as)
    (h : Maps ang cs (f as) as as.flatten φ) (h' : Moves ang cs (ls.foldlM runLine (full rs)) (full rs) rs.flatten V) :
    Moves ang cs ((.plain f gs :: ls).foldlM runLine (full rs)) (full rs) rs.flatten (fun x => V (φ x)) :=
  (lines_plain hn hv hg h.moves h').congr fun x => lift_ket _ _

theorem program {lines : List (Line β)} (hr : ∀ r ∈ rs, r ≠ [])
    (hk : ∀ x, On {y | ∀ q, q ∉ rs.flatten → y q = x q} (U x))
    (h : rs.flatten.Nodup → Moves ang cs (lines.foldlM runLine (full rs)) (full rs) rs.flatten U) :
    Moves ang cs (Verif.program rs lines) rs rs.flatten U where
  keeps := hk
  does s L hs ho := by
    have hn : rs.flatten.Nodup := (List.nodup_append.mp (List.nodup_append.mp ho.left).1).2.1
    exact Does.program hr hn ((h hn).does s L hs ho)

theorem program_nodup {lines : List (Line β)} (hr : ∀ r ∈ rs, r ≠ []) (hn : rs.flatten.Nodup)
    (h : Moves ang cs (lines.foldlM runLine (full rs)) (full rs) rs.flatten U) : Moves ang cs (Verif.program rs lines) rs rs.flatten U where
  keeps := h.keeps
  does s L hs ho := Does.program hr hn (h.does s L hs ho)

end Moves

end Verif
