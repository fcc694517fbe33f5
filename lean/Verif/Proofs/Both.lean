import Verif.Proofs.Struct

/-! # Methods that also do something when the conditions do not hold -/

namespace Verif
open Classical RegOps CircuitBuilder Rooted

variable {ang : Rot → ℝ} {β : Type} [Conditionable β] [Rooted β] [Sim β] {α γ : Type}

/-- in every builder with conditions `cs`, `m` returns `a` and sends the basis state `x` to `U x` if the conditions hold, otherwise to `V x`,
using the qubits `Q` only -/
structure Both (ang : Rot → ℝ) (cs : List Reg) (m : M β α) (a : α) (Q : List ℕ) (U V : Asg → Wave) : Prop where
  keeps : ∀ x, On {y | ∀ q, q ∉ Q → y q = x q} (U x)
  keeps' : ∀ x, On {y | ∀ q, q ∉ Q → y q = x q} (V x)
  does : ∀ (s : β) (L : List ℕ), ctl s = some cs → Own (root s) (cs.flatten ++ Q ++ L) →
    Does ang m s a (cs.flatten ++ Q ++ L) (fun x => if ∀ c ∈ cs.flatten, x c = true then U x else V x)

theorem Moves.both {cs : List Reg} {m : M β α} {a : α} {Q : List ℕ} {U : Asg → Wave} (h : Moves ang cs m a Q U) : Both ang cs m a Q U ket where
  keeps := h.keeps
  keeps' x := On.ket fun _ _ => rfl
  does := h.does

namespace Both
variable {cs : List Reg} {m : M β α} {a : α} {Q : List ℕ} {U V : Asg → Wave}

theorem congr (h : Both ang cs m a Q U V) {U' V' : Asg → Wave} (he : ∀ x, U x = U' x) (he' : ∀ x, V x = V' x) : Both ang cs m a Q U' V' := by
  rw [← (funext he : U = U'), ← (funext he' : V = V')]; exact h

theorem cast (h : Both ang cs m a Q U V) {m' : M β α} {a' : α} (hm : m' = m) (ha : a' = a) : Both ang cs m' a' Q U V := by
  rw [hm, ha]; exact h

theorem mono (h : Both ang cs m a Q U V) {Q' : List ℕ} (hn : Q.Nodup) (hq : ∀ q ∈ Q, q ∈ Q') : Both ang cs m a Q' U V where
  keeps x := (h.keeps x).mono fun _ hy q hq' => hy q fun hc => hq' (hq q hc)
  keeps' x := (h.keeps' x).mono fun _ hy q hq' => hy q fun hc => hq' (hq q hc)
  does s L hs ho := by
    obtain ⟨R, hR⟩ := own_front Q hn hq ho
    exact Does.congr (U := fun x => if ∀ c ∈ cs.flatten, x c = true then U x else V x) (h.does s R hs (ho.perm hR)) rfl hR.symm fun x _ => rfl

/-- without conditions only the first action counts -/
theorem free {m : M LocalBuilder α} (h : Moves ang [] m a Q U) (hV : ∀ x, On {y | ∀ q, q ∉ Q → y q = x q} (V x)) : Both ang [] m a Q U V where
  keeps := h.keeps
  keeps' := hV
  does s L hs ho := (h.does s L hs ho).congrU fun x _ => by rw [if_pos (by simp), if_pos (by simp)]

theorem moves {m : M LocalBuilder α} (h : Both ang [] m a Q U V) : Moves ang [] m a Q U where
  keeps := h.keeps
  does s L hs ho := (h.does s L hs ho).congrU fun x _ => by rw [if_pos (by simp), if_pos (by simp)]

theorem bind (h : Both ang cs m a Q U V) {f : α → M β γ} {c : γ} {U' V' : Asg → Wave} (h' : Both ang cs (f a) c Q U' V') :
    Both ang cs (m >>= f) c Q (fun x => lift U' (U x)) (fun x => lift V' (V x)) where
  keeps := Moves.lift_keeps h.keeps h'.keeps
  keeps' := Moves.lift_keeps h.keeps' h'.keeps'
  does s L hs ho := by
    refine (Does.bind (h.does s L hs ho) fun s' hs' ho' => h'.does s' L (hs'.trans hs) ho').congrU fun x _ => ?_
    have hd := disj cs.flatten Q L (root s) ho
    by_cases hx : ∀ c ∈ cs.flatten, x c = true
    · rw [if_pos hx, if_pos hx]
      refine (h.keeps x).agree fun y hy => ?_
      rw [lift_ket, lift_ket, if_pos fun c hc => by rw [hy c (hd c hc)]; exact hx c hc]
    · rw [if_neg hx, if_neg hx]
      refine (h.keeps' x).agree fun y hy => ?_
      rw [lift_ket, lift_ket, if_neg fun hh => hx fun c hc => by rw [← hy c (hd c hc)]; exact hh c hc]

theorem pure (a : α) : Both ang cs (Pure.pure a : M β α) a Q ket ket := by
  have h := ((Maps.pure (ang := ang) (β := β) (cs := cs) (Q := Q) a).moves).both
  exact h.congr (fun x => rfl) fun x => rfl

theorem lift_id : lift ket = LinearMap.id := wave_ext fun y => by rw [lift_ket]; rfl

theorem map (h : Both ang cs m a Q U V) {f : α → γ} {c : γ} (hf : f a = c) : Both ang cs (m >>= fun a => Pure.pure (f a)) c Q U V :=
  (h.bind (f := fun a => Pure.pure (f a)) (by rw [hf]; exact Both.pure c)).congr (fun x => by rw [lift_id]; rfl) fun x => by rw [lift_id]; rfl

/-- one more condition -/
theorem conditioned {cr : Reg} (hc : cr ≠ []) {m : M (Conditioned β) α} (h : Both ang (cr :: cs) m a Q U V) :
    Both ang cs (Conditioned.conditioned cr m) (a, cr) (cr ++ Q) (fun x => if ∀ c ∈ cr, x c = true then U x else V x) V where
  keeps x := by
    split
    · exact (h.keeps x).mono fun y hy q hq => hy q fun hc => hq (List.mem_append_right _ hc)
    · exact (h.keeps' x).mono fun y hy q hq => hy q fun hc => hq (List.mem_append_right _ hc)
  keeps' x := (h.keeps' x).mono fun y hy q hq => hy q fun hc => hq (List.mem_append_right _ hc)
  does s L hs ho := by
    have hp : (cs.flatten ++ (cr ++ Q) ++ L).Perm ((cr :: cs).flatten ++ Q ++ L) := by
      rw [List.flatten_cons]
      simp only [← List.append_assoc]
      exact (List.perm_append_comm.append_right Q).append_right L
    have h1 := h.does ⟨s, some cr⟩ L (conditioned_ctl hs hc) (ho.perm hp)
    refine Does.congr (U := fun x => if ∀ c ∈ (cr :: cs).flatten, x c = true then U x else V x)
      (Does.conditioned hs hc h1) rfl hp.symm fun x _ => ?_
    have hiff : (∀ c ∈ (cr :: cs).flatten, x c = true) ↔ (∀ c ∈ cr, x c = true) ∧ ∀ c ∈ cs.flatten, x c = true := by
      rw [List.flatten_cons]
      constructor
      · intro h; exact ⟨fun c hc => h c (by simp [hc]), fun c hc => h c (List.mem_append_right _ hc)⟩
      · rintro ⟨h1, h2⟩ c hc
        rcases List.mem_append.mp hc with hc | hc
        · exact h1 c hc
        · exact h2 c hc
    by_cases h1 : ∀ c ∈ cr, x c = true
    · by_cases h2 : ∀ c ∈ cs.flatten, x c = true
      · rw [if_pos (hiff.mpr ⟨h1, h2⟩), if_pos h2, if_pos h1]
      · rw [if_neg fun h => h2 (hiff.mp h).2, if_neg h2]
    · rw [if_neg fun h => h1 (hiff.mp h).1]
      simp only [if_neg h1, ite_self]

/-! ## programs -/

variable {rs : List Reg}

theorem lines_nil : Both ang cs (([] : List (Line β)).foldlM runLine (full rs)) (full rs) rs.flatten ket ket := (Moves.lines_nil (β := β)).both

theorem lines_cons {l : Line β} {ls : List (Line β)} {Q : List ℕ} {U' V' : Asg → Wave} (hn : rs.flatten.Nodup) (hv : ValidGroups rs l.groups)
    (h : Both ang cs (l.call rs) (l.groups.map (groupReg rs)) Q U V) (hQ : Q = (l.groups.map (groupReg rs)).flatten)
    (h' : Both ang cs (ls.foldlM runLine (full rs)) (full rs) rs.flatten U' V') :
    Both ang cs ((l :: ls).foldlM runLine (full rs)) (full rs) rs.flatten (fun x => lift U' (U x)) (fun x => lift V' (V x)) := by
  rw [List.foldlM_cons]
  obtain ⟨g1, g2⟩ := groups_nodup rs hn _ hv
  have h2 := h.mono (Q' := rs.flatten) (by rw [hQ]; exact g1) (by rw [hQ]; exact g2)
  refine Both.bind (a := full rs) ⟨h2.keeps, h2.keeps', fun s L hs ho => ?_⟩ h'
  exact (h2.does s L hs ho).line hn hv

theorem program_nodup {lines : List (Line β)} (hr : ∀ r ∈ rs, r ≠ []) (hn : rs.flatten.Nodup)
    (h : Both ang cs (lines.foldlM runLine (full rs)) (full rs) rs.flatten U V) : Both ang cs (Verif.program rs lines) rs rs.flatten U V where
  keeps := h.keeps
  keeps' := h.keeps'
  does s L hs ho := Does.program hr hn (h.does s L hs ho)

/-- a `control` line -/
theorem control {f : List Reg → M (Conditioned β) (List Reg)} {g0 : List Sel} {gs : List (List Sel)} {c : Reg} {as : List Reg}
    (e0 : groupReg rs g0 = c) (e1 : gs.map (groupReg rs) = as) (hc : c ≠ [])
    (h : Both ang (c :: cs) (f as) as as.flatten U V) :
    Both ang cs (Line.call rs (.control none f (g0 :: gs) : Line β)) ((g0 :: gs).map (groupReg rs))
      ((g0 :: gs).map (groupReg rs)).flatten (fun x => if ∀ q ∈ c, x q = true then U x else V x) V := by
  have h1 := Both.map (f := fun p : List Reg × Reg => p.2 :: p.1) (Both.conditioned hc h) rfl
  refine Both.cast ?_ (a := c :: as) (m := Conditioned.conditioned c (f as) >>= fun a => Pure.pure (a.2 :: a.1)) ?_ (by simp [e0, e1])
  · rw [List.map_cons, e0, e1, List.flatten_cons]
    exact h1
  · unfold Line.call
    simp only [List.map_cons, e0, e1, pure_bind]

/-- a `control(bits)` line whose function leaves the flipped qubits alone -/
theorem control_masked {f : List Reg → M (Conditioned β) (List Reg)} {g0 : List Sel} {gs : List (List Sel)} {c : Reg} {as : List Reg}
    (m : ℕ) (e0 : groupReg rs g0 = c) (e1 : gs.map (groupReg rs) = as) (hc : c ≠ []) (hcn : c.Nodup)
    (hU : ∀ x, lift (fun y => ket (negMask c m y)) (U (negMask c m x)) = U x)
    (hV : ∀ x, lift (fun y => ket (negMask c m y)) (V (negMask c m x)) = V x)
    (h : Both ang (c :: cs) (f as) as as.flatten U V) :
    Both ang cs (Line.call rs (.control (some m) f (g0 :: gs) : Line β)) ((g0 :: gs).map (groupReg rs))
      ((g0 :: gs).map (groupReg rs)).flatten (fun x => if valQ c x = m % 2 ^ c.length then U x else V x) V := by
  have e : (g0 :: gs).map (groupReg rs) = c :: as := by simp [e0, e1]
  rw [e, List.flatten_cons]
  have hneg : Both ang cs (Verif.negateBitmask c m : M β _) c (c ++ as.flatten) (fun x => ket (negMask c m x)) ket :=
    ((Maps.negateBitmask cs c hc m).mono hcn (by intro p hp; simp [hp])).moves.both
  have h2 : Both ang cs (Verif.negateBitmask c m >>= fun c => Pure.pure (c :: as) : M β _) (c :: as) (c ++ as.flatten) (fun x => ket (negMask c m x)) ket :=
    hneg.map (f := fun c => c :: as) rfl
  have h3 := hneg.bind (f := fun c => do
    let (rs, cr) ← Conditioned.conditioned c (f as)
    let cr ← Verif.negateBitmask cr m
    Pure.pure (cr :: rs)) ((Both.conditioned hc h).bind (f := fun p : List Reg × Reg => do
      let cr ← Verif.negateBitmask p.2 m
      Pure.pure (cr :: p.1)) h2)
  refine (h3.cast ?_ rfl).congr (fun x => ?_) fun x => ?_
  · unfold Line.call
    simp only [List.map_cons, e0, e1]
  · rw [lift_ket]
    by_cases hx : valQ c x = m % 2 ^ c.length
    · rw [if_pos hx, if_pos ((negMask_all c hcn m x).mpr hx)]
      exact hU x
    · rw [if_neg hx, if_neg fun h => hx ((negMask_all c hcn m x).mp h)]
      exact hV x
  · rw [lift_ket, lift_id]
    rfl

/-- a line of either kind -/
theorem control_holds {f : List Reg → M (Conditioned β) (List Reg)} {g0 : List Sel} {gs : List (List Sel)} {c : Reg} {as : List Reg}
    (m : Option ℕ) (e0 : groupReg rs g0 = c) (e1 : gs.map (groupReg rs) = as) (hc : c ≠ []) (hcn : c.Nodup)
    (hU : ∀ m x, lift (fun y => ket (negMask c m y)) (U (negMask c m x)) = U x)
    (hV : ∀ m x, lift (fun y => ket (negMask c m y)) (V (negMask c m x)) = V x)
    (h : Both ang (c :: cs) (f as) as as.flatten U V) :
    Both ang cs (Line.call rs (.control m f (g0 :: gs) : Line β)) ((g0 :: gs).map (groupReg rs))
      ((g0 :: gs).map (groupReg rs)).flatten (fun x => if Holds m c x then U x else V x) V := by
  cases m with
  | none => exact (Both.control e0 e1 hc h).congr (fun x => by unfold Holds; congr) fun _ => rfl
  | some m => exact (Both.control_masked m e0 e1 hc hcn (hU m) (hV m) h).congr (fun x => by unfold Holds; congr) fun _ => rfl

/-! ## actions given by linear maps -/

/-- maps one after the other -/
noncomputable def compL : List (Wave →ₗ[ℂ] Wave) → Wave →ₗ[ℂ] Wave
  | [] => LinearMap.id
  | A :: l => compL l ∘ₗ A

theorem bindL {A B A' B' : Wave →ₗ[ℂ] Wave} (h : Both ang cs m a Q (fun x => A (ket x)) fun x => B (ket x)) {f : α → M β γ} {c : γ}
    (h' : Both ang cs (f a) c Q (fun x => A' (ket x)) fun x => B' (ket x)) :
    Both ang cs (m >>= f) c Q (fun x => (A' ∘ₗ A) (ket x)) fun x => (B' ∘ₗ B) (ket x) := by
  have e : ∀ A : Wave →ₗ[ℂ] Wave, lift (fun x => A (ket x)) = A := fun A => wave_ext fun y => by rw [lift_ket]
  exact (h.bind h').congr (fun x => by rw [e]; rfl) fun x => by rw [e]; rfl

theorem foldlM {σ : Type} {f : σ → γ → M β σ} {st : σ} {W W' : γ → Wave →ₗ[ℂ] Wave} (l : List γ)
    (h : ∀ a ∈ l, Both ang cs (f st a) st Q (fun x => W a (ket x)) fun x => W' a (ket x)) :
    Both ang cs (l.foldlM f st) st Q (fun x => compL (l.map W) (ket x)) fun x => compL (l.map W') (ket x) := by
  induction l with
  | nil => exact Both.pure st
  | cons a l ih =>
    rw [List.foldlM_cons]
    exact (h a (by simp)).bindL (ih fun b hb => h b (by simp [hb]))

end Both

/-! ## rotations -/

theorem Does.onParent {α : Type} {g : M β α} {s : Conditioned β} {a : α} {L : List ℕ} {U : Asg → Wave} (h : Does ang g s.parent a L U) :
    Does ang (Conditioned.onParent g) s a L U := by
  obtain ⟨s', h1, h2, h3, h4⟩ := h
  refine ⟨⟨s', s.cr⟩, ?_, ?_, h3, h4⟩
  · unfold Conditioned.onParent
    rw [h1]
  · show (match s.cr, ctl s' with
      | some (c :: cr), some cs => some ((c :: cr) :: cs)
      | _, _ => none) = (match s.cr, ctl s.parent with
      | some (c :: cr), some cs => some ((c :: cr) :: cs)
      | _, _ => none)
    rw [h2]

end Verif
