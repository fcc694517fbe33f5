import Verif.Proofs.Kinds

/-! # The kinds of elements of the arithmetic circuits -/

namespace Verif
open Classical Complex RegOps CircuitBuilder TempBuilder Rooted

theorem buildSub_adds {P : Pipeline → Prop} [Closed P] {f : List Reg → M LocalBuilder (List Reg)} (hf : ∀ rs, Adds P (f rs)) {sizes : List ℕ} {sc : Pipeline}
    (h : buildSub sizes f = .ok sc) : P sc := by
  unfold buildSub at h
  have ha : Adds P (do
      let rs ← sizes.mapM LocalBuilder.register
      f rs : M LocalBuilder (List Reg)) := by adds [Adds.local_register, hf]
  split at h
  · next h1 =>
    obtain ⟨seg, k1, k2⟩ := ha.out _ _ _ h1
    injection h with h
    rw [← h]
    rw [show (root LocalBuilder.default).pipeline = [] from rfl, List.nil_append] at k1
    rw [← k1] at k2
    exact k2
  · cases h

theorem invertSub_plain {sc inv : Pipeline} (h : AllPlain sc) (hi : invertSub sc = .ok inv) : AllPlain inv := by
  induction sc generalizing inv with
  | nil =>
    obtain rfl : [] = inv := by injection hi
    exact Closed.nil
  | cons e sc ih =>
    rw [invertSub_cons] at hi
    cases hp : invertSub sc with
    | error x => rw [hp] at hi; cases hi
    | ok p =>
      have h1 := ih (fun e he => h e (by simp [he])) hp
      have he := h e (by simp)
      rw [hp] at hi
      unfold Plain at he
      have key : ∀ us : List UObj, (∀ u ∈ us, Plain ⟨e.2.n, .unitary u⟩) → invertObject e.2 = .ok (us.map fun u => ⟨e.2.n, .unitary u⟩) → AllPlain inv := by
        intro us hu hb
        rw [hb] at hi
        injection hi with hi
        rw [← hi]
        refine Closed.app _ _ h1 fun c hc => ?_
        simp only [List.mem_map] at hc
        obtain ⟨co, ⟨u, h2, rfl⟩, rfl⟩ := hc
        exact hu u h2
      split at he
      · next ho => exact key [.X] (by simp [Plain]) (by unfold invertObject; rw [ho]; rfl)
      · next ho => exact key [.Y] (by simp [Plain]) (by unfold invertObject; rw [ho]; rfl)
      · next ho => exact key [.Z] (by simp [Plain]) (by unfold invertObject; rw [ho]; rfl)
      · next ho => exact key [.H] (by simp [Plain]) (by unfold invertObject; rw [ho]; rfl)
      · next ho => exact key [.Z, .S] (by simp [Plain]) (by unfold invertObject; rw [ho]; rfl)
      · next ho => exact key [.Z, .S, .T] (by simp [Plain]) (by unfold invertObject; rw [ho]; rfl)
      · next ho => exact key [.CNOT] (by simp [Plain]) (by unfold invertObject; rw [ho]; rfl)
      · exact he.elim

theorem inv_plain {f : List Reg → M LocalBuilder (List Reg)} (hf : ∀ rs, Adds AllPlain (f rs)) (sizes : List ℕ) (sc inv : Pipeline)
    (h : buildSub sizes f = .ok sc) (hi : invertSub sc = .ok inv) : ∀ e ∈ inv, Plain e.2 := invertSub_plain (buildSub_adds hf h) hi

section
variable {β : Type} [Recursive β] [Rooted β] [Sim β] {P : Pipeline → Prop} [Closed P] {O O' : CObj → Prop} [hT : Tracks β P O O']
include hT

theorem Adds.sum (hO : O ⟨1, .unitary .X⟩) (hO' : O' ⟨1, .unitary .X⟩) (rs : List Reg) : Adds P (Arith.sum rs : M β _) := by
  unfold Arith.sum
  split
  · refine Adds.program hO _ _ fun l hl => ?_
    simp only [List.mem_cons, List.not_mem_nil, or_false] at hl
    rcases hl with rfl | rfl <;> exact Adds.op1 (Adds.x hO')
  · exact Adds.throw _

theorem Adds.carry (hO : O ⟨1, .unitary .X⟩) (hO' : O' ⟨1, .unitary .X⟩) (rs : List Reg) : Adds P (Arith.carry rs : M β _) := by
  unfold Arith.carry
  split
  · refine Adds.program hO _ _ fun l hl => ?_
    simp only [List.mem_cons, List.not_mem_nil, or_false] at hl
    rcases hl with rfl | rfl | rfl | rfl <;> exact Adds.op1 (Adds.x hO')
  · exact Adds.throw _

theorem Adds.rshift (hO : O ⟨2, .unitary .CNOT⟩) (rs : List Reg) : Adds P (Arith.rshift rs : M β _) := by
  have h : ∀ n sl i, Adds P (Arith.rshiftStep n sl i : M β _) := by
    intro n sl i
    unfold Arith.rshiftStep
    adds [Adds.swap hO]
  unfold Arith.rshift
  adds [Adds.splitAll, Adds.mergeRegisters, h]

theorem Adds.copy (hO : O ⟨2, .unitary .CNOT⟩) (rs : List Reg) : Adds P (Arith.copy rs : M β _) := by
  unfold Arith.copy
  adds [Adds.splitAll, Adds.mergeRegisters, Adds.cnot hO]

end

theorem plain_carry (rs : List Reg) : Adds AllPlain (Arith.carry rs : M LocalBuilder _) := Adds.carry trivial ⟨trivial, by simp⟩ rs
theorem plain_rshift (rs : List Reg) : Adds AllPlain (Arith.rshift rs : M LocalBuilder _) := Adds.rshift trivial rs
theorem plain_copy (rs : List Reg) : Adds AllPlain (Arith.copy rs : M LocalBuilder _) := Adds.copy trivial rs

section
variable {β : Type} [Recursive β] [Rooted β] [Sim β] {P : Pipeline → Prop} [Closed P] {O' : CObj → Prop} [hT : Tracks β P Plain O']
include hT

theorem Adds.carryInv (rs : List Reg) : Adds P (Arith.carryInv rs : M β _) := Adds.invertFn (inv_plain plain_carry) rs
theorem Adds.lshift (rs : List Reg) : Adds P (Arith.lshift rs : M β _) := Adds.invertFn (inv_plain plain_rshift) rs
theorem Adds.copyInv (rs : List Reg) : Adds P (Arith.copyInv rs : M β _) := Adds.invertFn (inv_plain plain_copy) rs

theorem Adds.add (hO' : O' ⟨1, .unitary .X⟩) (rs : List Reg) : Adds P (Arith.add rs : M β _) := by
  unfold Arith.add
  generalize (rs.headD []).length + 1 = k
  induction k generalizing rs with
  | zero => exact Adds.throw _
  | succ k ih =>
    unfold Arith.addF
    have hx : Plain ⟨1, .unitary .X⟩ := trivial
    split
    · next h0 =>
      injection h0
    · next h0 =>
      injection h0 with h0
      subst h0
      split
      · refine Adds.program hx _ _ fun l hl => ?_
        simp only [List.mem_cons, List.not_mem_nil, or_false] at hl
        rcases hl with rfl | rfl
        · exact Adds.carry hx hO'
        · exact Adds.sum hx hO'
      · split
        · refine Adds.program hx _ _ fun l hl => ?_
          simp only [List.mem_cons, List.not_mem_nil, or_false] at hl
          rcases hl with rfl | rfl | rfl | rfl
          · exact Adds.carry hx hO'
          · exact ih
          · exact Adds.carryInv
          · exact Adds.sum hx hO'
        · exact Adds.throw _
    · exact Adds.throw _

end

theorem plain_add (rs : List Reg) : Adds AllPlain (Arith.add rs : M LocalBuilder _) := Adds.add ⟨trivial, by simp⟩ rs

section
variable {β : Type} [Recursive β] [Rooted β] [Sim β] {P : Pipeline → Prop} [Closed P] [hT : Tracks β P Plain Plain]
include hT

theorem Adds.addInv (rs : List Reg) : Adds P (Arith.addInv rs : M β _) := Adds.invertFn (inv_plain plain_add) rs

theorem Adds.addMod (rs : List Reg) : Adds P (Arith.addMod rs : M β _) := by
  have hx : Plain ⟨1, .unitary .X⟩ := trivial
  have h1 : ∀ n rs, Adds P (Verif.program rs
        [.plain Arith.add [[(4, none)], [(0, none)], [(1, none)]],
         .plain Arith.addInv [[(4, none)], [(2, none)], [(1, none)]],
         .control none (Verif.op1 Gate.x) [[(1, some [n])], [(3, none)]],
         .control none Arith.add [[(3, none)], [(4, none)], [(2, none)], [(1, none)]],
         .plain Arith.addInv [[(4, none)], [(0, none)], [(1, none)]],
         .control (some 0) (Verif.op1 Gate.x) [[(1, some [n])], [(3, none)]],
         .plain Arith.add [[(4, none)], [(0, none)], [(1, none)]]] : M β _) := by
    intro n rs
    refine Adds.program hx _ _ fun l hl => ?_
    simp only [List.mem_cons, List.not_mem_nil, or_false] at hl
    rcases hl with rfl | rfl | rfl | rfl | rfl | rfl | rfl
    · exact Adds.add hx
    · exact Adds.addInv
    · exact Adds.op1 (Adds.x hx)
    · exact Adds.add hx
    · exact Adds.addInv
    · exact Adds.op1 (Adds.x hx)
    · exact Adds.add hx
  unfold Arith.addMod
  adds [Adds.makeTempRegister, TracksT.makeTemp, TracksT.returnTemp, h1]

theorem Adds.timesMod (rs : List Reg) : Adds P (Arith.timesMod rs : M β _) := by
  have hx : Plain ⟨1, .unitary .X⟩ := trivial
  have h1 : ∀ n i rs, Adds P (Verif.program rs
        [.plain Arith.addInv [[(5, none)], [(2, none)], [(0, none)]],
         .control none (Verif.op1 Gate.x) [[(0, some [n])], [(4, some [i])]],
         .control none Arith.add [[(4, some [i])], [(5, none)], [(2, none)], [(0, none)]],
         .control none Arith.addMod [[(1, some [i])], [(0, some (List.range n))], [(3, none)], [(2, none)]],
         .plain Arith.rshift [[(0, none)]]] : M β _) := by
    intro n i rs
    refine Adds.program hx _ _ fun l hl => ?_
    simp only [List.mem_cons, List.not_mem_nil, or_false] at hl
    rcases hl with rfl | rfl | rfl | rfl | rfl
    · exact Adds.addInv
    · exact Adds.op1 (Adds.x hx)
    · exact Adds.add hx
    · exact Adds.addMod
    · exact Adds.rshift trivial
  have h2 : ∀ n i rs, Adds P (Verif.program rs
            [.plain Arith.lshift [[(0, none)]],
             .control none Arith.addInv [[(2, some [i])], [(3, none)], [(1, none)], [(0, none)]],
             .control none (Verif.op1 Gate.x) [[(0, some [n])], [(2, some [i])]],
             .plain Arith.add [[(3, none)], [(1, none)], [(0, none)]]] : M β _) := by
    intro n i rs
    refine Adds.program hx _ _ fun l hl => ?_
    simp only [List.mem_cons, List.not_mem_nil, or_false] at hl
    rcases hl with rfl | rfl | rfl | rfl
    · exact Adds.lshift
    · exact Adds.addInv
    · exact Adds.op1 (Adds.x hx)
    · exact Adds.add hx
  unfold Arith.timesMod
  adds [Adds.makeTempRegister, TracksT.makeTemp, TracksT.returnTemp, h1, h2]

theorem Adds.squareMod (rs : List Reg) : Adds P (Arith.squareMod rs : M β _) := by
  have hx : Plain ⟨1, .unitary .X⟩ := trivial
  have h1 : ∀ n rs, Adds P (Verif.program rs
        [.plain Arith.copy [[(0, some (List.range n))], [(3, none)]],
         .plain Arith.timesMod [[(0, none)], [(3, none)], [(1, none)], [(2, none)]],
         .plain Arith.copyInv [[(0, some (List.range n))], [(3, none)]]] : M β _) := by
    intro n rs
    refine Adds.program hx _ _ fun l hl => ?_
    simp only [List.mem_cons, List.not_mem_nil, or_false] at hl
    rcases hl with rfl | rfl | rfl
    · exact Adds.copy trivial
    · exact Adds.timesMod
    · exact Adds.copyInv
  unfold Arith.squareMod
  adds [Adds.makeTempRegister, TracksT.makeTemp, TracksT.returnTemp, h1]

end

end Verif
