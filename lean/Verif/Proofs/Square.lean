import Verif.Proofs.Times

/-! # `square_mod` for a modulus of one qubit -/

namespace Verif
open Classical Complex RegOps CircuitBuilder TempBuilder Rooted

/-- a circuit of unitary elements can be undone -/
theorem run_inj {n : ℕ} {seg : Pipeline} (h : ∀ e ∈ seg, SegU n e) {ψ φ : Wave} (e : runW rotAngle seg ψ = runW rotAngle seg φ) : ψ = φ := by
  obtain ⟨p, -, -, -, -, -, p6⟩ := invertSub_ok rotAngle_neg' n seg fun e he =>
    ⟨(h e he).1.1, (h e he).1.2.1, (h e he).1.2.2.choose, (h e he).1.2.2.choose_spec.1⟩
  have p6' := p6 fun e he => (h e he).2
  rw [← (p6' ψ).1, e, (p6' φ).1]

/-- for a modulus of one qubit and `a = 0`, `square_mod` does not leave the state as it is; every qubit of the builder is held or in the pool -/
theorem squareMod_wrong {s : LocalBuilder} {ra rq : Reg} {m : ℕ} {L : List ℕ} (ha : ra.length = 2) (hq : rq.length = 2)
    (ho : Own s ([ra, [m], rq].flatten ++ L)) (hall : ∀ q < s.n, q ∈ [ra, [m], rq].flatten ++ L ∨ q ∈ s.zeroedQubits.flatten)
    (x : Asg) (hx : Clean s x) (h0 : ∀ q ∈ ra, x q = false) (h1 : x m = true) :
    ¬ Sends rotAngle (Arith.squareMod [ra, [m], rq]) s [ra, [m], rq] x x := by
  rintro ⟨s', seg, r1, r2, r3⟩
  obtain ⟨a0, a1, rfl⟩ := List.length_eq_two.mp ha
  obtain ⟨p0, p1, rfl⟩ := List.length_eq_two.mp hq
  have hout : ∀ q, q ∉ [[a0, a1], [m], [p0, p1]].flatten ++ L → x q = false := by
    intro q hqL
    refine hx q ?_
    by_cases hqn : q < s.n
    · exact .inl ((hall q hqn).resolve_left hqL)
    · exact .inr (by omega)
  have hclean : ∀ (b : LocalBuilder) (T : List ℕ), Own b (T ++ ([[a0, a1], [m], [p0, p1]].flatten ++ L)) → Clean b x := by
    intro b T hb q hq
    refine hout q fun hqL => ?_
    have hqL' : q ∈ T ++ ([[a0, a1], [m], [p0, p1]].flatten ++ L) := List.mem_append_right _ hqL
    rcases hq with hq | hq
    · exact hb.not_pool hqL' hq
    · have := hb.mem_lt hqL'; omega
  obtain ⟨rt, s1, b1, b2, -, b3, b4, -, -, -, b7⟩ := makeTempRegister_sim (β := LocalBuilder) (n := 1) (by omega) ho
  obtain ⟨t, rfl⟩ := List.length_eq_one_iff.mp b2
  have ht0 : x t = false := (b7 x hx).2 t (by simp)
  have b3' : Own s1 ([t] ++ ([[a0, a1], [m], [p0, p1]].flatten ++ L)) := b3
  -- the three lines
  have p1' : ([t] ++ ([[a0, a1], [m], [p0, p1]].flatten ++ L)).Perm ([] ++ ([a0] ++ [t]) ++ ([a1, m, p0, p1] ++ L)) := by
    rw [List.perm_iff_count]; intro q
    simp only [List.flatten_cons, List.flatten_nil, List.nil_append, List.append_nil, List.count_append, List.count_cons, List.count_nil]; omega
  have p2' : ([] ++ ([a0] ++ [t]) ++ ([a1, m, p0, p1] ++ L)).Perm ([[a0, a1], [t], [m], [p0, p1]].flatten ++ L) := by
    rw [List.perm_iff_count]; intro q
    simp only [List.flatten_cons, List.flatten_nil, List.nil_append, List.append_nil, List.count_append, List.count_cons, List.count_nil]; omega
  have hn1 : ([a0] ++ [t]).Nodup := by
    have := (List.nodup_append.mp (b3'.perm p1').left).1
    rwa [List.nil_append] at this
  have hcp : copyMap [a0] [t] x = x := by
    simp [copyMap, h0 a0 (by simp), ht0]
  obtain ⟨s2, c1, -, c2, -, -, seg1, c3, -, -, c5⟩ := (Maps.copy (ang := rotAngle) (β := LocalBuilder) [] [a0] [t] (by simp) rfl).moves.sure s1 _ rfl (b3'.perm p1')
  have o2 : Own s2 ([[a0, a1], [t], [m], [p0, p1]].flatten ++ L) := c2.perm p2'
  obtain ⟨s3, seg2, u, c0, ct, d1, d2, d3, d4, d5, d6⟩ := timesMod_run (by simp) (by simp) (by simp) o2
  have p3' := (p2'.symm.trans p1'.symm)
  obtain ⟨s4, e1, -, e2, -, -, seg3, e3, e4, -, e5⟩ := (Maps.copyInv rotAngle_neg' [a0] [t] (by simp) rfl).moves.sure s3 _ rfl (d5.perm p2'.symm)
  have e2' : Own s4 ([t] ++ ([[a0, a1], [m], [p0, p1]].flatten ++ L)) := e2.perm p1'.symm
  obtain ⟨s5, f1, f2, f3, -⟩ := returnTempR_local [t] (by simp) e2'
  have hn : [[a0, a1], [m], [p0, p1], [t]].flatten.Nodup := by
    refine ((List.nodup_append.mp o2.left).1).perm ?_
    rw [List.perm_iff_count]; intro q
    simp only [List.flatten_cons, List.flatten_nil, List.append_nil, List.count_append, List.count_cons, List.count_nil]; omega
  have hprog : Verif.program [[a0, a1], [m], [p0, p1], [t]]
        [.plain Arith.copy [[(0, some (List.range 1))], [(3, none)]],
         .plain Arith.timesMod [[(0, none)], [(3, none)], [(1, none)], [(2, none)]],
         .plain Arith.copyInv [[(0, some (List.range 1))], [(3, none)]]] s1 = .ok [[a0, a1], [m], [p0, p1], [t]] s4 := by
    refine program_run (by simp) hn _ ?_ ⟨s2, ?_, s3, ?_, s4, ?_, rfl⟩
    · intro l hl
      simp only [List.mem_cons, List.not_mem_nil, or_false] at hl
      rcases hl with rfl | rfl | rfl
      · exact valid_sels _ [(0, some (List.range 1)), (3, none)] (by simp) (by simp [SelOK])
      · exact valid_sels _ [(0, none), (3, none), (1, none), (2, none)] (by simp) (by simp [SelOK])
      · exact valid_sels _ [(0, some (List.range 1)), (3, none)] (by simp) (by simp [SelOK])
    · exact c1
    · exact d1
    · exact e1
  have hrun : Arith.squareMod [[a0, a1], [m], [p0, p1]] s = .ok [[a0, a1], [m], [p0, p1]] s5 := by
    rw [Arith.squareMod, if_neg (by simp), if_neg (by simp), List.length_singleton, bind_ok b1, bind_ok hprog]
    have f1' : (returnTemp [t] : M LocalBuilder Unit) s4 = .ok () s5 := f1
    show (do
        returnTemp [t]
        pure [[a0, a1], [m], [p0, p1]] : M LocalBuilder _) s4 = _
    rw [bind_ok f1']
    rfl
  obtain rfl : s5 = s' := by
    have := hrun.symm.trans r1
    injection this
  have b4' : s1.pipeline = s.pipeline := b4
  have c3' : s2.pipeline = s1.pipeline ++ seg1 := c3
  have e3' : s4.pipeline = s3.pipeline ++ seg3 := e3
  obtain rfl : seg1 ++ (seg2 ++ seg3) = seg := by
    refine List.append_cancel_left (as := s.pipeline) ?_
    rw [← r2, f3, e3', d2, c3', b4', List.append_assoc, List.append_assoc]
  rw [runW_append, runW_append] at r3
  have k1 := (c5 x trivial (hclean s1 _ b3')).1
  simp only [List.flatten_nil, List.not_mem_nil, false_implies, implies_true, if_true, hcp] at k1
  have o3 : Own s3 ([t] ++ ([[a0, a1], [m], [p0, p1]].flatten ++ L)) := d5.perm p3'
  have k3 := (e5 x trivial (hclean s3 _ o3)).1
  simp only [List.flatten_nil, List.not_mem_nil, false_implies, implies_true, if_true, hcp] at k3
  rw [k1] at r3
  have k2 : runW rotAngle seg2 (ket x) = ket x := run_inj e4 (r3.trans k3.symm)
  obtain ⟨g1, g2⟩ := d6 x (hclean s2 [t] (o2.perm p3')) ht0
  refine times_wrong (n := 1) rfl rfl d3 (d4.sublist ?_) x g1 ?_ (g2.symm.trans k2)
  · simp only [List.flatten_cons, List.flatten_nil, List.append_nil]
    refine (List.Sublist.refl _).append ?_
    refine List.Sublist.trans ?_ (List.sublist_append_right [t] _)
    exact (List.Sublist.refl _).append (List.sublist_append_right [p0, p1] _)
  · simp [valQ, h0 a0, h0 a1, h1]

end Verif
