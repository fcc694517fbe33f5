import Verif.Props.Simon
import Verif.Props.FloatMain

/-!
# Property C128 in floating point arithmetic

The frequencies of the outcomes of Simon's program, by C123.
-/

namespace Verif.Props
open Verif MatrixOp Format.Arith Finset

variable {f : Format} {fl : ℝ → ℝ}

/-- C128 in floating point arithmetic, with any oracle: the shares of the runs are the probabilities of C128 up to the bound of C123. -/
theorem C128_frequency (A : f.Arith fl) (hf : 10 ≤ f.p) (he : f.emin + 2 * f.p + 4 ≤ 0) (L : StdLib f) (hL : L.Accurate f.eps) {n m : ℕ} (hn : 0 < n) (hm0 : 0 < m)
    {g : ℕ → ℕ} (hg : ∀ u < 2 ^ n, g u < 2 ^ m) {o : Prog} (ho : ComputesWide n m g o)
    {out : List Reg × List ℕ} {s : LocalBuilder} (h : mainProg [n, m] (simonActs o) LocalBuilder.default = .ok out s)
    (hN : 2 ^ s.n * f.eps ≤ 1 / 64) (c : List (List ℕ × ObjTypeP f)) (hm : List.Forall₂ Meant c s.pipeline) (hw : ∀ e ∈ c, e.2.Within 1)
    (hE : (circuitCost s.pipeline : ℝ) * f.eps ≤ 1) :
    ∃ els : List (ElemP A.Num), c.mapM (elemP A L) = .ok (els.map elemOf) ∧
      Frequencies A s.n els 0 n (simonProb n m g) (freqBound f s.n (circuitCost s.pipeline)) := by
  have hb := blocks_simon n m
  obtain ⟨els, x, h1, h2, h3, h4⟩ := C123_frequency A hf he L hL (sizes := [n, m]) (by simp [hn, hm0]) [simonProg o]
    (by rw [hb]; intro p hp; rw [List.mem_singleton] at hp; subst hp; exact simon_takes hn hm0 ho) 0 (by simp [hb]) h [] (by simp) hN c hm hw hE
  obtain rfl : 0 = x := Option.some.inj h2
  refine ⟨els, h1, h3, fun N hN0 τ d hd run hrun v hv => ?_⟩
  have key := h4 N hN0 τ d hd run hrun v (by simpa [hb] using hv)
  rw [initAsg_nil] at key
  simp only [hb] at key
  have e := simonActs_norm hg ho v hv
  rw [show normW (actsW [List.range n, List.range' n m] ([simonProg o].map Act.run ++ [Act.measure 0]) [v] (ket fun _ => false)) = simonProb n m g v from e] at key
  exact key

open Classical in
/-- C128, Simon in `f64`: with the draws of `rand`, at most 10 qubits and 1000 gates, every number that has an even number of ones in common with `a` is reported in
`2 / 2^n` of the runs, up to `2^-24`, and any other number in at most `2^-24` of them. -/
theorem C128_simon_f64 (A : binary64.Arith fl) (L : StdLib binary64) (hL : L.Accurate binary64.eps) {n m : ℕ} (hn : 0 < n) (hm0 : 0 < m)
    {g : ℕ → ℕ} (hg : ∀ u < 2 ^ n, g u < 2 ^ m) {a : ℕ} (ha : a < 2 ^ n) (ha0 : a ≠ 0) (hp : ∀ u < 2 ^ n, ∀ t < 2 ^ n, g t = g u ↔ t = u ∨ t = u ^^^ a)
    {o : Prog} (ho : ComputesWide n m g o) {out : List Reg × List ℕ} {s : LocalBuilder}
    (h : mainProg [n, m] (simonActs o) LocalBuilder.default = .ok out s) (hn10 : s.n ≤ 10) (hc : circuitCost s.pipeline ≤ 64000)
    (c : List (List ℕ × ObjTypeP binary64)) (hm : List.Forall₂ Meant c s.pipeline) (hw : ∀ e ∈ c, e.2.Within 1)
    (d : ℕ → binary64.Fin) (hd : ∀ j, j < 2 ^ 53 → (d j).1 = (j : ℝ) / 2 ^ 53) :
    ∃ els : List (ElemP A.Num), c.mapM (elemP A L) = .ok (els.map elemOf) ∧
      (∀ r : binary64.Fin, ∃ t, RunsP A.prec (fun c : A.Num => c) (fun c => c) s.n (fun _ => some r) els
        ⟨(List.replicate (2 ^ s.n) 0).set 0 1, List.replicate (2 ^ s.n) 0, []⟩ t) ∧
      ∀ (run : ℕ → StateP A.Num binary64.Part)
        (_ : ∀ j, j < 2 ^ 53 → RunsP A.prec (fun c : A.Num => c) (fun c => c) s.n (fun _ => some (d j)) els
          ⟨(List.replicate (2 ^ s.n) 0).set 0 1, List.replicate (2 ^ s.n) 0, []⟩ (run j)) (v : ℕ) (_ : v < 2 ^ n),
        |(((range (2 ^ 53)).filter fun j => ∃ p, (run j).measurements = [(v, p)]).card : ℝ) / 2 ^ 53 - if dot n a v % 2 = 0 then 2 / 2 ^ n else 0| ≤ 1 / 2 ^ 24 := by
  obtain ⟨b1, b2, b3⟩ := C123_bound s.n (circuitCost s.pipeline) hn10 hc
  obtain ⟨els, k1, k2, k3⟩ := C128_frequency A (C88_formats 2).2.2.1.1 (C88_formats 2).2.2.1.2 L hL hn hm0 hg ho h b1 c hm hw b2
  refine ⟨els, k1, k2, fun run hrun v hv => ?_⟩
  have key := (k3 (2 ^ 53) (by norm_num) 0 d (fun j hj => by rw [hd j hj, Nat.cast_pow, Nat.cast_ofNat, sub_self, abs_zero]) run hrun v hv).trans b3
  rw [simonProb_period hg ha ha0 hp, Nat.cast_pow, Nat.cast_ofNat] at key
  exact key

open Classical in
/-- two qubits in, one out, `a = 3`: 0, 3 ↦ 0, 1, 2 ↦ 1. Circuits, draws and runs as in the theorem exist; the outcome 3 comes in half of the runs, the outcome 1 almost never. -/
example (A : binary64.Arith fl) : ∃ (n : ℕ) (els : List (ElemP A.Num)) (d : ℕ → binary64.Fin) (run : ℕ → StateP A.Num binary64.Part),
    (∀ j, RunsP A.prec (fun c : A.Num => c) (fun c => c) n (fun _ => some (d j)) els
      ⟨(List.replicate (2 ^ n) 0).set 0 1, List.replicate (2 ^ n) 0, []⟩ (run j)) ∧
      |(((range (2 ^ 53)).filter fun j => ∃ p, (run j).measurements = [(3, p)]).card : ℝ) / 2 ^ 53 - 1 / 2| ≤ 1 / 2 ^ 24 ∧
      (((range (2 ^ 53)).filter fun j => ∃ p, (run j).measurements = [(1, p)]).card : ℝ) / 2 ^ 53 ≤ 1 / 2 ^ 24 := by
  have ho := C128_oracles (n := 2) (m := 1) (by norm_num) (by norm_num) fun u => [0, 1, 1, 0].getD u 0
  obtain ⟨s, c, h1, h2, h3, h4, h5⟩ := smallRun_ok (sizes := [2, 1]) (by simp) (simonActs_takes (by norm_num) (by norm_num) ho) (by krfl) A
  obtain ⟨d, hd⟩ := draws_fit
  obtain ⟨els, -, k2, k3⟩ := C128_simon_f64 A (stdRounded A) (C122_accurate A) (by norm_num) (by norm_num) (by decide) (a := 3) (by norm_num) (by norm_num) (by decide) ho
    h1 h2 h3 c h4 h5 d hd
  choose run hrun using fun j => k2 (d j)
  refine ⟨s.n, els, d, run, hrun, ?_, ?_⟩
  · have := k3 run (fun j _ => hrun j) 3 (by norm_num)
    rw [if_pos (by decide), show (2 : ℝ) / 2 ^ 2 = 1 / 2 by norm_num] at this
    exact this
  · have := k3 run (fun j _ => hrun j) 1 (by norm_num)
    rw [if_neg (by decide), sub_zero] at this
    exact (le_abs_self _).trans this

end Verif.Props
