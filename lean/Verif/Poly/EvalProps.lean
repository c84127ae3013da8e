/- C36: evaluation of orthogonal polynomial expansions. -/
import Verif.Poly.EvalLemmas
import Mathlib.Analysis.Real.Sqrt
import Mathlib.Tactic.NormNum

set_option linter.unusedSectionVars false

namespace C3.Poly
open Finset
open C3.Lin (dv dv_ok)
variable {K : Type} [Field K] [LinearOrder K] [IsStrictOrderedRing K]

/-- C36: evaluation returns the sum of the series at the mapped point (for Chebyshev by the backward recurrence). -/
theorem eval_value (sq : K → K) {f : Ope K} (h : f.WF) (hk : f.krist = false) (x : K) : eval sq f x = .ok (f.val x) := by
  have gen : (evalSum f (f.map.map x) >>= fun s => kristScale sq f s.out s.den) = .ok (f.val x) := by
    obtain ⟨s, hs, ho, _⟩ := evalSum_ok h (f.map.map x)
    rw [hs, bind_ok, kristScale, hk, ho]; rfl
  rw [eval]
  cases hp : f.fam.pt with
  | cheb => exact clenshaw_ok h hp hk x
  | leg => exact gen
  | herm => exact gen

/-- C36: with Kristoffel weighting the value is divided by the square root of the mean square of the basis functions. -/
theorem eval_krist {f : Ope ℝ} (h : f.WF) (hc : f.fam.pt ≠ .cheb) (h0 : f.fam.c0 ≠ 0) (hk : f.krist = true) (x : ℝ) :
    eval Real.sqrt f x = .ok (f.val x / Real.sqrt (f.meanSq x)) := by
  have hn : (0 : ℝ) < f.num := by exact_mod_cast h.pos
  have gen : (evalSum f (f.map.map x) >>= fun s => kristScale Real.sqrt f s.out s.den) =
      .ok (f.val x / Real.sqrt (f.meanSq x)) := by
    obtain ⟨s, hs, ho, hd⟩ := evalSum_ok h (f.map.map x)
    have hpos : 0 < s.den / f.num := by
      refine div_pos ?_ hn
      rw [hd]
      have : f.fam.p 0 (f.map.map x) ^ 2 ≤ ∑ k ∈ range f.num, f.fam.p k (f.map.map x) ^ 2 :=
        single_le_sum (f := fun k => f.fam.p k (f.map.map x) ^ 2) (fun k _ => sq_nonneg _) (mem_range.2 h.pos)
      exact lt_of_lt_of_le (by rw [Fam.p_zero]; positivity) this
    rw [hs, bind_ok, kristScale, if_pos hk, dv_ok hn.ne', bind_ok, dv_ok (Real.sqrt_pos.2 hpos).ne', ho, hd]
    rfl
  rw [eval]
  cases hp : f.fam.pt with
  | cheb => exact absurd hp hc
  | leg => exact gen
  | herm => exact gen

/-- C36: the Chebyshev evaluation refuses Kristoffel weighting. -/
theorem eval_cheb_krist (sq : K → K) (f : Ope K) (hc : f.fam.pt = .cheb) (hk : f.krist = true) (x : K) :
    eval sq f x = .error .assertFail := by
  rw [eval, hc]; simp [clenshaw, hk]

/-- C36: the Chebyshev series is the series in the Chebyshev polynomials of the first kind. -/
theorem val_cheb {f : Ope K} (h : f.WF) (hc : f.fam.pt = .cheb) (x : K) :
    f.val x = ∑ k ∈ range f.num, f.coeff.getD k 0 * (Polynomial.Chebyshev.T K k).eval (f.map.slope * x + f.map.off) := by
  obtain ⟨pi, hf⟩ := h.cheb hc
  rw [Ope.val]
  exact sum_congr rfl (fun k _ => by rw [hf, cheb_p])

/-- C36: the Kristoffel weight. -/
theorem kristWeight_value (sq : K → K) {f : Ope K} (hn : 1 ≤ f.num) (x : K) : kristWeight sq f x = .ok (sq (f.meanSq x)) := by
  have hn' : (f.num : K) ≠ 0 := by exact_mod_cast (show f.num ≠ 0 by omega)
  rw [kristWeight]
  by_cases h1 : f.num > 1
  · simp only [if_pos h1]
    have key := forN_traj (fun j => (f.fam.p j (f.map.map x), f.fam.p (j + 1) (f.map.map x),
        ∑ k ∈ range (j + 2), f.fam.p k (f.map.map x) ^ 2)) (n := f.num - 2)
      (body := fun j (s : K × K × K) => (pure (s.2.1, wp f.fam s.1 s.2.1 (2 + j) (f.map.map x),
        s.2.2 + wp f.fam s.1 s.2.1 (2 + j) (f.map.map x) * wp f.fam s.1 s.2.1 (2 + j) (f.map.map x)) : C _))
      (fun i hi => by
        dsimp only
        rw [show 2 + i = i + 2 by omega, wp_p, pure_eq_ok, sum_range_succ _ (i + 2), pow_two (f.fam.p (i + 2) _)])
    rw [forR]
    have e0 : (f.fam.p 0 (f.map.map x), f.fam.p (0 + 1) (f.map.map x), ∑ k ∈ range (0 + 2), f.fam.p k (f.map.map x) ^ 2) =
        (f.fam.c0, f.fam.l0 + f.fam.l1 * f.map.map x, 0 + f.fam.c0 * f.fam.c0 +
          (f.fam.l0 + f.fam.l1 * f.map.map x) * (f.fam.l0 + f.fam.l1 * f.map.map x)) := by
      simp [sum_range_succ, pow_two]
    rw [e0] at key
    rw [key, bind_ok]
    dsimp only
    rw [show f.num - 2 + 2 = f.num by omega, dv_ok hn', bind_ok]; rfl
  · have hn1 : f.num = 1 := by omega
    rw [Ope.meanSq]
    simp [hn1, forR, dv, pow_two]

/-- C36: batched evaluation with strides. -/
theorem evalN_value (sq : K → K) {f : Ope K} (h : f.WF) (hk : f.krist = false) {n incx incy : Nat} {x y : List K}
    (hx : ∀ i < n, i * incx < x.length) (hy : ∀ i < n, i * incy < y.length) (hi : 1 ≤ incy) :
    ∃ y', evalN sq f n x incx y incy = .ok y' ∧ y'.length = y.length ∧
      (∀ i < n, y'[i * incy]? = some (f.val (x.getD (i * incx) 0))) ∧
      ∀ k, (∀ i < n, k ≠ i * incy) → y'[k]? = y[k]? := by
  refine (forN_spec (n := n) (s := y)
    (I := fun m y' => y'.length = y.length ∧ (∀ i < m, y'[i * incy]? = some (f.val (x.getD (i * incx) 0))) ∧
      ∀ k, (∀ i < m, k ≠ i * incy) → y'[k]? = y[k]?)
    ⟨rfl, fun i hi => absurd hi (Nat.not_lt_zero _), fun _ _ => rfl⟩ ?_)
  rintro i hin b ⟨h1, h2, h3⟩
  refine ⟨b.set (i * incy) (f.val (x.getD (i * incx) 0)), ?_, by rw [List.length_set, h1], ?_, ?_⟩
  · rw [rd_getD 0 (hx i hin), bind_ok, eval_value sq h hk, bind_ok, wr_ok _ (by rw [h1]; exact hy i hin)]
  · intro k hk
    rcases Nat.lt_or_eq_of_le (Nat.lt_succ_iff.1 hk) with h4 | h4
    · rw [List.getElem?_set_ne, h2 k h4]
      intro e; have := Nat.eq_of_mul_eq_mul_right (by omega) e; omega
    · subst h4; rw [List.getElem?_set_self (by rw [h1]; exact hy k hin)]
  · intro k hk
    rw [List.getElem?_set_ne (fun e => hk i (by omega) e.symm), h3 k (fun j hj => hk j (by omega))]

/-- `orth_poly_eval` is right for orders up to two and for recurrences whose coefficients do not depend on the order
(Chebyshev). Missing: every other order of Legendre and Hermite polynomials, for which it is wrong, see
`orthPolyEval_counterexample`. -/
theorem orthPolyEval_value_partial (fam : Fam K) (n : Nat) (x : K)
    (h : ∀ m, 2 ≤ m → m ≤ n → fam.an m = fam.an n ∧ fam.bn m = fam.bn n ∧ fam.cn m = fam.cn n) :
    orthPolyEval fam n x = .ok (fam.p n x) := by
  rw [orthPolyEval]
  by_cases h0 : n = 0
  · rw [if_pos h0, h0]; rfl
  by_cases h1 : n = 1
  · rw [if_neg h0, if_pos h1, h1, Fam.p_one, add_comm]
  rw [if_neg h0, if_neg h1]
  obtain ⟨m, rfl⟩ : ∃ m, n = m + 2 := ⟨n - 2, by omega⟩
  have key := forN_traj (fun j => (fam.p j x, fam.p (j + 1) x, if j = 0 then 0 else fam.p (j + 1) x)) (n := m + 2 + 1 - 2)
    (body := fun _ (s : K × K × K) => (pure (s.2.1, (fam.an (m + 2) * x + fam.bn (m + 2)) * s.2.1 + fam.cn (m + 2) * s.1,
      (fam.an (m + 2) * x + fam.bn (m + 2)) * s.2.1 + fam.cn (m + 2) * s.1) : C _))
    (fun i hi => by
      obtain ⟨e1, e2, e3⟩ := h (i + 2) (by omega) (by omega)
      rw [if_neg (Nat.succ_ne_zero i), Fam.p_add_two, e1, e2, e3]; rfl)
  have e0 : (fam.p 0 x, fam.p (0 + 1) x, if 0 = 0 then (0 : K) else fam.p (0 + 1) x) =
      (fam.c0, fam.l1 * x + fam.l0, 0) := by
    rw [if_pos rfl, Nat.zero_add, Fam.p_one, Fam.p_zero, add_comm fam.l0]
  rw [e0] at key
  rw [forR, key, bind_ok]
  dsimp only
  rw [if_neg (by omega)]; rfl

/-- The order-three polynomial of a recurrence with varying coefficients is computed wrongly (here the unnormalised Hermite
recurrence `p_n = x p_{n-1} - (n-1) p_{n-2}`). -/
theorem orthPolyEval_counterexample :
    ∃ (fam : Fam ℚ) (x : ℚ), fam.p 3 x = -2 ∧ orthPolyEval fam 3 x = .ok (-3) :=
  ⟨⟨.herm, fun _ => 1, fun _ => 0, fun n => -((n : ℚ) - 1), -1, 1, 1, 0, 1, fun _ => 1⟩, 1,
    by norm_num [Fam.p], by decide +kernel⟩

/-- A concrete expansion: `1 + 2 T_1 + 3 T_2` on `[0, 2]`. -/
def exCheb : Ope ℚ := ⟨chebFam 3, 3, 0, 2, ⟨1, -1, 1, 1⟩, 4, [1, 2, 3, 7], false⟩

theorem exCheb_wf : exCheb.WF := ⟨by decide, by decide, by decide, fun _ => ⟨3, rfl⟩⟩

example : exCheb.krist = false ∧ eval id exCheb 2 = .ok 6 := ⟨rfl, by decide +kernel⟩
example : ∀ m, 2 ≤ m → m ≤ 5 → (chebFam (3 : ℚ)).an m = (chebFam (3 : ℚ)).an 5 ∧ (chebFam (3 : ℚ)).bn m = (chebFam (3 : ℚ)).bn 5 ∧
    (chebFam (3 : ℚ)).cn m = (chebFam (3 : ℚ)).cn 5 := fun _ _ _ => ⟨rfl, rfl, rfl⟩
example : ∃ f : Ope ℝ, f.WF ∧ f.fam.pt ≠ .cheb ∧ f.fam.c0 ≠ 0 ∧ f.krist = true :=
  ⟨⟨⟨.herm, fun _ => 1, fun _ => 0, fun _ => -1, -1, 1, 1, 0, 1, fun _ => 1⟩, 2, 0, 1, ⟨1, 0, 1, 0⟩, 2, [1, 5], true⟩,
    ⟨by decide, by decide, by decide, by simp⟩, by simp, by norm_num, rfl⟩

end C3.Poly
