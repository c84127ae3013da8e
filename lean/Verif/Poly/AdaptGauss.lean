/-
C71: adaptive projection onto Chebyshev polynomials with the rule computed by `cheb_gauss` (an instance of the general theorem that meets
all its hypotheses).
-/
import Verif.Poly.AdaptProps
import Verif.Poly.GaussProps

set_option linter.unusedSectionVars false

namespace C3.Poly
open Finset Real

theorem chebDiscOrth' {n N : Nat} {r : Rule ℝ} (h : IsChebGauss n r) (hN : N ≤ n) : DiscOrth (chebFam π) r n N := by
  intro j hj k hk
  have hl := h.length
  have := chebDiscOrth h hN j hj k hk
  dsimp only at this
  rw [← this, sum_range_succ]
  have e3 : (r.wts ++ [0]).getD n 0 = (0 : ℝ) := by
    rw [List.getD_eq_getElem?_getD, List.getElem?_append_right (by omega), hl.2]; simp
  rw [e3, zero_mul, add_zero]
  refine sum_congr rfl fun i hi => ?_
  have hi' := mem_range.1 hi
  rw [List.getD_eq_getElem?_getD (l := r.wts ++ [0]), List.getElem?_append_left (by omega), ← List.getD_eq_getElem?_getD,
    List.getD_eq_getElem?_getD (l := r.pts ++ [0]), List.getElem?_append_left (by omega), ← List.getD_eq_getElem?_getD]

/-- Chebyshev: every polynomial of degree below the starting number of basis functions is reproduced by the adaptive projection, whatever
the tolerance. -/
theorem approxAdapt_cheb {thr : ℝ} {Q : PT → Nat → Rule ℝ} (hQ : ∀ n, IsChebGauss n (Q .cheb n)) {cc : Nat → Rule ℝ}
    {o : Opts ℝ} (hf : o.fam = chebFam π) (hb : o.lb < o.ub) (ho : o.cc = false) (hfin : o.final = false)
    (h1 : 1 ≤ o.start) (h2 : o.start ≤ 191) (hc : o.check ≤ o.start) (q : Polynomial ℝ) (hq : q.degree < o.start) :
    ∃ r, approxAdapt thr Q cc (fun l => .ok (some (l.map fun x => q.eval x))) o 30 = .ok r ∧ r.WF ∧ ∀ x, r.val x = q.eval x := by
  have hv : o.Valid := ⟨fun c => by { rw [hf] at c; cases c }, fun _ => by rw [hf]; exact ⟨by simp [chebFam], hb⟩, fun _ => ⟨π, hf⟩⟩
  obtain ⟨f, e, -, -, -, hm, -, -⟩ := initOpts_ok hv h1
  have hl := chebFam_lead π
  refine approxAdapt_exact (g := fun x => q.eval x) (fun _ => rfl) hv ho hfin (by rw [hf]; exact fun n => (hQ n).length)
    (by rw [hf]; exact chebFam_norm) (by rw [hf]; exact hl.1) (by rw [hf]; exact hl.2.1) (by rw [hf]; exact hl.2.2)
    (by rw [hf]; exact fun n => chebDiscOrth' (hQ _) (by omega)) h1 h2 hc (Nat.le_refl 30)
    (q.comp (Polynomial.C f.map.islope * Polynomial.X + Polynomial.C f.map.ioff)) ?_ ?_
  · refine lt_of_le_of_lt Polynomial.degree_le_natDegree ?_
    rcases eq_or_ne q 0 with rfl | h0
    · simpa using (by omega : 0 < o.start)
    · have h3 : q.natDegree < o.start := by rwa [Polynomial.natDegree_lt_iff_degree_lt h0]
      have h4 := Polynomial.natDegree_comp_le (p := q) (q := Polynomial.C f.map.islope * Polynomial.X + Polynomial.C f.map.ioff)
      have h5 : (Polynomial.C f.map.islope * Polynomial.X + Polynomial.C f.map.ioff).natDegree ≤ 1 := Polynomial.natDegree_linear_le
      have h6 := Nat.mul_le_mul_left q.natDegree h5
      exact_mod_cast (by omega : (q.comp (Polynomial.C f.map.islope * Polynomial.X + Polynomial.C f.map.ioff)).natDegree < o.start)
  · intro f' e' x
    rw [e] at e'
    obtain rfl := Except.ok.inj e'
    rw [Polynomial.eval_comp, Polynomial.eval_add, Polynomial.eval_mul, Polynomial.eval_C, Polynomial.eval_X, Polynomial.eval_C]
    congr 1
    exact (hm.left x).symm

/-- A concrete case: a cubic on `[0,2]`, five polynomials at the start. -/
example (Q : PT → Nat → Rule ℝ) (hQ : ∀ n, IsChebGauss n (Q .cheb n)) (cc : Nat → Rule ℝ) :
    ∃ r, approxAdapt 0 Q cc (fun l => .ok (some (l.map fun x => (Polynomial.X ^ 3 + 1 : Polynomial ℝ).eval x)))
      ⟨chebFam π, 5, 30, 2, 1 / 10, 0, 2, 0, 1, false, false, false⟩ 30 = .ok r ∧ r.WF ∧
      ∀ x, r.val x = (Polynomial.X ^ 3 + 1 : Polynomial ℝ).eval x :=
  approxAdapt_cheb hQ rfl (by norm_num) rfl rfl (by norm_num) (by norm_num) (by norm_num) _ (by
    have : (Polynomial.X ^ 3 + 1 : Polynomial ℝ).degree ≤ 3 := by compute_degree
    exact lt_of_le_of_lt this (by norm_num))

example : ∃ Q : PT → Nat → Rule ℝ, ∀ n, IsChebGauss n (Q .cheb n) :=
  ⟨fun _ n => (exists_isChebGauss n).choose, fun n => (exists_isChebGauss n).choose_spec⟩

end C3.Poly
