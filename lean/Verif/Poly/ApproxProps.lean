/-
C68: projection of a function on an orthogonal polynomial expansion by quadrature.
Specification: discrete orthogonality of the basis for the quadrature rule; functions of the form polynomial of the mapped variable.
-/
import Verif.Poly.ApproxLemmas
import Mathlib.Algebra.Polynomial.Eval.Degree
import Mathlib.Algebra.Polynomial.Degree.Lemmas
import Mathlib.Tactic.ComputeDegree

set_option linter.unusedSectionVars false

namespace C3.Poly
open Finset
open C3.Lin (dv dv_ok)
variable {K : Type} [Field K] [LinearOrder K] [IsStrictOrderedRing K]

/-- The two affine maps of a space mapping are inverse to each other. -/
structure SMap.Inv (m : SMap K) : Prop where
  mul : m.slope * m.islope = 1
  off : m.slope * m.ioff + m.off = 0

theorem SMap.Inv.right {m : SMap K} (h : m.Inv) (t : K) : m.slope * m.inv t + m.off = t := by
  rw [SMap.inv]; linear_combination t * h.mul + h.off

theorem SMap.Inv.slope_ne {m : SMap K} (h : m.Inv) : m.slope ≠ 0 := fun e => by have := h.mul; rw [e, zero_mul] at this; exact zero_ne_one this

theorem SMap.Inv.left {m : SMap K} (h : m.Inv) (x : K) : m.inv (m.slope * x + m.off) = x := by
  rw [SMap.inv]
  refine mul_left_cancel₀ h.slope_ne ?_
  linear_combination (m.slope * x + m.off) * h.mul + h.off

/-- The first `N` polynomials are orthogonal, with the norms of the family, for the sum over the first `n` nodes of a rule. -/
def DiscOrth (fam : Fam K) (r : Rule K) (n N : Nat) : Prop :=
  ∀ j < N, ∀ k < N, ∑ i ∈ range n, r.wts.getD i 0 * (fam.p j (r.pts.getD i 0) * fam.p k (r.pts.getD i 0)) = if j = k then fam.norm k else 0

/-- The basis polynomials as polynomials: degree and leading coefficient. -/
theorem p_poly {fam : Fam K} (hc : fam.c0 ≠ 0) (hl : fam.l1 ≠ 0) (ha : ∀ n, 2 ≤ n → fam.an n ≠ 0) (n : Nat) :
    ∃ P : Polynomial K, P.natDegree ≤ n ∧ P.coeff n ≠ 0 ∧ ∀ x, P.eval x = fam.p n x := by
  induction n using Nat.strong_induction_on with
  | _ n ih =>
    match n with
    | 0 => exact ⟨.C fam.c0, by simp, by simpa using hc, fun x => by simp [Fam.p]⟩
    | 1 => exact ⟨.C fam.l0 + .C fam.l1 * .X, by compute_degree, by simpa [Polynomial.coeff_C] using hl, fun x => by simp [Fam.p]⟩
    | n + 2 =>
      obtain ⟨P, p1, p2, p3⟩ := ih (n + 1) (by omega)
      obtain ⟨Q, q1, q2, q3⟩ := ih n (by omega)
      refine ⟨(.C (fam.an (n + 2)) * .X + .C (fam.bn (n + 2))) * P + .C (fam.cn (n + 2)) * Q, ?_, ?_, fun x => by simp [Fam.p, p3, q3]⟩
      · refine (Polynomial.natDegree_add_le _ _).trans (max_le ?_ ?_)
        · refine (Polynomial.natDegree_mul_le).trans ?_
          have : (Polynomial.C (fam.an (n + 2)) * Polynomial.X + Polynomial.C (fam.bn (n + 2))).natDegree ≤ 1 := by compute_degree
          omega
        · refine (Polynomial.natDegree_mul_le).trans ?_
          rw [Polynomial.natDegree_C]; omega
      · have e1 : P.coeff (n + 2) = 0 := Polynomial.coeff_eq_zero_of_natDegree_lt (by omega)
        have e2 : Q.coeff (n + 2) = 0 := Polynomial.coeff_eq_zero_of_natDegree_lt (by omega)
        rw [Polynomial.coeff_add, add_mul, Polynomial.coeff_add, mul_assoc, Polynomial.coeff_C_mul, Polynomial.coeff_X_mul,
          Polynomial.coeff_C_mul, Polynomial.coeff_C_mul, e1, e2, mul_zero, mul_zero, add_zero, add_zero]
        exact mul_ne_zero (ha _ (by omega)) p2

/-- Every polynomial of degree below `n` is a series in the first `n` basis polynomials. -/
theorem exists_series {fam : Fam K} (hc : fam.c0 ≠ 0) (hl : fam.l1 ≠ 0) (ha : ∀ n, 2 ≤ n → fam.an n ≠ 0) (n : Nat) (q : Polynomial K)
    (hq : q.degree < n) : ∃ a : Nat → K, ∀ t, q.eval t = ∑ k ∈ range n, a k * fam.p k t := by
  induction n generalizing q with
  | zero =>
    refine ⟨fun _ => 0, fun t => ?_⟩
    have : q = 0 := Polynomial.degree_eq_bot.1 (by
      by_contra h
      rw [Polynomial.degree_eq_natDegree (fun e => h (by rw [e]; exact Polynomial.degree_zero))] at hq
      exact absurd hq (by simp))
    simp [this]
  | succ n ih =>
    obtain ⟨P, p1, p2, p3⟩ := p_poly hc hl ha n
    obtain ⟨a, ea⟩ := ih (q - .C (q.coeff n / P.coeff n) * P) (by
      rw [Polynomial.degree_lt_iff_coeff_zero] at hq ⊢
      intro m hm
      rcases eq_or_lt_of_le hm with rfl | h
      · rw [Polynomial.coeff_sub, Polynomial.coeff_C_mul, div_mul_cancel₀ _ p2, sub_self]
      · rw [Polynomial.coeff_sub, Polynomial.coeff_C_mul, hq m (by omega), Polynomial.coeff_eq_zero_of_natDegree_lt (show P.natDegree < m by omega),
          mul_zero, sub_zero])
    refine ⟨fun k => if k = n then q.coeff n / P.coeff n else a k, fun t => ?_⟩
    rw [sum_range_succ]; dsimp only; rw [if_pos rfl, ← p3]
    have e := ea t
    rw [Polynomial.eval_sub, Polynomial.eval_mul, Polynomial.eval_C] at e
    rw [sum_congr rfl (fun k hk => by rw [if_neg (show k ≠ n by have := mem_range.1 hk; omega)]), ← e]
    ring

/-- The coefficients after a projection: discrete inner products of the function with the basis, divided by the norms. -/
theorem approx_value {Q : PT → Nat → Rule K} {A : K → C K} {g : K → K} {f : Ope K} (hf : f.WF)
    (h1 : f.num + 1 ≤ (approxRule Q f).pts.length) (h2 : f.num + 1 ≤ (approxRule Q f).wts.length)
    (hA : ∀ i < f.num + 1, A (f.map.inv ((approxRule Q f).pts.getD i 0)) = .ok (g (f.map.inv ((approxRule Q f).pts.getD i 0))))
    (hn : ∀ k < f.num, f.fam.norm k ≠ 0) :
    ∃ co, approx Q A f = .ok { f with coeff := co } ∧ co.length = f.coeff.length ∧
      ∀ k < f.num, co.getD k 0 = (f.coeff.getD k 0 + ∑ i ∈ range (f.num + 1), (approxRule Q f).wts.getD i 0 *
        (g (f.map.inv ((approxRule Q f).pts.getD i 0)) * f.fam.p k ((approxRule Q f).pts.getD i 0))) / f.fam.norm k := by
  obtain ⟨fv, ef, lf, vf, -⟩ := forN_window (n := f.num + 1) (off := 0) (a := List.replicate (f.num + 1) (0 : K))
    (fun i _ => g (f.map.inv ((approxRule Q f).pts.getD i 0)) * (approxRule Q f).wts.getD i 0) (by simp)
    (body := fun ii fv => do
      let p ← rd (approxRule Q f).pts ii
      let v ← A (f.map.inv p)
      let w ← rd (approxRule Q f).wts ii
      wr fv ii (v * w))
    (fun i hi b hb => by
      rw [List.length_replicate] at hb
      rw [rd_getD 0 (by omega), bind_ok, hA i hi, bind_ok, rd_getD 0 (by omega), bind_ok, wr_ok _ (by omega), Nat.zero_add])
  rw [List.length_replicate] at lf
  obtain ⟨co, ec, lc, vc⟩ := construct_ok hf (n := f.num + 1) (fvals := fv) (nodes := (approxRule Q f).pts) (by omega) h1 hn
  refine ⟨co, by rw [approx, ef, bind_ok, ec], lc, fun k hk => ?_⟩
  rw [vc k hk]
  congr 2
  refine sum_congr rfl fun i hi => ?_
  have := vf i (mem_range.1 hi)
  rw [Nat.zero_add] at this
  rw [this]; ring

/-- Projection of a function of the span reproduces it exactly when the basis is orthogonal for the quadrature rule. -/
theorem approx_exact {Q : PT → Nat → Rule K} {A : K → C K} {g : K → K} {f : Ope K} (hf : f.WF)
    (h1 : f.num + 1 ≤ (approxRule Q f).pts.length) (h2 : f.num + 1 ≤ (approxRule Q f).wts.length)
    (hA : ∀ x, A x = .ok (g x)) (hn : ∀ k < f.num, f.fam.norm k ≠ 0) (hm : f.map.Inv) (hz : ∀ k < f.num, f.coeff.getD k 0 = 0)
    (ho : DiscOrth f.fam (approxRule Q f) (f.num + 1) f.num)
    {a : Nat → K} (hg : ∀ x, g x = ∑ k ∈ range f.num, a k * f.fam.p k (f.map.slope * x + f.map.off)) :
    ∃ co, approx Q A f = .ok { f with coeff := co } ∧ co.length = f.coeff.length ∧ (∀ k < f.num, co.getD k 0 = a k) ∧
      ∀ x, Ope.val { f with coeff := co } x = g x := by
  obtain ⟨co, e, l, v⟩ := approx_value hf h1 h2 (fun i _ => hA _) hn
  have hv : ∀ k < f.num, co.getD k 0 = a k := by
    intro k hk
    rw [v k hk, hz k hk, zero_add, div_eq_iff (hn k hk)]
    have e1 : ∑ i ∈ range (f.num + 1), (approxRule Q f).wts.getD i 0 *
        (g (f.map.inv ((approxRule Q f).pts.getD i 0)) * f.fam.p k ((approxRule Q f).pts.getD i 0))
        = ∑ j ∈ range f.num, a j * ∑ i ∈ range (f.num + 1), (approxRule Q f).wts.getD i 0 *
          (f.fam.p j ((approxRule Q f).pts.getD i 0) * f.fam.p k ((approxRule Q f).pts.getD i 0)) := by
      rw [sum_congr rfl (fun i _ => by rw [hg, hm.right, sum_mul, mul_sum]), sum_comm]
      refine sum_congr rfl fun j _ => ?_
      rw [mul_sum]
      exact sum_congr rfl fun i _ => by ring
    rw [e1, sum_congr rfl (fun j hj => by rw [ho j (mem_range.1 hj) k hk, mul_ite, mul_zero]), sum_ite_eq' (range f.num) k,
      if_pos (mem_range.2 hk)]
  refine ⟨co, e, l, hv, fun x => ?_⟩
  rw [hg, Ope.val]
  exact sum_congr rfl fun k hk => by
    have hk' : k < f.num := mem_range.1 hk
    rw [show Ope.coeff { f with coeff := co } = co from rfl, hv k hk']

/-- Projection reproduces every polynomial (of the mapped variable) of degree below the number of basis functions. -/
theorem approx_poly {Q : PT → Nat → Rule K} {A : K → C K} {f : Ope K} (hf : f.WF)
    (h1 : f.num + 1 ≤ (approxRule Q f).pts.length) (h2 : f.num + 1 ≤ (approxRule Q f).wts.length)
    (hn : ∀ k < f.num, f.fam.norm k ≠ 0) (hm : f.map.Inv) (hz : ∀ k < f.num, f.coeff.getD k 0 = 0)
    (ho : DiscOrth f.fam (approxRule Q f) (f.num + 1) f.num)
    (hc : f.fam.c0 ≠ 0) (hl : f.fam.l1 ≠ 0) (ha : ∀ n, 2 ≤ n → f.fam.an n ≠ 0) (q : Polynomial K) (hq : q.degree < f.num)
    (hA : ∀ x, A x = .ok (q.eval (f.map.slope * x + f.map.off))) :
    ∃ r, approx Q A f = .ok r ∧ r.WF ∧ ∀ x, r.val x = q.eval (f.map.slope * x + f.map.off) := by
  obtain ⟨a, ea⟩ := exists_series hc hl ha f.num q hq
  obtain ⟨co, e, l, -, v⟩ := approx_exact hf h1 h2 hA hn hm hz ho (a := a) (fun x => ea _)
  exact ⟨_, e, ⟨hf.pos, hf.num_le, by rw [l]; exact hf.alloc_le, hf.cheb⟩, v⟩

end C3.Poly
