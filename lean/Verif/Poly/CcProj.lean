/-
C71: projection onto Legendre polynomials with the Clenshaw-Curtis rule.
-/
import Verif.Poly.AdaptGauss

set_option linter.unusedSectionVars false

namespace C3.Poly
open Finset Real

/-- The rule returned by `clenshaw_curtis`. -/
def IsCc (N : Nat) (r : Rule ℝ) : Prop :=
  C3.Quad.clenshawCurtis N (List.replicate N 0) (List.replicate N 0) = .ok (r.pts, r.wts)

theorem ccDiscOrth {N : Nat} {r : Rule ℝ} (h : IsCc (2 * N - 1) r) (hN : 1 ≤ N) : DiscOrth legFam ⟨r.pts, r.wts.map (· * (1 / 2))⟩ (2 * N - 1) N := by
  intro j hj k hk
  obtain ⟨p, w, e, lp, lw, hx⟩ := C3.Quad.clenshawCurtis_exact (N := 2 * N - 1) (by omega) (pts := List.replicate (2 * N - 1) 0)
    (wts := List.replicate (2 * N - 1) 0) (by simp) (by simp)
  rw [IsCc, e] at h
  obtain ⟨rfl, rfl⟩ := Prod.mk.inj (Except.ok.inj h)
  have hl := legFam_lead
  obtain ⟨P, p1, -, p3⟩ := p_poly hl.1 hl.2.1 hl.2.2 j
  obtain ⟨R, r1, -, r3⟩ := p_poly hl.1 hl.2.1 hl.2.2 k
  have e2 := hx (P * R) (by
    refine lt_of_le_of_lt Polynomial.degree_le_natDegree ?_
    have := Polynomial.natDegree_mul_le (p := P) (q := R)
    exact_mod_cast (by omega : (P * R).natDegree < 2 * N - 1))
  simp only [Polynomial.eval_mul, p3, r3] at e2
  have e3 : legFam.norm k = 1 := rfl
  rw [e3, ← leg_orthonormal, ← e2, mul_sum]
  refine sum_congr rfl fun i hi => ?_
  have hi' := mem_range.1 hi
  dsimp only
  rw [List.getD_eq_getElem?_getD (l := r.wts.map _), List.getElem?_map, List.getElem?_eq_getElem (show i < r.wts.length by omega),
    List.getD_eq_getElem?_getD (l := r.wts), List.getElem?_eq_getElem (show i < r.wts.length by omega)]
  simp only [Option.map_some, Option.getD_some]
  ring

/-- C71: with Clenshaw-Curtis quadrature the projection onto Legendre polynomials reproduces every polynomial of degree below the number of
basis functions. -/
theorem approxVec_cc {Q : PT → Nat → Rule ℝ} {cc : Nat → Rule ℝ} (hcc : ∀ n, 1 ≤ n → IsCc n (cc n)) {F : List ℝ → C (Option (List ℝ))}
    {g : ℝ → ℝ} (hF : ∀ l, F l = .ok (some (l.map g))) {f : Ope ℝ} (hf : f.WF) (hfam : f.fam = legFam) (hm : f.map.Inv) (hn : 2 * f.num - 1 ≤ 200)
    (hz : ∀ k < f.num, f.coeff.getD k 0 = 0) (q : Polynomial ℝ) (hq : q.degree < f.num) (hg : ∀ x, g x = q.eval (f.map.slope * x + f.map.off)) :
    ∃ r, approxVec Q cc F f (some true) = .ok (some r) ∧ r.WF ∧ ∀ x, r.val x = g x := by
  have hp := hf.pos
  set n := 2 * f.num - 1 with hnd
  set r : Rule ℝ := ⟨(cc n).pts, (cc n).wts.map (· * (1 / 2))⟩ with hr
  have hrule : vecRule Q cc f (some true) = .ok (some (n, r)) := by
    unfold vecRule
    dsimp only
    rw [if_neg (by omega), if_pos rfl, if_neg (by omega), show f.fam.pt = .leg by rw [hfam]; rfl]
    dsimp only
    rw [if_pos rfl]
  have ho := ccDiscOrth (N := f.num) (hcc n (by omega)) hf.pos
  obtain ⟨p0, w0, e0, lp0, lw0, -⟩ := C3.Quad.clenshawCurtis_exact (N := n) (by omega) (pts := List.replicate n 0) (wts := List.replicate n 0) (by simp) (by simp)
  have hc0 := hcc n (by omega)
  rw [IsCc, e0] at hc0
  obtain ⟨h1, h2⟩ := Prod.mk.inj (Except.ok.inj hc0)
  have l1 : r.pts.length = n := by rw [hr]; dsimp only; rw [← h1, lp0]
  have l2 : r.wts.length = n := by rw [hr]; dsimp only; rw [List.length_map, ← h2, lw0]
  obtain ⟨pu, ep, lp, vp, -⟩ := forN_window (n := n) (off := 0) (a := List.replicate n (0 : ℝ)) (fun i _ => f.map.inv (r.pts.getD i 0)) (by simp)
    (body := fun ii pu => do
      let p ← rd r.pts ii
      wr pu ii (f.map.inv p))
    (fun i hi b hb => by
      rw [List.length_replicate] at hb
      rw [rd_getD 0 (by omega), bind_ok, wr_ok _ (by omega), Nat.zero_add])
  rw [List.length_replicate] at lp
  obtain ⟨fv, ef, lf, vf, -⟩ := forN_window (n := n) (off := 0) (a := pu.map g) (fun i v => v * r.wts.getD i 0) (by simp [lp])
    (body := fun ii fv => do
      let u ← rd fv ii
      let w ← rd r.wts ii
      wr fv ii (u * w))
    (fun i hi b hb => by
      rw [List.length_map] at hb
      rw [rd_getD 0 (by omega), bind_ok, rd_getD 0 (by omega), bind_ok, wr_ok _ (by omega), Nat.zero_add])
  rw [List.length_map] at lf
  have hnorm : ∀ k < f.num, f.fam.norm k ≠ 0 := fun k _ => by rw [hfam]; exact one_ne_zero
  obtain ⟨co, ec, lc, vc⟩ := construct_ok hf (n := n) (fvals := fv) (nodes := r.pts) (by omega) (by omega) hnorm
  refine ⟨{ f with coeff := co }, ?_, ⟨hf.pos, hf.num_le, by rw [lc]; exact hf.alloc_le, hf.cheb⟩, fun x => ?_⟩
  · rw [approxVec, hrule, bind_ok]
    dsimp only
    rw [ep, bind_ok, hF, bind_ok]
    dsimp only
    rw [ef, bind_ok, ec]; rfl
  · obtain ⟨a, ea⟩ := exists_series legFam_lead.1 legFam_lead.2.1 legFam_lead.2.2 f.num q hq
    rw [hg, ea, Ope.val]
    refine sum_congr rfl fun k hk => ?_
    have hk' : k < f.num := mem_range.1 hk
    dsimp only
    rw [hfam]
    congr 1
    rw [vc k hk', hz k hk', zero_add, div_eq_iff (hnorm k hk'), hfam]
    have e1 : ∑ i ∈ range n, fv.getD i 0 * legFam.p k (r.pts.getD i 0) =
        ∑ j ∈ range f.num, a j * ∑ i ∈ range n, r.wts.getD i 0 * (legFam.p j (r.pts.getD i 0) * legFam.p k (r.pts.getD i 0)) := by
      have e2 : ∀ i ∈ range n, fv.getD i 0 * legFam.p k (r.pts.getD i 0) =
          ∑ j ∈ range f.num, a j * (r.wts.getD i 0 * (legFam.p j (r.pts.getD i 0) * legFam.p k (r.pts.getD i 0))) := by
        intro i hi
        have hi' : i < n := mem_range.1 hi
        have h1 := vf i hi'
        have h2 := vp i hi'
        rw [Nat.zero_add] at h1 h2
        rw [h1, List.getD_eq_getElem?_getD (l := pu.map g), List.getElem?_map, List.getElem?_eq_getElem (show i < pu.length by omega)]
        rw [List.getD_eq_getElem?_getD, List.getElem?_eq_getElem (show i < pu.length by omega)] at h2
        simp only [Option.getD_some] at h2
        simp only [Option.map_some, Option.getD_some, h2]
        rw [hg, hm.right, ea, sum_mul, sum_mul]
        exact sum_congr rfl fun j _ => by ring
      rw [sum_congr rfl e2, sum_comm]
      exact sum_congr rfl fun j _ => by rw [mul_sum]
    rw [e1, sum_congr rfl (fun j hj => by rw [ho j (mem_range.1 hj) k hk', mul_ite, mul_zero]), sum_ite_eq' (range f.num) k, if_pos hk]

/-- A concrete case: a parabola with three polynomials on `[0, 4]`, five points. -/
example (Q : PT → Nat → Rule ℝ) (cc : Nat → Rule ℝ) (hcc : ∀ n, 1 ≤ n → IsCc n (cc n)) :
    ∃ r, approxVec Q cc (fun l => .ok (some (l.map fun x => (Polynomial.X ^ 2 + 1 : Polynomial ℝ).eval (1 / 2 * x + -1))))
      ⟨legFam, 3, 0, 4, ⟨1 / 2, -1, 2, 2⟩, 3, [0, 0, 0], false⟩ (some true) = .ok (some r) ∧ r.WF ∧
      ∀ x, r.val x = (Polynomial.X ^ 2 + 1 : Polynomial ℝ).eval (1 / 2 * x + -1) :=
  approxVec_cc hcc (fun _ => rfl) ⟨by simp, by simp, by simp, fun h => by simp [legFam] at h⟩ rfl ⟨by norm_num, by norm_num⟩ (by norm_num)
    (fun k hk => by dsimp only at hk ⊢; interval_cases k <;> rfl) _
    (by
      have : (Polynomial.X ^ 2 + 1 : Polynomial ℝ).degree ≤ 2 := by compute_degree
      exact lt_of_le_of_lt this (by norm_num)) (fun _ => rfl)

example : ∃ cc : Nat → Rule ℝ, ∀ n, 1 ≤ n → IsCc n (cc n) := by
  have h : ∀ n, ∃ r : Rule ℝ, 1 ≤ n → IsCc n r := fun n => by
    by_cases hn : 1 ≤ n
    · obtain ⟨p, w, e, -⟩ := C3.Quad.clenshawCurtis_exact hn (pts := List.replicate n 0) (wts := List.replicate n 0) (by simp) (by simp)
      exact ⟨⟨p, w⟩, fun _ => e⟩
    · exact ⟨⟨[], []⟩, fun h => absurd h hn⟩
  exact ⟨fun n => (h n).choose, fun n => (h n).choose_spec⟩

end C3.Poly
