/-
C78: the rules computed from the eigenvalues and eigenvectors of the tridiagonal matrix of the recurrence are Gauss rules. What is assumed of
the eigenvalue routine is the definition of an orthonormal eigenbasis (`IsEig`); that one exists is the spectral theorem (`exists_eig`).
-/
import Verif.Quad.GaussModel
import Verif.Poly.GaussProps
import Mathlib.Analysis.Matrix.Spectrum
import Mathlib.LinearAlgebra.Matrix.NonsingularInverse
import Mathlib.Algebra.Polynomial.BigOperators

set_option linter.unusedSectionVars false

namespace C3.Quad
open Finset Real MeasureTheory
open C3.Poly (Rule IsGaussLeg IsGaussHerm legFam hermFam phi alpha)

/-- Entry of the symmetric tridiagonal matrix with diagonal `d` and off-diagonal `e`. -/
def tri (d e : List ℝ) (i k : Nat) : ℝ :=
  if i = k then d.getD i 0 else if k = i + 1 then e.getD i 0 else if i = k + 1 then e.getD k 0 else 0

/-- `r` consists of an orthonormal basis of eigenvectors of the tridiagonal matrix, and its eigenvalues. -/
structure IsEig (N : Nat) (d e : List ℝ) (r : Eig) : Prop where
  info : r.info = 0
  vals : r.vals.length = N
  vecs : r.vecs.length = N * N
  orth : ∀ i < N, ∀ j < N, ∑ k ∈ range N, r.vecs.getD (i * N + k) 0 * r.vecs.getD (j * N + k) 0 = if i = j then 1 else 0
  eig : ∀ j < N, ∀ i < N, ∑ k ∈ range N, tri d e i k * r.vecs.getD (j * N + k) 0 = r.vals.getD j 0 * r.vecs.getD (j * N + i) 0

theorem getD_mr (f : Nat → ℝ) {n m : Nat} (h : m < n) : ((List.range n).map f).getD m 0 = f m := by simp [h]

/-- Every symmetric tridiagonal matrix has such a basis. -/
theorem exists_eig (N : Nat) (d e : List ℝ) : ∃ r, IsEig N d e r := by
  let A : Matrix (Fin N) (Fin N) ℝ := fun i k => tri d e i k
  have hA : A.IsHermitian := by
    ext i k
    rw [Matrix.conjTranspose_apply, star_trivial]
    show tri d e k i = tri d e i k
    rw [tri, tri]
    by_cases h : (i : Nat) = k
    · rw [if_pos h, if_pos h.symm, h]
    · rw [if_neg h, if_neg (Ne.symm h)]
      by_cases h1 : (k : Nat) = i + 1
      · rw [if_pos h1, if_neg (by omega), if_pos h1]
      · rw [if_neg h1]
        by_cases h2 : (i : Nat) = k + 1
        · rw [if_pos h2, if_neg h1]
        · rw [if_neg h2, if_neg h1]
  let v : Fin N → Fin N → ℝ := fun j k => hA.eigenvectorBasis j k
  have hsum : ∀ (g : Nat → ℝ), ∑ k ∈ range N, g k = ∑ k : Fin N, g k := fun g => (Fin.sum_univ_eq_sum_range g N).symm
  let V : List ℝ := (List.range (N * N)).map fun m => if h : 0 < N ∧ m / N < N then v ⟨m / N, h.2⟩ ⟨m % N, Nat.mod_lt _ h.1⟩ else 0
  have hV : ∀ j k : Fin N, V.getD (j * N + k) 0 = v j k := fun j k => by
    have hN : 0 < N := by have := j.2; omega
    have hlt : (j : Nat) * N + k < N * N := by nlinarith [j.2, k.2]
    have h1 : ((j : Nat) * N + k) / N = j := by rw [Nat.add_comm, Nat.add_mul_div_right _ _ hN, Nat.div_eq_of_lt k.2, Nat.zero_add]
    have h2 : ((j : Nat) * N + k) % N = k := by rw [Nat.add_comm, Nat.add_mul_mod_self_right, Nat.mod_eq_of_lt k.2]
    simp only [V]
    rw [getD_mr _ hlt, dif_pos ⟨hN, by rw [h1]; exact j.2⟩]
    exact congrArg₂ v (Fin.ext h1) (Fin.ext h2)
  refine ⟨⟨(List.range N).map fun j => if h : j < N then hA.eigenvalues ⟨j, h⟩ else 0, V, 0⟩, rfl, by simp, by simp [V], fun i hi j hj => ?_, fun j hj i hi => ?_⟩
  · rw [hsum]
    have := (orthonormal_iff_ite.1 hA.eigenvectorBasis.orthonormal) ⟨i, hi⟩ ⟨j, hj⟩
    rw [PiLp.inner_apply] at this
    simp only [Fin.mk.injEq] at this
    rw [← this]
    refine sum_congr rfl fun k _ => ?_
    have e1 := hV ⟨i, hi⟩ k
    have e2 := hV ⟨j, hj⟩ k
    simp only at e1 e2
    rw [e1, e2]
    simp only [v]
    rw [mul_comm]; rfl
  · rw [hsum]
    have := congrFun (hA.mulVec_eigenvectorBasis ⟨j, hj⟩) ⟨i, hi⟩
    rw [Matrix.mulVec, dotProduct] at this
    have e1 := hV ⟨j, hj⟩
    simp only at e1
    simp only [e1]
    show ∑ k : Fin N, tri d e i k * v ⟨j, hj⟩ k = _
    rw [getD_mr _ hj, dif_pos hj, e1 ⟨i, hi⟩]
    exact this

/-- A row of the tridiagonal matrix with zero diagonal and off-diagonal `b 1, b 2, …`. -/
theorem tri_row {N : Nat} {d e : List ℝ} {b : Nat → ℝ} (h0 : b 0 = 0) (hd : ∀ i < N, d.getD i 0 = 0) (he : ∀ i < N, e.getD i 0 = b (i + 1)) (v : Nat → ℝ) {i : Nat} (hi : i < N) :
    ∑ k ∈ range N, tri d e i k * v k = (if i + 1 < N then b (i + 1) * v (i + 1) else 0) + b i * v (i - 1) := by
  have hs : ∀ k ∈ range N, tri d e i k * v k = (if i + 1 = k then b (i + 1) * v (i + 1) else 0) + (if k = i - 1 then (if i = 0 then 0 else b i * v (i - 1)) else 0) := fun k hk => by
    have hk := mem_range.1 hk
    rw [tri]
    by_cases c : i = k
    · subst c
      rw [if_pos rfl, hd i hi, if_neg (by omega)]
      by_cases c0 : i = 0
      · subst c0; simp
      · rw [if_neg (by omega)]; ring
    · rw [if_neg c]
      by_cases c1 : k = i + 1
      · subst c1
        rw [if_pos rfl, if_pos rfl, if_neg (by omega), he i hi, add_zero]
      · rw [if_neg c1, if_neg (Ne.symm c1), zero_add]
        by_cases c2 : i = k + 1
        · subst c2
          rw [if_pos rfl, if_pos (by omega), if_neg (by omega), he k hk]; rfl
        · rw [if_neg c2, zero_mul]
          by_cases c3 : k = i - 1
          · rw [if_pos c3, if_pos (by omega)]
          · rw [if_neg c3]
  rw [sum_congr rfl hs, sum_add_distrib]
  congr 1
  · rw [sum_ite_eq (range N) (i + 1)]
    by_cases c : i + 1 < N
    · rw [if_pos (mem_range.2 c), if_pos c]
    · rw [if_neg (by simpa using c), if_neg c]
  · rw [sum_ite_eq' (range N) (i - 1), if_pos (mem_range.2 (by omega))]
    by_cases c0 : i = 0
    · subst c0; rw [if_pos rfl, h0, zero_mul]
    · rw [if_neg c0]

/-- Golub and Welsch: eigenvalues and squared first components form a discrete inner product in which the polynomials of the recurrence are orthonormal. -/
theorem golub {N : Nat} {p : Nat → ℝ → ℝ} {b : Nat → ℝ} (h0 : b 0 = 0) (hb : ∀ n, b (n + 1) ≠ 0) (hp0 : ∀ x, p 0 x = 1)
    (hx : ∀ x n, x * p n x = b (n + 1) * p (n + 1) x + b n * p (n - 1) x) {d e : List ℝ} (hd : ∀ i < N, d.getD i 0 = 0) (he : ∀ i < N, e.getD i 0 = b (i + 1)) {r : Eig}
    (h : IsEig N d e r) : ∀ k < N, ∀ l ≤ N, ∑ j ∈ range N, r.vecs.getD (j * N) 0 * r.vecs.getD (j * N) 0 * (p k (r.vals.getD j 0) * p l (r.vals.getD j 0)) = if k = l then 1 else 0 := by
  -- the components are the polynomials at the eigenvalue
  have hv : ∀ j < N, ∀ k < N, r.vecs.getD (j * N + k) 0 = p k (r.vals.getD j 0) * r.vecs.getD (j * N) 0 := fun j hj k => by
    induction k using Nat.strong_induction_on with
    | _ k ih =>
      intro hk
      rcases k with _ | k
      · rw [hp0, one_mul, Nat.add_zero]
      · have e1 := h.eig j hj k (by omega)
        rw [tri_row h0 hd he (fun k => r.vecs.getD (j * N + k) 0) (show k < N by omega), if_pos hk, ih k (by omega) (by omega), ih (k - 1) (by omega) (by omega)] at e1
        have e2 := hx (r.vals.getD j 0) k
        refine mul_left_cancel₀ (hb k) ?_
        linear_combination e1 + r.vecs.getD (j * N) 0 * e2
  have hN : ∀ j < N, p N (r.vals.getD j 0) * r.vecs.getD (j * N) 0 = 0 := fun j hj => by
    have e1 := h.eig j hj (N - 1) (by omega)
    rw [tri_row h0 hd he (fun k => r.vecs.getD (j * N + k) 0) (show N - 1 < N by omega), if_neg (by omega), hv j hj (N - 1) (by omega), hv j hj (N - 1 - 1) (by omega)] at e1
    have e2 := hx (r.vals.getD j 0) (N - 1)
    rw [show N - 1 + 1 = N by omega] at e2
    refine mul_left_cancel₀ (show b N ≠ 0 by have := hb (N - 1); rwa [show N - 1 + 1 = N by omega] at this) ?_
    linear_combination -e1 - r.vecs.getD (j * N) 0 * e2
  -- the rows of the matrix of eigenvectors are orthonormal
  let M : Matrix (Fin N) (Fin N) ℝ := fun j k => r.vecs.getD (j * N + k) 0
  have hM : M * M.transpose = 1 := by
    ext i j
    rw [Matrix.mul_apply, Matrix.one_apply]
    have := h.orth i i.2 j j.2
    rw [← Fin.sum_univ_eq_sum_range (fun k => r.vecs.getD (i * N + k) 0 * r.vecs.getD (j * N + k) 0) N] at this
    simp only [M, Fin.ext_iff]
    exact this
  have hM' : M.transpose * M = 1 := mul_eq_one_comm.1 hM
  intro k hk l hl
  rcases Nat.lt_or_eq_of_le hl with hl' | rfl
  · have := congrFun (congrFun hM' ⟨k, hk⟩) ⟨l, hl'⟩
    rw [Matrix.mul_apply, Matrix.one_apply] at this
    simp only [Matrix.transpose_apply, Fin.mk.injEq] at this
    change ∑ x : Fin N, r.vecs.getD (x * N + k) 0 * r.vecs.getD (x * N + l) 0 = _ at this
    rw [Fin.sum_univ_eq_sum_range (fun j => r.vecs.getD (j * N + k) 0 * r.vecs.getD (j * N + l) 0) N] at this
    rw [← this]
    refine sum_congr rfl fun j hj => ?_
    have hj := mem_range.1 hj
    rw [hv j hj k hk, hv j hj l hl']
    ring
  · rw [if_neg (by omega)]
    refine sum_eq_zero fun j hj => ?_
    have := hN j (mem_range.1 hj)
    linear_combination (p k (r.vals.getD j 0) * r.vecs.getD (j * l) 0) * this

/-- The moments below twice the number of points agree with those of any functional in which the polynomials are orthonormal. -/
theorem moment_eq {N : Nat} {fam : C3.Poly.Fam ℝ} (hl : fam.c0 ≠ 0 ∧ fam.l1 ≠ 0 ∧ ∀ n, 2 ≤ n → fam.an n ≠ 0) {w x : Nat → ℝ}
    (ho : ∀ k < N, ∀ l ≤ N, ∑ j ∈ range N, w j * (fam.p k (x j) * fam.p l (x j)) = if k = l then 1 else 0) {m : Nat} (hm : m < 2 * N) :
    ∃ (α β : Nat → ℝ), (∀ t : ℝ, t ^ m = ∑ k ∈ range N, ∑ l ∈ range (N + 1), α k * β l * (fam.p k t * fam.p l t)) ∧
      ∑ j ∈ range N, w j * x j ^ m = ∑ k ∈ range N, ∑ l ∈ range (N + 1), α k * β l * (if k = l then 1 else 0) := by
  obtain ⟨α, hα⟩ := C3.Poly.exists_series hl.1 hl.2.1 hl.2.2 N (Polynomial.X ^ (min m (N - 1))) (by
    rw [Polynomial.degree_X_pow]; exact_mod_cast (show min m (N - 1) < N by omega))
  obtain ⟨β, hβ⟩ := C3.Poly.exists_series hl.1 hl.2.1 hl.2.2 (N + 1) (Polynomial.X ^ (m - min m (N - 1))) (by
    rw [Polynomial.degree_X_pow]; exact_mod_cast (show m - min m (N - 1) < N + 1 by omega))
  have ht : ∀ t : ℝ, t ^ m = ∑ k ∈ range N, ∑ l ∈ range (N + 1), α k * β l * (fam.p k t * fam.p l t) := fun t => by
    have h1 := hα t
    have h2 := hβ t
    rw [Polynomial.eval_pow, Polynomial.eval_X] at h1 h2
    rw [show t ^ m = t ^ (min m (N - 1)) * t ^ (m - min m (N - 1)) by rw [← pow_add]; congr 1; omega, h1, h2, sum_mul_sum]
    exact sum_congr rfl fun k _ => sum_congr rfl fun l _ => by ring
  refine ⟨α, β, ht, ?_⟩
  rw [sum_congr rfl fun j _ => by rw [ht (x j), mul_sum], sum_comm]
  refine sum_congr rfl fun k hk => ?_
  rw [sum_congr rfl fun j _ => by rw [mul_sum], sum_comm]
  refine sum_congr rfl fun l hl => ?_
  rw [← ho k (mem_range.1 hk) l (by have := mem_range.1 hl; omega), mul_sum]
  exact sum_congr rfl fun j _ => by ring

/-- The contract of the eigenvalue routine, for the sizes used. -/
def IsDstev (dstev : Nat → List ℝ → List ℝ → Eig) : Prop := ∀ N d e, d.length = N → e.length = N → IsEig N d e (dstev N d e)

theorem exists_dstev : ∃ dstev, IsDstev dstev :=
  ⟨fun N d e => Classical.choose (exists_eig N d e), fun N d e _ _ => Classical.choose_spec (exists_eig N d e)⟩

theorem gaussEig_ok {dstev : Nat → List ℝ → List ℝ → Eig} (h : IsDstev dstev) (off : Nat → ℝ) {N : Nat} {pts wts : List ℝ} (hp : pts.length = N) (hw : wts.length = N) :
    ∃ d e w, gaussEig dstev off N pts wts = .ok ((dstev N d e).vals, w) ∧ IsEig N d e (dstev N d e) ∧ (∀ i < N, d.getD i 0 = 0) ∧ (∀ i < N, e.getD i 0 = off i) ∧
      w.length = N ∧ ∀ j < N, w.getD j 0 = (dstev N d e).vecs.getD (j * N) 0 * (dstev N d e).vecs.getD (j * N) 0 := by
  obtain ⟨s, es, l1, l2, v1, v2⟩ := forN_spec (n := N) (s := (pts, List.replicate N (0 : ℝ)))
    (body := fun ii s => do
      let p ← wr s.1 ii 0
      let o ← wr s.2 ii (off ii)
      pure (p, o))
    (I := fun m s => s.1.length = N ∧ s.2.length = N ∧ (∀ i < m, s.1.getD i 0 = 0) ∧ ∀ i < m, s.2.getD i 0 = off i)
    ⟨hp, by simp, fun i hi => by omega, fun i hi => by omega⟩
    (by
      rintro m hm ⟨p, o⟩ ⟨l1, l2, v1, v2⟩
      dsimp only at l1 l2 v1 v2 ⊢
      refine ⟨(p.set m 0, o.set m (off m)), by rw [wr_ok _ (by omega), bind_ok, wr_ok _ (by omega), bind_ok]; rfl, by simpa using l1, by simpa using l2, fun i hi => ?_, fun i hi => ?_⟩
      · dsimp only
        rw [getD_set'' (by omega)]
        split
        · rfl
        · exact v1 i (by omega)
      · dsimp only
        rw [getD_set'' (by omega)]
        split
        · rename_i c; rw [c]
        · exact v2 i (by omega))
  have he := h N s.1 s.2 l1 l2
  obtain ⟨w, ew, lw, vw⟩ := forN_spec (n := N) (s := wts)
    (body := fun ii w => do
      let v ← rd (dstev N s.1 s.2).vecs (ii * N)
      let v' ← rd (dstev N s.1 s.2).vecs (ii * N)
      wr w ii (v * v'))
    (I := fun m w => w.length = N ∧ ∀ j < m, w.getD j 0 = (dstev N s.1 s.2).vecs.getD (j * N) 0 * (dstev N s.1 s.2).vecs.getD (j * N) 0)
    ⟨hw, fun i hi => by omega⟩
    (by
      rintro m hm w ⟨lw, vw⟩
      have hlt : m * N < (dstev N s.1 s.2).vecs.length := by rw [he.vecs]; exact Nat.mul_lt_mul_of_pos_right hm (by omega)
      refine ⟨w.set m ((dstev N s.1 s.2).vecs.getD (m * N) 0 * (dstev N s.1 s.2).vecs.getD (m * N) 0), by rw [rd_getD 0 hlt, bind_ok, bind_ok, wr_ok _ (by omega)],
        by simpa using lw, fun j hj => ?_⟩
      rw [getD_set'' (by omega)]
      split
      · rename_i c; rw [c]
      · exact vw j (by omega))
  refine ⟨s.1, s.2, w, ?_, he, v1, v2, lw, vw⟩
  rw [gaussEig, es, bind_ok]
  dsimp only
  rw [if_neg (by rw [he.info]; simp), ew, bind_ok]
  rfl

/-- C78: the Gauss-Hermite rule integrates all polynomials of degree below twice the number of points exactly against the normal density. -/
theorem gaussHermite_exact {dstev : Nat → List ℝ → List ℝ → Eig} (h : IsDstev dstev) {N : Nat} {pts wts : List ℝ} (hp : pts.length = N) (hw : wts.length = N) :
    ∃ p w, gaussHermite dstev N pts wts = .ok (p, w) ∧ IsGaussHerm N ⟨p, w⟩ ∧ ∀ v ∈ w, 0 ≤ v := by
  obtain ⟨d, e, w, eq, he, hd, hoff, lw, vw⟩ := gaussEig_ok h (fun ii => √((ii + 1 : Nat) : ℝ)) hp hw
  have ho := golub (p := (hermFam 0).p) (b := fun n => √(n : ℝ)) (by simp) (fun n => (Real.sqrt_pos.2 (by positivity)).ne') (fun x => by simp [hermFam])
    (fun x n => C3.Poly.herm_x 0 x n) hd hoff he
  refine ⟨_, w, eq, ⟨he.vals, lw, fun m hm => ?_⟩, fun v hv => ?_⟩
  · obtain ⟨α, β, ht, hs⟩ := moment_eq (C3.Poly.hermFam_lead 0) ho hm
    rw [sum_congr rfl fun j hj => by rw [show (⟨(dstev N d e).vals, w⟩ : Rule ℝ).wts.getD j 0 = _ from vw j (mem_range.1 hj)]]
    refine hs.trans ?_
    simp only [ht, sum_mul]
    have hint : ∀ k l, Integrable fun x => α k * β l * ((hermFam 0).p k x * (hermFam 0).p l x) * phi x := fun k l => by
      have := ((C3.Poly.isPoly_p (hermFam 0) k).mul (C3.Poly.isPoly_p (hermFam 0) l)).integrable.const_mul (α k * β l)
      simpa only [mul_assoc] using this
    rw [integral_finsetSum _ fun k _ => integrable_finsetSum _ fun l _ => hint k l]
    refine sum_congr rfl fun k _ => ?_
    rw [integral_finsetSum _ fun l _ => hint k l]
    refine sum_congr rfl fun l _ => ?_
    rw [← C3.Poly.herm_orthonormal 0 k l, ← integral_const_mul]
    exact integral_congr_ae (ae_of_all _ fun x => by ring)
  · obtain ⟨i, hi, rfl⟩ := List.getElem_of_mem hv
    have := vw i (by omega)
    rw [List.getD_eq_getElem?_getD, List.getElem?_eq_getElem hi, Option.getD_some] at this
    rw [this]; exact mul_self_nonneg _

/-- The rule computed from the recurrence of the Legendre polynomials. -/
theorem legEig_gauss {dstev : Nat → List ℝ → List ℝ → Eig} (h : IsDstev dstev) {N : Nat} {pts wts : List ℝ} (hp : pts.length = N) (hw : wts.length = N) :
    ∃ p w, gaussEig dstev (fun ii => ((ii : ℝ) + 1) / √((2 * ((ii : ℝ) + 1) + 1) * (2 * ((ii : ℝ) + 1) - 1))) N pts wts = .ok (p, w) ∧ IsGaussLeg N ⟨p, w⟩ := by
  obtain ⟨d, e, w, eq, he, hd, hoff, lw, vw⟩ := gaussEig_ok h (fun ii => ((ii : ℝ) + 1) / √((2 * ((ii : ℝ) + 1) + 1) * (2 * ((ii : ℝ) + 1) - 1))) hp hw
  have ho := golub (p := legFam.p) (b := alpha) C3.Poly.alpha_zero (fun n => (C3.Poly.alpha_pos n).ne') (fun x => by simp [legFam])
    (fun x n => C3.Poly.leg_x x n) hd (fun i hi => by
      rw [hoff i hi, alpha]
      push_cast
      congr 2
      ring) he
  refine ⟨_, w, eq, ⟨he.vals, lw, fun m hm => ?_⟩⟩
  obtain ⟨α, β, ht, hs⟩ := moment_eq C3.Poly.legFam_lead ho hm
  rw [sum_congr rfl fun j hj => by rw [show (⟨(dstev N d e).vals, w⟩ : Rule ℝ).wts.getD j 0 = _ from vw j (mem_range.1 hj)]]
  refine hs.trans ?_
  simp only [ht]
  have hc : ∀ k l, Continuous fun x => α k * β l * (legFam.p k x * legFam.p l x) := fun k l =>
    ((C3.Poly.p_continuous legFam k).mul (C3.Poly.p_continuous legFam l)).const_mul _
  rw [intervalIntegral.integral_finsetSum fun k _ => (continuous_finset_sum _ fun l _ => hc k l).intervalIntegrable _ _, mul_sum]
  refine sum_congr rfl fun k _ => ?_
  rw [intervalIntegral.integral_finsetSum fun l _ => (hc k l).intervalIntegrable _ _, mul_sum]
  refine sum_congr rfl fun l _ => ?_
  rw [← C3.Poly.leg_orthonormal k l, intervalIntegral.integral_const_mul]
  ring

/-- C78: the Gauss-Legendre rule with at least 200 points integrates all polynomials of degree below twice the number of points exactly; with fewer points it is the rule of the table. -/
theorem gaussLegendre_exact {dstev : Nat → List ℝ → List ℝ → Eig} (h : IsDstev dstev) {tab : Nat → List ℝ × List ℝ}
    (htab : ∀ n, 2 ≤ n → n < 200 → IsGaussLeg n ⟨(tab n).1, (tab n).2⟩) {N : Nat} (hN : 1 ≤ N) {pts wts : List ℝ} (hp : pts.length = N) (hw : wts.length = N) :
    ∃ p w, gaussLegendre dstev tab N pts wts = .ok (p, w) ∧ IsGaussLeg N ⟨p, w⟩ := by
  rw [gaussLegendre]
  by_cases c1 : N = 1
  · subst c1
    match pts, hp, wts, hw with
    | [_], _, [_], _ => exact ⟨[0], [1], by simp [wr], C3.Poly.isGaussLeg_one⟩
  · rw [if_neg c1]
    by_cases c2 : N < 200
    · rw [if_pos c2, if_neg (by omega)]
      exact ⟨_, _, rfl, htab N (by omega) c2⟩
    · rw [if_neg c2]
      exact legEig_gauss h hp hw

/-- A Gauss rule with any number of points exists. -/
theorem exists_gaussLeg (N : Nat) : ∃ r, IsGaussLeg N r := by
  obtain ⟨dstev, h⟩ := exists_dstev
  obtain ⟨p, w, _, hr⟩ := legEig_gauss h (N := N) (pts := List.replicate N 0) (wts := List.replicate N 0) (by simp) (by simp)
  exact ⟨_, hr⟩

theorem exists_gaussHerm (N : Nat) : ∃ r, IsGaussHerm N r := by
  obtain ⟨dstev, h⟩ := exists_dstev
  obtain ⟨p, w, _, hr, _⟩ := gaussHermite_exact h (N := N) (pts := List.replicate N 0) (wts := List.replicate N 0) (by simp) (by simp)
  exact ⟨_, hr⟩

/-- C78: the points of a Gauss rule are distinct and inside the interval, its weights are positive. -/
theorem gaussLeg_inside {n : Nat} {r : Rule ℝ} (h : IsGaussLeg n r) {j : Nat} (hj : j < n) :
    0 < r.wts.getD j 0 ∧ -1 < r.pts.getD j 0 ∧ r.pts.getD j 0 < 1 ∧ ∀ i < n, i ≠ j → r.pts.getD i 0 ≠ r.pts.getD j 0 := by
  let q : Polynomial ℝ := ∏ i ∈ (range n).erase j, (Polynomial.X - Polynomial.C (r.pts.getD i 0))
  have hq0 : q ≠ 0 := prod_ne_zero_iff.2 fun i _ => Polynomial.X_sub_C_ne_zero _
  have hdeg : q.natDegree = n - 1 := by
    rw [Polynomial.natDegree_prod _ _ fun i _ => Polynomial.X_sub_C_ne_zero _]
    simp [card_erase_of_mem (mem_range.2 hj)]
  have hroot : ∀ i < n, i ≠ j → q.eval (r.pts.getD i 0) = 0 := fun i hi hij => by
    rw [Polynomial.eval_prod]
    exact prod_eq_zero (mem_erase.2 ⟨hij, mem_range.2 hi⟩) (by simp)
  -- integrals of a square times something positive inside
  have key : ∀ g : Polynomial ℝ, g.natDegree ≤ 1 → (∀ x ∈ Set.Ioo (-1 : ℝ) 1, 0 < g.eval x) → (∀ x ∈ Set.Icc (-1 : ℝ) 1, 0 ≤ g.eval x) →
      0 < r.wts.getD j 0 * (g.eval (r.pts.getD j 0) * q.eval (r.pts.getD j 0) ^ 2) := fun g hg hpos hnn => by
    have e := h.exact (g * q ^ 2) (by
      refine lt_of_le_of_lt (Polynomial.natDegree_mul_le.trans (Nat.add_le_add hg Polynomial.natDegree_pow_le)) ?_
      rw [hdeg]; omega)
    rw [sum_eq_single j (fun i hi hij => by rw [Polynomial.eval_mul, Polynomial.eval_pow, hroot i (mem_range.1 hi) hij]; simp) (fun hc => absurd (mem_range.2 hj) hc)] at e
    rw [← Polynomial.eval_pow, ← Polynomial.eval_mul, e]
    obtain ⟨c, hc, hqc⟩ : ∃ c ∈ Set.Ioo (-1 : ℝ) 1, q.eval c ≠ 0 := by
      by_contra hno
      push Not at hno
      exact hq0 (Polynomial.eq_zero_of_infinite_isRoot q ((Set.Ioo_infinite (show (-1 : ℝ) < 1 by norm_num)).mono fun x hx => hno x hx))
    refine mul_pos (by norm_num) (intervalIntegral.integral_pos (by norm_num) (Polynomial.continuous _).continuousOn (fun x hx => ?_) ⟨c, ⟨hc.1.le, hc.2.le⟩, ?_⟩)
    · rw [Polynomial.eval_mul, Polynomial.eval_pow]
      exact mul_nonneg (hnn x ⟨hx.1.le, hx.2⟩) (sq_nonneg _)
    · rw [Polynomial.eval_mul, Polynomial.eval_pow]
      exact mul_pos (hpos c hc) (by positivity)
  have k1 := key 1 (by simp) (by simp) (by simp)
  have k2 := key (1 - Polynomial.X) (by
    refine (Polynomial.natDegree_sub_le _ _).trans (by simp)) (fun x hx => by simpa using hx.2) (fun x hx => by simpa using hx.2)
  have k3 := key (1 + Polynomial.X) (by
    refine (Polynomial.natDegree_add_le _ _).trans (by simp)) (fun x hx => by simp; linarith [hx.1]) (fun x hx => by simp; linarith [hx.1])
  simp only [Polynomial.eval_one, one_mul, Polynomial.eval_sub, Polynomial.eval_add, Polynomial.eval_X] at k1 k2 k3
  have hw : 0 < r.wts.getD j 0 := by
    by_contra hc
    have := mul_nonneg (neg_nonneg.2 (not_lt.1 hc)) (sq_nonneg (q.eval (r.pts.getD j 0)))
    linarith
  have hq2 : 0 < q.eval (r.pts.getD j 0) ^ 2 := (mul_pos_iff_of_pos_left hw).1 k1
  rw [mul_pos_iff_of_pos_left hw, mul_pos_iff_of_pos_right hq2] at k2 k3
  refine ⟨hw, by linarith, by linarith, fun i hi hij he => ?_⟩
  have := hroot i hi hij
  rw [he] at this
  rw [this] at hq2
  norm_num at hq2

end C3.Quad
