import Verif.Poly.RootsLemmas
import Verif.Poly.IntProps
import Mathlib.LinearAlgebra.Matrix.Charpoly.Coeff

/-! C119: real roots of expansions. -/

namespace C3.Poly
open Finset Real

/-! ### Specification -/

/-- The matrix in a buffer, column after column. -/
def bufMat (N : Nat) (b : List ℝ) : Matrix (Fin N) (Fin N) ℂ := Matrix.of fun i j => ((b.getD ((i : Nat) + j * N) 0 : ℝ) : ℂ)

/-- LAPACK: for an upper Hessenberg matrix the routine returns real and imaginary parts of the eigenvalues. -/
def IsEig (eig : Nat → List ℝ → C (List (ℝ × ℝ))) : Prop :=
  ∀ N b, b.length = N * N → (∀ i < N, ∀ j < N, j + 1 < i → b.getD (i + j * N) 0 = 0) →
    ∃ l, eig N b = .ok l ∧ ∀ z : ℂ, (z.re, z.im) ∈ l ↔ Matrix.det (z • (1 : Matrix (Fin N) (Fin N) ℂ) - bufMat N b) = 0

/-- What a list of real roots of the function of an expansion has to be, with tolerances for the imaginary part and the distance. -/
structure RootList (p : Ope ℝ) (ti tol : ℝ) (l : List ℝ) : Prop where
  sorted : l.Pairwise (· ≤ ·)
  inside : ∀ y ∈ l, p.lb ≤ y ∧ y ≤ p.ub
  kept : (∃ x, p.val x ≠ 0) → ∀ q : Polynomial ℝ, (∀ x, q.eval x = p.val x) → ∀ z : ℂ, Polynomial.aeval z q = 0 → |z.im| < ti → p.lb ≤ z.re →
    z.re ≤ p.ub → z.re ∈ l
  sound : ∀ q : Polynomial ℝ, (∀ x, q.eval x = p.val x) → ∀ y ∈ l, ∃ z : ℂ, Polynomial.aeval z q = 0 ∧ |z.im| < ti ∧ |z.re - y| ≤ tol

/-- Coefficients that rounding with the threshold does not remove. -/
def Sharp (thr : ℝ) (f : Ope ℝ) : Prop := ∀ k, f.cf k = 0 ∨ thr < |f.cf k| ∧ ∀ j, thr * (f.num * |f.cf j|) ≤ |f.cf k|

/-- For a linear function (coefficients `c0`, `c1`): zero, or the scale of the first polynomial is one and the root is not within
the threshold of the right end. -/
def LinOk (s : Nat → ℝ) (thr : ℝ) (f : Ope ℝ) : Prop :=
  (∀ k, 2 ≤ k → f.cf k = 0) → f.cf 1 ≠ 0 → f.cf 0 = 0 ∨ s 1 = 1 ∧ ¬ (1 - thr < -f.cf 0 / f.cf 1 ∧ -f.cf 0 / f.cf 1 ≤ 1)

/-! ### The matrices -/

/-- Polynomials with `x u_n = al_n u_(n+1) + ga_n u_(n-1)`. -/
noncomputable def uPoly (al ga : Nat → ℝ) : Nat → Polynomial ℝ
  | 0 => 1
  | 1 => .X
  | n + 2 => .C (1 / al (n + 1)) * (.X * uPoly al ga (n + 1) - .C (ga (n + 1)) * uPoly al ga n)

theorem uPoly_rec {al ga : Nat → ℝ} (ha : ∀ n, al n ≠ 0) (n : Nat) :
    .X * uPoly al ga (n + 1) = .C (al (n + 1)) * uPoly al ga (n + 2) + .C (ga (n + 1)) * uPoly al ga n := by
  rw [uPoly, ← mul_assoc, ← Polynomial.C_mul, mul_one_div_cancel (ha _), Polynomial.C_1]; ring

/-- A family whose members are multiples of such polynomials. -/
structure Colleague (fam : Fam ℝ) (al ga s : Nat → ℝ) : Prop where
  a0 : al 0 = 1
  ha : ∀ n, al n ≠ 0
  hs : ∀ n, s n ≠ 0
  s0 : s 0 = 1
  p : ∀ k t, fam.p k t = s k * (uPoly al ga k).eval t
  lower : fam.lower = -1
  upper : fam.upper = 1

/-- The matrix a routine builds is the companion matrix. -/
def CompOk (comp : Ope ℝ → Nat → C (List ℝ)) (fam : Fam ℝ) (al ga s : Nat → ℝ) : Prop :=
  ∀ p : Ope ℝ, p.fam = fam → ∀ N, 2 ≤ N → N < p.coeff.length → p.coeff.getD N 0 ≠ 0 →
    ∃ b, comp p N = .ok b ∧ Has N b (cmpE N al ga fun i => p.coeff.getD i 0 * s i / (p.coeff.getD N 0 * s N))

theorem colleague_cheb : Colleague (chebFam π) (fun n => if n = 0 then 1 else 1 / 2) (fun _ => 1 / 2) (fun _ => 1) := by
  refine ⟨if_pos rfl, fun n => by show (if n = 0 then (1 : ℝ) else 1 / 2) ≠ 0; split <;> norm_num, fun _ => one_ne_zero, rfl, fun k t => ?_, rfl, rfl⟩
  rw [one_mul]
  induction k using Nat.strong_induction_on with
  | _ k ih =>
    match k, ih with
    | 0, _ => simp [Fam.p, chebFam, uPoly]
    | 1, _ => simp [Fam.p, chebFam, uPoly]
    | k + 2, ih =>
      have i1 := ih k (by omega)
      have i2 := ih (k + 1) (by omega)
      rw [uPoly, Polynomial.eval_mul, Polynomial.eval_sub, Polynomial.eval_mul, Polynomial.eval_mul, ← i1, ← i2, Polynomial.eval_C, Polynomial.eval_C,
        Polynomial.eval_X, if_neg (by omega)]
      show (2 * t + 0) * (chebFam π).p (k + 1) t + -1 * (chebFam π).p k t = _
      ring

theorem colleague_leg : Colleague legFam (fun n => (n + 1) / (2 * n + 1)) (fun n => n / (2 * n + 1)) (fun n => √(2 * n + 1)) := by
  refine ⟨by norm_num, fun n => by positivity, fun n => by positivity, by norm_num, fun k t => ?_, rfl, rfl⟩
  rw [leg_p]
  congr 1
  induction k using Nat.strong_induction_on with
  | _ k ih =>
    match k, ih with
    | 0, _ => simp [Lg, uPoly]
    | 1, _ => simp [Lg, uPoly]
    | k + 2, ih =>
      have i1 := ih k (by omega)
      have i2 := ih (k + 1) (by omega)
      rw [uPoly, Polynomial.eval_mul, Polynomial.eval_sub, Polynomial.eval_mul, Polynomial.eval_mul, ← i1, ← i2, Polynomial.eval_C, Polynomial.eval_C,
        Polynomial.eval_X]
      have := Lg_rec k t
      have hk : (k : ℝ) + 2 ≠ 0 := by positivity
      have hk2 : (2 * ((k : ℝ) + 1) + 1) ≠ 0 := by positivity
      push_cast
      field_simp
      linear_combination this

theorem comp_cheb {eps : ℝ} (he : 0 < eps) : CompOk (chebComp eps) (chebFam π) (fun n => if n = 0 then 1 else 1 / 2) (fun _ => 1 / 2) (fun _ => 1) := by
  intro p hp N hN hl hc
  have rdc : ∀ k, k ≤ N → rd p.coeff k = .ok (p.coeff.getD k 0) := fun k hk => by
    rw [rd_of_getElem? (List.getElem?_eq_getElem (by omega)), List.getD_eq_getElem?_getD, List.getElem?_eq_getElem (show k < p.coeff.length by omega)]; rfl
  obtain ⟨b, eb, hb⟩ := nsComp_ok hN (bn := p.fam.bn) (eps := eps) (lo := fun _ => (1 / 2 : ℝ)) (hi := fun _ => 1 / 2) (last := chebLast N p.coeff) (g := 1 / 2)
    (lam := fun i => -(1 / 2 * p.coeff.getD i 0 / p.coeff.getD N 0)) (fun k => by rw [hp]; show |(0 : ℝ)| < eps; rw [abs_zero]; exact he)
    (fun k hk => by rw [chebLast, rdc k (by omega), bind_ok, rdc N le_rfl, bind_ok, Lin.dv_ok hc, bind_ok]; rfl)
  refine ⟨b, eb, hb.congr fun i hi j hj => ?_⟩
  rw [cmpE]
  dsimp only
  rw [sub_eq_add_neg]
  congr 1
  · congr 1
    split <;> [skip; rfl]
    split <;> rfl
  · split
    · rw [if_neg (by omega)]; ring
    · rw [neg_zero]

theorem comp_leg {eps : ℝ} (he : 0 < eps) :
    CompOk (legComp Real.sqrt eps) legFam (fun n => (n + 1) / (2 * n + 1)) (fun n => n / (2 * n + 1)) (fun n => √(2 * n + 1)) := by
  intro p hp N hN hl hc
  have rdc : ∀ k, k ≤ N → rd p.coeff k = .ok (p.coeff.getD k 0) := fun k hk => by
    rw [rd_of_getElem? (List.getElem?_eq_getElem (by omega)), List.getD_eq_getElem?_getD, List.getElem?_eq_getElem (show k < p.coeff.length by omega)]; rfl
  have hN2 : (2 : ℝ) ≤ N := by exact_mod_cast hN
  have h1 : (2 * (N : ℝ) - 1) ≠ 0 := by linarith
  have hsN : √((2 * N + 1 : Nat) : ℝ) ≠ 0 := (Real.sqrt_pos.2 (by positivity)).ne'
  obtain ⟨b, eb, hb⟩ := nsComp_ok hN (bn := p.fam.bn) (eps := eps) (lo := fun ii : Nat => (ii : ℝ) / (2 * ii + 1)) (hi := fun ii : Nat => ((ii : ℝ) + 1) / (2 * ii + 1))
    (last := legLast Real.sqrt N p.coeff) (g := ((N - 1 : Nat) : ℝ) / (2 * ((N - 1 : Nat) : ℝ) + 1))
    (lam := fun i => -(N : ℝ) / (2 * N - 1) * (p.coeff.getD i 0 * √(2 * i + 1) / (p.coeff.getD N 0 * √(2 * N + 1))))
    (fun k => by rw [hp]; show |(0 : ℝ)| < eps; rw [abs_zero]; exact he)
    (fun k hk => by
      rw [legLast, Lin.dv_ok h1, bind_ok, rdc k (by omega), bind_ok, rdc N le_rfl, bind_ok]
      by_cases h0 : k = 0
      · rw [if_pos h0, Lin.dv_ok (mul_ne_zero hc hsN), h0]
        push_cast
        congr 1
        rw [show (2 * (0 : ℝ) + 1) = 1 by norm_num, Real.sqrt_one]
        ring
      · rw [if_neg h0, Lin.dv_ok hc, bind_ok, Lin.dv_ok hsN]
        push_cast
        congr 1
        rw [div_div]
        ring)
  refine ⟨b, eb, hb.congr fun i hi j hj => ?_⟩
  rw [cmpE]
  dsimp only
  rw [sub_eq_add_neg]
  congr 1
  · congr 1
    · by_cases h : i = j + 1
      · rw [if_pos h, if_pos h]
        split
        · rename_i hh; rw [hh]; norm_num
        · rfl
      · rw [if_neg h, if_neg h]
    · by_cases h : i + 1 = j
      · rw [if_pos h, if_pos h]
        split
        · rename_i hh; rw [hh]
        · rfl
      · rw [if_neg h, if_neg h]
  · split
    · have e1 : ((N - 1 : Nat) : ℝ) = N - 1 := by push_cast [show 1 ≤ N by omega]; ring
      rw [e1, show (2 * ((N : ℝ) - 1) + 1) = 2 * N - 1 by ring]; ring
    · rw [neg_zero]

/-! ### The list of roots -/

/-- The series as a polynomial. -/
noncomputable def serPoly (al ga s : Nat → ℝ) (p : Ope ℝ) : Polynomial ℝ := ∑ k ∈ range p.num, .C (p.coeff.getD k 0 * s k) * uPoly al ga k

theorem serPoly_eval {fam : Fam ℝ} {al ga s : Nat → ℝ} (h : Colleague fam al ga s) {p : Ope ℝ} (hp : p.fam = fam) (t : ℝ) :
    (serPoly al ga s p).eval t = p.ser t := by
  rw [serPoly, Polynomial.eval_finsetSum, Ope.ser]
  refine sum_congr rfl fun k _ => ?_
  rw [Polynomial.eval_mul, Polynomial.eval_C, hp, h.p]; ring

/-- Eigenvalues of the matrix are the complex zeros of the series. -/
theorem eig_iff {fam : Fam ℝ} {al ga s : Nat → ℝ} (h : Colleague fam al ga s) {p : Ope ℝ} {N : Nat} (hN : 2 ≤ N) (hn : p.num = N + 1) (hc : p.coeff.getD N 0 ≠ 0)
    {b : List ℝ} (hb : Has N b (cmpE N al ga fun i => p.coeff.getD i 0 * s i / (p.coeff.getD N 0 * s N))) (z : ℂ) :
    Matrix.det (z • (1 : Matrix (Fin N) (Fin N) ℂ) - bufMat N b) = 0 ↔ Polynomial.aeval z (serPoly al ga s p) = 0 := by
  have e1 : bufMat N b = Matrix.of fun i j : Fin N => cmpE N (fun n => (al n : ℂ)) (fun n => (ga n : ℂ))
      (fun i => ((p.coeff.getD i 0 * s i / (p.coeff.getD N 0 * s N) : ℝ) : ℂ)) i j := by
    ext i j
    rw [bufMat, Matrix.of_apply, Matrix.of_apply, hb.2 i i.2 j j.2, cmpE, cmpE]
    split_ifs <;> push_cast <;> rfl
  rw [e1, comrade hN _ _ _ (fun n => Polynomial.aeval z (uPoly al ga n)) z (by simp [uPoly]) (by rw [h.a0]; rfl) (by simp [uPoly])
    (fun n => by
      have := congrArg (Polynomial.aeval z) (uPoly_rec (ga := ga) h.ha n)
      simpa using this) (fun n => by exact_mod_cast h.ha n)]
  have hcs : ((p.coeff.getD N 0 : ℝ) : ℂ) * s N ≠ 0 := by exact_mod_cast mul_ne_zero hc (h.hs N)
  have e2 : Polynomial.aeval z (serPoly al ga s p) = (((p.coeff.getD N 0 : ℝ) : ℂ) * s N) * (Polynomial.aeval z (uPoly al ga N) +
      ∑ i ∈ range N, ((p.coeff.getD i 0 * s i / (p.coeff.getD N 0 * s N) : ℝ) : ℂ) * Polynomial.aeval z (uPoly al ga i)) := by
    rw [serPoly, map_sum, hn, sum_range_succ, mul_add, mul_sum, add_comm]
    congr 1
    · simp
    · refine sum_congr rfl fun i _ => ?_
      rw [← mul_assoc]
      push_cast
      rw [mul_div_cancel₀ _ hcs]
      simp
  rw [e2, mul_eq_zero, or_iff_right hcs]

theorem mem_keepRoots {ti td : ℝ} {l : List (ℝ × ℝ)} {t : ℝ} : t ∈ keepRoots ti td l ↔
    ∃ a c, (a, c) ∈ l ∧ |c| < ti ∧ -1 - td < a ∧ a < 1 + td ∧ clampTo (-1) 1 a = t := by
  rw [keepRoots, List.mem_filterMap]
  constructor
  · rintro ⟨⟨a, c⟩, h1, h2⟩
    dsimp only at h2
    split at h2
    · rename_i h3
      exact ⟨a, c, h1, h3.1, h3.2.1, h3.2.2, Option.some.inj h2⟩
    · cases h2
  · rintro ⟨a, c, h1, h2, h3, h4, h5⟩
    exact ⟨(a, c), h1, by dsimp only; rw [if_pos ⟨h2, h3, h4⟩, h5]⟩

theorem clampTo_mem {a : ℝ} : -1 ≤ clampTo (-1) 1 a ∧ clampTo (-1) 1 a ≤ 1 := by
  unfold clampTo
  split
  · exact ⟨le_rfl, by norm_num⟩
  · split
    · exact ⟨by norm_num, le_rfl⟩
    · rename_i h1 h2; exact ⟨not_lt.1 h1, not_lt.1 h2⟩

theorem clampTo_near {a d : ℝ} (hd : 0 ≤ d) (h1 : -1 - d ≤ a) (h2 : a ≤ 1 + d) : |a - clampTo (-1) 1 a| ≤ d := by
  unfold clampTo
  split
  · rename_i h; rw [abs_le]; constructor <;> linarith
  · split
    · rename_i h; rw [abs_le]; constructor <;> linarith
    · rw [sub_self, abs_zero]; exact hd

theorem clampTo_id {a : ℝ} (h1 : -1 ≤ a) (h2 : a ≤ 1) : clampTo (-1) 1 a = a := by
  rw [clampTo, if_neg (not_lt.2 h1), if_neg (not_lt.2 h2)]

theorem Rounded.sharp {thr : ℝ} {f r : Ope ℝ} (h : Rounded thr f r) (ht : 0 ≤ thr) (hs : Sharp thr f) : (∀ k, r.cf k = f.cf k) ∧ Sharp thr r := by
  have e : ∀ k, r.cf k = f.cf k := fun k => by
    rcases h.cf k with h1 | ⟨h1, h2⟩
    · exact h1
    · rcases hs k with h3 | ⟨h3, h4⟩
      · rw [h1, h3]
      · rcases h2 with h2 | ⟨j, -, h2⟩
        · exact absurd h2 (not_lt.2 h3.le)
        · exact absurd h2 (not_lt.2 (h4 j))
  refine ⟨e, fun k => ?_⟩
  rw [e]
  rcases hs k with h3 | ⟨h3, h4⟩
  · exact Or.inl h3
  · refine Or.inr ⟨h3, fun j => le_trans ?_ (h4 j)⟩
    rw [e]
    have : (r.num : ℝ) ≤ f.num := by exact_mod_cast h.le
    gcongr

/-- C119: the list of roots for a family with its companion matrix. -/
theorem famRoots_spec {fam : Fam ℝ} {al ga s : Nat → ℝ} (h : Colleague fam al ga s) {comp : Ope ℝ → Nat → C (List ℝ)} (hcomp : CompOk comp fam al ga s)
    {eig : Nat → List ℝ → C (List (ℝ × ℝ))} (he : IsEig eig) {thr ti td : ℝ} (ht : 0 < thr) (ht1 : thr ≤ 1) (hti : 0 < ti) (htd : 0 < td) {p : Ope ℝ} (hw : p.WF)
    (hp : p.fam = fam) (hd : OnInt p) (hs : Sharp thr p) (hl : LinOk s thr p) (hz : p.num ≤ 2 ∨ ∃ k, p.cf k ≠ 0) :
    ∃ l, famRoots thr ti td comp eig p = .ok l ∧ RootList p (ti * ((p.ub - p.lb) / 2)) (max thr td * ((p.ub - p.lb) / 2)) l := by
  set m := (p.ub - p.lb) / 2 with hm
  have hlt := hd.lt
  have hm0 : 0 < m := by rw [hm]; linarith
  have hsl : p.map.slope * m = 1 := by
    rw [hd.slope, hm]; field_simp [sub_ne_zero.2 hlt.ne']
  have hsp : 0 < p.map.slope := by rw [hd.slope]; exact div_pos two_pos (by linarith)
  have hhi := hd.hi
  have hoff : p.map.off = 1 - p.map.slope * p.ub := by linarith
  have hmap : ∀ t, p.map.slope * (t * m + (p.ub - m * 1)) + p.map.off = t := fun t => by
    rw [hoff]; linear_combination (t - 1) * hsl
  have hinv : ∀ y, (p.map.slope * y + p.map.off) * m + (p.ub - m * 1) = y := fun y => by
    rw [hoff]; linear_combination (y - p.ub) * hsl
  have hin : ∀ t, -1 ≤ t → t ≤ 1 → p.lb ≤ t * m + (p.ub - m * 1) ∧ t * m + (p.ub - m * 1) ≤ p.ub := fun t h1 h2 => by
    have : p.ub - p.lb = 2 * m := by rw [hm]; ring
    constructor <;> nlinarith
  have hqS : ∀ S : Polynomial ℝ, (∀ t, S.eval t = p.ser t) → ∀ q : Polynomial ℝ, (∀ x, q.eval x = p.val x) → ∀ z : ℂ,
      Polynomial.aeval z q = Polynomial.aeval ((p.map.slope : ℂ) * z + p.map.off) S := fun S hS q hq z => by
    have e : q = S.comp (.C p.map.slope * .X + .C p.map.off) := Polynomial.funext fun x => by
      rw [hq, Ope.val_ser, ← hS, Polynomial.eval_comp]; simp
    rw [e, Polynomial.aeval_comp]; simp
  have him : ∀ z : ℂ, ((p.map.slope : ℂ) * z + p.map.off).re = p.map.slope * z.re + p.map.off ∧ ((p.map.slope : ℂ) * z + p.map.off).im = p.map.slope * z.im := fun z => by
    constructor <;> simp
  have hback : ∀ w : ℂ, (p.map.slope : ℂ) * ((m : ℂ) * w + ((p.ub - m * 1 : ℝ) : ℂ)) + p.map.off = w := fun w => by
    have e1 : (p.map.slope : ℂ) * m = 1 := by exact_mod_cast hsl
    have e2 : (p.map.off : ℂ) = 1 - p.map.slope * p.ub := by exact_mod_cast hoff
    rw [e2]; push_cast; linear_combination (w - 1) * e1
  obtain ⟨r, er, hr, hr3⟩ := round_ok (thr := thr) hw.pos (hw.num_le.trans hw.alloc_le)
  obtain ⟨rc, rs⟩ := hr.sharp ht.le hs
  have rw' := hr.wf hw
  have rf : r.fam = fam := by rw [hr.fam, hp]
  have rser : ∀ t, r.ser t = p.ser t := fun t => by
    have := val_congr hr.fam hr.map rc (t * m + (p.ub - m * 1))
    rw [Ope.val_ser, Ope.val_ser, hr.map, hmap] at this
    exact this
  have start : famRoots thr ti td comp eig p = (if r.num - 1 = 0 then pure []
      else if r.num - 1 = 1 then do
        let c1 ← rd r.coeff 1
        if |c1| ≤ thr then pure []
        else do
          let c0 ← rd r.coeff 0
          let root ← Lin.dv (-c0) c1
          if -1 - thr ≤ root ∧ root ≤ 1 - thr then pure [m * clampTo (-1) 1 root + (p.ub - m * 1)]
          else pure []
      else do
        let b ← comp r (r.num - 1)
        let l ← eig (r.num - 1) b
        pure (((keepRoots ti td l).map fun r => r * m + (p.ub - m * 1)).insertionSort (· ≤ ·))) := by
    rw [famRoots, hp, h.lower, h.upper, show (1 : ℝ) - -1 = 2 by norm_num, Lin.dv_ok two_ne_zero, bind_ok]
    dsimp only
    rw [er, bind_ok]
  have hcf : ∀ k, r.num ≤ k → p.cf k = 0 := fun k hk => by rw [← rc]; exact cf_ge hk
  have hpos := hr.pos
  by_cases n0 : r.num - 1 = 0
  · -- constant
    refine ⟨[], by rw [start, if_pos n0]; rfl, List.Pairwise.nil, fun y hy => by simp at hy, ?_, fun q _ y hy => by simp at hy⟩
    rintro ⟨x, hx⟩ q hq z hz0 - - -
    exfalso
    have hr1 : r.num = 1 := by omega
    have hv : ∀ y, p.val y = r.coeff.getD 0 0 := fun y => by
      rw [Ope.val_ser, ← rser, Ope.ser, hr1, sum_range_one, rf, h.p]; simp [uPoly, h.s0]
    have e : q = .C (r.coeff.getD 0 0) := Polynomial.funext fun y => by rw [hq, hv, Polynomial.eval_C]
    rw [e, Polynomial.aeval_C] at hz0
    have : r.coeff.getD 0 0 = 0 := by
      have : ((r.coeff.getD 0 0 : ℝ) : ℂ) = 0 := hz0
      exact_mod_cast this
    exact hx (by rw [hv, this])
  · by_cases n1 : r.num - 1 = 1
    · -- linear
      have hr2 : r.num = 2 := by omega
      have hc0 : r.coeff.getD 0 0 = p.cf 0 := by rw [← rc, cf_lt (by omega)]
      have hc1 : r.coeff.getD 1 0 = p.cf 1 := by rw [← rc, cf_lt (by omega)]
      have hser : ∀ t, p.ser t = p.cf 0 + p.cf 1 * s 1 * t := fun t => by
        rw [← rser, Ope.ser, hr2, sum_range_succ, sum_range_one, rf, h.p, h.p, hc0, hc1]; simp [uPoly, h.s0]; ring
      have hq : ∀ q : Polynomial ℝ, (∀ x, q.eval x = p.val x) → ∀ z : ℂ, Polynomial.aeval z q = p.cf 0 + p.cf 1 * s 1 * ((p.map.slope : ℂ) * z + p.map.off) :=
        fun q hq z => by
          rw [hqS (.C (p.cf 0) + .C (p.cf 1 * s 1) * .X) (fun t => by rw [hser]; simp) q hq]; simp
      rw [start, if_neg n0, if_pos n1, rw'.rdc (show 1 < r.num by omega), bind_ok, hc1]
      by_cases c1 : |p.cf 1| ≤ thr
      · have z1 : p.cf 1 = 0 := (hs 1).resolve_right fun hh => absurd c1 (not_le.2 hh.1)
        refine ⟨[], by rw [if_pos c1]; rfl, List.Pairwise.nil, fun y hy => by simp at hy, ?_, fun q _ y hy => by simp at hy⟩
        rintro ⟨x, hx⟩ q hq' z hz0 - - -
        exfalso
        rw [hq q hq', z1] at hz0
        have : p.cf 0 = 0 := by
          have : ((p.cf 0 : ℝ) : ℂ) = 0 := by simpa using hz0
          exact_mod_cast this
        exact hx (by rw [Ope.val_ser, hser, this, z1]; ring)
      · have nz : p.cf 1 ≠ 0 := fun hh => c1 (by rw [hh, abs_zero]; exact ht.le)
        rw [if_neg c1, rw'.rdc (show 0 < r.num by omega), bind_ok, hc0, Lin.dv_ok nz, bind_ok]
        have hlin := hl (fun k hk => hcf k (by omega)) nz
        have hnc : ((p.cf 1 : ℝ) : ℂ) ≠ 0 := by exact_mod_cast nz
        have hsc : ((s 1 : ℝ) : ℂ) ≠ 0 := by exact_mod_cast h.hs 1
        -- the only zero
        have only : ∀ w : ℂ, ((p.cf 0 : ℝ) : ℂ) + p.cf 1 * s 1 * w = 0 ↔ w = ((-p.cf 0 / p.cf 1 : ℝ) : ℂ) := fun w => by
          rcases hlin with h0 | ⟨h1, -⟩
          · rw [h0]; simp [hnc, hsc]
          · rw [h1]; push_cast; rw [mul_one, eq_div_iff hnc]
            constructor
            · intro hh; linear_combination hh
            · intro hh; linear_combination hh
        by_cases c2 : -1 - thr ≤ -p.cf 0 / p.cf 1 ∧ -p.cf 0 / p.cf 1 ≤ 1 - thr
        · rw [if_pos c2]
          refine ⟨_, rfl, List.pairwise_singleton _ _, fun y hy => ?_, ?_, fun q hq' y hy => ?_⟩
          · rw [List.mem_singleton] at hy
            rw [hy, mul_comm m]
            exact hin _ clampTo_mem.1 clampTo_mem.2
          · rintro - q hq' z hz0 - z1 z2
            rw [hq q hq', only] at hz0
            have := congrArg Complex.re hz0
            rw [(him z).1, Complex.ofReal_re] at this
            have l1 : -1 ≤ -p.cf 0 / p.cf 1 := by rw [← this, ← hd.lo]; nlinarith
            have l2 : -p.cf 0 / p.cf 1 ≤ 1 := by rw [← this, ← hhi]; nlinarith
            rw [List.mem_singleton, clampTo_id l1 l2, ← this, mul_comm m, hinv]
          · rw [List.mem_singleton] at hy
            refine ⟨(m : ℂ) * ((-p.cf 0 / p.cf 1 : ℝ) : ℂ) + ((p.ub - m * 1 : ℝ) : ℂ), ?_, ?_, ?_⟩
            · rw [hq q hq', hback, only]
            · have : ((m : ℂ) * ((-p.cf 0 / p.cf 1 : ℝ) : ℂ) + ((p.ub - m * 1 : ℝ) : ℂ)).im = 0 := by
                rw [← Complex.ofReal_mul, ← Complex.ofReal_add, Complex.ofReal_im]
              rw [this, abs_zero]; positivity
            · have : ((m : ℂ) * ((-p.cf 0 / p.cf 1 : ℝ) : ℂ) + ((p.ub - m * 1 : ℝ) : ℂ)).re = m * (-p.cf 0 / p.cf 1) + (p.ub - m * 1) := by
                rw [← Complex.ofReal_mul, ← Complex.ofReal_add, Complex.ofReal_re]
              rw [this, hy, show m * (-p.cf 0 / p.cf 1) + (p.ub - m * 1) - (m * clampTo (-1) 1 (-p.cf 0 / p.cf 1) + (p.ub - m * 1)) =
                (-p.cf 0 / p.cf 1 - clampTo (-1) 1 (-p.cf 0 / p.cf 1)) * m by ring, abs_mul, abs_of_pos hm0]
              exact mul_le_mul_of_nonneg_right (clampTo_near (le_max_of_le_left ht.le) (by have := le_max_left thr td; linarith [c2.1]) (by
                have := le_max_left thr td; linarith [c2.2])) hm0.le
        · rw [if_neg c2]
          refine ⟨_, rfl, List.Pairwise.nil, fun y hy => by simp at hy, ?_, fun q _ y hy => by simp at hy⟩
          rintro - q hq' z hz0 - z1 z2
          exfalso
          rw [hq q hq', only] at hz0
          have := congrArg Complex.re hz0
          rw [(him z).1, Complex.ofReal_re] at this
          have l1 : -1 ≤ -p.cf 0 / p.cf 1 := by rw [← this, ← hd.lo]; nlinarith
          have l2 : -p.cf 0 / p.cf 1 ≤ 1 := by rw [← this, ← hhi]; nlinarith
          rcases hlin with h0 | ⟨-, h1⟩
          · rw [h0, neg_zero, zero_div] at c2
            exact c2 ⟨by linarith, by linarith⟩
          · refine h1 ⟨?_, l2⟩
            by_contra hh
            exact c2 ⟨by linarith, not_lt.1 hh⟩
    · -- companion matrix
      set N := r.num - 1 with hN
      have hN2 : 2 ≤ N := by omega
      have hnum : r.num = N + 1 := by omega
      have h2 : 2 < p.num := by have := hr.le; omega
      have hlead : r.coeff.getD N 0 ≠ 0 := by
        have e : r.cf N = r.coeff.getD N 0 := cf_lt (by omega)
        rcases hr3 ht h2 with h3 | h3 | h3
        · omega
        · rwa [e] at h3
        · obtain ⟨k, hk⟩ := hz.resolve_left (by omega)
          exact absurd (by rw [← rc]; exact h3 k) hk
      have hlen : N < r.coeff.length := by have h1 := rw'.num_le; have h3 := rw'.alloc_le; omega
      obtain ⟨b, eb, hb⟩ := hcomp r rf N hN2 hlen hlead
      obtain ⟨l, el, hll⟩ := he N b hb.1 (fun i hi j hj hij => by
        rw [hb.2 i hi j hj, cmpE, if_neg (by omega), if_neg (by omega), if_neg (by omega)]; ring)
      have hS := serPoly_eval h rf
      have hmem : ∀ z : ℂ, (z.re, z.im) ∈ l ↔ Polynomial.aeval z (serPoly al ga s r) = 0 := fun z => by
        rw [hll, eig_iff h hN2 hnum hlead hb]
      have hq := hqS (serPoly al ga s r) (fun t => by rw [hS, rser])
      refine ⟨_, by rw [start, if_neg n0, if_neg n1, eb, bind_ok, el, bind_ok]; rfl, List.pairwise_insertionSort _ _, fun y hy => ?_, ?_, fun q hq' y hy => ?_⟩
      · rw [List.mem_insertionSort, List.mem_map] at hy
        obtain ⟨t, h1, rfl⟩ := hy
        obtain ⟨a, c, -, -, -, -, rfl⟩ := mem_keepRoots.1 h1
        exact hin _ clampTo_mem.1 clampTo_mem.2
      · rintro - q hq' z hz0 z0 z1 z2
        rw [hq q hq', ← hmem, (him z).1, (him z).2] at hz0
        have l1 : -1 ≤ p.map.slope * z.re + p.map.off := by rw [← hd.lo]; nlinarith
        have l2 : p.map.slope * z.re + p.map.off ≤ 1 := by rw [← hhi]; nlinarith
        rw [List.mem_insertionSort, List.mem_map]
        refine ⟨p.map.slope * z.re + p.map.off, mem_keepRoots.2 ⟨_, _, hz0, ?_, by linarith, by linarith, clampTo_id l1 l2⟩, hinv _⟩
        rw [abs_mul, abs_of_pos hsp]
        calc p.map.slope * |z.im| < p.map.slope * (ti * m) := by gcongr
          _ = ti := by linear_combination ti * hsl
      · rw [List.mem_insertionSort, List.mem_map] at hy
        obtain ⟨t, h1, rfl⟩ := hy
        obtain ⟨a, c, g1, g2, g3, g4, rfl⟩ := mem_keepRoots.1 h1
        have e1 : ((m : ℂ) * ⟨a, c⟩ + ((p.ub - m * 1 : ℝ) : ℂ)).re = m * a + (p.ub - m * 1) := by
          rw [Complex.add_re, Complex.re_ofReal_mul, Complex.ofReal_re]
        have e2 : ((m : ℂ) * ⟨a, c⟩ + ((p.ub - m * 1 : ℝ) : ℂ)).im = m * c := by
          rw [Complex.add_im, Complex.im_ofReal_mul, Complex.ofReal_im, add_zero]
        refine ⟨(m : ℂ) * ⟨a, c⟩ + ((p.ub - m * 1 : ℝ) : ℂ), ?_, ?_, ?_⟩
        · rw [hq q hq', hback, ← hmem]; exact g1
        · rw [e2, abs_mul, abs_of_pos hm0, mul_comm]; gcongr
        · rw [e1, show m * a + (p.ub - m * 1) - (clampTo (-1) 1 a * m + (p.ub - m * 1)) = (a - clampTo (-1) 1 a) * m by ring, abs_mul, abs_of_pos hm0]
          exact mul_le_mul_of_nonneg_right (clampTo_near (le_max_of_le_left ht.le) (by have := le_max_right thr td; linarith) (by
            have := le_max_right thr td; linarith)) hm0.le

theorem RootList.zeros {p : Ope ℝ} {ti tol : ℝ} {l : List ℝ} (h : RootList p ti tol l) (ht : 0 < ti) (hl : p.fam.Lead) (hw : p.WF) (hn : ∃ x, p.val x ≠ 0) {x : ℝ}
    (h1 : p.lb ≤ x) (h2 : x ≤ p.ub) (h3 : p.val x = 0) : x ∈ l := by
  obtain ⟨q, -, hq⟩ := ser_poly hl hw.pos
  have e : ∀ y, (q.comp (.C p.map.slope * .X + .C p.map.off)).eval y = p.val y := fun y => by
    rw [Polynomial.eval_comp, hq, Ope.val_ser]; simp
  have h4 : Polynomial.aeval (x : ℂ) (q.comp (.C p.map.slope * .X + .C p.map.off)) = 0 := by
    have := Polynomial.eval₂_at_apply (p := q.comp (.C p.map.slope * .X + .C p.map.off)) (algebraMap ℝ ℂ) x
    rw [e, h3, map_zero] at this
    exact this
  have := h.kept hn _ e (x : ℂ) h4 (by rw [Complex.ofReal_im, abs_zero]; exact ht) (by rw [Complex.ofReal_re]; exact h1) (by rw [Complex.ofReal_re]; exact h2)
  rwa [Complex.ofReal_re] at this

/-- C119: the list of roots of a Chebyshev expansion. It is increasing, within the domain, contains every real root in the domain, and each
member is within the tolerance of a root whose imaginary part is below the tolerance. What is missing for the full claim: no coefficient is near the
rounding threshold, the function is not zero (with three or more coefficients), a linear function has no root within the threshold of the right
end, members need not be real roots (see `roots_complex_counterexample`). -/
theorem cheb_roots_partial {eig : Nat → List ℝ → C (List (ℝ × ℝ))} (he : IsEig eig) {thr eps ti td : ℝ} (ht : 0 < thr) (ht1 : thr ≤ 1) (h0 : 0 < eps) (hti : 0 < ti)
    (htd : 0 < td) {p : Ope ℝ} (hw : p.WF) (hp : p.fam = chebFam π) (hd : OnInt p) (hs : Sharp thr p)
    (hl : (∀ k, 2 ≤ k → p.cf k = 0) → ¬ (1 - thr < -p.cf 0 / p.cf 1 ∧ -p.cf 0 / p.cf 1 ≤ 1)) (hz : p.num ≤ 2 ∨ ∃ k, p.cf k ≠ 0) :
    ∃ l, realRoots thr eps ti td Real.sqrt eig p = .ok l ∧ RootList p (ti * ((p.ub - p.lb) / 2)) (max thr td * ((p.ub - p.lb) / 2)) l ∧
      ((∃ x, p.val x ≠ 0) → ∀ x, p.lb ≤ x → x ≤ p.ub → p.val x = 0 → x ∈ l) := by
  obtain ⟨l, e, h⟩ := famRoots_spec colleague_cheb (comp_cheb h0) he ht ht1 hti htd hw hp hd hs (fun h2 _ => Or.inr ⟨rfl, hl h2⟩) hz
  refine ⟨l, ?_, h, fun hn x h1 h2 h3 => h.zeros (mul_pos hti (by have := hd.lt; linarith)) (by rw [hp]; exact Cheb.lead) hw hn h1 h2 h3⟩
  rw [realRoots, show p.fam.pt = .cheb by rw [hp]; rfl]
  exact e

/-- C119: the list of roots of a Legendre expansion, with the same restrictions; moreover a linear function is required to vanish at the
middle of the domain (see `leg_linear_counterexample`). -/
theorem leg_roots_partial {eig : Nat → List ℝ → C (List (ℝ × ℝ))} (he : IsEig eig) {thr eps ti td : ℝ} (ht : 0 < thr) (ht1 : thr ≤ 1) (h0 : 0 < eps) (hti : 0 < ti)
    (htd : 0 < td) {p : Ope ℝ} (hw : p.WF) (hp : p.fam = legFam) (hd : OnInt p) (hs : Sharp thr p)
    (hl : (∀ k, 2 ≤ k → p.cf k = 0) → p.cf 1 ≠ 0 → p.cf 0 = 0) (hz : p.num ≤ 2 ∨ ∃ k, p.cf k ≠ 0) :
    ∃ l, realRoots thr eps ti td Real.sqrt eig p = .ok l ∧ RootList p (ti * ((p.ub - p.lb) / 2)) (max thr td * ((p.ub - p.lb) / 2)) l ∧
      ((∃ x, p.val x ≠ 0) → ∀ x, p.lb ≤ x → x ≤ p.ub → p.val x = 0 → x ∈ l) := by
  obtain ⟨l, e, h⟩ := famRoots_spec colleague_leg (comp_leg h0) he ht ht1 hti htd hw hp hd hs (fun h2 h3 => Or.inl (hl h2 h3)) hz
  refine ⟨l, ?_, h, fun hn x h1 h2 h3 => h.zeros (mul_pos hti (by have := hd.lt; linarith)) (by rw [hp]; exact Leg.lead) hw hn h1 h2 h3⟩
  rw [realRoots, show p.fam.pt = .leg by rw [hp]; rfl]
  exact e

/-- The roots of a Hermite expansion are not implemented. -/
theorem roots_herm {eig : Nat → List ℝ → C (List (ℝ × ℝ))} {thr eps ti td big : ℝ} {p : Ope ℝ} (hp : p.fam = hermFam big) :
    realRoots thr eps ti td Real.sqrt eig p = .error .assertFail := by
  rw [realRoots, hp]; rfl

/-- There is a routine for eigenvalues as required. -/
theorem exists_isEig : ∃ eig, IsEig eig := by
  refine ⟨fun N b => .ok (((bufMat N b).charpoly.roots.toList).map fun z => (z.re, z.im)), fun N b _ _ => ⟨_, rfl, fun z => ?_⟩⟩
  have e : Matrix.det (z • (1 : Matrix (Fin N) (Fin N) ℂ) - bufMat N b) = (bufMat N b).charpoly.eval z := by
    rw [Matrix.eval_charpoly]; congr 2; ext i j; simp [Matrix.scalar_apply, Matrix.diagonal_apply, Matrix.one_apply]
  rw [e, List.mem_map]
  constructor
  · rintro ⟨w, h1, h2⟩
    rw [Multiset.mem_toList, Polynomial.mem_roots (Matrix.charpoly_monic _).ne_zero] at h1
    have : w = z := Complex.ext (Prod.mk.inj h2).1 (Prod.mk.inj h2).2
    rw [← this]; exact h1
  · intro h
    exact ⟨z, by rw [Multiset.mem_toList, Polynomial.mem_roots (Matrix.charpoly_monic _).ne_zero]; exact h, rfl⟩

/-- Expansions on `[-1, 1]`. -/
noncomputable def legEx1 (c : List ℝ) : Ope ℝ := ⟨legFam, c.length, -1, 1, ⟨1, 0, 1, 0⟩, c.length, c, false⟩

theorem famRoots_lin {thr ti td : ℝ} {comp : Ope ℝ → Nat → C (List ℝ)} {eig : Nat → List ℝ → C (List (ℝ × ℝ))} {p : Ope ℝ} (hw : p.WF) (ht : 0 < thr)
    (h1 : p.fam.lower = -1) (h2 : p.fam.upper = 1) (hs : Sharp thr p) (hn : p.num = 2) (hc : p.cf 1 ≠ 0) :
    famRoots thr ti td comp eig p = .ok (if -1 - thr ≤ -p.cf 0 / p.cf 1 ∧ -p.cf 0 / p.cf 1 ≤ 1 - thr then
      [(p.ub - p.lb) / 2 * clampTo (-1) 1 (-p.cf 0 / p.cf 1) + (p.ub - (p.ub - p.lb) / 2 * 1)] else []) := by
  obtain ⟨r, er, hr, -⟩ := round_ok (thr := thr) hw.pos (hw.num_le.trans hw.alloc_le)
  obtain ⟨rc, -⟩ := hr.sharp ht.le hs
  have rw' := hr.wf hw
  have rn : r.num = 2 := by
    have := hr.le
    by_contra hh
    exact hc (by rw [← rc]; exact cf_ge (by omega))
  rw [famRoots, h1, h2, show (1 : ℝ) - -1 = 2 by norm_num, Lin.dv_ok two_ne_zero, bind_ok]
  dsimp only
  rw [er, bind_ok, rn, if_neg (by norm_num), if_pos (by norm_num), rw'.rdc (show 1 < r.num by omega), bind_ok, ← cf_lt (show 1 < r.num by omega), rc,
    if_neg (not_le.2 ((hs 1).resolve_left hc).1), rw'.rdc (show 0 < r.num by omega), bind_ok, ← cf_lt (show 0 < r.num by omega), rc, Lin.dv_ok hc, bind_ok]
  split <;> rfl

theorem cf_ge2 {p : Ope ℝ} (h : p.num = 2) (k : Nat) (hk : 2 ≤ k) : p.cf k = 0 := cf_ge (by omega)

theorem sharp_two {thr : ℝ} {p : Ope ℝ} (hn : p.num = 2) {a b : ℝ} (h0 : p.cf 0 = a) (h1 : p.cf 1 = b) (ha : a = 0 ∨ |a| = 1) (hb : |b| = 1) (ht : thr ≤ 1 / 4) (hp : 0 < thr) :
    Sharp thr p := by
  have key : ∀ k, p.cf k = 0 ∨ |p.cf k| = 1 := fun k => by
    match k with
    | 0 => rw [h0]; exact ha
    | 1 => rw [h1]; exact Or.inr hb
    | k + 2 => exact Or.inl (cf_ge2 hn _ (by omega))
  intro k
  rcases key k with h | h
  · exact Or.inl h
  · refine Or.inr ⟨by rw [h]; linarith, fun j => ?_⟩
    rw [h, hn]
    rcases key j with h' | h'
    · rw [h', abs_zero]; norm_num
    · rw [h']; push_cast; linarith

/-- The root of a linear Legendre expansion is wrong: the code returns `-c0/c1` in the reference variable, but the first polynomial is
`sqrt(3) x`. Here the function is `1 + sqrt(3) x` with its root at `-1/sqrt(3)`; the list returned is `[-1]`. -/
theorem leg_linear_counterexample {thr : ℝ} (ht : 0 < thr) (ht1 : thr ≤ 1 / 4) (eps ti td : ℝ) (eig : Nat → List ℝ → C (List (ℝ × ℝ))) :
    ∃ p : Ope ℝ, p.WF ∧ p.fam = legFam ∧ OnInt p ∧ Sharp thr p ∧ (∀ x, p.val x = 1 + √3 * x) ∧
      realRoots thr eps ti td Real.sqrt eig p = .ok [-1] ∧ p.val (-1) < -1 / 2 := by
  have hw : (legEx1 [1, 1]).WF := ⟨by show 1 ≤ 2; norm_num, le_rfl, le_rfl, fun h => by cases h⟩
  have hs : Sharp thr (legEx1 [1, 1]) := sharp_two (a := 1) (b := 1) rfl rfl rfl (Or.inr (by norm_num)) (by norm_num) ht1 ht
  have hv : ∀ x, (legEx1 [1, 1]).val x = 1 + √3 * x := fun x => by
    simp [legEx1, Ope.val, sum_range_succ, leg_p, Lg]
    norm_num
  refine ⟨legEx1 [1, 1], hw, rfl, ⟨by simp [legEx1], by simp [legEx1], by simp [legEx1], by simp [legEx1]⟩, hs, hv, ?_, ?_⟩
  · show famRoots thr ti td (legComp Real.sqrt eps) eig (legEx1 [1, 1]) = _
    rw [famRoots_lin hw ht rfl rfl hs rfl (by show (1 : ℝ) ≠ 0; norm_num), show (legEx1 [1, 1]).cf 0 = 1 from rfl, show (legEx1 [1, 1]).cf 1 = 1 from rfl,
      if_pos ⟨by linarith, by linarith⟩]
    simp [legEx1, clampTo]
  · rw [hv]
    have : (3 / 2 : ℝ) < √3 := by rw [Real.lt_sqrt (by norm_num)]; norm_num
    linarith

/-- A linear Chebyshev expansion with its root at the right end of the domain: `x - 1` on `[-1, 1]`; no root is returned (the code
compares with `1 - threshold`). -/
theorem cheb_right_end_counterexample {thr : ℝ} (ht : 0 < thr) (ht1 : thr ≤ 1 / 4) (eps ti td : ℝ) (eig : Nat → List ℝ → C (List (ℝ × ℝ))) :
    ∃ p : Ope ℝ, p.WF ∧ p.fam = chebFam π ∧ OnInt p ∧ p.ub = 1 ∧ Sharp thr p ∧ (∀ x, p.val x = x - 1) ∧
      realRoots thr eps ti td Real.sqrt eig p = .ok [] := by
  have hw : (chebEx [-1, 1]).WF := ⟨by show 1 ≤ 2; norm_num, le_rfl, le_rfl, fun _ => ⟨π, rfl⟩⟩
  have hs : Sharp thr (chebEx [-1, 1]) := sharp_two (a := -1) (b := 1) rfl rfl rfl (Or.inr (by norm_num)) (by norm_num) ht1 ht
  refine ⟨chebEx [-1, 1], hw, rfl, ⟨by simp [chebEx], by simp [chebEx], by simp [chebEx], by simp [chebEx]⟩, rfl, hs, fun x => ?_, ?_⟩
  · simp [chebEx, Ope.val, sum_range_succ, Fam.p, chebFam]; ring
  · show famRoots thr ti td (chebComp eps) eig (chebEx [-1, 1]) = _
    rw [famRoots_lin hw ht rfl rfl hs rfl (by show (1 : ℝ) ≠ 0; norm_num), show (chebEx [-1, 1]).cf 0 = -1 from rfl, show (chebEx [-1, 1]).cf 1 = 1 from rfl,
      if_neg (fun h => by have := h.2; norm_num at this; linarith)]

/-- A function without real roots: `x^2 + d^2` with small positive `d`; the list contains the point `0`. -/
theorem roots_complex_counterexample {eig : Nat → List ℝ → C (List (ℝ × ℝ))} (he : IsEig eig) {thr eps ti td : ℝ} (ht : 0 < thr) (ht1 : thr ≤ 1 / 10) (h0 : 0 < eps) (hti : 0 < ti)
    (htd : 0 < td) : ∃ p : Ope ℝ, p.WF ∧ p.fam = chebFam π ∧ OnInt p ∧ (∀ x, 0 < p.val x) ∧ ∃ l, realRoots thr eps ti td Real.sqrt eig p = .ok l ∧ (0 : ℝ) ∈ l := by
  obtain ⟨d, d0, d1, d2⟩ : ∃ d : ℝ, 0 < d ∧ d < ti ∧ d ≤ 1 := ⟨min (ti / 2) 1, lt_min (by linarith) one_pos, lt_of_le_of_lt (min_le_left _ _) (by linarith), min_le_right _ _⟩
  have d3 : d ^ 2 ≤ 1 := by nlinarith
  have d4 : 0 < d ^ 2 := by positivity
  have hw : (chebEx [1 / 2 + d ^ 2, 0, 1 / 2]).WF := ⟨by show 1 ≤ 3; norm_num, le_rfl, le_rfl, fun _ => ⟨π, rfl⟩⟩
  have hv : ∀ x, (chebEx [1 / 2 + d ^ 2, 0, 1 / 2]).val x = x ^ 2 + d ^ 2 := fun x => by
    simp [chebEx, Ope.val, sum_range_succ, Fam.p, chebFam]; ring
  have key : ∀ k, (chebEx [1 / 2 + d ^ 2, 0, 1 / 2]).cf k = 0 ∨ 1 / 2 ≤ |(chebEx [1 / 2 + d ^ 2, 0, 1 / 2]).cf k| ∧ |(chebEx [1 / 2 + d ^ 2, 0, 1 / 2]).cf k| ≤ 3 / 2 := fun k => by
    match k with
    | 0 =>
      refine Or.inr ?_
      show 1 / 2 ≤ |1 / 2 + d ^ 2| ∧ |1 / 2 + d ^ 2| ≤ 3 / 2
      rw [abs_of_pos (by positivity)]; constructor <;> linarith
    | 1 => exact Or.inl rfl
    | 2 =>
      refine Or.inr ?_
      show (1 / 2 : ℝ) ≤ |1 / 2| ∧ |(1 / 2 : ℝ)| ≤ 3 / 2
      rw [abs_of_pos (by positivity)]; constructor <;> linarith
    | k + 3 => exact Or.inl (cf_ge (by show 3 ≤ k + 3; omega))
  have hs : Sharp thr (chebEx [1 / 2 + d ^ 2, 0, 1 / 2]) := fun k => by
    rcases key k with h | h
    · exact Or.inl h
    · refine Or.inr ⟨by linarith [h.1], fun j => le_trans ?_ h.1⟩
      have : |(chebEx [1 / 2 + d ^ 2, 0, 1 / 2]).cf j| ≤ 3 / 2 := by
        rcases key j with h' | h'
        · rw [h', abs_zero]; norm_num
        · exact h'.2
      rw [show (chebEx [1 / 2 + d ^ 2, 0, 1 / 2]).num = 3 from rfl]
      push_cast
      nlinarith [abs_nonneg ((chebEx [1 / 2 + d ^ 2, 0, 1 / 2]).cf j)]
  have hd : OnInt (chebEx [1 / 2 + d ^ 2, 0, 1 / 2]) := ⟨by simp [chebEx], by simp [chebEx], by simp [chebEx], by simp [chebEx]⟩
  obtain ⟨l, e, h, -⟩ := cheb_roots_partial he ht (by linarith) h0 hti htd hw rfl hd hs
    (fun h => absurd (h 2 le_rfl) (by show (1 / 2 : ℝ) ≠ 0; norm_num)) (Or.inr ⟨2, by show (1 / 2 : ℝ) ≠ 0; norm_num⟩)
  refine ⟨_, hw, rfl, hd, fun x => by rw [hv]; positivity, l, e, ?_⟩
  have := h.kept ⟨0, by rw [hv]; positivity⟩ (.X ^ 2 + .C (d ^ 2)) (fun x => by rw [hv]; simp) ⟨0, d⟩ (by
    simp only [map_add, map_pow, Polynomial.aeval_X, Polynomial.aeval_C]
    apply Complex.ext <;> simp [pow_two])
    (by show |d| < ti * ((1 - -1) / 2); rw [abs_of_pos d0]; linarith) (by show (-1 : ℝ) ≤ 0; norm_num) (by show (0 : ℝ) ≤ 1; norm_num)
  exact this

/-- The zero function with three coefficients: the leading coefficient is divided by. -/
theorem roots_zero_counterexample {thr : ℝ} (ht : 0 < thr) (eps ti td : ℝ) (eig : Nat → List ℝ → C (List (ℝ × ℝ))) :
    (chebEx [0, 0, 0]).WF ∧ OnInt (chebEx [0, 0, 0]) ∧ (∀ x, (chebEx [0, 0, 0]).val x = 0) ∧
      realRoots thr eps ti td Real.sqrt eig (chebEx [0, 0, 0]) = .error .ub := by
  have hw : (chebEx [0, 0, 0]).WF := ⟨by show 1 ≤ 3; norm_num, le_rfl, le_rfl, fun _ => ⟨π, rfl⟩⟩
  refine ⟨hw, ⟨by simp [chebEx], by simp [chebEx], by simp [chebEx], by simp [chebEx]⟩, fun x => by simp [chebEx, Ope.val, sum_range_succ], ?_⟩
  have er : round thr (chebEx [0, 0, 0]) = .ok (chebEx [0, 0, 0]) := by
    simp [round, maxAbs, roundCut, roundNum, trimEnd, relSmall, absCut, forR, forN, rd, wr, chebEx, ht, pure_eq_ok, bind_ok]
  show famRoots thr ti td (chebComp eps) eig (chebEx [0, 0, 0]) = _
  rw [famRoots, show (chebEx [0, 0, 0]).fam.upper - (chebEx [0, 0, 0]).fam.lower = 2 by simp [chebEx, chebFam]; norm_num, Lin.dv_ok two_ne_zero, bind_ok]
  dsimp only
  rw [er, bind_ok, show (chebEx [0, 0, 0]).num = 3 from rfl, if_neg (by norm_num), if_neg (by norm_num), chebComp, nsComp, wr_ok (a := List.replicate ((3 - 1) * (3 - 1)) 0) _ (by simp),
    bind_ok]
  have e0 : chebLast (3 - 1) (chebEx [0, 0, 0]).coeff 0 = .error .ub := by
    rw [chebLast, show rd (chebEx [0, 0, 0]).coeff 0 = .ok (0 : ℝ) from rfl, bind_ok, show rd (chebEx [0, 0, 0]).coeff (3 - 1) = .ok (0 : ℝ) from rfl, bind_ok, Lin.dv,
      if_pos rfl, bind_error]
  rw [e0, bind_error]
  rfl

/-- Non-trivial case: `(x - 1/2)(x + 1/2) = -1/4 + (1 + T2)/2` on `[-1, 1]`. -/
example : ∃ (eig : Nat → List ℝ → C (List (ℝ × ℝ))) (l : List ℝ), realRoots (1 / 100) (1 / 100) (1 / 10) (1 / 100) Real.sqrt eig (chebEx [1 / 4, 0, 1 / 2]) = .ok l ∧
    (1 / 2 : ℝ) ∈ l ∧ (-1 / 2 : ℝ) ∈ l := by
  obtain ⟨eig, he⟩ := exists_isEig
  have key : ∀ k, (chebEx [1 / 4, 0, 1 / 2]).cf k = 0 ∨ 1 / 4 ≤ |(chebEx [1 / 4, 0, 1 / 2]).cf k| ∧ |(chebEx [1 / 4, 0, 1 / 2]).cf k| ≤ 1 / 2 := fun k => by
    match k with
    | 0 =>
      refine Or.inr ?_
      show (1 / 4 : ℝ) ≤ |1 / 4| ∧ |(1 / 4 : ℝ)| ≤ 1 / 2
      rw [abs_of_pos (by norm_num)]; constructor <;> norm_num
    | 1 => exact Or.inl rfl
    | 2 =>
      refine Or.inr ?_
      show (1 / 4 : ℝ) ≤ |1 / 2| ∧ |(1 / 2 : ℝ)| ≤ 1 / 2
      rw [abs_of_pos (by norm_num)]; constructor <;> norm_num
    | k + 3 => exact Or.inl (cf_ge (by show 3 ≤ k + 3; omega))
  have hv : ∀ x, (chebEx [1 / 4, 0, 1 / 2]).val x = x ^ 2 - 1 / 4 := fun x => by
    simp [chebEx, Ope.val, sum_range_succ, Fam.p, chebFam]; ring
  obtain ⟨l, e, -, h⟩ := cheb_roots_partial he (thr := 1 / 100) (eps := 1 / 100) (ti := 1 / 10) (td := 1 / 100) (p := chebEx [1 / 4, 0, 1 / 2]) (by norm_num) (by norm_num)
    (by norm_num) (by norm_num) (by norm_num) ⟨by show 1 ≤ 3; norm_num, le_rfl, le_rfl, fun _ => ⟨π, rfl⟩⟩ rfl
    ⟨by simp [chebEx], by simp [chebEx], by simp [chebEx], by simp [chebEx]⟩
    (fun k => by
      rcases key k with h | h
      · exact Or.inl h
      · refine Or.inr ⟨by linarith [h.1], fun j => le_trans ?_ h.1⟩
        have : |(chebEx [1 / 4, 0, 1 / 2]).cf j| ≤ 1 / 2 := by
          rcases key j with h' | h'
          · rw [h', abs_zero]; norm_num
          · exact h'.2
        rw [show (chebEx [1 / 4, 0, 1 / 2]).num = 3 from rfl]
        push_cast
        linarith)
    (fun h => absurd (h 2 le_rfl) (by show (1 / 2 : ℝ) ≠ 0; norm_num)) (Or.inr ⟨2, by show (1 / 2 : ℝ) ≠ 0; norm_num⟩)
  have hn : ∃ x, (chebEx [1 / 4, 0, 1 / 2]).val x ≠ 0 := ⟨0, by rw [hv]; norm_num⟩
  exact ⟨eig, l, e, h hn _ (by show (-1 : ℝ) ≤ 1 / 2; norm_num) (by show (1 / 2 : ℝ) ≤ 1; norm_num) (by rw [hv]; norm_num),
    h hn _ (by show (-1 : ℝ) ≤ -1 / 2; norm_num) (by show (-1 / 2 : ℝ) ≤ 1; norm_num) (by rw [hv]; norm_num)⟩

end C3.Poly
