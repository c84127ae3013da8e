/-
C92: products and inner products of Fourier expansions.
-/
import Verif.Fft.FourierApprox

namespace C3.Fourier

open Finset
open Complex (I exp)
open C3.Poly (SMap)
open C3.Fft (dft idft)

/-- `a` has no terms above degree `p`. -/
def Deg (a : Fe) (p : Nat) : Prop := ∀ k, p < k → k < a.num → a.co k = 0

theorem prodEval_ok {a b : Fe} (ha : Good a) (hb : Good b) (xs : List ℝ) : prodEval a b xs = .ok (0, xs.map fun x => a.fn x * b.fn x) := by
  unfold prodEval
  rw [forN_fill_all (fun i => a.fn (xs.getD i 0) * b.fn (xs.getD i 0)) (by simp) (fun i hi c _ => by
    rw [rd_getD 0 hi, bind_ok, eval_ok ha, bind_ok, eval_ok hb, bind_ok]), bind_ok]
  congr 2
  apply List.ext_getElem?
  intro i
  by_cases hi : i < xs.length
  · rw [List.getElem?_map, List.getElem?_map, List.getElem?_range hi, List.getElem?_eq_getElem hi]
    simp [hi]
  · rw [List.getElem?_eq_none (by simpa using hi), List.getElem?_eq_none (by simpa using hi)]

theorem dom_map {a b : Fe} (ha : Dom a) (hb : Dom b) (hl : a.lb = b.lb) (hu : a.ub = b.ub) : a.map = b.map := by
  have h1 := ha.lo; have h2 := ha.hi; have h3 := hb.lo; have h4 := hb.hi
  have hpi := Real.pi_pos
  rw [hl] at h1
  rw [hu] at h2
  have hne : b.ub - b.lb ≠ 0 := by
    intro h
    have : b.ub = b.lb := by linarith
    rw [this] at h4
    linarith
  have hs : a.map.slope = b.map.slope := by
    refine mul_right_cancel₀ hne ?_
    linarith
  have ho : a.map.off = b.map.off := by rw [hs] at h1; linarith
  have hi := ha.inv; have hj := hb.inv; have ki := ha.io; have kj := hb.io
  rcases e1 : a.map with ⟨s, o, i, j⟩
  rcases e2 : b.map with ⟨s', o', i', j'⟩
  rw [e1, e2] at hs ho
  rw [e1] at hi ki
  rw [e2] at hj kj
  simp only at hs ho hi hj ki kj
  subst hs ho
  rw [hi, hj, ki, kj]

theorem prod_start {a b : Fe} (hd : Dom a) (ha : Good a) {eps : ℝ} (he : 0 < eps) (hl : a.lb = b.lb) (hu : a.ub = b.ub) (hn : 2 ≤ a.num) :
    ∃ p, Good p ∧ Dom p ∧ p.num = a.num ∧ p.lb = a.lb ∧ p.ub = a.ub ∧ p.map = a.map ∧ p.cc = List.replicate (a.num + 50) 0 ∧
      prod eps a b = (approxVec p (prodEval a b) >>= fun r => pure r.2) := by
  have hne : a.lb ≠ a.ub := by
    intro h
    have h1 := hd.lo; have h2 := hd.hi
    rw [h] at h1
    have := Real.pi_pos
    linarith
  obtain ⟨p, p1, p2, p3, p4, p5, p6, p7, -⟩ := init_ok (a.num - 1 + 1) hne
  refine ⟨p, p6 (by omega), p7, by omega, p3, p4, dom_map p7 hd p3 p4, by rw [p5, show a.num - 1 + 1 = a.num by omega], ?_⟩
  unfold prod
  rw [show decide (|a.lb - b.lb| < eps) = true from decide_eq_true (by rw [hl]; simpa using he), cassert, if_pos rfl, bind_ok,
    show decide (|a.ub - b.ub| < eps) = true from decide_eq_true (by rw [hu]; simpa using he), cassert, if_pos rfl, bind_ok]
  dsimp only
  rw [p1, bind_ok, if_pos (by omega)]

/-- C92: the product is represented exactly when the degrees add up to less than `num_poly - 1` of the first factor and twice that number is a power
of two. -/
theorem prod_exact_partial {a b : Fe} (ha : Good a) (hb : Good b) (hda : Dom a) (hdb : Dom b) {eps : ℝ} (he : 0 < eps) (hl : a.lb = b.lb) (hu : a.ub = b.ub)
    (hsz : a.num < 2 ^ 63) {m : Nat} (hm : 2 * (a.num - 1) = 2 ^ m) {p q : Nat} (hp : Deg a p) (hq : Deg b q) (hpq : p + q < a.num - 1) :
    ∃ r, prod eps a b = .ok r ∧ Good r ∧ r.lb = a.lb ∧ r.ub = a.ub ∧ r.map = a.map ∧ ∀ x, r.fn x = a.fn x * b.fn x := by
  obtain ⟨s, s1, s2, s3, s4, s5, s6, -, s8⟩ := prod_start hda ha he hl hu (b := b) (by omega)
  have hmap := dom_map hda hdb hl hu
  have hg : IsTrig (s.num - 2) fun t => a.fn (s.map.inv t) * b.fn (s.map.inv t) := by
    have e : (fun t : ℝ => ((a.fn (s.map.inv t) * b.fn (s.map.inv t) : ℝ) : ℂ)) =
        (fun t => ((trig a.co a.num t : ℝ) : ℂ)) * fun t => ((trig b.co b.num t : ℝ) : ℂ) := by
      funext t
      rw [Pi.mul_apply, Fe.fn, Fe.fn, ← hmap, ← s6, s2.inv_map]
      push_cast
      rfl
    rw [IsTrig, e]
    exact Trig_mono (by omega) (Trig_mul (trig_isTrig hp) (trig_isTrig hq))
  obtain ⟨r, r1, r2, r3, r4, r5, r6, r7⟩ := approx_exact s1 s2 (by omega) (by rw [s3]; exact hm) (prodEval_ok ha hb) hg
  refine ⟨r, ?_, r2, by rw [r3, s4], by rw [r4, s5], by rw [r5, s6], r7⟩
  rw [s8, r1]; rfl

/-- The product of two constants given by one coefficient each is the zero function. -/
theorem prod_const_counterexample {a b : Fe} (hda : Dom a) {eps : ℝ} (he : 0 < eps) (hl : a.lb = b.lb) (hu : a.ub = b.ub) (hn : a.num = 1) :
    ∃ r, prod eps a b = .ok r ∧ (∀ x, r.fn x = 0) ∧ inner eps a b = .ok 0 := by
  have hne : a.lb ≠ a.ub := by
    intro h
    have h1 := hda.lo; have h2 := hda.hi
    rw [h] at h1
    have := Real.pi_pos
    linarith
  obtain ⟨p, p1, p2, p3, p4, p5, p6, p7, -⟩ := init_ok 1 hne
  have e : prod eps a b = .ok p := by
    unfold prod
    rw [show decide (|a.lb - b.lb| < eps) = true from decide_eq_true (by rw [hl]; simpa using he), cassert, if_pos rfl, bind_ok,
      show decide (|a.ub - b.ub| < eps) = true from decide_eq_true (by rw [hu]; simpa using he), cassert, if_pos rfl, bind_ok]
    dsimp only
    rw [hn]
    rw [p1, bind_ok, if_neg (by omega)]; rfl
  refine ⟨p, e, fun x => init_fn p5 x, ?_⟩
  unfold inner
  rw [e, bind_ok]
  unfold integrate
  rw [p5, rd_getD 0 (by simp), bind_ok, pure_eq_ok]
  congr 1
  simp

/-- When twice the degree of the first factor is not a power of two the product is the zero function (and so is every inner product). -/
theorem prod_refused_counterexample {a b : Fe} (ha : Good a) (hb : Good b) (hda : Dom a) {eps : ℝ} (he : 0 < eps) (hl : a.lb = b.lb) (hu : a.ub = b.ub)
    (hsz : a.num < 2 ^ 63) (hm : ¬∃ m, 2 * (a.num - 1) = 2 ^ m) (hn : 2 ≤ a.num) :
    ∃ r, prod eps a b = .ok r ∧ (∀ x, r.fn x = 0) ∧ inner eps a b = .ok 0 := by
  obtain ⟨s, s1, s2, s3, s4, s5, s6, s7, s8⟩ := prod_start hda ha he hl hu (b := b) hn
  have e : prod eps a b = .ok s := by
    rw [s8, approx_refused s1 (by omega) (by rw [s3]; exact hm) (prodEval_ok ha hb)]; rfl
  refine ⟨s, e, fun x => init_fn s7 x, ?_⟩
  unfold inner
  rw [e, bind_ok]
  unfold integrate
  rw [s7, rd_getD 0 (by simp), bind_ok, pure_eq_ok]
  congr 1
  simp

/-! ### Inner products -/

theorem ek_integral {k : ℤ} (hk : k ≠ 0) : ∫ t in (0 : ℝ)..2 * Real.pi, ek k t = 0 := by
  have h0 : I * (k : ℂ) ≠ 0 := mul_ne_zero Complex.I_ne_zero (by exact_mod_cast hk)
  unfold ek
  rw [integral_exp_mul_complex h0]
  have : exp (I * k * ((2 * Real.pi : ℝ) : ℂ)) = 1 := by
    rw [Complex.exp_eq_one_iff]
    exact ⟨k, by push_cast; ring⟩
  rw [this]
  simp

theorem ek_cont (k : ℤ) : Continuous (ek k) := by unfold ek; fun_prop

/-- The trapezoidal rule with `N` points integrates trigonometric polynomials of degree below `N` exactly. -/
theorem trapezoid {N : Nat} (hN : 1 ≤ N) {g : ℝ → ℂ} (hg : g ∈ Trig (N - 1)) :
    Continuous g ∧ ∑ j ∈ range N, g (2 * Real.pi / N * j) * (2 * Real.pi / N) = ∫ t in (0 : ℝ)..2 * Real.pi, g t := by
  have hne : (N : ℂ) ≠ 0 := Nat.cast_ne_zero.2 (by omega)
  induction hg using Submodule.span_induction with
  | mem g hg =>
    obtain ⟨l, hl, rfl⟩ := hg
    refine ⟨ek_cont l, ?_⟩
    have hl' := abs_le.1 hl
    have e0 : ∑ j ∈ range N, ek l (2 * Real.pi / N * j) * (2 * Real.pi / N : ℂ) = dft N (fun j => ek l (2 * Real.pi / N * j)) 0 * (2 * Real.pi / N) := by
      rw [dft, sum_mul]
      exact sum_congr rfl fun j _ => by simp
    rw [e0]
    rcases lt_trichotomy l 0 with h0 | h0 | h0
    · obtain ⟨a, rfl⟩ : ∃ a : Nat, l = -a := ⟨(-l).toNat, by omega⟩
      rw [ek_integral (by omega), dft_ek (r := N - a) (q := -1) (by omega) (by rw [Nat.cast_sub (by omega)]; ring) (by omega), if_neg (by omega), zero_mul]
    · subst h0
      rw [dft_ek (r := 0) (q := 0) (by omega) (by simp) (by omega), if_pos rfl]
      simp only [ek, Int.cast_zero, mul_zero, zero_mul, Complex.exp_zero, intervalIntegral.integral_const, sub_zero]
      rw [mul_div_cancel₀ _ hne]
      simp
    · obtain ⟨a, rfl⟩ : ∃ a : Nat, l = a := ⟨l.toNat, by omega⟩
      rw [ek_integral (by omega), dft_ek (r := a) (q := 0) (by omega) (by ring) (by omega), if_neg (by omega), zero_mul]
  | zero => exact ⟨continuous_const, by simp⟩
  | add x y _ _ hx hy =>
    refine ⟨hx.1.add hy.1, ?_⟩
    simp only [Pi.add_apply]
    rw [intervalIntegral.integral_add (hx.1.intervalIntegrable _ _) (hy.1.intervalIntegrable _ _), ← hx.2, ← hy.2, ← sum_add_distrib]
    exact sum_congr rfl fun j _ => by ring
  | smul a x _ hx =>
    refine ⟨hx.1.const_smul a, ?_⟩
    simp only [Pi.smul_apply, smul_eq_mul]
    rw [intervalIntegral.integral_const_mul, ← hx.2, mul_sum]
    exact sum_congr rfl fun j _ => by ring

/-- C92: the inner product is the integral of the product whenever the degrees add up to less than `2 (num_poly - 1)`, and twice the degree of the
first expansion is a power of two. -/
theorem inner_exact_partial {a b : Fe} (ha : Good a) (hb : Good b) (hda : Dom a) (hdb : Dom b) {eps : ℝ} (he : 0 < eps) (hl : a.lb = b.lb) (hu : a.ub = b.ub)
    (hsz : a.num < 2 ^ 63) {m : Nat} (hm : 2 * (a.num - 1) = 2 ^ m) {p q : Nat} (hp : Deg a p) (hq : Deg b q) (hpq : p + q < 2 * (a.num - 1)) :
    inner eps a b = .ok (∫ x in a.lb..a.ub, a.fn x * b.fn x) := by
  obtain ⟨s, s1, s2, s3, s4, s5, s6, -, s8⟩ := prod_start hda ha he hl hu (b := b) (by omega)
  have hmap := dom_map hda hdb hl hu
  obtain ⟨r, r1, r2, r3, r4, r5, r6, r7⟩ := approxVec_ok s1 (by omega) (by rw [s3]; exact hm) (prodEval_ok ha hb)
  have hr : prod eps a b = .ok r := by rw [s8, r1]; rfl
  set g : ℝ → ℝ := fun t => trig a.co a.num t * trig b.co b.num t with hg
  have hfn : ∀ t, a.fn (s.map.inv t) * b.fn (s.map.inv t) = g t := by
    intro t
    rw [Fe.fn, Fe.fn, ← hmap, ← s6, s2.inv_map]
  have e := subst_integral hda g
  change ∫ x in a.lb..a.ub, trig a.co a.num (a.map.slope * x + a.map.off) * trig b.co b.num (a.map.slope * x + a.map.off) = _ at e
  rw [show (∫ x in a.lb..a.ub, trig a.co a.num (a.map.slope * x + a.map.off) * trig b.co b.num (a.map.slope * x + a.map.off)) =
    ∫ x in a.lb..a.ub, a.fn x * b.fn x by rw [hmap]; unfold Fe.fn; rw [hmap]] at e
  have hT : (fun t => ((g t : ℝ) : ℂ)) ∈ Trig (2 * (a.num - 1) - 1) := by
    have e : (fun t : ℝ => ((g t : ℝ) : ℂ)) = (fun t => ((trig a.co a.num t : ℝ) : ℂ)) * fun t => ((trig b.co b.num t : ℝ) : ℂ) := by
      funext t
      rw [Pi.mul_apply, hg]
      push_cast
      rfl
    rw [e]
    exact Trig_mono (by omega) (Trig_mul (trig_isTrig hp) (trig_isTrig hq))
  have ht := (trapezoid (N := 2 * (a.num - 1)) (by omega) hT).2
  rw [intervalIntegral.integral_ofReal] at ht
  unfold inner
  rw [hr, bind_ok]
  unfold integrate
  rw [rd_getD 0 (by have := r2.pos; have := r2.le; omega), bind_ok, pure_eq_ok, e, ← s6, ← r6]
  congr 1
  rw [mul_comm]
  congr 1
  rw [← Complex.ofReal_re (∫ t in (0 : ℝ)..2 * Real.pi, g t), ← ht]
  congr 1
  have h0 := r7 0 (by omega)
  rw [Fe.co] at h0
  rw [h0, s3, dft]
  simp only [hfn]
  rw [div_eq_mul_inv, sum_mul, sum_mul, sum_mul]
  refine sum_congr rfl fun j _ => ?_
  simp
  ring

/-- The function `cos x` on `[0, 2 pi]`, given by two coefficients. -/
noncomputable def cosFe : Fe := ⟨2, 0, 2 * Real.pi, ⟨1, 0, 1, 0⟩, 2, [0, 1 / 2], false⟩

theorem cosFe_good : Good cosFe := ⟨by simp [cosFe], by simp [cosFe], by simp [cosFe], rfl⟩
theorem cosFe_dom : Dom cosFe := ⟨by simp [cosFe], by simp [cosFe], by simp [cosFe], by simp [cosFe]⟩
theorem cosFe_fn (x : ℝ) : cosFe.fn x = Real.cos x := by simp [Fe.fn, trig, cosFe, Fe.co]

/-- The degrees must not add up to `2 (num_poly - 1)`: the inner product of `cos x` with itself over `[0, 2 pi]` comes out as `2 pi`; it is `pi`. -/
theorem inner_top_counterexample {eps : ℝ} (he : 0 < eps) : inner eps cosFe cosFe = .ok (2 * Real.pi) ∧
    ∫ x in cosFe.lb..cosFe.ub, cosFe.fn x * cosFe.fn x = Real.pi := by
  constructor
  · obtain ⟨s, s1, s2, s3, s4, s5, s6, -, s8⟩ := prod_start cosFe_dom cosFe_good he rfl rfl (b := cosFe) (by simp [cosFe])
    have hn : cosFe.num = 2 := rfl
    obtain ⟨r, r1, r2, r3, r4, r5, r6, r7⟩ := approxVec_ok s1 (by rw [s3, hn]; norm_num) (m := 1) (by rw [s3, hn]; rfl) (prodEval_ok cosFe_good cosFe_good)
    have hr : prod eps cosFe cosFe = .ok r := by rw [s8, r1]; rfl
    unfold inner
    rw [hr, bind_ok]
    unfold integrate
    rw [rd_getD 0 (by have := r2.pos; have := r2.le; omega), bind_ok, pure_eq_ok]
    congr 1
    have h0 := r7 0 (by omega)
    rw [Fe.co] at h0
    have hi : ∀ t, cosFe.map.inv t = t := by intro t; simp [SMap.inv, cosFe]
    rw [h0, r6, s6, s3, hn, dft]
    simp only [hi, cosFe_fn]
    rw [show range (2 * (2 - 1)) = range (0 + 1 + 1) from rfl, sum_range_succ, sum_range_succ, sum_range_zero]
    have : Real.cos (2 * Real.pi / ((2 * (2 - 1) : ℕ) : ℝ) * ((1 : ℕ) : ℝ)) = -1 := by
      rw [show 2 * Real.pi / ((2 * (2 - 1) : ℕ) : ℝ) * ((1 : ℕ) : ℝ) = Real.pi by norm_num, Real.cos_pi]
    rw [this]
    simp [cosFe]
  · have : ∀ x, cosFe.fn x * cosFe.fn x = Real.cos x ^ 2 := fun x => by rw [cosFe_fn]; ring
    simp only [this]
    change ∫ x in (0 : ℝ)..2 * Real.pi, Real.cos x ^ 2 = Real.pi
    rw [integral_cos_sq]
    simp

/-- The hypotheses of the exactness theorems can be met: `cos x` with five coefficients, times itself. -/
example : ∃ a, Good a ∧ Dom a ∧ 2 * (a.num - 1) = 2 ^ 3 ∧ Deg a 1 ∧ 1 + 1 < a.num - 1 ∧ ∀ x, a.fn x = Real.cos x := by
  refine ⟨⟨5, 0, 2 * Real.pi, ⟨1, 0, 1, 0⟩, 5, [0, 1 / 2, 0, 0, 0], false⟩, ⟨by simp, by simp, by simp, rfl⟩, ⟨by simp, by simp, by simp, by simp⟩,
    by simp, ?_, by simp, ?_⟩
  · intro k h1 h2
    change k < 5 at h2
    interval_cases k <;> simp [Fe.co]
  · intro x
    simp [Fe.fn, trig, Fe.co, sum_Ico_succ_top]

end C3.Fourier
