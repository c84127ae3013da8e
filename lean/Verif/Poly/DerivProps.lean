/- C67: evaluation of derivatives of orthogonal polynomial expansions. -/
import Verif.Poly.AlgProps
import Mathlib.Analysis.Calculus.Deriv.Mul
import Mathlib.Analysis.Calculus.Deriv.Add
import Mathlib.Analysis.Calculus.Deriv.Comp

set_option linter.unusedSectionVars false

namespace C3.Poly
open Finset
open C3.Lin (dv dv_ok)

/-- Formal derivatives of the polynomials of a family. -/
noncomputable def dp (fam : Fam ℝ) : Nat → ℝ → ℝ
  | 0, _ => 0
  | 1, _ => fam.l1
  | n + 2, x => (fam.an (n + 2) * x + fam.bn (n + 2)) * dp fam (n + 1) x + fam.an (n + 2) * fam.p (n + 1) x + fam.cn (n + 2) * dp fam n x

theorem p_hasDerivAt (fam : Fam ℝ) (x : ℝ) : ∀ n, HasDerivAt (fun y => fam.p n y) (dp fam n x) x
  | 0 => hasDerivAt_const x fam.c0
  | 1 => by
    have h := ((hasDerivAt_id x).const_mul fam.l1).const_add fam.l0
    rw [mul_one] at h
    exact h
  | n + 2 => by
    have h1 : HasDerivAt (fun y => fam.an (n + 2) * y + fam.bn (n + 2)) (fam.an (n + 2)) x := by
      have h := ((hasDerivAt_id x).const_mul (fam.an (n + 2))).add_const (fam.bn (n + 2))
      rw [mul_one] at h
      exact h
    have h := (h1.mul (p_hasDerivAt fam x (n + 1))).add ((p_hasDerivAt fam x n).const_mul (fam.cn (n + 2)))
    have e : fam.an (n + 2) * fam.p (n + 1) x + (fam.an (n + 2) * x + fam.bn (n + 2)) * dp fam (n + 1) x + fam.cn (n + 2) * dp fam n x =
        dp fam (n + 2) x := by rw [dp]; ring
    rw [e] at h
    exact h

theorem val_hasDerivAt (f : Ope ℝ) (x : ℝ) :
    HasDerivAt f.val ((∑ k ∈ range f.num, f.coeff.getD k 0 * dp f.fam k (f.map.map x)) * f.map.slope) x := by
  have hm : HasDerivAt (fun y => f.map.slope * y + f.map.off) f.map.slope x := by
    have h := ((hasDerivAt_id x).const_mul f.map.slope).add_const f.map.off
    rw [mul_one] at h
    exact h
  have h : HasDerivAt (fun y => ∑ k ∈ range f.num, f.coeff.getD k 0 * f.fam.p k (f.map.slope * y + f.map.off))
      (∑ k ∈ range f.num, f.coeff.getD k 0 * (dp f.fam k (f.map.map x) * f.map.slope)) x := by
    refine HasDerivAt.fun_sum (fun k _ => ?_)
    exact ((p_hasDerivAt f.fam (f.map.map x) k).comp x hm).const_mul (f.coeff.getD k 0)
  rw [sum_mul]
  have e : ∀ k ∈ range f.num, f.coeff.getD k 0 * dp f.fam k (f.map.map x) * f.map.slope =
      f.coeff.getD k 0 * (dp f.fam k (f.map.map x) * f.map.slope) := fun k _ => by ring
  rw [sum_congr rfl e]
  exact h

theorem derivSum_ok {f : Ope ℝ} (h : f.WF) (xn : ℝ) :
    ∃ s, (do
      let c ← rd f.coeff 0
      let s ← derivSecond f xn (0 + 0 * c)
      forR 2 f.num (derivStep f xn) s) = .ok s ∧ s.out = ∑ k ∈ range f.num, f.coeff.getD k 0 * dp f.fam k xn := by
  rw [h.rdc h.pos, bind_ok, derivSecond]
  by_cases h1 : f.num > 1
  · rw [if_pos h1, h.rdc h1, bind_ok, pure_eq_ok, bind_ok]
    obtain ⟨s, hs, i1, i2, i3, i4, i5⟩ := forN_spec (n := f.num - 2)
      (s := (⟨f.fam.c0, f.fam.l0 + f.fam.l1 * xn, 0, f.fam.l1, 0 + 0 * f.coeff.getD 0 0 + f.fam.l1 * f.coeff.getD 1 0⟩ : Dt ℝ))
      (body := fun j => derivStep f xn (2 + j))
      (I := fun j s => s.p0 = f.fam.p j xn ∧ s.p1 = f.fam.p (j + 1) xn ∧ s.g0 = dp f.fam j xn ∧ s.g1 = dp f.fam (j + 1) xn ∧
        s.out = ∑ k ∈ range (j + 2), f.coeff.getD k 0 * dp f.fam k xn)
      ⟨rfl, rfl, rfl, rfl, by simp [sum_range_succ, dp, mul_comm]⟩
      (by
        rintro j hj s ⟨h1, h2, h3, h4, h5⟩
        have e2 : 2 + j = j + 2 := Nat.add_comm _ _
        refine ⟨_, by rw [derivStep, h.rdc (by omega), bind_ok]; rfl, h2, ?_, h4, ?_, ?_⟩
        · dsimp only; rw [h1, h2, e2, wp_p]
        · dsimp only; rw [e2, h2, h3, h4, dp]
        · dsimp only; rw [e2, h2, h3, h4, h5, sum_range_succ _ (j + 2), dp])
    rw [show f.num - 2 + 2 = f.num by omega] at i5
    exact ⟨s, hs, i5⟩
  · have hn : f.num = 1 := by have := h.pos; omega
    rw [if_neg h1, pure_eq_ok, bind_ok, hn]
    exact ⟨_, rfl, by simp [dp]⟩

/-- C67: derivative evaluation returns the derivative of the function represented. -/
theorem derivEval_value {f : Ope ℝ} (hf : f.WF) (hk : f.krist = false) (x : ℝ) :
    ∃ d, derivEval f x = .ok d ∧ HasDerivAt f.val d x := by
  obtain ⟨s, es, ho⟩ := derivSum_ok hf (f.map.map x)
  refine ⟨s.out * f.map.slope, ?_, by rw [ho]; exact val_hasDerivAt f x⟩
  rw [derivEval, hk]
  simp only [Bool.not_false, cassert_true, bind_ok]
  rw [hf.rdc hf.pos, bind_ok] at es ⊢
  cases hd : derivSecond f (f.map.map x) (0 + 0 * f.coeff.getD 0 0) with
  | error e => rw [hd] at es; exact absurd es (by rw [bind_error]; exact fun h => by cases h)
  | ok s0 =>
    rw [hd, bind_ok] at es
    rw [bind_ok, es]; rfl

theorem dp_cheb_two (pi x : ℝ) (n : Nat) :
    dp (chebFam pi) (n + 2) x = 2 * (chebFam pi).p (n + 1) x + 2 * x * dp (chebFam pi) (n + 1) x - dp (chebFam pi) n x := by
  rw [dp]; simp only [chebFam]; ring

theorem p_cheb_two {pi x : ℝ} (n : Nat) :
    (chebFam pi).p (n + 2) x = 2 * x * (chebFam pi).p (n + 1) x - (chebFam pi).p n x := by
  rw [Fam.p]; simp only [chebFam]; ring

/-- C67: the Chebyshev specific evaluation returns the derivative as well. -/
theorem chebDerivEval_value {f : Ope ℝ} (hf : f.WF) (hc : f.fam.pt = .cheb) (hk : f.krist = false) (x : ℝ) :
    ∃ d, chebDerivEval f x = .ok d ∧ HasDerivAt f.val d x := by
  obtain ⟨pi, hfam⟩ := hf.cheb hc
  refine ⟨(∑ k ∈ range f.num, f.coeff.getD k 0 * dp f.fam k (f.map.map x)) * f.map.slope, ?_, val_hasDerivAt f x⟩
  rw [chebDerivEval, hk]
  simp only [Bool.not_false, cassert_true, bind_ok]
  have d0 : ∀ x, dp f.fam 0 x = 0 := fun _ => rfl
  have d1 : ∀ x, dp f.fam 1 x = 1 := fun _ => by rw [hfam]; rfl
  have d2 : ∀ x, dp f.fam 2 x = 4 * x := fun y => by rw [hfam, dp_cheb_two]; simp [dp, chebFam]; ring
  by_cases c1 : f.num = 1
  · rw [if_pos c1, c1]; simp [d0]
  · rw [if_neg c1]
    by_cases c2 : f.num = 2
    · rw [if_pos c2, hf.rdc (by omega), bind_ok, c2]; simp [sum_range_succ, d0, d1]
    · rw [if_neg c2]
      by_cases c3 : f.num = 3
      · rw [if_pos c3, hf.rdc (by omega), bind_ok, hf.rdc (by omega), bind_ok, c3]
        simp only [sum_range_succ, range_zero, sum_empty, d0, d1, d2, pure_eq_ok]; congr 1; ring
      · have := hf.pos
        rw [if_neg c3, if_neg (by omega), hf.rdc (by omega), bind_ok, hf.rdc (by omega), bind_ok]
        set xn := f.map.map x with hxn
        obtain ⟨s, hs, i1, i2, i3, i4, i5⟩ := forN_spec (n := f.num - 3)
          (s := (⟨xn, 2 * xn * xn - 1, 1, 4 * xn, f.coeff.getD 1 0 * 1 + f.coeff.getD 2 0 * (4 * xn)⟩ : Dt ℝ))
          (body := fun j => chebDStep f xn (3 + j))
          (I := fun j s => s.p0 = f.fam.p (j + 1) xn ∧ s.p1 = f.fam.p (j + 2) xn ∧ s.g0 = dp f.fam (j + 1) xn ∧ s.g1 = dp f.fam (j + 2) xn ∧
            s.out = ∑ k ∈ range (j + 3), f.coeff.getD k 0 * dp f.fam k xn)
          ⟨by rw [hfam]; simp [chebFam], by rw [hfam, p_cheb_two]; simp [chebFam], (d1 _).symm, (d2 _).symm, by
            simp [sum_range_succ, d0, d1, d2]⟩
          (by
            rintro j hj s ⟨h1, h2, h3, h4, h5⟩
            have hg : 2 * s.p1 + 2 * xn * s.g1 - s.g0 = dp f.fam (j + 3) xn := by
              rw [h2, h3, h4, hfam, dp_cheb_two _ _ (j + 1)]
            refine ⟨_, by rw [chebDStep, hf.rdc (by omega), bind_ok]; rfl, h2, ?_, h4, hg, ?_⟩
            · dsimp only; rw [h1, h2, hfam, p_cheb_two (j + 1)]
            · dsimp only; rw [hg, h5, Nat.add_comm 3 j, sum_range_succ _ (j + 3)])
        rw [show f.num - 3 + 3 = f.num by omega] at i5
        rw [forR, hs, bind_ok, i5]; rfl

/-- Formal second derivatives for the Chebyshev recurrence. -/
noncomputable def ddp (fam : Fam ℝ) : Nat → ℝ → ℝ
  | 0, _ => 0
  | 1, _ => 0
  | n + 2, x => (fam.an (n + 2) * x + fam.bn (n + 2)) * ddp fam (n + 1) x + 2 * fam.an (n + 2) * dp fam (n + 1) x + fam.cn (n + 2) * ddp fam n x

theorem dp_hasDerivAt (fam : Fam ℝ) (x : ℝ) : ∀ n, HasDerivAt (fun y => dp fam n y) (ddp fam n x) x
  | 0 => hasDerivAt_const x 0
  | 1 => hasDerivAt_const x fam.l1
  | n + 2 => by
    have h1 : HasDerivAt (fun y => fam.an (n + 2) * y + fam.bn (n + 2)) (fam.an (n + 2)) x := by
      have h := ((hasDerivAt_id x).const_mul (fam.an (n + 2))).add_const (fam.bn (n + 2))
      rw [mul_one] at h
      exact h
    have h := ((h1.mul (dp_hasDerivAt fam x (n + 1))).add ((p_hasDerivAt fam x (n + 1)).const_mul (fam.an (n + 2)))).add
      ((dp_hasDerivAt fam x n).const_mul (fam.cn (n + 2)))
    have e : fam.an (n + 2) * dp fam (n + 1) x + (fam.an (n + 2) * x + fam.bn (n + 2)) * ddp fam (n + 1) x +
        fam.an (n + 2) * dp fam (n + 1) x + fam.cn (n + 2) * ddp fam n x = ddp fam (n + 2) x := by rw [ddp]; ring
    rw [e] at h
    exact h

theorem ddp_cheb_two (pi x : ℝ) (n : Nat) :
    ddp (chebFam pi) (n + 2) x = 4 * dp (chebFam pi) (n + 1) x + 2 * x * ddp (chebFam pi) (n + 1) x - ddp (chebFam pi) n x := by
  rw [ddp]; simp only [chebFam]; ring

theorem val_hasDerivAt2 (f : Ope ℝ) (x : ℝ) :
    HasDerivAt (deriv f.val) ((∑ k ∈ range f.num, f.coeff.getD k 0 * ddp f.fam k (f.map.map x)) * (f.map.slope * f.map.slope)) x := by
  have e0 : deriv f.val = fun y => (∑ k ∈ range f.num, f.coeff.getD k 0 * dp f.fam k (f.map.slope * y + f.map.off)) * f.map.slope :=
    funext (fun y => (val_hasDerivAt f y).deriv)
  rw [e0]
  have hm : HasDerivAt (fun y => f.map.slope * y + f.map.off) f.map.slope x := by
    have h := ((hasDerivAt_id x).const_mul f.map.slope).add_const f.map.off
    rw [mul_one] at h
    exact h
  have h : HasDerivAt (fun y => ∑ k ∈ range f.num, f.coeff.getD k 0 * dp f.fam k (f.map.slope * y + f.map.off))
      (∑ k ∈ range f.num, f.coeff.getD k 0 * (ddp f.fam k (f.map.map x) * f.map.slope)) x := by
    refine HasDerivAt.fun_sum (fun k _ => ?_)
    exact ((dp_hasDerivAt f.fam (f.map.map x) k).comp x hm).const_mul (f.coeff.getD k 0)
  have e : (∑ k ∈ range f.num, f.coeff.getD k 0 * (ddp f.fam k (f.map.map x) * f.map.slope)) * f.map.slope =
      (∑ k ∈ range f.num, f.coeff.getD k 0 * ddp f.fam k (f.map.map x)) * (f.map.slope * f.map.slope) := by
    rw [sum_mul, sum_mul]; exact sum_congr rfl (fun k _ => by ring)
  rw [← e]
  exact h.mul_const f.map.slope

/-- C67: second derivative of a Chebyshev expansion. With exactly three polynomials the square of the slope of the mapping is
missing (`chebDDerivEval_counterexample`), so that case is covered only when it is 1. -/
theorem chebDDerivEval_value_partial {f : Ope ℝ} (hf : f.WF) (hc : f.fam.pt = .cheb) (hk : f.krist = false)
    (h3 : f.num = 3 → f.map.slope * f.map.slope = 1) (x : ℝ) :
    ∃ d, chebDDerivEval f x = .ok d ∧ HasDerivAt (deriv f.val) d x := by
  obtain ⟨pi, hfam⟩ := hf.cheb hc
  refine ⟨_, ?_, val_hasDerivAt2 f x⟩
  rw [chebDDerivEval, hk]
  simp only [Bool.not_false, cassert_true, bind_ok]
  have d1 : ∀ x, dp f.fam 1 x = 1 := fun _ => by rw [hfam]; rfl
  have d2 : ∀ x, dp f.fam 2 x = 4 * x := fun y => by rw [hfam, dp_cheb_two]; simp [dp, chebFam]; ring
  have q0 : ∀ x, ddp f.fam 0 x = 0 := fun _ => rfl
  have q1 : ∀ x, ddp f.fam 1 x = 0 := fun _ => rfl
  have q2 : ∀ x, ddp f.fam 2 x = 4 := fun y => by rw [hfam, ddp_cheb_two, ← hfam, q0, q1, d1]; ring
  have q3 : ∀ x, ddp f.fam 3 x = 24 * x := fun y => by rw [hfam, ddp_cheb_two, ← hfam, q1, q2, d2]; ring
  have hp := hf.pos
  by_cases c1 : f.num ≤ 2
  · rw [if_pos c1]
    have : f.num = 1 ∨ f.num = 2 := by omega
    rcases this with e | e <;> rw [e] <;> simp [sum_range_succ, q0, q1]
  · rw [if_neg c1]
    by_cases c2 : f.num = 3
    · rw [if_pos c2, hf.rdc (by omega), bind_ok, h3 c2, c2]; simp [sum_range_succ, q0, q1, q2]
    · rw [if_neg c2]
      by_cases c3 : f.num = 4
      · rw [if_pos c3, hf.rdc (by omega), bind_ok, hf.rdc (by omega), bind_ok, c3]
        simp only [sum_range_succ, range_zero, sum_empty, q0, q1, q2, q3, pure_eq_ok]; congr 1; ring
      · rw [if_neg c3, hf.rdc (by omega), bind_ok, hf.rdc (by omega), bind_ok]
        set xn := f.map.map x with hxn
        have p1 : f.fam.p 1 xn = xn := by rw [hfam]; simp [chebFam]
        have p2 : f.fam.p 2 xn = 2 * xn * xn - 1 := by rw [hfam, p_cheb_two]; simp [chebFam]
        obtain ⟨s, hs, i1, i2, i3, i4, i5, i6, i7⟩ := forN_spec (n := f.num - 4)
          (s := (⟨2 * xn * xn - 1, 2 * xn * (2 * xn * xn - 1) - xn, 4 * xn, 2 * (2 * xn * xn - 1) + 2 * xn * (4 * xn) - 1, 4, 24 * xn,
            f.coeff.getD 2 0 * 4 + f.coeff.getD 3 0 * (24 * xn)⟩ : Et ℝ))
          (body := fun j => chebDDStep f xn (4 + j))
          (I := fun j s => s.p0 = f.fam.p (j + 2) xn ∧ s.p1 = f.fam.p (j + 3) xn ∧ s.g0 = dp f.fam (j + 2) xn ∧ s.g1 = dp f.fam (j + 3) xn ∧
            s.h0 = ddp f.fam (j + 2) xn ∧ s.h1 = ddp f.fam (j + 3) xn ∧
            s.out = ∑ k ∈ range (j + 4), f.coeff.getD k 0 * ddp f.fam k xn)
          ⟨p2.symm, by rw [hfam, p_cheb_two, ← hfam, p1, p2], (d2 _).symm, by rw [hfam, dp_cheb_two, ← hfam, p2, d1, d2], (q2 _).symm,
            (q3 _).symm, by simp [sum_range_succ, q0, q1, q2, q3]⟩
          (by
            rintro j hj s ⟨h1, h2, h3, h4, h5, h6, h7⟩
            have hg : 2 * s.p1 + 2 * xn * s.g1 - s.g0 = dp f.fam (j + 4) xn := by
              rw [h2, h3, h4, hfam, dp_cheb_two _ _ (j + 2)]
            have hq : 4 * s.g1 + 2 * xn * s.h1 - s.h0 = ddp f.fam (j + 4) xn := by
              rw [h4, h5, h6, hfam, ddp_cheb_two _ _ (j + 2)]
            refine ⟨_, by rw [chebDDStep, hf.rdc (by omega), bind_ok]; rfl, h2, ?_, h4, hg, h6, hq, ?_⟩
            · dsimp only; rw [h1, h2, hfam, p_cheb_two (j + 2)]
            · dsimp only; rw [hq, h7, Nat.add_comm 4 j, sum_range_succ _ (j + 4)])
        rw [show f.num - 4 + 4 = f.num by omega] at i7
        rw [forR, hs, bind_ok, i7]; rfl

/-- On `[0, 1]` (slope 2) the second derivative of `T_2(2x-1) = 8x² - 8x + 1` is 16 and the code returns 4. -/
theorem chebDDerivEval_counterexample : ∃ f : Ope ℝ, f.WF ∧ f.fam.pt = .cheb ∧ f.krist = false ∧ (∀ x, f.val x = 8 * x ^ 2 - 8 * x + 1) ∧
    ∀ x, chebDDerivEval f x = .ok 4 := by
  refine ⟨⟨chebFam 3, 3, 0, 1, ⟨2, -1, 1 / 2, 1 / 2⟩, 3, [0, 0, 1], false⟩, ⟨by decide, by decide, by decide, fun _ => ⟨3, rfl⟩⟩, rfl, rfl, ?_, ?_⟩
  · intro x
    simp [Ope.val, sum_range_succ, Fam.p, chebFam]; ring
  · intro x
    simp [chebDDerivEval, rd]

example : ∃ f : Ope ℝ, f.WF ∧ f.fam.pt = .cheb ∧ f.krist = false ∧ f.num = 5 :=
  ⟨⟨chebFam 3, 5, 0, 1, ⟨2, -1, 1 / 2, 1 / 2⟩, 5, [0, 0, 1, 2, 3], false⟩, ⟨by decide, by decide, by decide, fun _ => ⟨3, rfl⟩⟩, rfl, rfl, rfl⟩

end C3.Poly
