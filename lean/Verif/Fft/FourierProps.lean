/-
C90: evaluation, differentiation and integration of Fourier expansions.
-/
import Verif.Fft.FourierModel
import Verif.Lin.Lemmas
import Mathlib.Analysis.SpecialFunctions.Integrals.Basic

namespace C3.Fourier

open Finset
open Complex (I exp)
open C3.Poly (SMap)
open C3.Lin (dv dv_ok)

/-! ### Specification -/

/-- The real trigonometric polynomial with coefficients `c 0, ..., c (n-1)` (`c 0` real part only, the others with their conjugates). -/
noncomputable def trig (c : Nat → ℂ) (n : Nat) (t : ℝ) : ℝ :=
  (c 0).re + ∑ k ∈ Ico 1 n, 2 * ((c k).re * Real.cos (k * t) - (c k).im * Real.sin (k * t))

/-- Coefficient `k`. -/
def Fe.co (f : Fe) (k : Nat) : ℂ := f.cc.getD k 0

/-- The function an expansion stands for. -/
noncomputable def Fe.fn (f : Fe) (x : ℝ) : ℝ := trig f.co f.num (f.map.slope * x + f.map.off)

/-- Well-formed expansions. -/
structure Good (f : Fe) : Prop where
  pos : 1 ≤ f.num
  le : f.num ≤ f.cc.length
  na : f.nalloc = f.cc.length
  kr : f.krist = false

/-- The mapping sends `[lb, ub]` to `[0, 2 pi]`, and the stored inverse is its inverse. -/
structure Dom (f : Fe) : Prop where
  lo : f.map.slope * f.lb + f.map.off = 0
  hi : f.map.slope * f.ub + f.map.off = 2 * Real.pi
  inv : f.map.islope = f.map.slope⁻¹
  io : f.map.ioff = -f.map.off / f.map.slope

theorem Dom.ne {f : Fe} (h : Dom f) : f.map.slope ≠ 0 := by
  intro h0
  have h1 := h.lo
  have h2 := h.hi
  rw [h0] at h1 h2
  have := Real.pi_pos
  linarith

/-! ### Initialisation -/

theorem init_ok (num : Nat) {lb ub : ℝ} (h : lb ≠ ub) :
    ∃ f, init num lb ub = .ok f ∧ f.num = num ∧ f.lb = lb ∧ f.ub = ub ∧ f.cc = List.replicate (num + 50) 0 ∧ (1 ≤ num → Good f) ∧ Dom f ∧
      f.nalloc = num + 50 ∧ f.krist = false := by
  have hs : ub - lb ≠ 0 := sub_ne_zero.2 h.symm
  have hm : (2 * Real.pi - 0) / (ub - lb) ≠ 0 := div_ne_zero (by have := Real.pi_pos; linarith) hs
  unfold init
  rw [dv_ok hs, bind_ok]
  dsimp only
  rw [dv_ok hm, bind_ok, dv_ok hm, bind_ok]
  refine ⟨_, rfl, rfl, rfl, rfl, rfl, fun h1 => ⟨h1, by simp, by simp, rfl⟩, ⟨?_, ?_, ?_, rfl⟩, rfl, rfl⟩
  · dsimp only; field_simp; ring
  · dsimp only; ring
  · dsimp only; rw [one_div]

theorem Dom.inv_map {f : Fe} (h : Dom f) (t : ℝ) : f.map.slope * f.map.inv t + f.map.off = t := by
  have := h.ne
  rw [SMap.inv, h.inv, h.io]; field_simp; ring

theorem init_fn {num : Nat} {f : Fe} (hc : f.cc = List.replicate (num + 50) 0) (x : ℝ) : f.fn x = 0 := by
  have : ∀ k, f.co k = 0 := by
    intro k; rw [Fe.co, hc, List.getD_eq_getElem?_getD, List.getElem?_replicate]; split <;> rfl
  simp [Fe.fn, trig, this]

/-! ### Evaluation -/

theorem upLoop_ok {f : Fe} (h : Good f) (z : ℂ) : upLoop f z = .ok (∑ k ∈ range f.num, f.co k * z ^ k, z ^ f.num) := by
  unfold upLoop
  obtain ⟨s, h1, h2⟩ := forN_spec (n := f.num) (s := ((0 : ℂ), (1 : ℂ)))
    (body := fun ii (s : ℂ × ℂ) => do
      let c ← rd f.cc ii
      pure (s.1 + c * s.2, s.2 * z))
    (I := fun m s => s = (∑ k ∈ range m, f.co k * z ^ k, z ^ m)) (by simp)
    (by
      rintro i hi s rfl
      refine ⟨_, by rw [rd_getD 0 (by have := h.le; omega), bind_ok]; rfl, ?_⟩
      rw [sum_range_succ, pow_succ]; rfl)
  rw [h1, h2]

theorem downLoop_ok {f : Fe} (h : Good f) (z out : ℂ) :
    ∃ w, downLoop f z out = .ok (out + ∑ k ∈ Ico 1 f.num, (starRingEnd ℂ) (f.co k) * (1 / z) ^ k, w) := by
  unfold downLoop
  have hp := h.pos
  rw [max_eq_right hp]
  obtain ⟨s, h1, h2⟩ := forR_spec (a := 1) (b := f.num) (s := (out, 1 / z))
    (body := fun ii (s : ℂ × ℂ) => do
      let c ← rd f.cc ii
      pure (s.1 + (starRingEnd ℂ) c * s.2, s.2 / z))
    (I := fun m s => s = (out + ∑ k ∈ Ico 1 m, (starRingEnd ℂ) (f.co k) * (1 / z) ^ k, (1 / z) ^ m)) hp (by simp)
    (by
      rintro i hi1 hi2 s rfl
      refine ⟨_, by rw [rd_getD 0 (by have := h.le; omega), bind_ok]; rfl, ?_⟩
      rw [sum_Ico_succ_top hi1, pow_succ, add_assoc, mul_one_div]; rfl)
  exact ⟨_, by rw [h1, h2]⟩

theorem exp_pow (t : ℝ) (k : Nat) : exp (I * t) ^ k = Real.cos (k * t) + Real.sin (k * t) * I := by
  rw [← Complex.exp_nat_mul, show (k : ℂ) * (I * t) = ((k * t : ℝ) : ℂ) * I by push_cast; ring, Complex.exp_mul_I]
  push_cast; rfl

theorem inv_exp_pow (t : ℝ) (k : Nat) : (1 / exp (I * t)) ^ k = Real.cos (k * t) - Real.sin (k * t) * I := by
  rw [one_div, ← Complex.exp_neg, ← Complex.exp_nat_mul, show (k : ℂ) * -(I * t) = ((-(k * t) : ℝ) : ℂ) * I by push_cast; ring, Complex.exp_mul_I]
  push_cast; rw [Complex.cos_neg, Complex.sin_neg]; ring

/-- C90: evaluation returns the value of the trigonometric polynomial. -/
theorem eval_ok {f : Fe} (h : Good f) (x : ℝ) : eval f x = .ok (f.fn x) := by
  unfold eval
  rw [show (!f.krist) = true by rw [h.kr]; rfl, cassert, if_pos rfl, bind_ok]
  dsimp only
  rw [upLoop_ok h, bind_ok]
  obtain ⟨w, hw⟩ := downLoop_ok h (exp (I * (f.map.map x : ℝ))) (∑ k ∈ range f.num, f.co k * exp (I * (f.map.map x : ℝ)) ^ k)
  dsimp only
  rw [hw, bind_ok, pure_eq_ok]
  congr 1
  dsimp only
  have h0 : ∑ k ∈ range f.num, f.co k * exp (I * (f.map.map x : ℝ)) ^ k = f.co 0 + ∑ k ∈ Ico 1 f.num, f.co k * exp (I * (f.map.map x : ℝ)) ^ k := by
    rw [range_eq_Ico, sum_eq_sum_Ico_succ_bot (by have := h.pos; omega)]; simp
  rw [h0, add_assoc, ← sum_add_distrib, Complex.add_re, Complex.re_sum, Fe.fn, trig]
  congr 1
  refine sum_congr rfl fun k _ => ?_
  rw [exp_pow, inv_exp_pow, SMap.map]
  simp only [Complex.add_re, Complex.mul_re, Complex.mul_im, Complex.sub_re, Complex.sub_im, Complex.add_im, Complex.ofReal_re, Complex.ofReal_im,
    Complex.I_re, Complex.I_im, Complex.conj_re, Complex.conj_im]
  ring

/-! ### Differentiation -/

theorem trig_deriv (c : Nat → ℂ) (n : Nat) (t : ℝ) :
    HasDerivAt (trig c n) (∑ k ∈ Ico 1 n, 2 * (-(c k).re * (k * Real.sin (k * t)) - (c k).im * (k * Real.cos (k * t)))) t := by
  unfold trig
  have h1 : ∀ k : Nat, HasDerivAt (fun t : ℝ => (k : ℝ) * t) k t := fun k => by simpa using (hasDerivAt_id t).const_mul (k : ℝ)
  have hs : HasDerivAt (fun t => ∑ k ∈ Ico 1 n, 2 * ((c k).re * Real.cos (k * t) - (c k).im * Real.sin (k * t)))
      (∑ k ∈ Ico 1 n, 2 * (-(c k).re * (k * Real.sin (k * t)) - (c k).im * (k * Real.cos (k * t)))) t := by
    refine HasDerivAt.fun_sum fun k _ => ?_
    have := (((h1 k).cos.const_mul (c k).re).sub ((h1 k).sin.const_mul (c k).im)).const_mul 2
    refine this.congr_deriv ?_
    ring
  exact hs.const_add _

theorem fn_deriv (f : Fe) (x : ℝ) : HasDerivAt f.fn
    ((∑ k ∈ Ico 1 f.num, 2 * (-(f.co k).re * (k * Real.sin (k * f.map.map x)) - (f.co k).im * (k * Real.cos (k * f.map.map x)))) * f.map.slope) x := by
  have h1 : HasDerivAt (fun x : ℝ => f.map.slope * x + f.map.off) f.map.slope x := by
    simpa using ((hasDerivAt_id x).const_mul f.map.slope).add_const f.map.off
  exact (trig_deriv f.co f.num (f.map.slope * x + f.map.off)).comp x h1

/-- C90: the evaluated derivative is the derivative of the represented function. -/
theorem derivEval_ok {f : Fe} (h : Good f) (x : ℝ) : ∃ v, derivEval f x = .ok v ∧ HasDerivAt f.fn v x := by
  have hp := h.pos
  set z := exp (I * (f.map.map x : ℝ)) with hz
  have hu : dUpLoop f z = .ok (∑ k ∈ Ico 1 f.num, f.co k * z ^ k * k * I, z ^ f.num) := by
    unfold dUpLoop
    rw [max_eq_right hp]
    obtain ⟨s, h1, h2⟩ := forR_spec (a := 1) (b := f.num) (s := ((0 : ℂ), z))
      (body := fun ii (s : ℂ × ℂ) => do
        let c ← rd f.cc ii
        pure (s.1 + c * s.2 * ii * I, s.2 * z))
      (I := fun m s => s = (∑ k ∈ Ico 1 m, f.co k * z ^ k * k * I, z ^ m)) hp (by simp)
      (by
        rintro i hi1 hi2 s rfl
        refine ⟨_, by rw [rd_getD 0 (by have := h.le; omega), bind_ok]; rfl, ?_⟩
        rw [sum_Ico_succ_top hi1, pow_succ]; rfl)
    rw [h1, h2]
  have hd : ∀ out, ∃ w, dDownLoop f z out = .ok (out - ∑ k ∈ Ico 1 f.num, (starRingEnd ℂ) (f.co k) * (1 / z) ^ k * k * I, w) := by
    intro out
    unfold dDownLoop
    rw [max_eq_right hp]
    obtain ⟨s, h1, h2⟩ := forR_spec (a := 1) (b := f.num) (s := (out, 1 / z))
      (body := fun ii (s : ℂ × ℂ) => do
        let c ← rd f.cc ii
        pure (s.1 - (starRingEnd ℂ) c * s.2 * ii * I, s.2 / z))
      (I := fun m s => s = (out - ∑ k ∈ Ico 1 m, (starRingEnd ℂ) (f.co k) * (1 / z) ^ k * k * I, (1 / z) ^ m)) hp (by simp)
      (by
        rintro i hi1 hi2 s rfl
        refine ⟨_, by rw [rd_getD 0 (by have := h.le; omega), bind_ok]; rfl, ?_⟩
        rw [sum_Ico_succ_top hi1, pow_succ, sub_add_eq_sub_sub, mul_one_div]; rfl)
    exact ⟨_, by rw [h1, h2]⟩
  obtain ⟨w, hw⟩ := hd (∑ k ∈ Ico 1 f.num, f.co k * z ^ k * k * I)
  refine ⟨_, ?_, fn_deriv f x⟩
  unfold derivEval
  rw [show (!f.krist) = true by rw [h.kr]; rfl, cassert, if_pos rfl, bind_ok]
  dsimp only
  rw [hu, bind_ok]
  dsimp only
  rw [hw, bind_ok, pure_eq_ok]
  congr 2
  dsimp only
  rw [← sum_sub_distrib, Complex.re_sum]
  refine sum_congr rfl fun k _ => ?_
  rw [hz, exp_pow, inv_exp_pow]
  simp only [Complex.add_re, Complex.mul_re, Complex.mul_im, Complex.sub_re, Complex.sub_im, Complex.add_im, Complex.ofReal_re, Complex.ofReal_im,
    Complex.I_re, Complex.I_im, Complex.conj_re, Complex.conj_im, Complex.natCast_re, Complex.natCast_im]
  ring

theorem copy_ok {f : Fe} (h : Good f) : ∃ g, copy f = .ok g ∧ Good g ∧ g.num = f.num ∧ g.lb = f.lb ∧ g.ub = f.ub ∧ g.map = f.map ∧
    g.nalloc = f.nalloc ∧ (∀ k < f.num, g.co k = f.co k) ∧ ∀ k, f.num ≤ k → g.co k = 0 := by
  have hle := h.le
  have hna := h.na
  unfold copy
  rw [show decide (f.nalloc ≥ f.num) = true from decide_eq_true (by omega), cassert, if_pos rfl, bind_ok]
  obtain ⟨c, h1, h2, h3, h4⟩ := forN_spec (n := f.num) (s := List.replicate f.nalloc (0 : ℂ))
    (body := fun ii c => do
      let v ← rd f.cc ii
      wr c ii v)
    (I := fun m c => c.length = f.nalloc ∧ (∀ k < m, c.getD k 0 = f.co k) ∧ ∀ k, m ≤ k → c.getD k 0 = 0)
    ⟨by simp, by omega, by intro k _; rw [List.getD_eq_getElem?_getD, List.getElem?_replicate]; split <;> rfl⟩
    (by
      rintro i hi c ⟨h1, h2, h3⟩
      rw [rd_getD 0 (by omega), bind_ok, wr_ok _ (by omega)]
      refine ⟨_, rfl, by simpa using h1, ?_, ?_⟩
      · intro k hk
        by_cases e : i = k
        · subst e; rw [List.getD_eq_getElem?_getD, List.getElem?_set_self (by omega)]; rfl
        · rw [List.getD_eq_getElem?_getD, List.getElem?_set_ne e, ← List.getD_eq_getElem?_getD]; exact h2 k (by omega)
      · intro k hk
        rw [List.getD_eq_getElem?_getD, List.getElem?_set_ne (by omega), ← List.getD_eq_getElem?_getD]; exact h3 k (by omega))
  rw [h1, bind_ok]
  exact ⟨{ f with cc := c }, rfl, ⟨h.pos, by dsimp only; omega, h2.symm, h.kr⟩, rfl, rfl, rfl, rfl, rfl, h3, h4⟩

/-- `c[0] = 0`, then `c[ii] *= w ii` for `1 ≤ ii < n`. -/
theorem mulTail_ok {n : Nat} {c : List ℂ} (hn : 1 ≤ n) (hl : n ≤ c.length) (w : Nat → ℂ) :
    ∃ c1 c', wr c 0 0 = .ok c1 ∧ forR 1 (max 1 n) (fun ii c => do
      let v ← rd c ii
      wr c ii (v * w ii)) c1 = .ok c' ∧ c'.length = c.length ∧ c'.getD 0 0 = 0 ∧ ∀ k, 1 ≤ k → k < n → c'.getD k 0 = c.getD k 0 * w k := by
  rw [max_eq_right hn]
  obtain ⟨c', h1, h2, h3, h4, h5⟩ := forR_spec (a := 1) (b := n) (s := c.set 0 0)
    (body := fun ii c => do
      let v ← rd c ii
      wr c ii (v * w ii))
    (I := fun m c' => c'.length = c.length ∧ c'.getD 0 0 = 0 ∧ (∀ k, 1 ≤ k → k < m → c'.getD k 0 = c.getD k 0 * w k) ∧
      ∀ k, m ≤ k → c'.getD k 0 = c.getD k 0) hn
    ⟨by simp, by rw [List.getD_eq_getElem?_getD, List.getElem?_set_self (by omega)]; rfl, by intros; omega,
      by intro k hk; rw [List.getD_eq_getElem?_getD, List.getElem?_set_ne (by omega), ← List.getD_eq_getElem?_getD]⟩
    (by
      rintro i hi1 hi2 c' ⟨h1, h2, h3, h4⟩
      rw [rd_getD 0 (by omega), bind_ok, wr_ok _ (by omega)]
      refine ⟨_, rfl, by simpa using h1, ?_, ?_, ?_⟩
      · rw [List.getD_eq_getElem?_getD, List.getElem?_set_ne (by omega), ← List.getD_eq_getElem?_getD, h2]
      · intro k hk1 hk2
        by_cases e : i = k
        · subst e; rw [List.getD_eq_getElem?_getD, List.getElem?_set_self (by omega), h4 i le_rfl]; rfl
        · rw [List.getD_eq_getElem?_getD, List.getElem?_set_ne e, ← List.getD_eq_getElem?_getD]; exact h3 k hk1 (by omega)
      · intro k hk
        rw [List.getD_eq_getElem?_getD, List.getElem?_set_ne (by omega), ← List.getD_eq_getElem?_getD]; exact h4 k (by omega))
  exact ⟨_, c', wr_ok _ (by omega), h1, h2, h3, h4⟩

/-- C90: the derivative expansion represents the derivative. -/
theorem deriv_ok {f : Fe} (h : Good f) : ∃ g, deriv f = .ok g ∧ Good g ∧ g.lb = f.lb ∧ g.ub = f.ub ∧ g.map = f.map ∧ g.num = f.num ∧
    (g.co 0 = 0 ∧ ∀ k, 1 ≤ k → k < f.num → g.co k = f.co k * (I * k * f.map.slope)) ∧ ∀ x, HasDerivAt f.fn (g.fn x) x := by
  obtain ⟨g, h1, h2, h3, h4, h5, h6, h7, h8, -⟩ := copy_ok h
  obtain ⟨c1, c', e1, e2, e3, e4, e5⟩ := mulTail_ok (n := f.num) (c := g.cc) h.pos (by rw [← h3]; exact h2.le) (fun ii => I * ii * f.map.slope)
  unfold deriv
  rw [show (!f.krist) = true by rw [h.kr]; rfl, cassert, if_pos rfl, bind_ok, h1, bind_ok, e1, bind_ok, e2, bind_ok]
  have hk : ∀ k, 1 ≤ k → k < f.num → c'.getD k 0 = f.co k * (I * k * f.map.slope) := by
    intro k k1 k2
    rw [e5 k k1 k2, ← h8 k k2]; rfl
  refine ⟨{ g with cc := c' }, rfl, ⟨h2.pos, by dsimp only; rw [e3]; exact h2.le, by dsimp only; rw [e3]; exact h2.na, h2.kr⟩, h4, h5, h6, h3,
    ⟨e4, hk⟩, ?_⟩
  intro x
  refine (fn_deriv f x).congr_deriv ?_
  rw [Fe.fn, trig]
  change _ = (c'.getD 0 0).re + ∑ k ∈ Ico 1 g.num, 2 * ((c'.getD k 0).re * Real.cos (k * (g.map.slope * x + g.map.off)) -
    (c'.getD k 0).im * Real.sin (k * (g.map.slope * x + g.map.off)))
  rw [e4, Complex.zero_re, zero_add, h3, h6, sum_mul]
  refine sum_congr rfl fun k hk' => ?_
  rw [hk k (mem_Ico.1 hk').1 (mem_Ico.1 hk').2, SMap.map]
  simp only [Complex.mul_re, Complex.mul_im, Complex.I_re, Complex.I_im, Complex.natCast_re, Complex.natCast_im, Complex.ofReal_re, Complex.ofReal_im]
  ring

/-- C90: the second derivative expansion represents the derivative of the derivative expansion. -/
theorem dderiv_ok {f : Fe} (h : Good f) : ∃ g g2, deriv f = .ok g ∧ dderiv f = .ok g2 ∧ Good g2 ∧ g2.lb = f.lb ∧ g2.ub = f.ub ∧ g2.map = f.map ∧
    ∀ x, HasDerivAt f.fn (g.fn x) x ∧ HasDerivAt g.fn (g2.fn x) x := by
  obtain ⟨q, q1, q2, q3, q4, q5, q6, ⟨q7, q8⟩, q9⟩ := deriv_ok h
  obtain ⟨g, h1, h2, h3, h4, h5, h6, h7, h8, -⟩ := copy_ok h
  obtain ⟨c1, c', e1, e2, e3, e4, e5⟩ := mulTail_ok (n := f.num) (c := g.cc) h.pos (by rw [← h3]; exact h2.le)
    (fun ii => ((-1 * (ii * ii : ℕ) * f.map.slope * f.map.slope : ℝ) : ℂ))
  refine ⟨q, { g with cc := c' }, q1, ?_, ⟨h2.pos, by dsimp only; rw [e3]; exact h2.le, by dsimp only; rw [e3]; exact h2.na, h2.kr⟩, h4, h5, h6, ?_⟩
  · unfold dderiv
    rw [show (!f.krist) = true by rw [h.kr]; rfl, cassert, if_pos rfl, bind_ok, h1, bind_ok, e1, bind_ok, e2, bind_ok]; rfl
  intro x
  refine ⟨q9 x, (fn_deriv q x).congr_deriv ?_⟩
  rw [Fe.fn, trig]
  change _ = (c'.getD 0 0).re + ∑ k ∈ Ico 1 g.num, 2 * ((c'.getD k 0).re * Real.cos (k * (g.map.slope * x + g.map.off)) -
    (c'.getD k 0).im * Real.sin (k * (g.map.slope * x + g.map.off)))
  rw [e4, Complex.zero_re, zero_add, h3, h6, sum_mul, q6, q5]
  refine sum_congr rfl fun k hk' => ?_
  have k1 := (mem_Ico.1 hk').1
  have k2 := (mem_Ico.1 hk').2
  rw [q8 k k1 k2, e5 k k1 k2, show g.cc.getD k 0 = f.co k from h8 k k2, SMap.map]
  simp only [Complex.mul_re, Complex.mul_im, Complex.I_re, Complex.I_im, Complex.natCast_re, Complex.natCast_im, Complex.ofReal_re, Complex.ofReal_im]
  push_cast
  ring

/-! ### Integration -/

theorem trig_cont (c : Nat → ℂ) (n : Nat) : Continuous (trig c n) := by
  unfold trig
  fun_prop

theorem trig_integral (c : Nat → ℂ) (n : Nat) : ∫ t in (0 : ℝ)..2 * Real.pi, trig c n t = 2 * Real.pi * (c 0).re := by
  unfold trig
  rw [intervalIntegral.integral_add (by simp) (Continuous.intervalIntegrable (by fun_prop) _ _)]
  rw [intervalIntegral.integral_finsetSum (fun k _ => Continuous.intervalIntegrable (by fun_prop) _ _)]
  rw [sum_eq_zero, add_zero]
  · simp
  intro k hk
  have hk0 : (k : ℝ) ≠ 0 := Nat.cast_ne_zero.2 (by have := (mem_Ico.1 hk).1; omega)
  have e1 : ∫ t in (0 : ℝ)..2 * Real.pi, Real.cos (k * t) = 0 := by
    rw [intervalIntegral.integral_comp_mul_left (fun t => Real.cos t) hk0, integral_cos,
      show (k : ℝ) * (2 * Real.pi) = ((2 * k : ℕ) : ℝ) * Real.pi by push_cast; ring, Real.sin_nat_mul_pi]
    simp
  have e2 : ∫ t in (0 : ℝ)..2 * Real.pi, Real.sin (k * t) = 0 := by
    rw [intervalIntegral.integral_comp_mul_left (fun t => Real.sin t) hk0, integral_sin, Real.cos_nat_mul_two_pi]
    simp
  rw [intervalIntegral.integral_const_mul, intervalIntegral.integral_sub (Continuous.intervalIntegrable (by fun_prop) _ _)
    (Continuous.intervalIntegrable (by fun_prop) _ _), intervalIntegral.integral_const_mul, intervalIntegral.integral_const_mul, e1, e2]
  simp

theorem subst_integral {f : Fe} (hd : Dom f) (g : ℝ → ℝ) :
    ∫ x in f.lb..f.ub, g (f.map.slope * x + f.map.off) = f.map.islope * ∫ t in (0 : ℝ)..2 * Real.pi, g t := by
  rw [intervalIntegral.integral_comp_mul_add g hd.ne, hd.lo, hd.hi, hd.inv, smul_eq_mul]

/-- C90: the integral over the domain of the expansion, and the mean. -/
theorem integrate_ok {f : Fe} (h : Good f) (hd : Dom f) : integrate f = .ok (∫ x in f.lb..f.ub, f.fn x) ∧
    (f.lb < f.ub → integrateW f = .ok ((∫ x in f.lb..f.ub, f.fn x) / (f.ub - f.lb))) := by
  have hp : 0 < f.cc.length := by have := h.pos; have := h.le; omega
  have e := subst_integral hd (trig f.co f.num)
  rw [trig_integral] at e
  change ∫ x in f.lb..f.ub, f.fn x = _ at e
  have hpi := Real.pi_pos
  have hs : f.map.slope * (f.ub - f.lb) = 2 * Real.pi := by have := hd.lo; have := hd.hi; linarith
  constructor
  · unfold integrate
    rw [rd_getD 0 hp, bind_ok, e, pure_eq_ok]
    congr 1
    simp [Fe.co]
    ring
  · intro hlt
    unfold integrateW
    rw [rd_getD 0 hp, bind_ok, e, hd.inv, pure_eq_ok]
    congr 1
    have h1 : f.ub - f.lb ≠ 0 := by linarith
    have h2 := hd.ne
    rw [show f.map.slope⁻¹ * (2 * Real.pi * (f.co 0).re) / (f.ub - f.lb) = 2 * Real.pi * (f.co 0).re / (f.map.slope * (f.ub - f.lb)) by field_simp, hs]
    field_simp
    rfl

/-- The hypotheses can be met: a new expansion on `[0, 1]`. -/
example : ∃ f, init 3 0 1 = .ok f ∧ Good f ∧ Dom f := by
  obtain ⟨f, h1, -, -, -, -, h2, h3, -⟩ := init_ok 3 (show (0 : ℝ) ≠ 1 by norm_num)
  exact ⟨f, h1, h2 (by norm_num), h3⟩

end C3.Fourier
