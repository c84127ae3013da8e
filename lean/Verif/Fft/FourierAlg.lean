/-
C93: linear algebra of Fourier expansions and the orthonormal basis.
-/
import Verif.Fft.FourierProd

namespace C3.Fourier

open Finset
open Complex (I exp)
open C3.Poly (SMap)

/-! ### Trigonometric sums -/

theorem trig_congr {c d : Nat → ℂ} {n : Nat} (h : ∀ k < n, c k = d k) (hn : 1 ≤ n) (t : ℝ) : trig c n t = trig d n t := by
  rw [trig, trig, h 0 (by omega)]
  congr 1
  exact sum_congr rfl fun k hk => by rw [h k (mem_Ico.1 hk).2]

theorem trig_lin (a b : ℝ) (c d : Nat → ℂ) (n : Nat) (t : ℝ) : trig (fun k => a * c k + b * d k) n t = a * trig c n t + b * trig d n t := by
  simp only [trig, Complex.add_re, Complex.add_im, Complex.re_ofReal_mul, Complex.im_ofReal_mul, mul_add, mul_sum]
  rw [add_add_add_comm, ← sum_add_distrib]
  congr 1
  exact sum_congr rfl fun k _ => by ring

theorem trig_pad {c d : Nat → ℂ} {n N : Nat} (hn : 1 ≤ n) (h : n ≤ N) (h1 : ∀ k < n, d k = c k) (h2 : ∀ k, n ≤ k → k < N → d k = 0) (t : ℝ) :
    trig d N t = trig c n t := by
  rw [trig, trig, h1 0 (by omega), ← sum_Ico_consecutive _ hn h]
  rw [sum_eq_zero (s := Ico n N), add_zero]
  · congr 1
    exact sum_congr rfl fun k hk => by rw [h1 k (mem_Ico.1 hk).2]
  · intro k hk
    rw [h2 k (mem_Ico.1 hk).1 (mem_Ico.1 hk).2]
    simp

theorem term_le (z : ℂ) (t : ℝ) : |z.re * Real.cos t - z.im * Real.sin t| ≤ ‖z‖ := by
  have h : z.re * Real.cos t - z.im * Real.sin t = (z * exp (t * I)).re := by
    rw [Complex.mul_re, Complex.exp_ofReal_mul_I_re, Complex.exp_ofReal_mul_I_im]
  rw [h]
  refine le_trans (Complex.abs_re_le_norm _) ?_
  rw [norm_mul, Complex.norm_exp_ofReal_mul_I, mul_one]

theorem trig_err {c d : Nat → ℂ} {n : Nat} (hn : 1 ≤ n) {e : ℝ} (h : ∀ k < n, ‖c k - d k‖ ≤ e) (t : ℝ) : |trig c n t - trig d n t| ≤ 2 * n * e := by
  have he : 0 ≤ e := le_trans (norm_nonneg _) (h 0 (by omega))
  have h1 : trig c n t - trig d n t = (c 0 - d 0).re + ∑ k ∈ Ico 1 n, 2 * ((c k - d k).re * Real.cos (k * t) - (c k - d k).im * Real.sin (k * t)) := by
    rw [trig, trig, add_sub_add_comm, ← sum_sub_distrib, Complex.sub_re]
    congr 1
    exact sum_congr rfl fun k _ => by rw [Complex.sub_re, Complex.sub_im]; ring
  rw [h1]
  have h2 : |(c 0 - d 0).re| ≤ e := le_trans (Complex.abs_re_le_norm _) (h 0 (by omega))
  have h3 : |∑ k ∈ Ico 1 n, 2 * ((c k - d k).re * Real.cos (k * t) - (c k - d k).im * Real.sin (k * t))| ≤ ∑ k ∈ Ico 1 n, 2 * e := by
    refine le_trans (abs_sum_le_sum_abs _ _) (sum_le_sum fun k hk => ?_)
    rw [abs_mul, abs_two]
    exact mul_le_mul_of_nonneg_left (le_trans (term_le _ _) (h k (mem_Ico.1 hk).2)) (by norm_num)
  rw [sum_const, Nat.card_Ico, nsmul_eq_mul, Nat.cast_sub hn] at h3
  refine le_trans (abs_add_le _ _) (le_trans (add_le_add h2 h3) ?_)
  push_cast
  nlinarith

/-! ### Loops over the coefficients -/

/-- A loop that replaces entry `ii` by a function of itself. -/
theorem forR_upd {lo hi : Nat} {c : List ℂ} {body : Nat → List ℂ → C (List ℂ)} (F : Nat → ℂ → ℂ) (h : lo ≤ hi) (hl : hi ≤ c.length)
    (hb : ∀ i, lo ≤ i → i < hi → ∀ b : List ℂ, b.length = c.length → body i b = wr b i (F i (b.getD i 0))) :
    ∃ c', forR lo hi body c = .ok c' ∧ c'.length = c.length ∧ (∀ k, lo ≤ k → k < hi → c'.getD k 0 = F k (c.getD k 0)) ∧
      ∀ k, (k < lo ∨ hi ≤ k) → c'.getD k 0 = c.getD k 0 := by
  obtain ⟨c', h1, h2, h3, h4⟩ := forR_spec (a := lo) (b := hi) (s := c) (body := body)
    (I := fun m b => b.length = c.length ∧ (∀ k, lo ≤ k → k < m → b.getD k 0 = F k (c.getD k 0)) ∧ ∀ k, (k < lo ∨ m ≤ k) → b.getD k 0 = c.getD k 0) h
    ⟨rfl, by intros; omega, fun _ _ => rfl⟩
    (by
      rintro i i1 i2 b ⟨b1, b2, b3⟩
      refine ⟨b.set i (F i (b.getD i 0)), by rw [hb i i1 i2 b b1, wr_ok _ (by omega)], by simpa using b1, ?_, ?_⟩
      · intro k k1 k2
        by_cases e : i = k
        · subst e; rw [List.getD_eq_getElem?_getD, List.getElem?_set_self (by omega), b3 i (Or.inr le_rfl)]; rfl
        · rw [List.getD_eq_getElem?_getD, List.getElem?_set_ne e, ← List.getD_eq_getElem?_getD]; exact b2 k k1 (by omega)
      · intro k hk
        rw [List.getD_eq_getElem?_getD, List.getElem?_set_ne (by omega), ← List.getD_eq_getElem?_getD]; exact b3 k (by omega))
  exact ⟨c', h1, h2, h3, h4⟩

theorem forN_eq_forR {σ : Type} (n : Nat) (body : Nat → σ → C σ) (s : σ) : forN n body s = forR 0 n body s := by
  simp [forR]

theorem forN_upd {n : Nat} {c : List ℂ} {body : Nat → List ℂ → C (List ℂ)} (F : Nat → ℂ → ℂ) (hl : n ≤ c.length)
    (hb : ∀ i < n, ∀ b : List ℂ, b.length = c.length → body i b = wr b i (F i (b.getD i 0))) :
    ∃ c', forN n body c = .ok c' ∧ c'.length = c.length ∧ (∀ k < n, c'.getD k 0 = F k (c.getD k 0)) ∧
      ∀ k, n ≤ k → c'.getD k 0 = c.getD k 0 := by
  rw [forN_eq_forR]
  obtain ⟨c', h1, h2, h3, h4⟩ := forR_upd F (Nat.zero_le n) hl (fun i _ h => hb i h)
  exact ⟨c', h1, h2, fun k hk => h3 k (Nat.zero_le k) hk, fun k hk => h4 k (Or.inr hk)⟩

/-! ### Scaling -/

/-- C93: scaling an expansion scales the function. -/
theorem scale_ok (a : ℝ) {f : Fe} (h : Good f) : ∃ g, scale a f = .ok g ∧ Good g ∧ g.num = f.num ∧ g.lb = f.lb ∧ g.ub = f.ub ∧ g.map = f.map ∧
    (∀ k < f.num, g.co k = f.co k * a) ∧ ∀ x, g.fn x = a * f.fn x := by
  have hl := h.le
  obtain ⟨c, h1, h2, h3, -⟩ := forN_upd (n := f.num) (c := f.cc) (body := fun ii c => do
    let v ← rd c ii
    wr c ii (v * (a : ℂ))) (fun _ v => v * a) h.le (fun i hi b hb => by rw [rd_getD 0 (by omega), bind_ok])
  unfold scale
  rw [h1, bind_ok]
  refine ⟨{ f with cc := c }, rfl, ⟨h.pos, by dsimp only; omega, by dsimp only; rw [h2]; exact h.na, h.kr⟩, rfl, rfl, rfl, rfl, h3, ?_⟩
  intro x
  have e := trig_lin a 0 f.co f.co f.num (f.map.slope * x + f.map.off)
  rw [zero_mul, add_zero] at e
  rw [Fe.fn, Fe.fn, ← e]
  refine trig_congr (fun k hk => ?_) h.pos _
  change c.getD k 0 = _
  rw [h3 k hk]
  change f.co k * a = _
  push_cast
  ring

/-- C93: the sign flip. -/
theorem flip_ok {f : Fe} (h : Good f) : ∃ g, flip f = .ok g ∧ Good g ∧ g.num = f.num ∧ g.lb = f.lb ∧ g.ub = f.ub ∧ g.map = f.map ∧
    ∀ x, g.fn x = -f.fn x := by
  obtain ⟨g, h1, h2, h3, h4, h5, h6, -, h8⟩ := scale_ok (-1) h
  refine ⟨g, ?_, h2, h3, h4, h5, h6, fun x => by rw [h8]; ring⟩
  rw [← h1]
  unfold flip scale
  push_cast
  rfl

/-! ### Sums -/

theorem trim_ok {thr : ℝ} {c : List ℂ} {n : Nat} (hn : 1 ≤ n) (hl : n ≤ c.length) : ∃ s, trim thr c n = .ok s ∧ 1 ≤ s.2 ∧ s.2 ≤ n ∧
    (∀ k, s.2 ≤ k → k < n → ‖c.getD k 0‖ ≤ thr) ∧ (1 < s.2 → thr < ‖c.getD (s.2 - 1) 0‖) := by
  unfold trim
  obtain ⟨s, h1, h2, h3, h4, h5, h6⟩ := forN_spec (n := n - 1) (s := (false, n))
    (body := fun ii (s : Bool × Nat) =>
      if s.1 then pure s
      else do
        let v ← rd c (n - 1 - ii)
        if ‖v‖ > thr then pure (true, s.2) else pure (false, s.2 - 1))
    (I := fun m s => 1 ≤ s.2 ∧ s.2 ≤ n ∧ (∀ k, s.2 ≤ k → k < n → ‖c.getD k 0‖ ≤ thr) ∧ (s.1 = false → s.2 = n - m) ∧
      (s.1 = true → thr < ‖c.getD (s.2 - 1) 0‖))
    ⟨hn, le_rfl, by intro k h1 h2; dsimp only at h1; omega, fun _ => rfl, by simp⟩
    (by
      rintro i hi ⟨b, m⟩ ⟨s1, s2, s3, s4, s5⟩
      dsimp only at s1 s2 s3 s4 s5 ⊢
      cases b with
      | true => exact ⟨(true, m), by rw [if_pos rfl]; rfl, s1, s2, s3, by simp, s5⟩
      | false =>
        have hm := s4 rfl
        rw [if_neg (by simp), rd_getD 0 (by omega), bind_ok]
        by_cases hv : ‖c.getD (n - 1 - i) 0‖ > thr
        · rw [if_pos hv]
          exact ⟨(true, m), rfl, s1, s2, s3, by simp, fun _ => by rw [hm, show n - i - 1 = n - 1 - i by omega]; exact hv⟩
        · rw [if_neg hv]
          refine ⟨(false, m - 1), rfl, by dsimp only; omega, by dsimp only; omega, ?_, fun _ => by dsimp only; omega, by simp⟩
          intro k k1 k2
          dsimp only at k1
          rcases Nat.lt_or_ge k m with e | e
          · rw [show k = n - 1 - i by omega]; exact not_lt.1 hv
          · exact s3 k e k2)
  refine ⟨s, h1, h2, h3, h4, fun h => ?_⟩
  rcases hb : s.1 with _ | _
  · have := h5 hb; omega
  · exact h6 hb

theorem cut_err {thr : ℝ} (ht : 0 ≤ thr) (v : ℂ) : ‖cut thr v - v‖ ≤ thr := by
  unfold cut
  split
  · rename_i h; rw [zero_sub, norm_neg]; exact h.le
  · rw [sub_self, norm_zero]; exact ht

/-- Coefficient `k`, zero beyond the last one. -/
def Fe.ext (f : Fe) (k : Nat) : ℂ := if k < f.num then f.co k else 0

theorem fn_ext {f : Fe} (h : Good f) {N : Nat} (hN : f.num ≤ N) (x : ℝ) : f.fn x = trig f.ext N (f.map.slope * x + f.map.off) := by
  rw [Fe.fn]
  exact (trig_pad h.pos hN (fun k hk => by rw [Fe.ext, if_pos hk]) (fun k h1 _ => by rw [Fe.ext, if_neg (by omega)]) _).symm

/-- C93: `y <- a x + y` up to the threshold below which coefficients are set to zero; with a zero threshold the sum is exact. -/
theorem axpy_ok {thr eps : ℝ} (ht : 0 ≤ thr) (he : 0 < eps) (a : ℝ) {x y : Fe} (hx : Good x) (hy : Good y) (hl : x.lb = y.lb) (hu : x.ub = y.ub)
    (hm : x.map = y.map) : ∃ z, axpy thr eps a x y = .ok z ∧ Good z ∧ z.lb = y.lb ∧ z.ub = y.ub ∧ z.map = y.map ∧ z.num ≤ max x.num y.num ∧
      (∀ k < max x.num y.num, ‖z.ext k - (a * x.ext k + y.ext k)‖ ≤ thr) ∧
      ∀ t, |z.fn t - (a * x.fn t + y.fn t)| ≤ 2 * (max x.num y.num : ℕ) * thr := by
  suffices hs : ∃ z, axpy thr eps a x y = .ok z ∧ Good z ∧ z.lb = y.lb ∧ z.ub = y.ub ∧ z.map = y.map ∧ z.num ≤ max x.num y.num ∧
      ∀ k < max x.num y.num, ‖z.ext k - (a * x.ext k + y.ext k)‖ ≤ thr by
    obtain ⟨z, z1, z2, z3, z4, z5, z6, z7⟩ := hs
    refine ⟨z, z1, z2, z3, z4, z5, z6, z7, fun t => ?_⟩
    have hp := hy.pos
    rw [fn_ext z2 z6, fn_ext hx (le_max_left x.num y.num), fn_ext hy (le_max_right x.num y.num), z5, hm]
    have e := trig_lin a 1 x.ext y.ext (max x.num y.num) (y.map.slope * t + y.map.off)
    rw [one_mul] at e
    rw [← e]
    refine trig_err (le_trans hp (le_max_right _ _)) (fun k hk => ?_) _
    have := z7 k hk
    rwa [Complex.ofReal_one, one_mul]
  have hxl := hx.le
  have hyl := hy.le
  have hyn := hy.na
  have hxp := hx.pos
  have hyp := hy.pos
  unfold axpy
  rw [show decide (|x.lb - y.lb| < eps) = true from decide_eq_true (by rw [hl]; simpa using he), cassert, if_pos rfl, bind_ok,
    show decide (|x.ub - y.ub| < eps) = true from decide_eq_true (by rw [hu]; simpa using he), cassert, if_pos rfl, bind_ok]
  by_cases hc : x.num ≤ y.num
  · rw [if_pos hc]
    obtain ⟨c, c1, c2, c3, c4⟩ := forN_upd (n := x.num) (c := y.cc) (body := fun ii y => do
      let v ← rd y ii
      let u ← rd x.cc ii
      wr y ii (cut thr (v + a * u))) (fun k v => cut thr (v + a * x.co k)) (by omega)
      (fun i hi b hb => by rw [rd_getD 0 (by omega), bind_ok, rd_getD 0 (by omega), bind_ok]; rfl)
    unfold addLoop
    rw [c1, bind_ok]
    refine ⟨{ y with cc := c }, rfl, ⟨hyp, by dsimp only; omega, by dsimp only; omega, hy.kr⟩, rfl, rfl, rfl, le_max_right _ _, ?_⟩
    intro k hk
    rw [max_eq_right hc] at hk
    have e1 : Fe.ext { y with cc := c } k = c.getD k 0 := by rw [Fe.ext, if_pos hk]; rfl
    have e2 : y.ext k = y.cc.getD k 0 := by rw [Fe.ext, if_pos hk]; rfl
    rw [e1, e2]
    by_cases hk2 : k < x.num
    · rw [c3 k hk2, Fe.ext, if_pos hk2, add_comm ((a : ℂ) * _)]
      exact cut_err ht _
    · rw [c4 k (by omega), Fe.ext, if_neg hk2, mul_zero, zero_add, sub_self, norm_zero]; exact ht
  · rw [if_neg hc]
    have hg : ∃ g : List ℂ × Nat, grow y x.num = .ok g ∧ g.1.length = g.2 ∧ x.num ≤ g.2 ∧ ∀ k < y.num, g.1.getD k 0 = y.co k := by
      unfold grow
      by_cases hn : x.num > y.nalloc
      · rw [if_pos hn]
        set c0 := y.cc.take (x.num + 10) ++ List.replicate (x.num + 10 - y.cc.length) (0 : ℂ) with hc0
        have hcl : c0.length = x.num + 10 := by rw [hc0]; simp; omega
        obtain ⟨c, c1, c2, c3, c4⟩ := forR_upd (lo := y.num) (hi := x.num + 10) (c := c0) (body := fun ii c => wr c ii 0) (fun _ _ => 0) (by omega)
          (by omega) (fun i _ _ b _ => rfl)
        rw [c1, bind_ok]
        refine ⟨(c, x.num + 10), rfl, by dsimp only; omega, by dsimp only; omega, fun k hk => ?_⟩
        dsimp only
        rw [c4 k (Or.inl hk), hc0, List.getD_eq_getElem?_getD, List.getElem?_append_left (by rw [List.length_take]; omega),
          List.getElem?_take_of_lt (by omega), ← List.getD_eq_getElem?_getD]
        rfl
      · rw [if_neg hn]
        exact ⟨(y.cc, y.nalloc), rfl, by dsimp only; omega, by dsimp only; omega, fun k _ => rfl⟩
    obtain ⟨g, g1, g2, g3, g4⟩ := hg
    rw [g1, bind_ok]
    obtain ⟨c, c1, c2, c3, c4⟩ := forR_upd (lo := y.num) (hi := x.num) (c := g.1) (body := fun ii y => do
      let u ← rd x.cc ii
      wr y ii (cut thr (a * u))) (fun k _ => cut thr (a * x.co k)) (by omega) (by omega)
      (fun i _ hi b hb => by rw [rd_getD 0 (by omega), bind_ok]; rfl)
    obtain ⟨d, d1, d2, d3, d4⟩ := forN_upd (n := y.num) (c := c) (body := fun ii y => do
      let v ← rd y ii
      let u ← rd x.cc ii
      wr y ii (cut thr (v + a * u))) (fun k v => cut thr (v + a * x.co k)) (by omega)
      (fun i hi b hb => by rw [rd_getD 0 (by omega), bind_ok, rd_getD 0 (by omega), bind_ok]; rfl)
    obtain ⟨s, s1, s2, s3, s4, -⟩ := trim_ok (thr := thr) (c := d) (n := x.num) hxp (by omega)
    unfold newLoop addLoop
    rw [c1, bind_ok, d1, bind_ok, s1, bind_ok]
    refine ⟨{ y with num := s.2, nalloc := g.2, cc := d }, rfl, ⟨s2, by dsimp only; omega, by dsimp only; omega, hy.kr⟩, rfl, rfl, rfl,
      le_trans s3 (le_max_left _ _), ?_⟩
    intro k hk
    rw [max_eq_left (by omega)] at hk
    have e3 : x.ext k = x.co k := by rw [Fe.ext, if_pos hk]
    -- the coefficient before trimming is the threshold of the exact one
    have e4 : d.getD k 0 = cut thr (a * x.ext k + y.ext k) := by
      by_cases hk2 : k < y.num
      · rw [d3 k hk2, c4 k (Or.inl hk2), g4 k hk2, e3, Fe.ext, if_pos hk2, add_comm]
      · rw [d4 k (by omega), c3 k (by omega) hk, e3, Fe.ext, if_neg hk2, add_zero]
    by_cases hk3 : k < s.2
    · have e1 : Fe.ext { y with num := s.2, nalloc := g.2, cc := d } k = d.getD k 0 := by rw [Fe.ext, if_pos hk3]; rfl
      rw [e1, e4]
      exact cut_err ht _
    · have e1 : Fe.ext { y with num := s.2, nalloc := g.2, cc := d } k = 0 := by rw [Fe.ext, if_neg hk3]
      have e5 := s4 k (by omega) hk
      rw [e4] at e5
      rw [e1, zero_sub, norm_neg]
      unfold cut at e5
      split at e5
      · rename_i h; exact h.le
      · exact e5

/-- C93: the combination `a x + b y` is a new expansion (up to the threshold). -/
theorem daxpby_ok {thr eps : ℝ} (ht : 0 ≤ thr) (he : 0 < eps) (a b : ℝ) {x y : Fe} (hx : Good x) (hy : Good y) (hl : x.lb = y.lb) (hu : x.ub = y.ub)
    (hm : x.map = y.map) : ∃ z, daxpby thr eps a (some x) b (some y) = .ok z ∧ Good z ∧ z.lb = y.lb ∧ z.ub = y.ub ∧ z.map = y.map ∧
      ∀ t, |z.fn t - (a * x.fn t + b * y.fn t)| ≤ 2 * (max x.num y.num : ℕ) * thr := by
  obtain ⟨p, p1, p2, p3, p4, p5, p6, p7, p8, -⟩ := copy_ok hy
  obtain ⟨q, q1, q2, q3, q4, q5, q6, q7, q8⟩ := scale_ok b p2
  obtain ⟨z, z1, z2, z3, z4, z5, -, -, z6⟩ := axpy_ok ht he a hx q2 (by rw [q4, p4, hl]) (by rw [q5, p5, hu]) (by rw [q6, p6, hm])
  refine ⟨z, ?_, z2, by rw [z3, q4, p4], by rw [z4, q5, p5], by rw [z5, q6, p6], fun t => ?_⟩
  · unfold daxpby
    dsimp only
    rw [p1, bind_ok, q1, bind_ok, z1]
  · have hp : p.fn t = y.fn t := by
      rw [Fe.fn, Fe.fn, p3, p6]
      exact trig_congr p8 hy.pos _
    have := z6 t
    rwa [q8, hp, q3, p3] at this

/-! ### Constants -/

/-- C93: a constant, at least as large as the threshold in absolute value, is represented exactly; smaller ones become zero. -/
theorem constant_ok {thr a : ℝ} (ha : |a| < 10 ^ 100) {start : Nat} (hs : 1 ≤ start) {lb ub : ℝ} (h : lb ≠ ub) :
    ∃ f, constant thr a start lb ub = .ok f ∧ Good f ∧ Dom f ∧ f.lb = lb ∧ f.ub = ub ∧ f.num = start ∧ ∀ x, f.fn x = if |a| < thr then 0 else a := by
  obtain ⟨f, h1, h2, h3, h4, h5, h6, h7, h8, h9⟩ := init_ok start h
  unfold constant
  rw [show decide (|a| < 10 ^ 100) = true from decide_eq_true ha, cassert, if_pos rfl, bind_ok]
  by_cases hc : |a| < thr
  · rw [if_pos hc, zero, h1]
    exact ⟨f, rfl, h6 hs, h7, h3, h4, h2, fun x => by rw [if_pos hc, init_fn h5]⟩
  · rw [if_neg hc, h1, bind_ok, h5, wr_ok _ (by simp), bind_ok]
    refine ⟨{ f with cc := (List.replicate (start + 50) 0).set 0 (a : ℂ) }, rfl, ⟨by dsimp only; omega, by simp [h2], by simp [h8], h9⟩,
      ⟨h7.lo, h7.hi, h7.inv, h7.io⟩, h3, h4, h2, fun x => ?_⟩
    rw [if_neg hc, Fe.fn, trig]
    have e0 : Fe.co { f with cc := (List.replicate (start + 50) 0).set 0 (a : ℂ) } 0 = a := by
      rw [Fe.co, List.getD_eq_getElem?_getD, List.getElem?_set_self (by simp)]; rfl
    have ek : ∀ k, 1 ≤ k → Fe.co { f with cc := (List.replicate (start + 50) 0).set 0 (a : ℂ) } k = 0 := by
      intro k hk
      rw [Fe.co, List.getD_eq_getElem?_getD, List.getElem?_set_ne (by omega), List.getElem?_replicate]; split <;> rfl
    rw [e0, sum_eq_zero, add_zero, Complex.ofReal_re]
    intro k hk
    rw [ek k (mem_Ico.1 hk).1]; simp

end C3.Fourier
