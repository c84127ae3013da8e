/- C38: algebra of orthogonal polynomial expansions; C66: their parameters. -/
import Verif.Poly.AlgLemmas

set_option linter.unusedSectionVars false

namespace C3.Poly
open Finset
open C3.Lin (dv dv_ok)
variable {K : Type} [Field K] [LinearOrder K] [IsStrictOrderedRing K]

/-- Sum of the absolute values of the first `n` basis polynomials at a point: the factor by which a common bound on the
coefficient errors bounds the error of the value. -/
def Ope.lam (f : Ope K) (n : Nat) (x : K) : K := ∑ k ∈ range n, |f.fam.p k (f.map.slope * x + f.map.off)|

/-- Values of expansions of one family whose coefficients differ by at most `e`. -/
theorem val_sub_le {f g h : Ope K} {u v e : K} {N : Nat} (hf : f.num ≤ N) (hg : g.num ≤ N) (hr : h.num ≤ N)
    (e1 : f.fam = h.fam) (e2 : f.map = h.map) (e3 : g.fam = h.fam) (e4 : g.map = h.map)
    (he : ∀ k < N, |h.cf k - (u * f.cf k + v * g.cf k)| ≤ e) (x : K) :
    |h.val x - (u * f.val x + v * g.val x)| ≤ e * h.lam N x := by
  rw [val_cf hf, val_cf hg, val_cf hr, e1, e2, e3, e4, mul_sum, mul_sum, ← sum_add_distrib, ← sum_sub_distrib, Ope.lam, mul_sum]
  refine (abs_sum_le_sum_abs _ _).trans (sum_le_sum (fun k hk => ?_))
  have e5 : ∀ p : K, h.cf k * p - (u * (f.cf k * p) + v * (g.cf k * p)) = (h.cf k - (u * f.cf k + v * g.cf k)) * p := fun p => by ring
  rw [e5, abs_mul]
  exact mul_le_mul_of_nonneg_right (he k (mem_range.1 hk)) (abs_nonneg _)

theorem Rounded.cf_le {thr M : K} {f r : Ope K} (h : Rounded thr f r) (ht : 0 ≤ thr) (hM : ∀ k < f.num, |f.cf k| ≤ M) (k : Nat) :
    |r.cf k - f.cf k| ≤ thr * max 1 (f.num * M) := by
  have hp : 0 ≤ thr * max 1 (f.num * M) := mul_nonneg ht (le_max_of_le_left zero_le_one)
  rcases h.cf k with e | ⟨e, h1 | ⟨j, hj, h1⟩⟩
  · rw [e, sub_self, abs_zero]; exact hp
  · rw [e, zero_sub, abs_neg]
    exact h1.le.trans (le_mul_of_one_le_right ht (le_max_left _ _))
  · rw [e, zero_sub, abs_neg]
    exact h1.le.trans (mul_le_mul_of_nonneg_left
      ((mul_le_mul_of_nonneg_left (hM j hj) (Nat.cast_nonneg _)).trans (le_max_right _ _)) ht)

/-- C38: rounding changes the value by at most the threshold times the number of polynomials times the largest coefficient times
the sum of the basis polynomials, never adds polynomials, and drops trailing zeros. -/
theorem round_value {thr M : K} {f : Ope K} (hf : f.WF) (ht : 0 ≤ thr) (hM : ∀ k < f.num, |f.cf k| ≤ M) :
    ∃ r, round thr f = .ok r ∧ r.WF ∧ r.fam = f.fam ∧ r.map = f.map ∧ r.num ≤ f.num ∧
      (∀ x, |r.val x - f.val x| ≤ thr * max 1 (f.num * M) * f.lam f.num x) ∧
      (0 < thr → 2 < f.num → r.num = 1 ∨ r.cf (r.num - 1) ≠ 0 ∨ ∀ k, r.cf k = 0) := by
  obtain ⟨r, e, h, h2⟩ := round_ok (thr := thr) hf.pos (hf.num_le.trans hf.alloc_le)
  refine ⟨r, e, ⟨h.pos, by rw [h.nalloc]; exact h.le.trans hf.num_le, by rw [h.nalloc, h.len]; exact hf.alloc_le,
    fun hc => by rw [h.fam] at hc ⊢; exact hf.cheb hc⟩, h.fam, h.map, h.le, fun x => ?_, h2⟩
  have := val_sub_le (f := f) (g := f) (h := r) (u := 1) (v := 0) (e := thr * max 1 (f.num * M)) (N := f.num) le_rfl le_rfl h.le
    h.fam.symm h.map.symm h.fam.symm h.map.symm (fun k _ => by rw [one_mul, zero_mul, add_zero]; exact h.cf_le ht hM k) x
  rw [one_mul, zero_mul, add_zero] at this
  have el : r.lam f.num x = f.lam f.num x := by rw [Ope.lam, Ope.lam, h.fam, h.map]
  rwa [el] at this

/-- Without a threshold rounding is exact. -/
theorem round_exact {f : Ope K} (hf : f.WF) : ∃ r, round 0 f = .ok r ∧ r.WF ∧ ∀ x, r.val x = f.val x := by
  obtain ⟨M, hM⟩ : ∃ M, ∀ k < f.num, |f.cf k| ≤ M := by
    refine ⟨∑ k ∈ range f.num, |f.cf k|, fun k hk => single_le_sum (f := fun k => |f.cf k|) (fun _ _ => abs_nonneg _) (mem_range.2 hk)⟩
  obtain ⟨r, e, w, _, _, _, h, _⟩ := round_value hf le_rfl hM
  refine ⟨r, e, w, fun x => ?_⟩
  have := h x
  rw [zero_mul, zero_mul] at this
  exact sub_eq_zero.1 (abs_eq_zero.1 (le_antisymm this (abs_nonneg _)))

theorem copyLoop_ok {n : Nat} {src dst : List K} (h1 : n ≤ src.length) (h2 : n ≤ dst.length) :
    ∃ c, forN n (fun ii c => do
        let v ← rd src ii
        wr c ii v) dst = .ok c ∧ c.length = dst.length ∧ (∀ k < n, c.getD k 0 = src.getD k 0) ∧
      ∀ k, n ≤ k → c.getD k 0 = dst.getD k 0 := by
  obtain ⟨c, e, l, v, o⟩ := forN_window (n := n) (off := 0) (a := dst) (fun i _ => src.getD i 0) (by omega)
    (body := fun ii c => do
      let v ← rd src ii
      wr c ii v)
    (fun i hi b hb => by rw [rd_getD 0 (by omega), bind_ok, wr_ok _ (by omega), Nat.zero_add])
  refine ⟨c, e, l, fun k hk => ?_, fun k hk => ?_⟩
  · have := v k hk; rwa [Nat.zero_add] at this
  · rw [List.getD_eq_getElem?_getD, List.getD_eq_getElem?_getD, o k (by omega)]

/-- C38: a copy represents the same function. -/
theorem copy_value {f : Ope K} (hf : f.WF) :
    ∃ r, copy f = .ok r ∧ r.WF ∧ r.num = f.num ∧ r.fam = f.fam ∧ r.map = f.map ∧ r.lb = f.lb ∧ r.ub = f.ub ∧ r.krist = f.krist ∧
      r.nalloc = f.nalloc ∧ ∀ k, r.cf k = f.cf k := by
  obtain ⟨c, e, l, v, -⟩ := copyLoop_ok (n := f.num) (src := f.coeff) (dst := List.replicate f.nalloc 0)
    (hf.num_le.trans hf.alloc_le) (by rw [List.length_replicate]; exact hf.num_le)
  rw [List.length_replicate] at l
  refine ⟨{ f with coeff := c }, ?_, ⟨hf.pos, hf.num_le, by rw [l], hf.cheb⟩, rfl, rfl, rfl, rfl, rfl, rfl, rfl, fun k => ?_⟩
  · rw [copy, cassert_of (decide_eq_true hf.num_le), bind_ok, e]; rfl
  · simp only [Ope.cf]
    split
    · rename_i hk; exact v k hk
    · rfl

theorem val_congr {f g : Ope K} (h1 : f.fam = g.fam) (h2 : f.map = g.map) (h : ∀ k, f.cf k = g.cf k) (x : K) : f.val x = g.val x := by
  rw [val_cf (N := max f.num g.num) (le_max_left _ _), val_cf (f := g) (N := max f.num g.num) (le_max_right _ _), h1, h2]
  exact sum_congr rfl (fun k _ => by rw [h k])

theorem mulAll_ok (a : K) {n : Nat} {c : List K} (hl : n ≤ c.length) :
    ∃ d, mulAll a n c = .ok d ∧ d.length = c.length ∧ ∀ k < n, d.getD k 0 = c.getD k 0 * a := by
  obtain ⟨d, e, l, v, -⟩ := forN_window (n := n) (off := 0) (a := c) (fun _ v => v * a) (by omega)
    (body := fun ii c => do
      let v ← rd c ii
      wr c ii (v * a))
    (fun i hi b hb => by rw [rd_getD 0 (by omega), bind_ok, wr_ok _ (by omega), Nat.zero_add])
  exact ⟨d, e, l, fun k hk => by have := v k hk; rwa [Nat.zero_add] at this⟩

theorem mulAll_cf {a : K} {f : Ope K} {d : List K} (h : ∀ k < f.num, d.getD k 0 = f.coeff.getD k 0 * a) (k : Nat) :
    ({ f with coeff := d } : Ope K).cf k = a * f.cf k := by
  simp only [Ope.cf]
  split
  · rename_i hk; rw [h k hk, mul_comm]
  · rw [mul_zero]

/-- C38: changing the sign. -/
theorem flipSign_value {f : Ope K} (hf : f.WF) : ∃ r, flipSign f = .ok r ∧ r.WF ∧ ∀ x, r.val x = -f.val x := by
  obtain ⟨d, e, l, v⟩ := mulAll_ok (-1 : K) (hf.num_le.trans hf.alloc_le)
  refine ⟨{ f with coeff := d }, by rw [flipSign, e]; rfl, ⟨hf.pos, hf.num_le, by rw [l]; exact hf.alloc_le, hf.cheb⟩, fun x => ?_⟩
  rw [Ope.val, Ope.val, ← sum_neg_distrib]
  exact sum_congr rfl (fun k hk => by rw [v k (mem_range.1 hk)]; ring)

/-- C38: scaling, up to the rounding that follows it. -/
theorem scale_value {thr a M : K} {f : Ope K} (hf : f.WF) (ht : 0 ≤ thr) (hM : ∀ k < f.num, |a * f.cf k| ≤ M) :
    ∃ r, scale thr a f = .ok r ∧ r.WF ∧ r.fam = f.fam ∧ r.map = f.map ∧ r.lb = f.lb ∧ r.ub = f.ub ∧ r.num ≤ f.num ∧
      (∀ k, |r.cf k - a * f.cf k| ≤ thr * max 1 (f.num * M)) ∧
      ∀ x, |r.val x - a * f.val x| ≤ thr * max 1 (f.num * M) * f.lam f.num x := by
  obtain ⟨d, e, l, v⟩ := mulAll_ok a (hf.num_le.trans hf.alloc_le)
  have ecf := mulAll_cf v
  obtain ⟨r, er, h, -⟩ := round_ok (thr := thr) (f := { f with coeff := d }) hf.pos (by
    show f.num ≤ d.length; rw [l]; exact hf.num_le.trans hf.alloc_le)
  have hcf : ∀ k, |r.cf k - a * f.cf k| ≤ thr * max 1 (f.num * M) := fun k => by
    rw [← ecf k]; exact h.cf_le ht (fun k hk => by rw [ecf k]; exact hM k hk) k
  refine ⟨r, by rw [scale, e, bind_ok, er], ⟨h.pos, by rw [h.nalloc]; exact h.le.trans hf.num_le,
    by rw [h.nalloc, h.len]; show f.nalloc ≤ d.length; rw [l]; exact hf.alloc_le,
    fun hc => by rw [h.fam] at hc ⊢; exact hf.cheb hc⟩, h.fam, h.map, h.lb, h.ub, h.le, hcf, fun x => ?_⟩
  have := val_sub_le (f := f) (g := f) (h := r) (u := a) (v := 0) (e := thr * max 1 (f.num * M)) (N := f.num) le_rfl le_rfl h.le
    h.fam.symm h.map.symm h.fam.symm h.map.symm (fun k _ => by rw [zero_mul, add_zero]; exact hcf k) x
  rw [zero_mul, add_zero] at this
  have el : r.lam f.num x = f.lam f.num x := by rw [Ope.lam, Ope.lam, h.fam, h.map]
  rwa [el] at this

theorem addLoop_ok (thr a : K) {n : Nat} {x y : List K} (hx : n ≤ x.length) (hy : n ≤ y.length) :
    ∃ d, addLoop thr a x n y = .ok d ∧ d.length = y.length ∧
      (∀ k < n, d.getD k 0 = absCut thr (y.getD k 0 + a * x.getD k 0)) ∧ ∀ k, n ≤ k → d.getD k 0 = y.getD k 0 := by
  obtain ⟨d, e, l, v, o⟩ := forN_window (n := n) (off := 0) (a := y) (fun i v => absCut thr (v + a * x.getD i 0)) (by omega)
    (body := fun ii y => do
      let v ← rd y ii
      let u ← rd x ii
      wr y ii (absCut thr (v + a * u)))
    (fun i hi b hb => by rw [rd_getD 0 (by omega), bind_ok, rd_getD 0 (by omega), bind_ok, wr_ok _ (by omega), Nat.zero_add])
  refine ⟨d, e, l, fun k hk => by have := v k hk; rwa [Nat.zero_add] at this, fun k hk => ?_⟩
  rw [List.getD_eq_getElem?_getD, List.getD_eq_getElem?_getD, o k (by omega)]

theorem forR_window {lo hi : Nat} {body : Nat → List K → C (List K)} {a : List K} (h : Nat → K → K) (hlo : lo ≤ hi)
    (hlen : hi ≤ a.length)
    (hb : ∀ i, lo ≤ i → i < hi → ∀ b : List K, b.length = a.length → body i b = .ok (b.set i (h i (b.getD i 0)))) :
    ∃ b, forR lo hi body a = .ok b ∧ b.length = a.length ∧ (∀ i, lo ≤ i → i < hi → b.getD i 0 = h i (a.getD i 0)) ∧
      ∀ k, (k < lo ∨ hi ≤ k) → b.getD k 0 = a.getD k 0 := by
  obtain ⟨d, e, l, v, o⟩ := forN_window (n := hi - lo) (off := lo) (a := a) (body := fun i => body (lo + i))
    (fun i v => h (lo + i) v) (by omega) (fun i hi' b hl => hb (lo + i) (by omega) (by omega) b hl)
  refine ⟨d, e, l, fun i h1 h2 => ?_, fun k hk => ?_⟩
  · have := v (i - lo) (by omega)
    rwa [show lo + (i - lo) = i by omega] at this
  · rw [List.getD_eq_getElem?_getD, List.getD_eq_getElem?_getD, o k (by omega)]

theorem realloc_length (c : List K) (n : Nat) : (realloc c n).length = n := by
  rw [realloc, List.length_append, List.length_take, List.length_replicate]; omega

theorem realloc_getD (c : List K) {n k : Nat} (h : k < n) : (realloc c n).getD k 0 = c.getD k 0 := by
  rw [realloc, List.getD_eq_getElem?_getD, List.getD_eq_getElem?_getD]
  by_cases hk : k < c.length
  · rw [List.getElem?_append_left (by rw [List.length_take]; omega), List.getElem?_take, if_pos h]
  · rw [List.getElem?_append_right (by rw [List.length_take]; omega), List.length_take, List.getElem?_replicate,
      if_pos (by omega), List.getElem?_eq_none (l := c) (by omega)]; rfl

theorem growTo_ok {y : Ope K} {n : Nat} (h : y.num ≤ n) (hy : y.num ≤ y.nalloc) (hl : y.nalloc ≤ y.coeff.length) :
    ∃ g, growTo y n = .ok g ∧ n ≤ g.2 ∧ g.2 ≤ g.1.length ∧ ∀ k < y.num, g.1.getD k 0 = y.coeff.getD k 0 := by
  rw [growTo]
  by_cases hg : n > y.nalloc
  · rw [if_pos hg]
    obtain ⟨c, e, l, -, o⟩ := forR_window (lo := y.num) (hi := n + 10) (a := realloc y.coeff (n + 10)) (fun _ _ => 0) (by omega)
      (by rw [realloc_length]) (body := fun ii c => wr c ii 0)
      (fun i h1 h2 b hb => by rw [wr_ok _ (by rw [hb, realloc_length]; omega)])
    refine ⟨(c, n + 10), by rw [e]; rfl, by show n ≤ n + 10; omega, by show n + 10 ≤ c.length; rw [l, realloc_length], fun k hk => ?_⟩
    show c.getD k 0 = _
    rw [o k (Or.inl hk), realloc_getD _ (by omega)]
  · rw [if_neg hg]
    exact ⟨_, rfl, not_lt.1 hg, hl, fun _ _ => rfl⟩

theorem axTrim_ok (thr : K) {c : List K} : ∀ {n : Nat}, 1 ≤ n → n ≤ c.length →
    ∃ e, axTrim thr c n = .ok e ∧ 1 ≤ e ∧ e ≤ n ∧ (∀ k, e ≤ k → k < n → |c.getD k 0| ≤ thr) ∧ (1 < e → thr < |c.getD (e - 1) 0|)
  | 0, h, _ => absurd h (by omega)
  | 1, _, _ => ⟨1, rfl, le_rfl, le_rfl, fun k h1 h2 => by omega, fun h => by omega⟩
  | n + 2, _, hn => by
    rw [axTrim, rd_getD 0 (by omega), bind_ok]
    by_cases h : |c.getD (n + 1) 0| > thr
    · rw [if_pos h]
      exact ⟨n + 2, rfl, by omega, le_rfl, fun k h1 h2 => by omega, fun _ => h⟩
    · rw [if_neg h]
      obtain ⟨e, he, h0, h1, h2, h3⟩ := axTrim_ok thr (c := c) (n := n + 1) (by omega) (by omega)
      refine ⟨e, he, h0, by omega, fun k hk1 hk2 => ?_, h3⟩
      rcases Nat.lt_or_eq_of_le (Nat.lt_succ_iff.1 hk2) with h4 | h4
      · exact h2 k hk1 h4
      · rw [h4]; exact not_lt.1 h

/-- C38: `y <- a x + y`: every coefficient is within the threshold of the exact one, and so the value is within the threshold
times the sum of the basis polynomials. Both must have the same mapping (the code compares type and bounds only). -/
theorem axpy_value {thr eps a : K} {x y : Ope K} (hx : x.WF) (hy : y.WF) (ht : 0 ≤ thr) (hfam : x.fam = y.fam) (hmap : x.map = y.map)
    (hlb : |x.lb - y.lb| < eps) (hub : |x.ub - y.ub| < eps) :
    ∃ r, axpy thr eps a x y = .ok r ∧ r.WF ∧ r.fam = y.fam ∧ r.map = y.map ∧ r.lb = y.lb ∧ r.ub = y.ub ∧ r.krist = y.krist ∧
      r.num ≤ max x.num y.num ∧ (∀ k, |r.cf k - (a * x.cf k + y.cf k)| ≤ thr) ∧
      ∀ p, |r.val p - (a * x.val p + y.val p)| ≤ thr * y.lam (max x.num y.num) p := by
  have xl := hx.num_le.trans hx.alloc_le
  have yl := hy.num_le.trans hy.alloc_le
  have close : ∀ r : Ope K, r.fam = y.fam → r.map = y.map → r.num ≤ max x.num y.num →
      (∀ k, |r.cf k - (a * x.cf k + y.cf k)| ≤ thr) → ∀ p, |r.val p - (a * x.val p + y.val p)| ≤ thr * y.lam (max x.num y.num) p := by
    intro r h1 h2 h3 h4 p
    have := val_sub_le (f := x) (g := y) (h := r) (u := a) (v := 1) (e := thr) (N := max x.num y.num) (le_max_left _ _)
      (le_max_right _ _) h3 (hfam.trans h1.symm) (hmap.trans h2.symm) h1.symm h2.symm
      (fun k _ => by rw [one_mul]; exact h4 k) p
    rw [one_mul] at this
    have el : r.lam (max x.num y.num) p = y.lam (max x.num y.num) p := by rw [Ope.lam, Ope.lam, h1, h2]
    rwa [el] at this
  rw [axpy, cassert_of (decide_eq_true (by rw [hfam])), bind_ok, cassert_of (decide_eq_true hlb), bind_ok,
    cassert_of (decide_eq_true hub), bind_ok]
  by_cases hn : x.num < y.num
  · rw [if_pos hn]
    obtain ⟨d, e, l, v, o⟩ := addLoop_ok thr a xl (show x.num ≤ y.coeff.length by omega)
    have hcf : ∀ k, |({ y with coeff := d } : Ope K).cf k - (a * x.cf k + y.cf k)| ≤ thr := by
      intro k
      simp only [Ope.cf]
      by_cases h1 : k < x.num
      · rw [if_pos h1, if_pos (show k < y.num by omega), if_pos (show k < y.num by omega), v k h1, add_comm (a * _)]
        exact absCut_sub_le ht _
      · rw [if_neg h1]
        split
        · rw [o k (by omega), mul_zero, zero_add, sub_self, abs_zero]; exact ht
        · rw [mul_zero, zero_add, sub_self, abs_zero]; exact ht
    exact ⟨{ y with coeff := d }, by rw [e]; rfl, ⟨hy.pos, hy.num_le, by show y.nalloc ≤ d.length; rw [l]; exact hy.alloc_le, hy.cheb⟩, rfl, rfl, rfl,
      rfl, rfl, le_max_right _ _, hcf, close _ rfl rfl (le_max_right _ _) hcf⟩
  · rw [if_neg hn]
    obtain ⟨g, eg, g1, g2, g3⟩ := growTo_ok (n := x.num) (not_lt.1 hn) hy.num_le hy.alloc_le
    rw [eg, bind_ok]
    obtain ⟨c, ec, cl, cv, co⟩ := forR_window (lo := y.num) (hi := x.num) (a := g.1) (fun i _ => absCut thr (a * x.coeff.getD i 0))
      (not_lt.1 hn) (by omega)
      (body := fun ii y => do
        let u ← rd x.coeff ii
        wr y ii (absCut thr (a * u)))
      (fun i h1 h2 b hb => by rw [rd_getD 0 (by omega), bind_ok, wr_ok _ (by omega)])
    have ec' : newLoop thr a x.coeff y.num x.num g.1 = .ok c := ec
    obtain ⟨d, ed, dl, dv', dO⟩ := addLoop_ok thr a (n := y.num) (x := x.coeff) (y := c) (by omega) (by omega)
    obtain ⟨e, ee, e1, e2, e3, e4⟩ := axTrim_ok thr (c := d) (n := x.num) hx.pos (by omega)
    have hd : ∀ k < x.num, |d.getD k 0 - (a * x.cf k + y.cf k)| ≤ thr ∧ (|d.getD k 0| ≤ thr → |0 - (a * x.cf k + y.cf k)| ≤ thr) := by
      intro k hk
      have hx' : x.cf k = x.coeff.getD k 0 := by rw [Ope.cf, if_pos hk]
      have hval : d.getD k 0 = absCut thr (a * x.cf k + y.cf k) := by
        by_cases hky : k < y.num
        · rw [dv' k hky, co k (Or.inl hky), g3 k hky, hx', Ope.cf, if_pos hky, add_comm]
        · rw [dO k (by omega), cv k (by omega) hk, hx', Ope.cf, if_neg hky, add_zero]
      rw [hval]
      refine ⟨absCut_sub_le ht _, fun h => ?_⟩
      rw [zero_sub, abs_neg]
      rcases absCut_cases thr (a * x.cf k + y.cf k) with h1 | ⟨_, h1⟩
      · rwa [h1] at h
      · exact h1.le
    have hcf : ∀ k, |({ y with num := e, nalloc := g.2, coeff := d } : Ope K).cf k - (a * x.cf k + y.cf k)| ≤ thr := by
      intro k
      have e0 : ({ y with num := e, nalloc := g.2, coeff := d } : Ope K).cf k = if k < e then d.getD k 0 else 0 := rfl
      rw [e0]
      by_cases hk : k < x.num
      · split
        · exact (hd k hk).1
        · exact (hd k hk).2 (e3 k (by omega) hk)
      · rw [if_neg (by omega), Ope.cf, Ope.cf, if_neg hk, if_neg (by omega), mul_zero, add_zero, sub_zero, abs_zero]
        exact ht
    refine ⟨{ y with num := e, nalloc := g.2, coeff := d }, by rw [ec', bind_ok, ed, bind_ok, ee]; rfl, ⟨e1, by show e ≤ g.2; omega, by show g.2 ≤ d.length; omega, hy.cheb⟩,
      rfl, rfl, rfl, rfl, rfl, ?_, hcf, close _ rfl rfl ?_ hcf⟩
    · exact e2.trans (le_max_left _ _)
    · exact e2.trans (le_max_left _ _)

/-- C38: `a x + b y` as a new expansion: within the threshold for the addition, plus the rounding of the scaled `y`. -/
theorem daxpby_value {thr eps a b M : K} {x y : Ope K} (hx : x.WF) (hy : y.WF) (ht : 0 ≤ thr) (hfam : x.fam = y.fam)
    (hmap : x.map = y.map) (hlb : |x.lb - y.lb| < eps) (hub : |x.ub - y.ub| < eps) (hM : ∀ k < y.num, |b * y.cf k| ≤ M) :
    ∃ r, daxpby thr eps a (some x) b (some y) = .ok r ∧ r.WF ∧ r.fam = y.fam ∧ r.map = y.map ∧
      ∀ p, |r.val p - (a * x.val p + b * y.val p)| ≤ (thr + thr * max 1 (y.num * M)) * y.lam (max x.num y.num) p := by
  obtain ⟨c, ec, cw, cn, cfam, cmap, clb, cub, -, -, ccf⟩ := copy_value hy
  obtain ⟨s, es, sw, sfam, smap, slb, sub', sn, scf, -⟩ := scale_value (a := b) (M := M) cw ht
    (fun k hk => by rw [ccf k]; exact hM k (by omega))
  obtain ⟨r, er, rw', rfam, rmap, -, -, -, rn, rcf, -⟩ := axpy_value (a := a) (eps := eps) hx sw ht
    (by rw [sfam, cfam, hfam]) (by rw [smap, cmap, hmap]) (by rw [slb, clb]; exact hlb) (by rw [sub', cub]; exact hub)
  refine ⟨r, by rw [daxpby, ec, bind_ok, es, bind_ok, er], rw', by rw [rfam, sfam, cfam], by rw [rmap, smap, cmap], fun p => ?_⟩
  have h1 : r.fam = y.fam := by rw [rfam, sfam, cfam]
  have h2 : r.map = y.map := by rw [rmap, smap, cmap]
  have := val_sub_le (f := x) (g := y) (h := r) (u := a) (v := b) (e := thr + thr * max 1 (y.num * M)) (N := max x.num y.num)
    (le_max_left _ _) (le_max_right _ _) (rn.trans (max_le_max le_rfl (by omega))) (hfam.trans h1.symm) (hmap.trans h2.symm) h1.symm
    h2.symm (fun k _ => by
      have a1 := rcf k
      have a2 := scf k
      rw [ccf k, cn] at a2
      have e : r.cf k - (a * x.cf k + b * y.cf k) = (r.cf k - (a * x.cf k + s.cf k)) + (s.cf k - b * y.cf k) := by ring
      rw [e]
      exact (abs_add_le _ _).trans (add_le_add a1 a2)) p
  have el : r.lam (max x.num y.num) p = y.lam (max x.num y.num) p := by rw [Ope.lam, Ope.lam, h1, h2]
  rwa [el] at this

/-- C38: with only one operand the result is that operand scaled; with none the program ends. -/
theorem daxpby_single {thr eps a b M : K} {y : Ope K} (hy : y.WF) (ht : 0 ≤ thr) (hM : ∀ k < y.num, |b * y.cf k| ≤ M) :
    (∃ r, daxpby thr eps a none b (some y) = .ok r ∧ r.WF ∧ r.fam = y.fam ∧ r.map = y.map ∧
      ∀ p, |r.val p - b * y.val p| ≤ thr * max 1 (y.num * M) * y.lam y.num p) ∧
    (∃ r, daxpby thr eps b (some y) a none = .ok r ∧ r.WF ∧ r.fam = y.fam ∧ r.map = y.map ∧
      ∀ p, |r.val p - b * y.val p| ≤ thr * max 1 (y.num * M) * y.lam y.num p) ∧
    daxpby thr eps a none b none = .error .exit := by
  obtain ⟨c, ec, cw, cn, cfam, cmap, clb, cub, -, -, ccf⟩ := copy_value hy
  obtain ⟨s, es, sw, sfam, smap, slb, sub', sn, -, sv⟩ := scale_value (a := b) (M := M) cw ht
    (fun k hk => by rw [ccf k]; exact hM k (by omega))
  have hv : ∀ p, |s.val p - b * y.val p| ≤ thr * max 1 (y.num * M) * y.lam y.num p := fun p => by
    have := sv p
    have el : c.lam y.num p = y.lam y.num p := by rw [Ope.lam, Ope.lam, cfam, cmap]
    rwa [val_congr cfam cmap ccf, cn, el] at this
  exact ⟨⟨s, by rw [daxpby, ec, bind_ok, es], sw, by rw [sfam, cfam], by rw [smap, cmap], hv⟩,
    ⟨s, by rw [daxpby, ec, bind_ok, es], sw, by rw [sfam, cfam], by rw [smap, cmap], hv⟩, rfl⟩

theorem combMax_ok {n ldx : Nat} {xs : List (Ope K)} {pt : PT} (g : Nat → Ope K) (hp : ∀ i < n, xs[i * ldx]? = some (g i))
    (ht : ∀ i < n, (g i).fam.pt = pt) :
    ∃ m, combMax n ldx xs pt = .ok (some m) ∧ (∀ i < n, (g i).num ≤ m) ∧ (0 < n → ∃ i < n, m = (g i).num) := by
  obtain ⟨s, hs, m, rfl, h1, h2⟩ := forN_spec (n := n) (s := (some 0 : Option Nat))
    (body := fun ii (s : Option Nat) =>
      match s with
      | none => pure none
      | some m => do
        let x ← rd xs (ii * ldx)
        pure (if x.fam.pt = pt then some (if x.num > m then x.num else m) else none))
    (I := fun i s => ∃ m, s = some m ∧ (∀ j < i, (g j).num ≤ m) ∧ (m = 0 ∨ ∃ j < i, m = (g j).num))
    ⟨0, rfl, fun j hj => absurd hj (Nat.not_lt_zero _), Or.inl rfl⟩
    (by
      rintro i hi s ⟨m, rfl, h1, h2⟩
      refine ⟨_, by dsimp only; rw [rd_of_getElem? (hp i hi), bind_ok, if_pos (ht i hi)]; rfl, _, rfl, ?_, ?_⟩
      · intro j hj
        rcases Nat.lt_or_eq_of_le (Nat.lt_succ_iff.1 hj) with h4 | h4
        · have := h1 j h4; split <;> omega
        · subst h4; split <;> omega
      · split
        · exact Or.inr ⟨i, by omega, rfl⟩
        · rcases h2 with h | ⟨j, hj, h⟩
          · exact Or.inl h
          · exact Or.inr ⟨j, by omega, h⟩)
  refine ⟨m, hs, h1, fun hn => ?_⟩
  rcases h2 with h | ⟨j, hj, h⟩
  · exact ⟨0, hn, by have := h1 0 hn; omega⟩
  · exact ⟨j, hj, h⟩

theorem combSum_ok {n ldx ldc : Nat} {xs : List (Ope K)} {c out : List K} (g : Nat → Ope K) (hp : ∀ i < n, xs[i * ldx]? = some (g i))
    (hl : ∀ i < n, (g i).num ≤ (g i).coeff.length ∧ (g i).num ≤ out.length) (hc : ∀ i < n, i * ldc < c.length) :
    ∃ d, combSum n ldx xs ldc c out = .ok d ∧ d.length = out.length ∧
      ∀ k, d.getD k 0 = out.getD k 0 + ∑ i ∈ range n, c.getD (i * ldc) 0 * (g i).cf k := by
  refine forN_spec (I := fun m (d : List K) => d.length = out.length ∧
    ∀ k, d.getD k 0 = out.getD k 0 + ∑ i ∈ range m, c.getD (i * ldc) 0 * (g i).cf k) ⟨rfl, fun k => by simp⟩ ?_
  rintro i hi b ⟨h1, h2⟩
  rw [rd_of_getElem? (hp i hi), bind_ok]
  obtain ⟨d, e, l, v, o⟩ := forN_window (n := (g i).num) (off := 0) (a := b)
    (fun k v => v + c.getD (i * ldc) 0 * (g i).coeff.getD k 0) (by have := (hl i hi).2; omega)
    (body := fun ii out => do
      let o ← rd out ii
      let w ← rd c (i * ldc)
      let v ← rd (g i).coeff ii
      wr out ii (o + w * v))
    (fun k hk b' hb' => by
      have := hl i hi
      rw [rd_getD 0 (by omega), bind_ok, rd_getD 0 (hc i hi), bind_ok, rd_getD 0 (by omega), bind_ok, wr_ok _ (by omega), Nat.zero_add])
  refine ⟨d, e, l.trans h1, fun k => ?_⟩
  rw [sum_range_succ, ← add_assoc, ← h2 k]
  by_cases hk : k < (g i).num
  · have := v k hk
    rw [Nat.zero_add] at this
    rw [this, Ope.cf, if_pos hk]
  · rw [List.getD_eq_getElem?_getD, o k (by omega), ← List.getD_eq_getElem?_getD, Ope.cf, if_neg hk, mul_zero, add_zero]

theorem init_ok (fam : Fam K) (num : Nat) {lb ub : K} (h : fam.pt ≠ .herm → fam.upper - fam.lower ≠ 0 ∧ ub - lb ≠ 0) :
    ∃ f, init fam num lb ub = .ok f ∧ f.fam = fam ∧ f.num = num ∧ f.lb = lb ∧ f.ub = ub ∧ f.nalloc = num + 50 ∧
      f.coeff = List.replicate (num + 50) 0 ∧ f.krist = false := by
  have gen : fam.pt ≠ .herm → ∃ f : Ope K, (do
      let m ← dv (fam.upper - fam.lower) (ub - lb)
      let off := fam.upper - m * ub
      let im ← dv 1 m
      let io ← dv (-off) m
      pure (⟨fam, num, lb, ub, ⟨m, off, im, io⟩, num + 50, List.replicate (num + 50) 0, false⟩ : Ope K)) = .ok f ∧ f.fam = fam ∧
      f.num = num ∧ f.lb = lb ∧ f.ub = ub ∧ f.nalloc = num + 50 ∧ f.coeff = List.replicate (num + 50) 0 ∧ f.krist = false := by
    intro hne
    obtain ⟨h1, h2⟩ := h hne
    have h3 : (fam.upper - fam.lower) / (ub - lb) ≠ 0 := div_ne_zero h1 h2
    refine ⟨_, by rw [dv_ok h2, bind_ok]; dsimp only; rw [dv_ok h3, bind_ok, dv_ok h3, bind_ok]; rfl, rfl, rfl, rfl, rfl, rfl, rfl, rfl⟩
  unfold init
  split
  · exact ⟨_, rfl, rfl, rfl, rfl, rfl, rfl, rfl, rfl⟩
  · rename_i hne; exact gen hne

/-- C38: linear combination of `n` expansions of one family and mapping. -/
theorem linComb_value {thr M : K} {n ldx ldc : Nat} {xs : List (Ope K)} {c : List K} (g : Nat → Ope K) (hn : 1 ≤ n)
    (ht : 0 ≤ thr) (hp : ∀ i < n, xs[i * ldx]? = some (g i)) (hw : ∀ i < n, (g i).WF) (hfam : ∀ i < n, (g i).fam = (g 0).fam)
    (hmap : ∀ i < n, (g i).map = (g 0).map) (hc : ∀ i < n, i * ldc < c.length)
    (hb : (g 0).fam.pt ≠ .herm → (g 0).fam.upper - (g 0).fam.lower ≠ 0 ∧ (g 0).ub - (g 0).lb ≠ 0)
    (hM : ∀ k, |∑ i ∈ range n, c.getD (i * ldc) 0 * (g i).cf k| ≤ M) :
    ∃ r m, linComb thr n ldx xs ldc c = .ok (some r) ∧ r.WF ∧ r.fam = (g 0).fam ∧ r.map = (g 0).map ∧ (∀ i < n, (g i).num ≤ m) ∧
      r.num ≤ m ∧ ∀ x, |r.val x - ∑ i ∈ range n, c.getD (i * ldc) 0 * (g i).val x| ≤ thr * max 1 (m * M) * (g 0).lam m x := by
  obtain ⟨m, em, hm, hm1⟩ := combMax_ok (pt := (g 0).fam.pt) g hp (fun i hi => by rw [hfam i hi])
  obtain ⟨f, ef, f1, f2, f3, f4, f5, f6, f7⟩ := init_ok (g 0).fam m hb
  obtain ⟨d, ed, dl, dv'⟩ := combSum_ok (ldc := ldc) (c := c) (out := f.coeff) g hp
    (fun i hi => ⟨(hw i hi).num_le.trans (hw i hi).alloc_le, by rw [f6, List.length_replicate]; have := hm i hi; omega⟩) hc
  have hmpos : 1 ≤ m := (hw 0 hn).pos.trans (hm 0 hn)
  have dlen : d.length = m + 50 := by rw [dl, f6, List.length_replicate]
  obtain ⟨r, er, h, -⟩ := round_ok (thr := thr) (f := { f with map := (g 0).map, coeff := d }) (by show 1 ≤ f.num; omega)
    (by show f.num ≤ d.length; omega)
  have hf0 : ∀ k, f.coeff.getD k 0 = 0 := fun k => by
    rw [f6, List.getD_eq_getElem?_getD, List.getElem?_replicate]; split <;> rfl
  have hcf : ∀ k, ({ f with map := (g 0).map, coeff := d } : Ope K).cf k = ∑ i ∈ range n, c.getD (i * ldc) 0 * (g i).cf k := by
    intro k
    simp only [Ope.cf]
    by_cases hk : k < f.num
    · rw [if_pos hk, dv' k, hf0, zero_add]; rfl
    · rw [if_neg hk]
      refine (sum_eq_zero (fun i hi => ?_)).symm
      rw [if_neg (by have := hm i (mem_range.1 hi); omega), mul_zero]
  have rfam : r.fam = (g 0).fam := h.fam.trans f1
  have rle : r.num ≤ m := by have := h.le; rw [show ({ f with map := (g 0).map, coeff := d } : Ope K).num = m from f2] at this; exact this
  refine ⟨r, m, ?_, ⟨h.pos, ?_, ?_, fun hc => by rw [rfam] at hc ⊢; exact (hw 0 hn).cheb hc⟩, rfam, h.map, hm, rle, fun x => ?_⟩
  · have h0 := hp 0 hn
    rw [Nat.zero_mul] at h0
    rw [linComb, rd_of_getElem? h0, bind_ok, em, bind_ok]
    dsimp only
    rw [ef, bind_ok, ed, bind_ok, er]; rfl
  · rw [h.nalloc]; show r.num ≤ f.nalloc; omega
  · rw [h.nalloc, h.len]; show f.nalloc ≤ d.length; omega
  · have e1 : ∑ i ∈ range n, c.getD (i * ldc) 0 * (g i).val x =
        ∑ k ∈ range m, (∑ i ∈ range n, c.getD (i * ldc) 0 * (g i).cf k) * (g 0).fam.p k ((g 0).map.slope * x + (g 0).map.off) := by
      simp only [sum_mul]
      rw [sum_comm]
      refine sum_congr rfl (fun i hi => ?_)
      rw [val_cf (hm i (mem_range.1 hi)), hfam i (mem_range.1 hi), hmap i (mem_range.1 hi), mul_sum]
      exact sum_congr rfl (fun k _ => by ring)
    rw [e1, val_cf rle, rfam, h.map, ← sum_sub_distrib, Ope.lam, mul_sum]
    refine (abs_sum_le_sum_abs _ _).trans (sum_le_sum (fun k _ => ?_))
    rw [← sub_mul, abs_mul]
    refine mul_le_mul_of_nonneg_right ?_ (abs_nonneg _)
    rw [← hcf k]
    have := h.cf_le ht (M := M) (fun k _ => by rw [hcf k]; exact hM k) k
    rw [show (({ f with map := (g 0).map, coeff := d } : Ope K).num : K) = m from congrArg _ f2] at this
    exact this

/-- C38: different families are refused with a null result. -/
theorem linComb_types {thr : K} {n ldx ldc : Nat} {xs : List (Ope K)} {c : List K} (g : Nat → Ope K) (hn : 1 ≤ n)
    (hp : ∀ i < n, xs[i * ldx]? = some (g i)) (hd : ∃ i < n, (g i).fam.pt ≠ (g 0).fam.pt) :
    linComb thr n ldx xs ldc c = .ok none := by
  obtain ⟨s, hs, h⟩ := forN_spec (n := n) (s := (some 0 : Option Nat))
    (body := fun ii (s : Option Nat) =>
      match s with
      | none => pure none
      | some m => do
        let x ← rd xs (ii * ldx)
        pure (if x.fam.pt = (g 0).fam.pt then some (if x.num > m then x.num else m) else none))
    (I := fun i s => (∃ j < i, (g j).fam.pt ≠ (g 0).fam.pt) → s = none)
    (fun ⟨j, hj, _⟩ => absurd hj (Nat.not_lt_zero _))
    (by
      rintro i hi s h
      cases s with
      | none => exact ⟨none, rfl, fun _ => rfl⟩
      | some m =>
        refine ⟨_, by dsimp only; rw [rd_of_getElem? (hp i hi), bind_ok]; rfl, ?_⟩
        rintro ⟨j, hj, hne⟩
        rcases Nat.lt_or_eq_of_le (Nat.lt_succ_iff.1 hj) with h4 | h4
        · exact absurd (h ⟨j, h4, hne⟩) (by simp)
        · subst h4; rw [if_neg hne])
  have h0 := hp 0 hn
  rw [Nat.zero_mul] at h0
  rw [linComb, rd_of_getElem? h0, bind_ok]
  have e : combMax n ldx xs (g 0).fam.pt = .ok none := by rw [← h hd]; exact hs
  rw [e, bind_ok]; rfl

theorem cf_lt {f : Ope K} {k : Nat} (h : k < f.num) : f.cf k = f.coeff.getD k 0 := by rw [Ope.cf, if_pos h]

theorem cf_ge {f : Ope K} {k : Nat} (h : f.num ≤ k) : f.cf k = 0 := by rw [Ope.cf, if_neg (by omega)]

theorem s3loop_ok (a b c : K) (ux uy uz : Bool) {x y z : List K} {lo hi : Nat} (h : lo ≤ hi) (hz : hi ≤ z.length)
    (hx : ux = true → hi ≤ x.length) (hy : uy = true → hi ≤ y.length) :
    ∃ d, s3loop a b c ux uy uz x y lo hi z = .ok d ∧ d.length = z.length ∧
      (∀ k, lo ≤ k → k < hi → d.getD k 0 = (if uz then c * z.getD k 0 else 0) + (if ux then a * x.getD k 0 else 0) +
        (if uy then b * y.getD k 0 else 0)) ∧ ∀ k, (k < lo ∨ hi ≤ k) → d.getD k 0 = z.getD k 0 := by
  refine forR_window (h := fun k v => (if uz then c * v else 0) + (if ux then a * x.getD k 0 else 0) +
        (if uy then b * y.getD k 0 else 0)) h hz (fun i h1 h2 v hv => ?_)
  have ez : rdIf uz v i = .ok (if uz then v.getD i 0 else 0) := by
    cases uz with
    | true => rw [rdIf, if_pos rfl, if_pos rfl]; exact rd_getD 0 (by omega)
    | false => rfl
  have ex : rdIf ux x i = .ok (if ux then x.getD i 0 else 0) := by
    cases ux with
    | true => rw [rdIf, if_pos rfl, if_pos rfl]; exact rd_getD 0 (by have := hx rfl; omega)
    | false => rfl
  have ey : rdIf uy y i = .ok (if uy then y.getD i 0 else 0) := by
    cases uy with
    | true => rw [rdIf, if_pos rfl, if_pos rfl]; exact rd_getD 0 (by have := hy rfl; omega)
    | false => rfl
  rw [ez, bind_ok, ex, bind_ok, ey, bind_ok, wr_ok _ (by omega)]
  cases ux <;> cases uy <;> cases uz <;> simp

/-- C38: `z <- a x + b y + c z`. Missing for the full claim: the case that `z` has fewer polynomials than both others (use of a
released block, `sum3up_free_counterexample`), and, unless `c = 1`, the case that `y` has more polynomials than `x` but not more
than `z` (`c` applied twice, `sum3up_twice_counterexample`). The recorded allocation size may afterwards exceed the block
(`sum3up_alloc_counterexample`). -/
theorem sum3up_value_partial {thr a b c M : K} {x y z : Ope K} (hx : x.WF) (hy : y.WF) (hz : z.WF) (ht : 0 ≤ thr)
    (hxz : x.fam = z.fam) (hyz : y.fam = z.fam) (hxm : x.map = z.map) (hym : y.map = z.map)
    (h1 : x.num ≤ z.num ∨ y.num ≤ z.num) (h2 : x.num < y.num → y.num ≤ z.num → c = 1)
    (hM : ∀ k, |a * x.cf k + b * y.cf k + c * z.cf k| ≤ M) :
    ∃ r N, sum3up thr a x b y c z = .ok r ∧ r.fam = z.fam ∧ r.map = z.map ∧ N = max x.num (max y.num z.num) ∧ r.num ≤ N ∧
      ∀ p, |r.val p - (a * x.val p + b * y.val p + c * z.val p)| ≤ thr * max 1 (N * M) * z.lam N p := by
  have xl := hx.num_le.trans hx.alloc_le
  have yl := hy.num_le.trans hy.alloc_le
  have zl := hz.num_le.trans hz.alloc_le
  have zpos := hz.pos
  have fin : ∀ (N : Nat) (d : List K), N = max x.num (max y.num z.num) → N ≤ d.length →
      (∀ k < N, d.getD k 0 = a * x.cf k + b * y.cf k + c * z.cf k) →
      ∃ r N', round thr { z with num := N, coeff := d } = .ok r ∧ r.fam = z.fam ∧ r.map = z.map ∧ N' = max x.num (max y.num z.num) ∧
        r.num ≤ N' ∧ ∀ p, |r.val p - (a * x.val p + b * y.val p + c * z.val p)| ≤ thr * max 1 (N' * M) * z.lam N' p := by
    intro N d hN hl hd
    obtain ⟨r, er, h, -⟩ := round_ok (thr := thr) (f := { z with num := N, coeff := d }) (by show 1 ≤ N; omega) hl
    have hcf : ∀ k, ({ z with num := N, coeff := d } : Ope K).cf k = a * x.cf k + b * y.cf k + c * z.cf k := by
      intro k
      have e0 : ({ z with num := N, coeff := d } : Ope K).cf k = if k < N then d.getD k 0 else 0 := rfl
      rw [e0]
      by_cases hk : k < N
      · rw [if_pos hk, hd k hk]
      · rw [if_neg hk, Ope.cf, Ope.cf, Ope.cf, if_neg (by omega), if_neg (by omega), if_neg (by omega)]; ring
    have hle : r.num ≤ N := h.le
    refine ⟨r, N, er, h.fam, h.map, hN, hle, fun p => ?_⟩
    rw [val_cf (f := x) (N := N) (by omega), val_cf (f := y) (N := N) (by omega), val_cf (f := z) (N := N) (by omega),
      val_cf hle, h.fam, h.map, hxz, hyz, hxm, hym, mul_sum, mul_sum, mul_sum, ← sum_add_distrib, ← sum_add_distrib,
      ← sum_sub_distrib, Ope.lam, mul_sum]
    refine (abs_sum_le_sum_abs _ _).trans (sum_le_sum (fun k _ => ?_))
    have e5 : ∀ q : K, r.cf k * q - (a * (x.cf k * q) + b * (y.cf k * q) + c * (z.cf k * q)) =
        (r.cf k - (a * x.cf k + b * y.cf k + c * z.cf k)) * q := fun q => by ring
    dsimp only
    rw [e5, abs_mul]
    refine mul_le_mul_of_nonneg_right ?_ (abs_nonneg _)
    rw [← hcf k]
    exact h.cf_le ht (M := M) (fun k _ => by rw [hcf k]; exact hM k) k
  rw [sum3up, cassert_of (decide_eq_true (by rw [hxz, hyz])), bind_ok, cassert_of (decide_eq_true (by rw [hyz])), bind_ok]
  by_cases c1 : z.num ≥ x.num ∧ z.num ≥ y.num
  · rw [if_pos c1]
    by_cases c2 : x.num > y.num
    · rw [if_pos c2]
      obtain ⟨d1, e1, l1, v1, o1⟩ := s3loop_ok a b c true true true (x := x.coeff) (y := y.coeff) (z := z.coeff) (lo := 0) (hi := y.num)
        (by omega) (by omega) (fun _ => by omega) (fun _ => by omega)
      obtain ⟨d2, e2, l2, v2, o2⟩ := s3loop_ok a b c true false true (x := x.coeff) (y := y.coeff) (z := d1) (lo := y.num) (hi := x.num)
        (by omega) (by omega) (fun _ => by omega) (fun h => by simp at h)
      obtain ⟨d3, e3, l3, v3, o3⟩ := s3loop_ok a b c false false true (x := x.coeff) (y := y.coeff) (z := d2) (lo := x.num) (hi := z.num)
        (by omega) (by omega) (fun h => by simp at h) (fun h => by simp at h)
      rw [e1, bind_ok, e2, bind_ok, e3, bind_ok]
      refine fin z.num d3 (by omega) (by omega) (fun k hk => ?_)
      rcases Nat.lt_or_ge k y.num with k1 | k1
      · rw [o3 k (Or.inl (by omega)), o2 k (Or.inl k1), v1 k (by omega) k1, cf_lt (f := x) (by omega), cf_lt (f := y) (by omega), cf_lt (f := z) (by omega)]
        simp only [if_true]; ring
      · rcases Nat.lt_or_ge k x.num with k2 | k2
        · rw [o3 k (Or.inl k2), v2 k k1 k2, o1 k (Or.inr k1), cf_lt (f := x) (by omega), cf_ge (f := y) (by omega), cf_lt (f := z) (by omega)]
          simp only [if_true, Bool.false_eq_true, if_false]; ring
        · rw [v3 k k2 hk, o2 k (Or.inr k2), o1 k (Or.inr k1), cf_ge (f := x) (by omega), cf_ge (f := y) (by omega), cf_lt (f := z) (by omega)]
          simp only [if_true, Bool.false_eq_true, if_false]; ring
    · rw [if_neg c2]
      obtain ⟨d1, e1, l1, v1, o1⟩ := s3loop_ok a b c true true true (x := x.coeff) (y := y.coeff) (z := z.coeff) (lo := 0) (hi := x.num)
        (by omega) (by omega) (fun _ => by omega) (fun _ => by omega)
      obtain ⟨d2, e2, l2, v2, o2⟩ := s3loop_ok a b c false true true (x := x.coeff) (y := y.coeff) (z := d1) (lo := x.num) (hi := y.num)
        (by omega) (by omega) (fun h => by simp at h) (fun _ => by omega)
      obtain ⟨d3, e3, l3, v3, o3⟩ := s3loop_ok a b c false false true (x := x.coeff) (y := y.coeff) (z := d2) (lo := x.num) (hi := z.num)
        (by omega) (by omega) (fun h => by simp at h) (fun h => by simp at h)
      rw [e1, bind_ok, e2, bind_ok, e3, bind_ok]
      refine fin z.num d3 (by omega) (by omega) (fun k hk => ?_)
      rcases Nat.lt_or_ge k x.num with k1 | k1
      · rw [o3 k (Or.inl (by omega)), o2 k (Or.inl k1), v1 k (by omega) k1, cf_lt (f := x) (by omega), cf_lt (f := y) (by omega), cf_lt (f := z) (by omega)]
        simp only [if_true]; ring
      · rcases Nat.lt_or_ge k y.num with k2 | k2
        · have hc1 := h2 (by omega) c1.2
          rw [v3 k k1 hk, v2 k k1 k2, o1 k (Or.inr k1), cf_ge (f := x) (by omega), cf_lt (f := y) (by omega), cf_lt (f := z) (by omega)]
          simp only [if_true, Bool.false_eq_true, if_false, hc1]; ring
        · rw [v3 k k1 hk, o2 k (Or.inr k2), o1 k (Or.inr k1), cf_ge (f := x) (by omega), cf_ge (f := y) (by omega), cf_lt (f := z) (by omega)]
          simp only [if_true, Bool.false_eq_true, if_false]; ring
  · rw [if_neg c1]
    by_cases c3 : z.num ≥ x.num ∧ z.num < y.num
    · rw [if_pos c3]
      have rl := realloc_length z.coeff y.num
      obtain ⟨d1, e1, l1, v1, o1⟩ := s3loop_ok a b c true true true (x := x.coeff) (y := y.coeff) (z := realloc z.coeff y.num) (lo := 0)
        (hi := x.num) (by omega) (by omega) (fun _ => by omega) (fun _ => by omega)
      obtain ⟨d2, e2, l2, v2, o2⟩ := s3loop_ok a b c false true true (x := x.coeff) (y := y.coeff) (z := d1) (lo := x.num) (hi := z.num)
        (by omega) (by omega) (fun h => by simp at h) (fun _ => by omega)
      obtain ⟨d3, e3, l3, v3, o3⟩ := s3loop_ok a b c false true false (x := x.coeff) (y := y.coeff) (z := d2) (lo := z.num) (hi := y.num)
        (by omega) (by omega) (fun h => by simp at h) (fun _ => by omega)
      rw [e1, bind_ok, e2, bind_ok, e3, bind_ok]
      refine fin y.num d3 (by omega) (by omega) (fun k hk => ?_)
      rcases Nat.lt_or_ge k x.num with k1 | k1
      · rw [o3 k (Or.inl (by omega)), o2 k (Or.inl k1), v1 k (by omega) k1, realloc_getD _ hk, cf_lt (f := x) (by omega), cf_lt (f := y) (by omega), cf_lt (f := z) (by omega)]
        simp only [if_true]; ring
      · rcases Nat.lt_or_ge k z.num with k2 | k2
        · rw [o3 k (Or.inl k2), v2 k k1 k2, o1 k (Or.inr k1), realloc_getD _ hk, cf_ge (f := x) (by omega), cf_lt (f := y) (by omega), cf_lt (f := z) (by omega)]
          simp only [if_true, Bool.false_eq_true, if_false]; ring
        · rw [v3 k k2 hk, cf_ge (f := x) (by omega), cf_lt (f := y) (by omega), cf_ge (f := z) (by omega)]
          simp only [if_true, Bool.false_eq_true, if_false]; ring
    · rw [if_neg c3]
      have c4 : z.num < x.num ∧ z.num ≥ y.num := by omega
      rw [if_pos c4]
      have rl := realloc_length z.coeff x.num
      obtain ⟨d1, e1, l1, v1, o1⟩ := s3loop_ok a b c true true true (x := x.coeff) (y := y.coeff) (z := realloc z.coeff x.num) (lo := 0)
        (hi := y.num) (by omega) (by omega) (fun _ => by omega) (fun _ => by omega)
      obtain ⟨d2, e2, l2, v2, o2⟩ := s3loop_ok a b c true false true (x := x.coeff) (y := y.coeff) (z := d1) (lo := y.num) (hi := z.num)
        (by omega) (by omega) (fun _ => by omega) (fun h => by simp at h)
      obtain ⟨d3, e3, l3, v3, o3⟩ := s3loop_ok a b c true false false (x := x.coeff) (y := y.coeff) (z := d2) (lo := z.num) (hi := x.num)
        (by omega) (by omega) (fun _ => by omega) (fun h => by simp at h)
      rw [e1, bind_ok, e2, bind_ok, e3, bind_ok]
      refine fin x.num d3 (by omega) (by omega) (fun k hk => ?_)
      rcases Nat.lt_or_ge k y.num with k1 | k1
      · rw [o3 k (Or.inl (by omega)), o2 k (Or.inl k1), v1 k (by omega) k1, realloc_getD _ hk, cf_lt (f := x) (by omega), cf_lt (f := y) (by omega), cf_lt (f := z) (by omega)]
        simp only [if_true]; ring
      · rcases Nat.lt_or_ge k z.num with k2 | k2
        · rw [o3 k (Or.inl k2), v2 k k1 k2, o1 k (Or.inr k1), realloc_getD _ hk, cf_lt (f := x) (by omega), cf_ge (f := y) (by omega), cf_lt (f := z) (by omega)]
          simp only [if_true, Bool.false_eq_true, if_false]; ring
        · rw [v3 k k2 hk, cf_lt (f := x) (by omega), cf_ge (f := y) (by omega), cf_ge (f := z) (by omega)]
          simp only [if_true, Bool.false_eq_true, if_false]; ring

/-- A Chebyshev expansion with the given coefficients on `[-1, 1]`, as the library allocates it. -/
def exOpe (c : List ℚ) : Ope ℚ :=
  ⟨chebFam 3, c.length, -1, 1, ⟨1, 0, 1, 0⟩, c.length + 50, c ++ List.replicate 50 0, false⟩

theorem exOpe_wf {c : List ℚ} (h : 1 ≤ c.length) : (exOpe c).WF :=
  ⟨h, Nat.le_add_right _ _, by simp [exOpe], fun _ => ⟨3, rfl⟩⟩

/-- With one, two and three polynomials and `c = 2` the second coefficient of `z` is multiplied by 4 instead of 2. -/
theorem sum3up_twice_counterexample : ∃ x y z : Ope ℚ, x.WF ∧ y.WF ∧ z.WF ∧
    Except.map (fun r => r.cf 1) (sum3up 0 1 x 1 y 2 z) = .ok 4 ∧ 1 * x.cf 1 + 1 * y.cf 1 + 2 * z.cf 1 = 2 :=
  ⟨exOpe [1], exOpe [1, 0], exOpe [1, 1, 1], exOpe_wf (by decide), exOpe_wf (by decide), exOpe_wf (by decide), by decide +kernel,
    by decide +kernel⟩

/-- When both others have more polynomials than `z` the released block is used. -/
theorem sum3up_free_counterexample : ∃ x y z : Ope ℚ, x.WF ∧ y.WF ∧ z.WF ∧
    Except.map (fun r => r.cf 1) (sum3up 0 1 x 1 y 1 z) = .error .ub :=
  ⟨exOpe [1, 2], exOpe [1, 2], exOpe [1], exOpe_wf (by decide), exOpe_wf (by decide), exOpe_wf (by decide), by decide +kernel⟩

/-- After `sum3up` shrank the block a following addition writes beyond it. -/
theorem sum3up_alloc_counterexample : ∃ x y z w : Ope ℚ, x.WF ∧ y.WF ∧ z.WF ∧ w.WF ∧
    Except.map (fun r => r.cf 1) (sum3up 0 1 x 1 y 1 z >>= fun r => axpy 0 1 1 w r) = .error .oob :=
  ⟨exOpe [1], exOpe [1, 2], exOpe [1], exOpe [1, 2, 3], exOpe_wf (by decide), exOpe_wf (by decide), exOpe_wf (by decide),
    exOpe_wf (by decide), by decide +kernel⟩

/-- The check of `axpy` compares type and bounds only: Hermite expansions with different means are added coefficient by
coefficient. Here `x = t - 1` and `y = t` on the real line; the sum is `2 t` at every point instead of `2 t - 1`. -/
theorem axpy_map_counterexample : ∃ x y : Ope ℚ, x.WF ∧ y.WF ∧ x.fam = y.fam ∧ x.lb = y.lb ∧ x.ub = y.ub ∧ x.val 0 = -1 ∧ y.val 0 = 0 ∧
    Except.map (fun r => r.val 0) (axpy 0 1 1 x y) = .ok 0 := by
  refine ⟨⟨⟨.herm, fun _ => 1, fun _ => 0, fun _ => -1, -100, 100, 1, 0, 1, fun _ => 1⟩, 2, -100, 100, ⟨1, -1, 1, 1⟩, 2, [0, 1], false⟩,
    ⟨⟨.herm, fun _ => 1, fun _ => 0, fun _ => -1, -100, 100, 1, 0, 1, fun _ => 1⟩, 2, -100, 100, ⟨1, 0, 1, 0⟩, 2, [0, 1], false⟩,
    ⟨by decide, by decide, by decide, by simp⟩, ⟨by decide, by decide, by decide, by simp⟩, rfl, rfl, rfl, ?_, ?_, ?_⟩ <;>
  decide +kernel

example : Except.map (fun r => (r.num, r.coeff.take 3)) (axpy (1/10) 1 2 (exOpe [1, 2]) (exOpe [1, -4, 5])) = .ok (3, [3, 0, 5]) := by
  decide +kernel
example : Except.map (fun r => (r.num, r.coeff.take 3)) (axpy (1/10) 1 2 (exOpe [1, 2, 1]) (exOpe [1, -4, -2])) = .ok (1, [3, 0, 0]) := by
  decide +kernel
example : Except.map (fun r => (r.num, r.coeff.take 3)) (round (1/10) (exOpe [1, 1/20, 1/2, 1/5])) = .ok (3, [1, 0, 1/2]) := by
  decide +kernel
example : Except.map (Option.map fun r => (r.num, r.coeff.take 3)) (linComb (1/10) 2 1 [exOpe [1, 2], exOpe [1, 1, 3]] 1 [2, -1]) =
    .ok (some (3, [1, 3, -3])) := by decide +kernel
example : Except.map (fun r => (r.num, r.coeff.take 3)) (sum3up (1/10) 2 (exOpe [1, 2]) 1 (exOpe [1]) 3 (exOpe [1, 1, 1])) =
    .ok (3, [6, 7, 3]) := by decide +kernel

/-- C66: reading the parameters returns the coefficients and their number. -/
theorem getParams_value {f : Ope K} (hf : f.WF) {param : List K} (hp : f.num ≤ param.length) :
    ∃ p, getParams f param = .ok (p, f.num) ∧ p.length = param.length ∧ (∀ k < f.num, p.getD k 0 = f.cf k) ∧
      ∀ k, f.num ≤ k → p.getD k 0 = param.getD k 0 := by
  obtain ⟨c, e, l, v, o⟩ := copyLoop_ok (n := f.num) (src := f.coeff) (dst := param) (hf.num_le.trans hf.alloc_le) hp
  exact ⟨c, by rw [getParams, e]; rfl, l, fun k hk => by rw [v k hk, cf_lt hk], o⟩

/-- C66: after an update the expansion has exactly the given coefficients, whatever its size was, and it still is well formed. -/
theorem updateParams_value {f : Ope K} (hf : f.WF) {n : Nat} {param : List K} (hn : 1 ≤ n) (hp : n ≤ param.length) :
    ∃ r, updateParams f n param = .ok r ∧ r.WF ∧ r.num = n ∧ r.fam = f.fam ∧ r.map = f.map ∧ r.lb = f.lb ∧ r.ub = f.ub ∧
      r.krist = f.krist ∧ ∀ k < n, r.cf k = param.getD k 0 := by
  have fl := hf.num_le.trans hf.alloc_le
  have h1 := hf.num_le
  have h2 := hf.alloc_le
  rw [updateParams]
  by_cases c1 : f.num ≥ n
  · rw [if_pos c1]
    obtain ⟨c, e, l, v, o⟩ := copyLoop_ok (n := n) (src := param) (dst := f.coeff) hp (by omega)
    obtain ⟨d, ed, dl, dv', dO⟩ := forR_window (lo := n) (hi := f.num) (a := c) (fun _ _ => 0) c1 (by omega)
      (body := fun ii c => wr c ii 0) (fun i h1 h2 b hb => by rw [wr_ok _ (by omega)])
    have e' : putParams n param f.coeff = .ok c := e
    refine ⟨{ f with num := n, coeff := d }, by rw [e', bind_ok, ed]; rfl, ⟨hn, ?_, ?_, hf.cheb⟩, rfl, rfl, rfl, rfl, rfl, rfl, fun k hk => ?_⟩
    · show n ≤ f.nalloc; omega
    · show f.nalloc ≤ d.length; omega
    · rw [Ope.cf, if_pos hk, dO k (Or.inl hk), v k hk]
  · rw [if_neg c1]
    by_cases c2 : n ≤ f.nalloc
    · rw [if_pos c2]
      obtain ⟨c, e, l, v, o⟩ := copyLoop_ok (n := n) (src := param) (dst := f.coeff) hp (by omega)
      have e' : putParams n param f.coeff = .ok c := e
      refine ⟨{ f with num := n, coeff := c }, by rw [e']; rfl, ⟨hn, c2, ?_, hf.cheb⟩, rfl, rfl, rfl, rfl, rfl, rfl, fun k hk => ?_⟩
      · show f.nalloc ≤ c.length; omega
      · rw [Ope.cf, if_pos hk, v k hk]
    · rw [if_neg c2]
      obtain ⟨c, e, l, v, o⟩ := copyLoop_ok (n := n) (src := param) (dst := List.replicate n 0) hp (by rw [List.length_replicate])
      have e' : putParams n param (List.replicate n 0) = .ok c := e
      rw [List.length_replicate] at l
      refine ⟨{ f with num := n, nalloc := n, coeff := c }, by rw [e']; rfl, ⟨hn, le_rfl, l.ge, hf.cheb⟩, rfl, rfl, rfl, rfl, rfl, rfl,
        fun k hk => ?_⟩
      rw [Ope.cf, if_pos hk, v k hk]

/-- C66: reading the parameters back after an update returns what was written. -/
theorem update_get {f : Ope K} (hf : f.WF) {n : Nat} {param buf : List K} (hn : 1 ≤ n) (hp : n ≤ param.length) (hb : n ≤ buf.length) :
    ∃ r p, updateParams f n param = .ok r ∧ getParams r buf = .ok (p, n) ∧ ∀ k < n, p.getD k 0 = param.getD k 0 := by
  obtain ⟨r, e, w, hnum, -, -, -, -, -, hcf⟩ := updateParams_value hf hn hp
  obtain ⟨p, ep, -, hv, -⟩ := getParams_value w (param := buf) (by omega)
  rw [hnum] at ep hv
  exact ⟨r, p, e, ep, fun k hk => by rw [hv k hk, hcf k hk]⟩

/-- C66: an expansion created with parameters has these coefficients. -/
theorem createWithParams_value {o : Opts K} {n : Nat} {param : List K} (hn : 1 ≤ n) (hp : n ≤ param.length)
    (hc : o.fam.pt = .cheb → ∃ pi, o.fam = chebFam pi)
    (hb : o.fam.pt ≠ .herm → o.fam.upper - o.fam.lower ≠ 0 ∧ o.ub - o.lb ≠ 0) (hs : o.fam.pt = .herm → o.std ≠ 0) :
    ∃ r, createWithParams o n param = .ok r ∧ r.WF ∧ r.num = n ∧ r.fam = o.fam ∧ r.krist = o.krist ∧ ∀ k < n, r.cf k = param.getD k 0 := by
  obtain ⟨f, ef, f1, f2, f3, f4, f5, f6, f7⟩ := init_ok o.fam n hb
  have hi : ∃ g, initOpts o n = .ok g ∧ g.fam = o.fam ∧ g.num = n ∧ g.nalloc = n + 50 ∧ g.coeff = f.coeff ∧ g.krist = o.krist := by
    rw [initOpts, ef, bind_ok]
    split
    · rename_i hh
      rw [dv_ok (hs hh), bind_ok, dv_ok (hs hh), bind_ok]
      exact ⟨_, rfl, f1, f2, f5, rfl, rfl⟩
    · exact ⟨_, rfl, f1, f2, f5, rfl, rfl⟩
  obtain ⟨g, eg, g1, g2, g3, g4, g5⟩ := hi
  obtain ⟨c, e, l, v, o'⟩ := copyLoop_ok (n := n) (src := param) (dst := g.coeff) hp (by rw [g4, f6, List.length_replicate]; omega)
  refine ⟨{ g with coeff := c }, by rw [createWithParams, eg, bind_ok, e]; rfl, ⟨?_, ?_, ?_, ?_⟩, g2, g1, g5, fun k hk => ?_⟩
  · show 1 ≤ g.num; omega
  · show g.num ≤ g.nalloc; omega
  · show g.nalloc ≤ c.length; rw [l, g4, f6, List.length_replicate]; omega
  · show g.fam.pt = .cheb → _; rw [g1]; exact hc
  · rw [Ope.cf, if_pos (by show k < g.num; omega), v k hk]

example : Except.map (fun r => (r.num, r.coeff.take 3)) (updateParams (exOpe [1, 2, 3]) 2 [5, 6]) = .ok (2, [5, 6, 0]) := by decide +kernel

end C3.Poly
