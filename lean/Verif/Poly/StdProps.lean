/- C37: conversion to monomial coefficients and their derivative. -/
import Verif.Poly.Std
import Verif.Poly.DerivProps
import Mathlib.Analysis.Calculus.Deriv.Pow

set_option linter.unusedSectionVars false

namespace C3.Poly
open Finset
open C3.Lin (dv dv_ok)
variable {K : Type} [Field K] [LinearOrder K] [IsStrictOrderedRing K]

/-- The polynomial with given monomial coefficients. -/
def ev (l : List K) (x : K) : K := ∑ k ∈ range l.length, l.getD k 0 * x ^ k

theorem ev_eq {l : List K} {n : Nat} (h : l.length = n) (x : K) : ev l x = ∑ k ∈ range n, l.getD k 0 * x ^ k := by rw [ev, h]

theorem getD_set {l : List K} {i : Nat} (hi : i < l.length) (v : K) (k : Nat) : (l.set i v).getD k 0 = if k = i then v else l.getD k 0 := by
  by_cases hk : k = i
  · subst hk
    rw [if_pos rfl, List.getD_eq_getElem?_getD, List.getElem?_set_self hi]; rfl
  · rw [if_neg hk, List.getD_eq_getElem?_getD, List.getElem?_set_ne (Ne.symm hk), ← List.getD_eq_getElem?_getD]

theorem getD_replicate_zero (n k : Nat) : (List.replicate n (0 : K)).getD k 0 = 0 := by
  rw [List.getD_eq_getElem?_getD, List.getElem?_replicate]; split <;> rfl

/-- Three rows of the recursion: lengths, zeros beyond the degree, and the relation of the new row to the old ones. -/
theorem stdRow_ok (al be ga : K) {ii N : Nat} {a b c : List K} (hi : 2 ≤ ii) (hN : ii < N) (la : a.length = N) (lb : b.length = N)
    (lc : c.length = N) (za : ∀ k, ii - 1 ≤ k → a.getD k 0 = 0) (zb : ∀ k, ii ≤ k → b.getD k 0 = 0)
    (zc : ∀ k, ii ≤ k → c.getD k 0 = 0) :
    ∃ d, stdRow al be ga ii a b c = .ok d ∧ d.length = N ∧
      (∀ k, d.getD k 0 = (if k = 0 then 0 else al * b.getD (k - 1) 0) + be * b.getD k 0 + ga * a.getD k 0) := by
  rw [stdRow, rd_getD 0 (by omega), bind_ok, rd_getD 0 (by omega), bind_ok, wr_ok _ (by omega), bind_ok]
  obtain ⟨d, e, l, v, o⟩ := forR_window (lo := 1) (hi := ii - 1) (a := c.set 0 (be * b.getD 0 0 + ga * a.getD 0 0))
    (fun jj _ => al * b.getD (jj - 1) 0 + be * b.getD jj 0 + ga * a.getD jj 0) (by omega) (by rw [List.length_set]; omega)
    (body := fun jj c => do
      let u ← rd b (jj - 1)
      let v ← rd b jj
      let w ← rd a jj
      wr c jj (al * u + be * v + ga * w))
    (fun i h1 h2 t ht => by
      rw [List.length_set] at ht
      rw [rd_getD 0 (by omega), bind_ok, rd_getD 0 (by omega), bind_ok, rd_getD 0 (by omega), bind_ok, wr_ok _ (by omega)])
  rw [List.length_set] at l
  refine ⟨_, by rw [e, bind_ok, rd_getD 0 (by omega), bind_ok, rd_getD 0 (by omega), bind_ok, wr_ok _ (by omega), bind_ok,
    wr_ok _ (by rw [List.length_set]; omega)], by rw [List.length_set, List.length_set]; omega, fun k => ?_⟩
  rw [getD_set (by rw [List.length_set]; omega), getD_set (by omega)]
  by_cases k1 : k = ii
  · rw [if_pos k1, if_neg (by omega), zb k (by omega), za k (by omega), k1]; ring
  · rw [if_neg k1]
    by_cases k2 : k = ii - 1
    · rw [if_pos k2, if_neg (by omega), za k (by omega), k2, show ii - 1 - 1 = ii - 2 by omega]; ring
    · rw [if_neg k2]
      by_cases k3 : k = 0
      · rw [o k (by omega), getD_set (by omega), if_pos k3, if_pos k3, k3, zero_add]
      · rw [if_neg k3]
        by_cases k4 : k < ii - 1
        · rw [v k (by omega) k4]
        · rw [o k (by omega), getD_set (by omega), if_neg k3, zc k (by omega), zb (k - 1) (by omega), zb k (by omega), za k (by omega)]
          ring

theorem row_ev {al be ga : K} {N : Nat} {a b d : List K} (hN : 1 ≤ N) (la : a.length = N) (lb : b.length = N) (ld : d.length = N)
    (hb : b.getD (N - 1) 0 = 0)
    (h : ∀ k, d.getD k 0 = (if k = 0 then 0 else al * b.getD (k - 1) 0) + be * b.getD k 0 + ga * a.getD k 0) (x : K) :
    ev d x = (al * x + be) * ev b x + ga * ev a x := by
  obtain ⟨m, rfl⟩ : ∃ m, N = m + 1 := ⟨N - 1, by omega⟩
  rw [ev_eq la, ev_eq lb, ev_eq ld]
  have e1 : ∑ k ∈ range (m + 1), (if k = 0 then 0 else al * b.getD (k - 1) 0) * x ^ k = al * x * ∑ k ∈ range (m + 1), b.getD k 0 * x ^ k := by
    rw [sum_range_succ', sum_range_succ _ m]
    simp only [Nat.add_sub_cancel] at hb
    rw [hb]
    simp only [if_true, zero_mul, add_zero, Nat.add_sub_cancel]
    rw [mul_sum]
    exact sum_congr rfl (fun k _ => by rw [if_neg (by omega)]; ring)
  have e2 : ∑ k ∈ range (m + 1), d.getD k 0 * x ^ k = ∑ k ∈ range (m + 1), (if k = 0 then 0 else al * b.getD (k - 1) 0) * x ^ k +
      be * ∑ k ∈ range (m + 1), b.getD k 0 * x ^ k + ga * ∑ k ∈ range (m + 1), a.getD k 0 * x ^ k := by
    rw [mul_sum, mul_sum, ← sum_add_distrib, ← sum_add_distrib]
    exact sum_congr rfl (fun k _ => by rw [h k]; ring)
  rw [e2, e1]; ring

theorem memcpy_ok {n : Nat} {dst src : List K} (h1 : n ≤ src.length) (h2 : n ≤ dst.length) :
    ∃ c, memcpy dst src n = .ok c ∧ c.length = dst.length ∧ (∀ k < n, c.getD k 0 = src.getD k 0) ∧
      ∀ k, n ≤ k → c.getD k 0 = dst.getD k 0 := copyLoop_ok h1 h2

theorem ev_congr {l l' : List K} (h : l.length = l'.length) (h' : ∀ k, l.getD k 0 = l'.getD k 0) (x : K) : ev l x = ev l' x := by
  rw [ev, ev, h]; exact sum_congr rfl (fun k _ => by rw [h' k])

theorem ev_set_two {N : Nat} (hN : 2 ≤ N) (u v x : K) : ev (((List.replicate N 0).set 0 u).set 1 v) x = u + v * x := by
  obtain ⟨m, rfl⟩ : ∃ m, N = m + 2 := ⟨N - 2, by omega⟩
  rw [ev_eq (n := m + 2) (by simp), sum_range_succ', sum_range_succ']
  rw [sum_eq_zero (fun k _ => ?_)]
  · simp [List.replicate_succ]; ring
  · rw [getD_set (by simp), if_neg (by omega), getD_set (by simp), if_neg (by omega), getD_replicate_zero, zero_mul]

theorem ev_set_one {N : Nat} (hN : 1 ≤ N) (u x : K) : ev ((List.replicate N 0).set 0 u) x = u := by
  obtain ⟨m, rfl⟩ : ∃ m, N = m + 1 := ⟨N - 1, by omega⟩
  rw [ev_eq (n := m + 1) (by simp), sum_range_succ', sum_eq_zero (fun k _ => ?_)]
  · simp [List.replicate_succ]
  · rw [getD_set (by simp), if_neg (by omega), getD_replicate_zero, zero_mul]

/-- The state of the conversion loops before order `ii`: `a` and `b` hold the polynomials of order `ii-2` and `ii-1` in the variable
before the mapping. -/
structure Rows (fam : Fam K) (m off : K) (N ii : Nat) (a b c : List K) : Prop where
  la : a.length = N
  lb : b.length = N
  lc : c.length = N
  za : ∀ k, ii - 1 ≤ k → a.getD k 0 = 0
  zb : ∀ k, ii ≤ k → b.getD k 0 = 0
  zc : ∀ k, ii ≤ k → c.getD k 0 = 0
  ea : ∀ x, ev a x = fam.p (ii - 2) (m * x + off)
  eb : ∀ x, ev b x = fam.p (ii - 1) (m * x + off)

theorem rows_step {fam : Fam K} {m off : K} {N ii : Nat} {a b c : List K} (h : Rows fam m off N ii a b c) (hi : 2 ≤ ii) (hN : ii < N) :
    ∃ a' b' d, stdRow (fam.an ii * m) (fam.bn ii + fam.an ii * off) (fam.cn ii) ii a b c = .ok d ∧ memcpy a b ii = .ok a' ∧
      memcpy b d (ii + 1) = .ok b' ∧ Rows fam m off N (ii + 1) a' b' d ∧ ∀ x, ev d x = fam.p ii (m * x + off) := by
  obtain ⟨d, ed, ld, hd⟩ := stdRow_ok (fam.an ii * m) (fam.bn ii + fam.an ii * off) (fam.cn ii) hi hN h.la h.lb h.lc h.za h.zb h.zc
  obtain ⟨a', ea, la, va, oa⟩ := memcpy_ok (n := ii) (dst := a) (src := b) (by rw [h.lb]; omega) (by rw [h.la]; omega)
  obtain ⟨b', eb, lb, vb, ob⟩ := memcpy_ok (n := ii + 1) (dst := b) (src := d) (by omega) (by rw [h.lb]; omega)
  have hevd : ∀ x, ev d x = fam.p ii (m * x + off) := by
    intro x
    rw [row_ev (by omega) h.la h.lb ld (h.zb _ (by omega)) hd, h.ea, h.eb]
    obtain ⟨n, rfl⟩ : ∃ n, ii = n + 2 := ⟨ii - 2, by omega⟩
    rw [show n + 2 - 1 = n + 1 by omega, show n + 2 - 2 = n by omega, Fam.p]; ring
  have hab : ∀ k, a'.getD k 0 = b.getD k 0 := fun k => by
    by_cases hk : k < ii
    · exact va k hk
    · rw [oa k (by omega), h.za k (by omega), h.zb k (by omega)]
  have zd : ∀ k, ii + 1 ≤ k → d.getD k 0 = 0 := fun k hk => by
    rw [hd k, if_neg (by omega), h.zb _ (by omega), h.zb _ (by omega), h.za _ (by omega)]; ring
  have hbd : ∀ k, b'.getD k 0 = d.getD k 0 := fun k => by
    by_cases hk : k < ii + 1
    · exact vb k hk
    · rw [ob k (by omega), h.zb k (by omega), zd k (by omega)]
  refine ⟨a', b', d, ed, ea, eb, ⟨la.trans h.la, lb.trans h.lb, ld, fun k hk => ?_, fun k hk => ?_, zd, fun x => ?_, fun x => ?_⟩, hevd⟩
  · rw [hab, h.zb k (by omega)]
  · rw [hbd, zd k hk]
  · rw [ev_congr (by rw [la, h.la, h.lb]) hab, h.eb]
    rw [show ii + 1 - 2 = ii - 1 by omega]
  · rw [ev_congr (by rw [lb, h.lb, ld]) hbd, hevd, show ii + 1 - 1 = ii by omega]

theorem rows_start (fam : Fam K) (m off : K) {N : Nat} (hN : 2 ≤ N) :
    Rows fam m off N 2 ((List.replicate N 0).set 0 fam.c0) (((List.replicate N 0).set 0 (fam.l0 + fam.l1 * off)).set 1 (fam.l1 * m))
      (List.replicate N 0) := by
  refine ⟨by simp, by simp, by simp, fun k hk => ?_, fun k hk => ?_, fun k _ => getD_replicate_zero _ _, fun x => ?_, fun x => ?_⟩
  · rw [getD_set (by simp; omega), if_neg (by omega), getD_replicate_zero]
  · rw [getD_set (by simp; omega), if_neg (by omega), getD_set (by simp; omega), if_neg (by omega), getD_replicate_zero]
  · rw [ev_set_one (by omega)]; rfl
  · rw [ev_set_two hN, show 2 - 1 = 1 from rfl, Fam.p_one]; ring

/-- C37: the monomial coefficients of a basis polynomial represent that polynomial, on the reference domain. -/
theorem orthToStd_value (fam : Fam K) (n : Nat) :
    ∃ s, orthToStd fam n = .ok s ∧ s.num = n + 1 ∧ s.coeff.length = n + 1 ∧ s.lb = fam.lower ∧ s.ub = fam.upper ∧
      ∀ x, ∑ k ∈ range (n + 1), s.coeff.getD k 0 * x ^ k = fam.p n x := by
  rw [orthToStd]
  by_cases h0 : n = 0
  · subst h0
    rw [if_pos rfl, wr_ok _ (by simp), bind_ok]
    exact ⟨_, rfl, rfl, rfl, rfl, rfl, fun x => by simp⟩
  · rw [if_neg h0]
    by_cases h1 : n = 1
    · subst h1
      rw [if_pos rfl, wr_ok _ (by simp), bind_ok, wr_ok _ (by simp), bind_ok]
      exact ⟨_, rfl, rfl, rfl, rfl, rfl, fun x => by simp [sum_range_succ, List.replicate_succ]⟩
    · rw [if_neg h1, wr_ok _ (by simp), bind_ok, wr_ok _ (by simp), bind_ok, wr_ok _ (by simp; omega), bind_ok]
      have hs := rows_start fam 1 0 (N := n + 1) (by omega)
      rw [mul_zero, add_zero, mul_one] at hs
      obtain ⟨s, es, hr, hv⟩ := forR_spec (a := 2) (b := n + 1) (body := otsStep fam)
        (s := ((List.replicate (n + 1) 0).set 0 fam.c0, ((List.replicate (n + 1) 0).set 0 fam.l0).set 1 fam.l1, List.replicate (n + 1) 0))
        (I := fun ii s => Rows fam 1 0 (n + 1) ii s.1 s.2.1 s.2.2 ∧ (2 < ii → ∀ x, ev s.2.2 x = fam.p (ii - 1) x)) (by omega)
        ⟨hs, fun h => by omega⟩
        (by
          rintro i h1 h2 s ⟨h, -⟩
          obtain ⟨a', b', d, e1, e2, e3, r, ed⟩ := rows_step h h1 h2
          rw [mul_one, mul_zero, add_zero] at e1
          refine ⟨(a', b', d), by rw [otsStep, e1, bind_ok, e2, bind_ok, e3]; rfl, r, fun _ x => ?_⟩
          rw [ed, one_mul, add_zero]; rfl)
      rw [es, bind_ok]
      refine ⟨_, rfl, rfl, hr.lc, rfl, rfl, fun x => ?_⟩
      have := hv (by omega) x
      rw [ev_eq hr.lc] at this
      exact this

theorem accum_ok (v : K) {c sp : List K} {n : Nat} (h1 : n ≤ c.length) (h2 : n ≤ sp.length) :
    ∃ d, accum v c n sp = .ok d ∧ d.length = sp.length ∧ (∀ k < n, d.getD k 0 = sp.getD k 0 + v * c.getD k 0) ∧
      ∀ k, n ≤ k → d.getD k 0 = sp.getD k 0 := by
  obtain ⟨d, e, l, w, o⟩ := forN_window (n := n) (off := 0) (a := sp) (fun i s => s + v * c.getD i 0) (by omega)
    (body := fun jj sp => do
      let s ← rd sp jj
      let u ← rd c jj
      wr sp jj (s + v * u))
    (fun i hi b hb => by rw [rd_getD 0 (by omega), bind_ok, rd_getD 0 (by omega), bind_ok, wr_ok _ (by omega), Nat.zero_add])
  refine ⟨d, e, l, fun k hk => by have := w k hk; rwa [Nat.zero_add] at this, fun k hk => ?_⟩
  rw [List.getD_eq_getElem?_getD, List.getD_eq_getElem?_getD, o k (by omega)]

theorem etsFirst_ok {f : Ope K} (h : f.WF) (m off : K) :
    ∃ sp, etsFirst f m off (List.replicate f.num 0) = .ok sp ∧ sp.length = f.num ∧
      ∀ x, ev sp x = ∑ k ∈ range (min f.num 2), f.coeff.getD k 0 * f.fam.p k (m * x + off) := by
  have hp := h.pos
  rw [etsFirst, h.rdc hp, bind_ok, wr_ok _ (by simp; omega), bind_ok]
  by_cases h1 : f.num > 1
  · have e0 : ((List.replicate f.num (0 : K)).set 0 (f.coeff.getD 0 0 * f.fam.c0)).getD 0 0 = f.coeff.getD 0 0 * f.fam.c0 := by
      rw [getD_set (by simp; omega), if_pos rfl]
    rw [if_pos h1, h.rdc h1, bind_ok, rd_getD 0 (by simp; omega), bind_ok, wr_ok _ (by simp; omega), bind_ok, rd_getD 0 (by simp; omega),
      bind_ok, wr_ok _ (by simp; omega), List.set_set, e0, getD_set (by simp; omega), if_neg (by omega), getD_replicate_zero]
    refine ⟨_, rfl, by simp, fun x => ?_⟩
    rw [ev_set_two h1, show min f.num 2 = 2 by omega]
    simp [sum_range_succ]; ring
  · have hn : f.num = 1 := by omega
    rw [if_neg h1]
    refine ⟨_, rfl, by simp, fun x => ?_⟩
    rw [ev_set_one hp, hn]; simp

theorem etsRest_ok {f : Ope K} (h : f.WF) (m off : K) {sp : List K} (hl : sp.length = f.num)
    (hv : ∀ x, ev sp x = ∑ k ∈ range (min f.num 2), f.coeff.getD k 0 * f.fam.p k (m * x + off)) :
    ∃ sp', etsRest f m off sp = .ok sp' ∧ sp'.length = f.num ∧
      ∀ x, ev sp' x = ∑ k ∈ range f.num, f.coeff.getD k 0 * f.fam.p k (m * x + off) := by
  rw [etsRest]
  by_cases h1 : f.num > 2
  · rw [if_pos h1, wr_ok _ (by simp; omega), bind_ok, wr_ok _ (by simp; omega), bind_ok, wr_ok _ (by simp; omega), bind_ok]
    obtain ⟨s, es, -, hs1, hs2⟩ := forR_spec (a := 2) (b := f.num) (body := etsStep f m off)
      (s := ((List.replicate f.num 0).set 0 f.fam.c0, ((List.replicate f.num 0).set 0 (f.fam.l0 + f.fam.l1 * off)).set 1 (f.fam.l1 * m),
        List.replicate f.num 0, sp))
      (I := fun ii s => Rows f.fam m off f.num ii s.1 s.2.1 s.2.2.1 ∧ s.2.2.2.length = f.num ∧
        ∀ x, ev s.2.2.2 x = ∑ k ∈ range ii, f.coeff.getD k 0 * f.fam.p k (m * x + off)) (by omega)
      ⟨rows_start f.fam m off (by omega), hl, fun x => by rw [hv x, show min f.num 2 = 2 by omega]⟩
      (by
        rintro i h1 h2 s ⟨hr, hl, hv⟩
        obtain ⟨a', b', d, e1, e2, e3, r, ed⟩ := rows_step hr h1 h2
        obtain ⟨t, et, lt, vt, ot⟩ := accum_ok (f.coeff.getD i 0) (c := d) (sp := s.2.2.2) (n := i + 1) (by rw [r.lc]; omega) (by omega)
        refine ⟨(a', b', d, t), by rw [etsStep, e1, bind_ok, h.rdc h2, bind_ok, et, bind_ok, e2, bind_ok, e3]; rfl, r, lt.trans hl, fun x => ?_⟩
        rw [sum_range_succ, ← hv x, ← ed x, ev_eq (lt.trans hl), ev_eq hl, ev_eq r.lc, mul_sum, ← sum_add_distrib]
        refine sum_congr rfl (fun k _ => ?_)
        by_cases hk : k < i + 1
        · rw [vt k hk]; ring
        · rw [ot k (by omega), r.zc k (by omega)]; ring)
    rw [es, bind_ok]
    exact ⟨_, rfl, hs1, hs2⟩
  · rw [if_neg h1]
    refine ⟨sp, rfl, hl, fun x => ?_⟩
    rw [hv x, show min f.num 2 = f.num by omega]

/-- C37: the monomial coefficients of an expansion represent the expansion, provided its mapping is the one that takes the bounds to
the reference domain. For Hermite expansions it is not (`exToStd_counterexample`). -/
theorem exToStd_value_partial {f : Ope K} (h : f.WF) (hb : f.ub - f.lb ≠ 0)
    (hm : f.map.slope = (f.fam.upper - f.fam.lower) / (f.ub - f.lb)) (ho : f.map.off = f.fam.upper - f.map.slope * f.ub) :
    ∃ s, exToStd f = .ok s ∧ s.num = f.num ∧ s.coeff.length = f.num ∧ s.lb = f.lb ∧ s.ub = f.ub ∧
      ∀ x, ∑ k ∈ range f.num, s.coeff.getD k 0 * x ^ k = f.val x := by
  obtain ⟨sp, e1, l1, v1⟩ := etsFirst_ok h f.map.slope f.map.off
  obtain ⟨sp', e2, l2, v2⟩ := etsRest_ok h f.map.slope f.map.off l1 v1
  refine ⟨⟨f.num, f.lb, f.ub, sp'⟩, ?_, rfl, l2, rfl, rfl, fun x => ?_⟩
  · rw [exToStd, dv_ok hb, bind_ok, ← hm]
    dsimp only
    rw [← ho, e1, bind_ok, e2]; rfl
  · have := v2 x
    rw [ev_eq l2] at this
    exact this

/-- The Hermite expansion `t` with mapping identity and bounds `[0, 1]`: the conversion yields the coefficient of another mapping. -/
theorem exToStd_counterexample : ∃ f : Ope ℚ, f.WF ∧ (∀ x, f.val x = x) ∧
    exToStd f = .ok ⟨2, 0, 1, [-100, 200]⟩ := by
  refine ⟨⟨⟨.herm, fun _ => 1, fun _ => 0, fun _ => -1, -100, 100, 1, 0, 1, fun _ => 1⟩, 2, 0, 1, ⟨1, 0, 1, 0⟩, 2, [0, 1], false⟩,
    ⟨by decide, by decide, by decide, by simp⟩, fun x => ?_, by decide +kernel⟩
  simp [Ope.val, sum_range_succ]

/-- C37: differentiation of monomial coefficients. -/
theorem stdDeriv_value {p : StdPoly ℝ} (hl : p.coeff.length = p.num) (h : 1 ≤ p.num) :
    ∃ d, stdDeriv p = .ok d ∧ d.coeff.length = d.num ∧ d.num = max 1 (p.num - 1) ∧ d.lb = p.lb ∧ d.ub = p.ub ∧
      ∀ x, HasDerivAt (fun y => ∑ k ∈ range p.num, p.coeff.getD k 0 * y ^ k) (∑ k ∈ range d.num, d.coeff.getD k 0 * x ^ k) x := by
  have hd : ∀ x, HasDerivAt (fun y => ∑ k ∈ range p.num, p.coeff.getD k 0 * y ^ k)
      (∑ k ∈ range p.num, p.coeff.getD k 0 * (k * x ^ (k - 1))) x := fun x =>
    HasDerivAt.fun_sum (fun k _ => (hasDerivAt_pow k x).const_mul _)
  rw [stdDeriv]
  by_cases h1 : p.num > 1
  · rw [if_pos h1]
    obtain ⟨n, hn⟩ : ∃ n, p.num = n + 1 := ⟨p.num - 1, by omega⟩
    obtain ⟨c, e, l, v, -⟩ := forN_window (n := p.num - 1) (off := 0) (a := List.replicate (p.num - 1) (0 : ℝ))
      (fun i _ => p.coeff.getD (i + 1) 0 * ((i + 1 : Nat) : ℝ)) (by simp)
      (body := fun j c => do
        let v ← rd p.coeff (1 + j)
        wr c (1 + j - 1) (v * ((1 + j : Nat) : ℝ)))
      (fun i hi b hb => by
        rw [List.length_replicate] at hb
        rw [rd_getD 0 (by omega), bind_ok, wr_ok _ (by omega), Nat.zero_add, Nat.add_comm 1 i, Nat.add_sub_cancel])
    rw [List.length_replicate] at l
    refine ⟨⟨p.num - 1, p.lb, p.ub, c⟩, by rw [forR, e]; rfl, l, by show p.num - 1 = _; omega, rfl, rfl, fun x => ?_⟩
    have := hd x
    rw [hn, sum_range_succ'] at this
    simp only [Nat.cast_zero, zero_mul, mul_zero, add_zero, Nat.add_sub_cancel] at this
    rw [hn]
    refine this.congr_deriv (sum_congr (by rw [show n + 1 - 1 = n by omega]) (fun k hk => ?_))
    have hk' : k < n + 1 - 1 := mem_range.1 hk
    have hv := v k (by omega)
    rw [Nat.zero_add] at hv
    dsimp only
    rw [hv]; ring
  · rw [if_neg h1]
    have hn : p.num = 1 := by omega
    refine ⟨_, rfl, rfl, by rw [hn]; rfl, rfl, rfl, fun x => ?_⟩
    have := hd x
    rw [hn] at this ⊢
    simpa using this

example : exToStd (⟨chebFam 3, 3, 0, 1, ⟨2, -1, 1/2, 1/2⟩, 3, [1, 2, 3], false⟩ : Ope ℚ) = .ok ⟨3, 0, 1, [2, -20, 24]⟩ := by decide +kernel
example : orthToStd (chebFam (3 : ℚ)) 4 = .ok ⟨5, -1, 1, [1, 0, -8, 0, 8]⟩ := by decide +kernel
example : stdDeriv (⟨3, 0, 1, [2, -20, 24]⟩ : StdPoly ℚ) = .ok ⟨2, 0, 1, [-20, 48]⟩ := by decide +kernel

end C3.Poly
