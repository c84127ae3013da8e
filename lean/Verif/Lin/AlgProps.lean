/- C34 and C35: scaling, addition and extrema of linear elements. -/
import Verif.Lin.Props

set_option linter.unusedSectionVars false

namespace C3.Lin
variable {K : Type} [Field K] [LinearOrder K] [IsStrictOrderedRing K]

/-- An in-place loop over all entries. -/
theorem forN_inplace {n : Nat} {body : Nat → List K → C (List K)} {a : List K} (hl : a.length = n) (g : Nat → K → K)
    (hb : ∀ i < n, ∀ b : List K, b.length = n → b.getD i 0 = a.getD i 0 → body i b = wr b i (g i (a.getD i 0))) :
    forN n body a = .ok ((List.range n).map fun i => g i (a.getD i 0)) := by
  obtain ⟨b, h1, h2, h3, _⟩ := forN_scatter (n := n) (a := a) (idx := fun i => i) (g := fun i => g i (a.getD i 0)) (body := body)
    (fun i hi => by omega) (fun i _ j _ h => h) (by
      intro i hi b hb1 hb2 _
      refine hb i hi b (by omega) ?_
      rw [List.getD_eq_getElem?_getD, List.getD_eq_getElem?_getD, hb2 i (fun k hk => by omega)])
  rw [h1]
  congr 1
  apply List.ext_getElem?
  intro i
  by_cases hi : i < n
  · rw [h3 i hi]; simp [hi]
  · rw [List.getElem?_eq_none (by omega), List.getElem?_eq_none (by simp; omega)]

theorem map_range_getD {n i : Nat} (g : Nat → K) (hi : i < n) : ((List.range n).map g).getD i 0 = g i := by
  simp [List.getD_eq_getElem?_getD, hi]

/-- **C34** Scaling multiplies the value at every point (also outside the range and near nodes). -/
theorem scale_value {tol : K} (ht : 0 ≤ tol) {f : LE K} (hf : f.WF) (a : K) :
    ∃ h, scale a f = .ok h ∧ h.WF ∧ h.nodes = f.nodes ∧
      ∀ x, ∃ v, eval tol f x = .ok v ∧ eval tol h x = .ok (a * v) := by
  have e := forN_inplace (n := f.num) (a := f.coeff) (body := fun i c => do
    let u ← rd c i
    wr c i (u * a)) hf.hc (fun _ u => u * a) (by
      intro i hi b hb1 hb2
      rw [rd_getD 0 (by omega), bind_ok, hb2])
  have hw : (LE.mk f.num f.nodes ((List.range f.num).map fun i => f.coeff.getD i 0 * a)).WF := WF.swap hf (by simp)
  refine ⟨_, by rw [scale, e, bind_ok]; rfl, hw, rfl, fun x => ?_⟩
  rcases tri f x with h | ⟨hl, hh⟩
  · exact ⟨0, eval_out hf h, by rw [mul_zero]; exact eval_out hw h⟩
  · obtain ⟨i, t, hi, _, _, h3, _⟩ := eval_form hf ht hl hh
    refine ⟨_, h3 f.coeff hf.hc, ?_⟩
    rw [h3 _ (by simp), map_range_getD _ (by omega), map_range_getD _ (by omega)]
    congr 1; ring

/-- **C34** Changing the sign negates the value at every point. -/
theorem flipSign_value {tol : K} (ht : 0 ≤ tol) {f : LE K} (hf : f.WF) :
    ∃ h, flipSign f = .ok h ∧ h.WF ∧ h.nodes = f.nodes ∧ ∀ x, ∃ v, eval tol f x = .ok v ∧ eval tol h x = .ok (-v) := by
  obtain ⟨h, h1, h2, h3, h4⟩ := scale_value ht hf (-1)
  have := h2.two
  refine ⟨h, by rw [flipSign, h1, bind_ok, cassert_of (by simp; omega), bind_ok, pure_eq_ok], h2, h3, fun x => ?_⟩
  obtain ⟨v, p, q⟩ := h4 x
  exact ⟨v, p, by rw [q]; congr 1; ring⟩

theorem sdiscp_ok {tol : K} {f g : LE K} (hf : f.WF) (hg : g.WF) (hn : f.num = g.num) :
    sdiscp tol f g = .ok (decide (∀ i < f.num, |f.nd i - g.nd i| ≤ tol)) := by
  obtain ⟨s, h1, h2⟩ := forN_spec (n := f.num) (s := true)
    (body := fun ii b => do
      let x ← rd f.nodes ii
      let y ← rd g.nodes ii
      pure (b && decide (|x - y| ≤ tol)))
    (I := fun k b => b = decide (∀ i < k, |f.nd i - g.nd i| ≤ tol)) (by simp) (by
      rintro i hi s rfl
      refine ⟨_, by rw [LE.rd_nd hf hi, bind_ok, LE.rd_nd hg (by omega), bind_ok, pure_eq_ok], ?_⟩
      rw [Bool.eq_iff_iff]
      simp only [Bool.and_eq_true, decide_eq_true_eq]
      constructor
      · rintro ⟨p, q⟩ k hk
        rcases Nat.lt_succ_iff_lt_or_eq.1 hk with h | h
        · exact p k h
        · rw [h]; exact q
      · intro p
        exact ⟨fun k hk => p k (by omega), p i (by omega)⟩)
  rw [sdiscp, if_neg (by simpa using hn), h1, h2]

theorem axpySame_value {tol : K} (ht : 0 ≤ tol) {f g : LE K} (hf : f.WF) (hg : g.WF) (hn : f.num = g.num) (a : K) :
    ∃ h, axpySame a f g = .ok h ∧ h.WF ∧ h.nodes = g.nodes ∧ h.num = g.num ∧
      ∀ x, ∃ u w, eval tol ⟨g.num, g.nodes, f.coeff⟩ x = .ok u ∧ eval tol g x = .ok w ∧ eval tol h x = .ok (a * u + w) := by
  have e := forN_inplace (n := g.num) (a := g.coeff) (body := fun i c => do
    let u ← rd f.coeff i
    let w ← rd c i
    wr c i (a * u + w)) hg.hc (fun i w => a * f.cf i + w) (by
      intro i hi b hb1 hb2
      rw [LE.rd_cf hf (by omega), bind_ok, rd_getD 0 (by omega), bind_ok, hb2])
  have hw : (LE.mk g.num g.nodes ((List.range g.num).map fun i => a * f.cf i + g.coeff.getD i 0)).WF := WF.swap hg (by simp)
  refine ⟨_, by rw [axpySame, e, bind_ok]; rfl, hw, rfl, rfl, fun x => ?_⟩
  have hw' : (LE.mk g.num g.nodes f.coeff).WF := WF.swap hg (by rw [hf.hc, hn])
  rcases tri g x with h | ⟨hl, hh⟩
  · exact ⟨0, 0, eval_out hw' h, eval_out hg h, by rw [mul_zero, add_zero]; exact eval_out hw h⟩
  · obtain ⟨i, t, hi, _, _, h3, _⟩ := eval_form hg ht hl hh
    refine ⟨_, _, h3 f.coeff (by rw [hf.hc, hn]), h3 g.coeff hg.hc, ?_⟩
    rw [h3 _ (by simp), map_range_getD _ (by omega), map_range_getD _ (by omega)]
    congr 1
    show (a * f.cf i + g.cf i) * t + (a * f.cf (i + 1) + g.cf (i + 1)) * (1 - t) =
      a * (f.cf i * t + f.cf (i + 1) * (1 - t)) + (g.cf i * t + g.cf (i + 1) * (1 - t))
    ring

/-- **C34** On a common grid, `g := a f + g` adds the values at every point (also outside the range and near nodes). -/
theorem axpy_value {tol : K} (ht : 0 ≤ tol) {f g : LE K} (hf : f.WF) (hg : g.WF) (hn : f.nodes = g.nodes) (a : K) :
    ∃ h, axpy tol a f g = .ok h ∧ h.WF ∧ h.nodes = g.nodes ∧
      ∀ x, ∃ u w, eval tol f x = .ok u ∧ eval tol g x = .ok w ∧ eval tol h x = .ok (a * u + w) := by
  have hnum : f.num = g.num := by rw [← hf.hn, ← hg.hn, hn]
  obtain ⟨h, h1, h2, h3, _, h5⟩ := axpySame_value ht hf hg hnum a
  refine ⟨h, ?_, h2, h3, fun x => ?_⟩
  · rw [axpy, sdiscp_ok hf hg hnum, bind_ok, if_pos (by
      rw [decide_eq_true_eq]; intro i _; rw [LE.nd, LE.nd, hn, sub_self, abs_zero]; exact ht), h1]
  · obtain ⟨u, w, p, q, r⟩ := h5 x
    refine ⟨u, w, ?_, q, r⟩
    have : f = ⟨g.num, g.nodes, f.coeff⟩ := by rw [← hnum, ← hn]
    rw [this]; exact p

/-! ### Extrema -/

theorem scan_ok {f : LE K} (hf : f.WF) {g : K → K} {better : K → K → Bool} (le : K → K → Prop)
    (hr : ∀ a, le a a) (htr : ∀ a b c, le a b → le b c → le a c)
    (hy : ∀ a b, better a b = true → le b a) (hn : ∀ a b, better a b = false → le a b) :
    ∃ k, k < f.num ∧ scan f g better = .ok (g (f.cf k), f.nd k) ∧ ∀ j < f.num, le (g (f.cf j)) (g (f.cf k)) := by
  have two := hf.two
  obtain ⟨s, h1, k, h2, h3, h4⟩ := forR_spec (a := 1) (b := f.num) (s := (g (f.cf 0), f.nd 0))
    (body := fun ii s => do
      let c ← rd f.coeff ii
      if better (g c) s.1 then do
        let n ← rd f.nodes ii
        pure (g c, n)
      else pure s)
    (I := fun m s => ∃ k, k < m ∧ s = (g (f.cf k), f.nd k) ∧ ∀ j < m, le (g (f.cf j)) (g (f.cf k)))
    (by omega) ⟨0, by omega, rfl, fun j hj => by
      have : j = 0 := by omega
      subst this; exact hr _⟩
    (by
      rintro i h1 h2 s ⟨k, hk, rfl, hall⟩
      by_cases hb : better (g (f.cf i)) (g (f.cf k)) = true
      · refine ⟨_, by rw [LE.rd_cf hf h2, bind_ok, if_pos hb, LE.rd_nd hf h2, bind_ok, pure_eq_ok], i, by omega, rfl, ?_⟩
        intro j hj
        rcases Nat.lt_succ_iff_lt_or_eq.1 hj with h | h
        · exact htr _ _ _ (hall j h) (hy _ _ hb)
        · subst h; exact hr _
      · refine ⟨_, by rw [LE.rd_cf hf h2, bind_ok, if_neg hb, pure_eq_ok], k, by omega, rfl, ?_⟩
        intro j hj
        rcases Nat.lt_succ_iff_lt_or_eq.1 hj with h | h
        · exact hall j h
        · subst h; exact hn _ _ (by simpa using hb))
  refine ⟨k, h2, ?_, h4⟩
  rw [scan, LE.rd_cf hf (by omega), bind_ok, LE.rd_nd hf (by omega), bind_ok, h1, h3]

/-- No other node is within the tolerance of a node. -/
def LE.Sep (tol : K) (f : LE K) : Prop := ∀ i < f.num, ∀ j < f.num, |f.nd i - f.nd j| ≤ tol → j = i

theorem nd_in {f : LE K} (hf : f.WF) {k : Nat} (hk : k < f.num) : f.nd 0 ≤ f.nd k ∧ f.nd k ≤ f.nd (f.num - 1) :=
  ⟨hf.le (by omega) hk, hf.le (by omega) (by omega)⟩

/-- **C35** The reported maximum bounds the value at every point of the range, and is the coefficient of the reported node;
evaluation returns it there when the nodes are further apart than the tolerance. -/
theorem max_value {tol : K} (ht : 0 ≤ tol) {f : LE K} (hf : f.WF) :
    ∃ m loc, max f = .ok (m, loc) ∧ (∃ k < f.num, loc = f.nd k ∧ m = f.cf k) ∧ (f.nd 0 ≤ loc ∧ loc ≤ f.nd (f.num - 1)) ∧
      (f.Sep tol → eval tol f loc = .ok m) ∧
      ∀ x, f.nd 0 ≤ x → x ≤ f.nd (f.num - 1) → ∃ v, eval tol f x = .ok v ∧ v ≤ m := by
  obtain ⟨k, hk, h1, h2⟩ := scan_ok hf (g := id) (better := fun a b => decide (a > b)) (fun a b => a ≤ b) (fun _ => le_rfl)
    (fun _ _ _ => le_trans) (fun a b h => by simpa using (by simpa using h : b < a).le) (fun a b h => by simpa using h)
  refine ⟨_, _, h1, ⟨k, hk, rfl, rfl⟩, nd_in hf hk, fun hs => eval_node hf ht hk (hs k hk), fun x hl hh => ?_⟩
  obtain ⟨i, t, hi, t0, t1, h3, _⟩ := eval_form hf ht hl hh
  refine ⟨_, h3 f.coeff hf.hc, ?_⟩
  have a1 := mul_le_mul_of_nonneg_right (h2 i (by omega)) t0
  have a2 := mul_le_mul_of_nonneg_right (h2 (i + 1) hi) (sub_nonneg.2 t1)
  show f.cf i * t + f.cf (i + 1) * (1 - t) ≤ f.cf k
  dsimp at a1 a2
  linarith

/-- **C35** The same for the minimum. -/
theorem min_value {tol : K} (ht : 0 ≤ tol) {f : LE K} (hf : f.WF) :
    ∃ m loc, min f = .ok (m, loc) ∧ (∃ k < f.num, loc = f.nd k ∧ m = f.cf k) ∧ (f.nd 0 ≤ loc ∧ loc ≤ f.nd (f.num - 1)) ∧
      (f.Sep tol → eval tol f loc = .ok m) ∧
      ∀ x, f.nd 0 ≤ x → x ≤ f.nd (f.num - 1) → ∃ v, eval tol f x = .ok v ∧ m ≤ v := by
  obtain ⟨k, hk, h1, h2⟩ := scan_ok hf (g := id) (better := fun a b => decide (a < b)) (fun a b => b ≤ a) (fun _ => le_rfl)
    (fun _ _ _ h h' => le_trans h' h) (fun a b h => by simpa using (by simpa using h : a < b).le) (fun a b h => by simpa using h)
  refine ⟨_, _, h1, ⟨k, hk, rfl, rfl⟩, nd_in hf hk, fun hs => eval_node hf ht hk (hs k hk), fun x hl hh => ?_⟩
  obtain ⟨i, t, hi, t0, t1, h3, _⟩ := eval_form hf ht hl hh
  refine ⟨_, h3 f.coeff hf.hc, ?_⟩
  have a1 := mul_le_mul_of_nonneg_right (h2 i (by omega)) t0
  have a2 := mul_le_mul_of_nonneg_right (h2 (i + 1) hi) (sub_nonneg.2 t1)
  show f.cf k ≤ f.cf i * t + f.cf (i + 1) * (1 - t)
  dsimp at a1 a2
  linarith

/-- **C35** The same for the largest absolute value, at every point whatsoever. -/
theorem absmax_value {tol : K} (ht : 0 ≤ tol) {f : LE K} (hf : f.WF) :
    ∃ m loc, absmax f = .ok (m, loc) ∧ (∃ k < f.num, loc = f.nd k ∧ m = |f.cf k|) ∧ (f.nd 0 ≤ loc ∧ loc ≤ f.nd (f.num - 1)) ∧
      (f.Sep tol → ∃ v, eval tol f loc = .ok v ∧ |v| = m) ∧ ∀ x, ∃ v, eval tol f x = .ok v ∧ |v| ≤ m := by
  obtain ⟨k, hk, h1, h2⟩ := scan_ok hf (g := fun c => |c|) (better := fun a b => decide (a > b)) (fun a b => a ≤ b)
    (fun _ => le_rfl) (fun _ _ _ => le_trans) (fun a b h => by simpa using (by simpa using h : b < a).le)
    (fun a b h => by simpa using h)
  refine ⟨_, _, h1, ⟨k, hk, rfl, rfl⟩, nd_in hf hk, fun hs => ⟨_, eval_node hf ht hk (hs k hk), rfl⟩, fun x => ?_⟩
  rcases tri f x with h | ⟨hl, hh⟩
  · exact ⟨0, eval_out hf h, by simp⟩
  obtain ⟨i, t, hi, t0, t1, h3, _⟩ := eval_form hf ht hl hh
  refine ⟨_, h3 f.coeff hf.hc, ?_⟩
  have a1 := mul_le_mul_of_nonneg_right (h2 i (by omega)) t0
  have a2 := mul_le_mul_of_nonneg_right (h2 (i + 1) hi) (sub_nonneg.2 t1)
  show |f.cf i * t + f.cf (i + 1) * (1 - t)| ≤ |f.cf k|
  refine (abs_add_le _ _).trans ?_
  rw [abs_mul, abs_mul, abs_of_nonneg t0, abs_of_nonneg (sub_nonneg.2 t1)]
  linarith

/-- **C35** Over a nonempty list of given points: the largest absolute value on the list, attained at a listed point. -/
theorem absmaxOver_value {tol : K} (ht : 0 ≤ tol) {f : LE K} (hf : f.WF) {pts : List K} (hp : pts ≠ []) :
    ∃ m loc, absmaxOver tol f pts = .ok (m, loc) ∧ loc ∈ pts ∧ (∃ v, eval tol f loc = .ok v ∧ |v| = m) ∧
      ∀ p ∈ pts, ∃ v, eval tol f p = .ok v ∧ |v| ≤ m := by
  have hlen : 0 < pts.length := List.length_pos_iff.2 hp
  have hev : ∀ x, ∃ v, eval tol f x = .ok v := fun x => by
    obtain ⟨_, _, _, _, _, _, h⟩ := absmax_value ht hf
    obtain ⟨v, h1, _⟩ := h x
    exact ⟨v, h1⟩
  obtain ⟨v0, hv0⟩ := hev (pts.getD 0 0)
  obtain ⟨s, h1, ⟨h2, h3⟩, h4⟩ := forN_spec (n := pts.length) (s := (|v0|, pts.getD 0 0))
    (σ := K × K) (body := fun ii s => do
      let p ← rd pts ii
      let v ← eval tol f p
      if |v| > s.1 then pure (|v|, p) else pure s)
    (I := fun m s => (s.2 ∈ pts ∧ ∃ v, eval tol f s.2 = .ok v ∧ |v| = s.1) ∧
      ∀ j < m, ∃ v, eval tol f (pts.getD j 0) = .ok v ∧ |v| ≤ s.1)
    ⟨⟨by
      rw [List.getD_eq_getElem?_getD, List.getElem?_eq_getElem hlen]; exact List.getElem_mem _, v0, hv0, rfl⟩,
      fun j hj => by omega⟩
    (by
      rintro i hi s ⟨⟨ha, w, hw1, hw2⟩, hb⟩
      obtain ⟨v, hv⟩ := hev (pts.getD i 0)
      by_cases hc : |v| > s.1
      · refine ⟨_, by rw [rd_getD 0 hi, bind_ok, hv, bind_ok, if_pos hc, pure_eq_ok], ⟨?_, v, hv, rfl⟩, ?_⟩
        · rw [List.getD_eq_getElem?_getD, List.getElem?_eq_getElem hi]; exact List.getElem_mem _
        · intro j hj
          rcases Nat.lt_succ_iff_lt_or_eq.1 hj with h | h
          · obtain ⟨u, p, q⟩ := hb j h
            exact ⟨u, p, q.trans hc.le⟩
          · subst h; exact ⟨v, hv, le_rfl⟩
      · refine ⟨_, by rw [rd_getD 0 hi, bind_ok, hv, bind_ok, if_neg hc, pure_eq_ok], ⟨ha, w, hw1, hw2⟩, ?_⟩
        intro j hj
        rcases Nat.lt_succ_iff_lt_or_eq.1 hj with h | h
        · exact hb j h
        · subst h; exact ⟨v, hv, not_lt.1 hc⟩)
  refine ⟨s.1, s.2, by rw [absmaxOver, rd_getD 0 hlen, bind_ok, hv0, bind_ok, h1], h2, h3, ?_⟩
  intro p hp'
  obtain ⟨i, hi, rfl⟩ := List.getElem_of_mem hp'
  have := h4 i hi
  rwa [List.getD_eq_getElem?_getD, List.getElem?_eq_getElem hi] at this

/-- **C35** When two nodes are closer than the tolerance, the value at the reported location may be another one: the search
stops at the middle node. -/
theorem max_counterexample :
    max (LE.mk 3 [0, 1 / 10 ^ 16, 1] [1, 0, 0] : LE ℚ) = .ok (1, 0) ∧
      eval (1 / 10 ^ 15 : ℚ) ⟨3, [0, 1 / 10 ^ 16, 1], [1, 0, 0]⟩ 0 = .ok 0 := by
  constructor
  · norm_num [max, scan, rd, forR, forN]
  · norm_num [eval, findInterval, bisect, evalAt, rd, abs_of_pos]

example := scale_value (tol := 1 / 10 ^ 15) (by norm_num) exWF 7
example := axpy_value (tol := 1 / 10 ^ 15) (by norm_num) exWF (WF.swap exWF (c := [1, 1, 4]) rfl) rfl 7
example := max_value (tol := 1 / 10 ^ 15) (by norm_num) exWF
example : (LE.mk 3 [0, 1, 3] [2, 5, 1] : LE ℚ).Sep (1 / 10 ^ 15) := by
  intro i hi j hj
  have h1 : i = 0 ∨ i = 1 ∨ i = 2 := by dsimp at hi; omega
  have h2 : j = 0 ∨ j = 1 ∨ j = 2 := by dsimp at hj; omega
  rcases h1 with rfl | rfl | rfl <;> rcases h2 with rfl | rfl | rfl <;> norm_num [LE.nd, abs_of_pos, abs_of_neg]
example := absmaxOver_value (tol := 1 / 10 ^ 15) (by norm_num) exWF (pts := [1, 7]) (by simp)

end C3.Lin
