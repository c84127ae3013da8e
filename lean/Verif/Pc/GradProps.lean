/- C110 and C112: piecewise constant elements: parameters, gradient, difference quotients, constructors. -/
import Verif.Pc.Props
import Verif.Lin.GradProps

set_option linter.unusedSectionVars false

namespace C3.Pc
open Finset
open C3.Lin (WF.swap tri nd_in forN_inplace map_range_getD)
variable {K : Type} [Field K] [LinearOrder K] [IsStrictOrderedRing K]

/-! ### Gradient with respect to the coefficients -/

/-- One row: every entry but the one after the nearest node is written. -/
theorem gradRow_ok {tol : K} {f : CE K} (hf : f.WF) (x : K) {off : Nat} {grad : List K} (hg : off + f.num ≤ grad.length) :
    ∃ i < f.num, ∃ g, findNode tol f x = .ok i ∧ gradRow tol f x off grad = .ok g ∧ g.length = grad.length ∧
      (∀ j < f.num, j ≠ i + 1 → g[off + j]? = some (if j = i then 1 else 0)) ∧
      ∀ k, (k < off ∨ off + f.num ≤ k ∨ k = off + (i + 1)) → g[k]? = grad[k]? := by
  obtain ⟨i, hi, h0, _⟩ := findNode_ok (tol := tol) hf x
  obtain ⟨g1, h1, l1, w1, u1⟩ := forN_scatter (n := i) (a := grad) (body := fun jj g => wr g (off + jj) 0)
    (fun jj => off + jj) (fun _ => 0) (fun j hj => by omega) (fun _ _ _ _ h => by omega) (fun _ _ _ _ _ _ => rfl)
  obtain ⟨g2, h2, l2, w2, u2⟩ : ∃ g2, forR (i + 2) f.num (fun jj g => wr g (off + jj) (0 : K)) g1 = .ok g2 ∧
      g2.length = grad.length ∧ (∀ j, i + 2 ≤ j → j < f.num → g2[off + j]? = some 0) ∧
      ∀ k, (k < off + (i + 2) ∨ off + f.num ≤ k) → g2[k]? = g1[k]? := by
    rcases Nat.lt_or_ge f.num (i + 2) with hlt | hge
    · refine ⟨g1, ?_, l1, fun j h h' => by omega, fun _ _ => rfl⟩
      rw [forR, show f.num - (i + 2) = 0 by omega]; rfl
    · exact forR_spec (a := i + 2) (b := f.num) (s := g1) (body := fun jj g => wr g (off + jj) 0)
        (I := fun m (g : List K) => g.length = grad.length ∧ (∀ j, i + 2 ≤ j → j < m → g[off + j]? = some 0) ∧
          ∀ k, (k < off + (i + 2) ∨ off + m ≤ k) → g[k]? = g1[k]?)
        hge ⟨l1, fun _ _ _ => by omega, fun _ _ => rfl⟩ (by
          rintro m hm1 hm2 g ⟨a1, a2, a3⟩
          refine ⟨g.set (off + m) 0, wr_ok _ (by omega), by simp [a1], ?_, ?_⟩
          · intro j hj1 hj2
            by_cases e : j = m
            · subst e; rw [List.getElem?_set_self (by omega)]
            · rw [List.getElem?_set_ne (by omega)]; exact a2 j hj1 (by omega)
          · intro k hk
            rw [List.getElem?_set_ne (by omega)]; exact a3 k (by omega))
  refine ⟨i, hi, g2.set (off + i) 1, h0, ?_, by simp [l2], ?_, ?_⟩
  · rw [gradRow, h0, bind_ok, h1, bind_ok, h2, bind_ok, wr_ok _ (by omega)]
  · intro j hj hne
    by_cases e : j = i
    · subst e; rw [if_pos rfl, List.getElem?_set_self (by omega)]
    · rw [if_neg e, List.getElem?_set_ne (by omega)]
      by_cases e3 : j < i
      · rw [u2 _ (by omega)]; exact w1 j e3
      · exact w2 j (by omega) hj
  · intro k hk
    rw [List.getElem?_set_ne (by omega), u2 k (by omega)]
    exact u1 k (fun j hj => by omega)

/-- **C112** Gradient with respect to the coefficients, for an array that is zero beforehand and points of the range: row `ii` is
the gradient at point `ii`, i.e. its product with any coefficients is the value of the expansion with these coefficients. Missing:
arrays with other contents (`paramGrad_stale_counterexample`) and points outside (`paramGrad_outside_counterexample`). -/
theorem paramGrad_value_partial {tol : K} {f : CE K} (hf : f.WF) {nx : Nat} {x : List K} (hxl : nx ≤ x.length)
    (hx : ∀ i < nx, f.nd 0 ≤ x.getD i 0 ∧ x.getD i 0 ≤ f.nd (f.num - 1)) :
    ∃ g, paramGrad tol f nx x (List.replicate (nx * f.num) 0) = .ok g ∧ g.length = nx * f.num ∧
      ∀ ii < nx, ∀ c : List K, c.length = f.num →
        eval tol ⟨f.num, f.nodes, c⟩ (x.getD ii 0) = .ok (∑ j ∈ range f.num, g.getD (ii * f.num + j) 0 * c.getD j 0) := by
  obtain ⟨g, h1, h2, h3, _⟩ := forN_spec (n := nx) (s := List.replicate (nx * f.num) (0 : K))
    (body := fun ii grad => do
      let xi ← rd x ii
      gradRow tol f xi (ii * f.num) grad)
    (I := fun m (g : List K) => g.length = nx * f.num ∧
      (∀ ii < m, ∃ i < f.num, findNode tol f (x.getD ii 0) = .ok i ∧
        ∀ j < f.num, g[ii * f.num + j]? = some (if j = i then 1 else 0)) ∧
      ∀ k, m * f.num ≤ k → k < nx * f.num → g[k]? = some 0)
    ⟨by simp, fun ii h => by omega, fun k _ hk => by rw [List.getElem?_replicate, if_pos hk]⟩ (by
      rintro m hm g ⟨a1, a2, a3⟩
      have hmul : (m + 1) * f.num ≤ nx * f.num := Nat.mul_le_mul_right _ hm
      have e1 : (m + 1) * f.num = m * f.num + f.num := by ring
      obtain ⟨i, hi, g', b1, b2, b3, b4, b5⟩ := gradRow_ok (tol := tol) hf (x.getD m 0) (off := m * f.num) (grad := g) (by omega)
      refine ⟨g', by rw [rd_getD 0 (by omega), bind_ok, b2], by omega, ?_, ?_⟩
      · intro ii hii
        rcases Nat.lt_succ_iff_lt_or_eq.1 hii with h | h
        · obtain ⟨i', hi', c1, c2⟩ := a2 ii h
          refine ⟨i', hi', c1, fun j hj => ?_⟩
          have : (ii + 1) * f.num ≤ m * f.num := Nat.mul_le_mul_right _ h
          have e2 : (ii + 1) * f.num = ii * f.num + f.num := by ring
          rw [b5 _ (.inl (by omega))]
          exact c2 j hj
        · subst h
          refine ⟨i, hi, b1, fun j hj => ?_⟩
          by_cases e : j = i + 1
          · subst e
            rw [b5 _ (.inr (.inr rfl)), a3 _ (by omega) (by omega), if_neg (by omega)]
          · exact b4 j hj e
      · intro k hk1 hk2
        rw [b5 _ (.inr (.inl (by omega)))]
        exact a3 k (by omega) hk2)
  refine ⟨g, h1, h2, fun ii hii c hc => ?_⟩
  obtain ⟨i, hi, c1, c2⟩ := h3 ii hii
  obtain ⟨i', hi', d1, d2⟩ := eval_form (tol := tol) hf (hx ii hii).1 (hx ii hii).2
  have : i' = i := Except.ok.inj (d1.symm.trans c1)
  subst this
  rw [d2 c hc]
  congr 1
  rw [sum_congr rfl fun j hj => by
    rw [List.getD_eq_getElem?_getD, c2 j (mem_range.1 hj)]]
  simp [hi]

/-- **C112** In an array that is not zero beforehand the entry after the nearest node keeps its old contents. -/
theorem paramGrad_stale_counterexample :
    paramGrad (1 / 10 ^ 15 : ℚ) ⟨3, [0, 1, 3], [2, 5, 1]⟩ 1 [1 / 4] [7, 7, 7] = .ok [1, 7, 0] := by decide +kernel

/-- **C112** Outside of the range the value is zero whatever the coefficients, but the gradient is not. -/
theorem paramGrad_outside_counterexample :
    paramGrad (1 / 10 ^ 15 : ℚ) ⟨3, [0, 1, 3], [2, 5, 1]⟩ 1 [-1] [0, 0, 0] = .ok [1, 0, 0] ∧
      eval (1 / 10 ^ 15 : ℚ) ⟨3, [0, 1, 3], [2, 5, 1]⟩ (-1) = .ok 0 ∧
      eval (1 / 10 ^ 15 : ℚ) ⟨3, [0, 1, 3], [3, 5, 1]⟩ (-1) = .ok 0 := by decide +kernel

/-- **C112** The variant that also returns the value returns the node instead. -/
theorem paramGrad2_counterexample :
    paramGrad2 (1 / 10 ^ 15 : ℚ) ⟨3, [0, 1, 3], [2, 5, 1]⟩ (1 / 4) [0, 0, 0] = .ok (0, [1, 0, 0]) ∧
      eval (1 / 10 ^ 15 : ℚ) ⟨3, [0, 1, 3], [2, 5, 1]⟩ (1 / 4) = .ok 2 := by decide +kernel

/-- **C112** What the variant returns: the location of the nearest node. -/
theorem paramGrad2_actual {tol : K} {f : CE K} (hf : f.WF) (hg : Gap tol f) (x : K) {grad : List K} (hl : f.num ≤ grad.length) :
    ∃ i g, Nearest f x i ∧ paramGrad2 tol f x grad = .ok (f.nd i, g) := by
  obtain ⟨i, hi, g, h1, h2, _⟩ := gradRow_ok (tol := tol) hf x (off := 0) (grad := grad) (by omega)
  obtain ⟨j, h3, h4⟩ := findNode_nearest hf hg x
  have : i = j := Except.ok.inj (h1.symm.trans h3)
  subst this
  exact ⟨i, g, h4, by rw [paramGrad2, h2, bind_ok, h1, bind_ok, Lin.LE.rd_nd hf hi, bind_ok, pure_eq_ok]⟩

/-! ### Difference quotients -/

theorem quot_ok {f : CE K} (hf : f.WF) {c : List K} (hc : c.length = f.num) {i : Nat} (hi : i + 1 < f.num) :
    quot f.nodes c i (i + 1) = .ok ((c.getD (i + 1) 0 - c.getD i 0) / (f.nd (i + 1) - f.nd i)) := by
  rw [quot, rd_getD 0 (by omega), bind_ok, rd_getD 0 (by omega), bind_ok, Lin.LE.rd_nd hf hi, bind_ok,
    Lin.LE.rd_nd hf (by omega), bind_ok, Lin.dv_ok (sub_pos.2 (hf.inc i hi)).ne']

/-- **C112** The derivative on the same nodes: the forward difference quotient at every node but the last. Missing: the last node,
where the quotient uses the coefficient overwritten just before (`deriv_last_counterexample`). -/
theorem deriv_value_partial {f : CE K} (hf : f.WF) :
    ∃ h, deriv f = .ok h ∧ h.WF ∧ h.nodes = f.nodes ∧
      (∀ i, i + 1 < f.num → h.cf i = (f.cf (i + 1) - f.cf i) / (f.nd (i + 1) - f.nd i)) ∧
      h.cf (f.num - 1) = (f.cf (f.num - 1) - (f.cf (f.num - 1) - f.cf (f.num - 2)) / (f.nd (f.num - 1) - f.nd (f.num - 2))) /
        (f.nd (f.num - 1) - f.nd (f.num - 2)) := by
  have two := hf.two
  have hc := hf.hc
  set q : Nat → K := fun i => (f.cf (i + 1) - f.cf i) / (f.nd (i + 1) - f.nd i) with hq
  obtain ⟨c, h1, h2, h3, h4⟩ := forR_spec (a := 1) (b := f.num - 1) (s := f.coeff.set 0 (q 0))
    (body := fun ii c => do
      let v ← quot f.nodes c ii (ii + 1)
      wr c ii v)
    (I := fun m (c : List K) => c.length = f.num ∧ (∀ j < m, c.getD j 0 = q j) ∧ ∀ j, m ≤ j → c.getD j 0 = f.cf j)
    (by omega) ⟨by simpa using hc, fun j hj => by
        have : j = 0 := by omega
        subst this
        rw [List.getD_eq_getElem?_getD, List.getElem?_set_self (by omega)]; rfl, fun j hj => by
        rw [List.getD_eq_getElem?_getD, List.getElem?_set_ne (by omega), ← List.getD_eq_getElem?_getD]; rfl⟩ (by
      rintro m hm1 hm2 c ⟨a1, a2, a3⟩
      refine ⟨c.set m (q m), ?_, by simpa using a1, ?_, ?_⟩
      · rw [quot_ok hf a1 (by omega), bind_ok, a3 _ (by omega), a3 _ le_rfl, wr_ok _ (by omega)]
      · intro j hj
        by_cases e : j = m
        · subst e; rw [List.getD_eq_getElem?_getD, List.getElem?_set_self (by omega)]; rfl
        · rw [List.getD_eq_getElem?_getD, List.getElem?_set_ne (by omega), ← List.getD_eq_getElem?_getD]
          exact a2 j (by omega)
      · intro j hj
        rw [List.getD_eq_getElem?_getD, List.getElem?_set_ne (by omega), ← List.getD_eq_getElem?_getD]
        exact a3 j (by omega))
  set v := (f.cf (f.num - 1) - q (f.num - 2)) / (f.nd (f.num - 1) - f.nd (f.num - 2)) with hv
  have e1 : f.num - 2 + 1 = f.num - 1 := by omega
  have last : quot f.nodes c (f.num - 2) (f.num - 1) = .ok v := by
    have := quot_ok hf h2 (i := f.num - 2) (by omega)
    rw [e1, h4 (f.num - 1) le_rfl, h3 (f.num - 2) (by omega)] at this
    exact this
  have hw : (Lin.LE.mk f.num f.nodes (c.set (f.num - 1) v)).WF := WF.swap hf (by simpa using h2)
  refine ⟨⟨f.num, f.nodes, c.set (f.num - 1) v⟩, ?_, hw, rfl, fun i hi => ?_, ?_⟩
  · rw [deriv, cassert_of (by simp; omega), bind_ok, quot_ok hf hc (by omega), bind_ok, wr_ok _ (by omega), bind_ok]
    erw [h1]
    rw [bind_ok, last, bind_ok, wr_ok _ (by omega), bind_ok, pure_eq_ok]
  · show (c.set (f.num - 1) v).getD i 0 = _
    rw [List.getD_eq_getElem?_getD, List.getElem?_set_ne (by omega), ← List.getD_eq_getElem?_getD]
    exact h3 i (by omega)
  · show (c.set (f.num - 1) v).getD (f.num - 1) 0 = _
    rw [List.getD_eq_getElem?_getD, List.getElem?_set_self (by omega), hv, hq]
    simp only [e1, Option.getD_some]

/-- **C112** Values `1, 4, 7` at `0, 1, 2` (slope 3 everywhere): at the last node the result is `(7 - 3) / 1 = 4`. -/
theorem deriv_last_counterexample :
    deriv (⟨3, [0, 1, 2], [1, 4, 7]⟩ : CE ℚ) = .ok ⟨3, [0, 1, 2], [3, 3, 4]⟩ := by decide +kernel

/-- **C112** The derivative at a point is reported as zero; inside of a cell it is. -/
theorem derivEval_value {tol : ℝ} {f : CE ℝ} (hf : f.WF) (hg : Gap tol f) {F : ℝ → ℝ} (hF : ∀ x, eval tol f x = .ok (F x)) {x : ℝ}
    {i : Nat} (hi : i < f.num) (hl : f.nd 0 < x) (hh : x < f.nd (f.num - 1))
    (hn : ∀ j < f.num, j ≠ i → |x - f.nd i| < |x - f.nd j|) : HasDerivAt F (derivEval f x) x := by
  have near : ∀ᶠ y in nhds x, F y = f.cf i := by
    have h1 : ∀ᶠ y in nhds x, ∀ j ∈ Finset.range f.num, j ≠ i → |y - f.nd i| < |y - f.nd j| := by
      rw [Filter.eventually_all_finset]
      intro j hj
      by_cases e : j = i
      · exact Filter.Eventually.of_forall fun y h => absurd e h
      · have c1 : ContinuousAt (fun y : ℝ => |y - f.nd i|) x := by fun_prop
        have c2 : ContinuousAt (fun y : ℝ => |y - f.nd j|) x := by fun_prop
        filter_upwards [c1.eventually_lt c2 (hn j (mem_range.1 hj) e)] with y hy _
        exact hy
    filter_upwards [h1, lt_mem_nhds hl, gt_mem_nhds hh] with y h1 h2 h3
    obtain ⟨v, e, _, h4⟩ := eval_value hf hg y
    rw [hF y] at e
    obtain ⟨k, hk, rfl⟩ := h4 (le_of_lt h2) (le_of_lt h3)
    rw [Except.ok.inj e]
    congr 1
    by_contra hne
    exact absurd (hk.2 i hi).1 (not_le.2 (h1 k (mem_range.2 hk.1) hne))
  rw [derivEval]
  exact (hasDerivAt_const x (f.cf i)).congr_of_eventuallyEq near

/-! ### Parameters, options, constructors -/

/-- **C112** Updating the parameters and reading them back returns them; the grid is unchanged. -/
theorem params_roundtrip {f : CE K} (hf : f.WF) {p q : List K} (hp : p.length = f.num) (hq : q.length = f.num) :
    ∃ h, updateParams f f.num p = .ok h ∧ h.WF ∧ h.nodes = f.nodes ∧ h.num = f.num ∧ getParams h q = .ok p := by
  have e1 := forN_inplace (n := f.num) (a := f.coeff) (body := fun i c => do
    let v ← rd p i
    wr c i v) hf.hc (fun i _ => p.getD i 0) (by
      intro i hi b hb1 hb2
      rw [rd_getD 0 (by omega), bind_ok])
  have hid : ((List.range f.num).map fun i => p.getD i 0) = p := by
    apply List.ext_getElem (by simp [hp])
    intro i h1 h2
    simp [List.getD_eq_getElem?_getD, List.getElem?_eq_getElem h2]
  rw [hid] at e1
  have e2 := forN_inplace (n := f.num) (a := q) (body := fun i c => do
    let v ← rd p i
    wr c i v) hq (fun i _ => p.getD i 0) (by
      intro i hi b hb1 hb2
      rw [rd_getD 0 (by omega), bind_ok])
  rw [hid] at e2
  refine ⟨⟨f.num, f.nodes, p⟩, ?_, WF.swap hf hp, rfl, rfl, e2⟩
  rw [updateParams, cassert_of (by simp), bind_ok, e1, bind_ok, pure_eq_ok]

/-- **C112** An expansion created with given parameters has the nodes of the options and these coefficients. -/
theorem createWithParams_value {o : AOpts K} {x p : List K} (hx : o.nodes = some x) (h1 : x.length = o.num) (h2 : p.length = o.num) :
    createWithParams o o.num p = .ok ⟨o.num, x, p⟩ := by
  rw [createWithParams, cassert_of (by simp), bind_ok, hx]
  dsimp only
  rw [if_neg (by omega), List.take_of_length_le (by omega), List.take_of_length_le (by omega), pure_eq_ok]

/-- **C112** Options for a fixed grid: the lower bound is recorded as the last node, and the upper bound is not set. -/
theorem aoptsAlloc_counterexample :
    ∃ o : AOpts ℚ, aoptsAlloc 3 (some [0, 1, 3]) = .ok o ∧ getLb o = 3 ∧ getUb o = .error .ub :=
  ⟨⟨3, some [0, 1, 3], 3, none, false⟩, rfl, rfl, rfl⟩

/-- **C112** Options for adaptation record both bounds. -/
theorem aoptsAdapt_value (num : Nat) (x : Option (List K)) (lb ub : K) :
    getLb (aoptsAdapt num x lb ub) = lb ∧ getUb (aoptsAdapt num x lb ub) = .ok ub := ⟨rfl, rfl⟩

/-- **C110** Approximation on a fixed grid reproduces the function at the nodes. -/
theorem approx_value {tol : K} (ht : 0 ≤ tol) {o : AOpts K} {x : List K} (ha : o.adapt = false) (hx : o.nodes = some x)
    (hw : (Lin.LE.mk o.num x x).WF) (F : K → K) :
    ∃ h, approx o F = .ok h ∧ h.WF ∧ h.nodes = x ∧
      (h.Sep tol → ∀ k < h.num, eval tol h (h.nd k) = .ok (F (h.nd k))) ∧
      (Gap tol h → ∀ y, h.nd 0 ≤ y → y ≤ h.nd (h.num - 1) → ∃ i, Nearest h y i ∧ eval tol h y = .ok (F (h.nd i))) := by
  have hlen : x.length = o.num := hw.hn
  have e := forN_inplace (n := o.num) (a := List.replicate o.num (0 : K)) (body := fun i c => do
    let y ← rd x i
    wr c i (F y)) (by simp) (fun i _ => F (x.getD i 0)) (by
      intro i hi b hb1 hb2
      rw [rd_getD 0 (by omega), bind_ok])
  have hw' : (Lin.LE.mk o.num x ((List.range o.num).map fun i => F (x.getD i 0))).WF := WF.swap hw (by simp)
  have hcf : ∀ k < o.num, (Lin.LE.mk o.num x ((List.range o.num).map fun i => F (x.getD i 0))).cf k = F (x.getD k 0) :=
    fun k hk => map_range_getD _ hk
  refine ⟨_, by
    rw [approx, ha, if_neg (by simp), hx]
    dsimp only
    rw [if_neg (by omega), e, bind_ok, List.take_of_length_le (by omega), pure_eq_ok], hw', rfl, fun hs k hk => ?_, fun hg y h1 h2 => ?_⟩
  · rw [eval_node ht hw' hs hk, hcf k hk]; rfl
  · obtain ⟨v, e1, _, e2⟩ := eval_value hw' hg y
    obtain ⟨i, hi, rfl⟩ := e2 h1 h2
    exact ⟨i, hi, by rw [e1, hcf i hi.1]; rfl⟩

/-- **C110** Adaptive approximation fails an assertion. -/
theorem approx_adapt_actual {o : AOpts K} (ha : o.adapt = true) (F : K → K) : approx o F = .error .assertFail := by
  rw [approx, ha, if_pos rfl]

/-- **C110** The constant function has the constant as its value at every point of the range (given nodes, or just the bounds). -/
theorem constant_value {tol : K} (a : K) {o : AOpts K} {u : K}
    (ho : (o.num = 0 ∧ o.ub = some u ∧ o.lb < u) ∨ ∃ x, o.nodes = some x ∧ (Lin.LE.mk o.num x x).WF ∧ o.num ≠ 0) :
    ∃ h, constant a o = .ok h ∧ h.WF ∧ (o.num = 0 → h.nd 0 = o.lb ∧ h.nd (h.num - 1) = u) ∧
      (∀ x, o.num ≠ 0 → o.nodes = some x → h.nodes = x) ∧
      ∀ x, h.nd 0 ≤ x → x ≤ h.nd (h.num - 1) → eval tol h x = .ok a := by
  have main : ∀ (num : Nat) (x : List K), gridOf o = .ok (num, x) → (Lin.LE.mk num x x).WF →
      constant a o = .ok ⟨num, x, (List.range num).map fun _ => a⟩ ∧
        (Lin.LE.mk num x ((List.range num).map fun _ => a)).WF ∧
        ∀ y, (Lin.LE.mk num x x).nd 0 ≤ y → y ≤ (Lin.LE.mk num x x).nd (num - 1) →
          eval tol ⟨num, x, (List.range num).map fun _ => a⟩ y = .ok a := by
    intro num x hg hw
    have e := forN_inplace (n := num) (a := List.replicate num (0 : K)) (body := fun i c => wr c i a) (by simp) (fun _ _ => a)
      (fun _ _ _ _ _ => rfl)
    have two := hw.two
    dsimp at two
    have hw' : (Lin.LE.mk num x ((List.range num).map fun _ => a)).WF := WF.swap hw (by simp)
    refine ⟨?_, hw', fun y h1 h2 => ?_⟩
    · rw [constant, hg, bind_ok]
      dsimp only
      rw [e, bind_ok, cassert_of (by simp; omega), bind_ok, pure_eq_ok]
    · obtain ⟨i, hi, e, _⟩ := eval_total (tol := tol) hw' h1 h2
      rw [e]
      congr 1
      exact map_range_getD _ hi
  rcases ho with ⟨h1, h2, h3⟩ | ⟨x, h1, h2, h3⟩
  · have hw : (Lin.LE.mk 2 [o.lb, u] [o.lb, u]).WF := ⟨rfl, rfl, by simp, by
      intro i hi
      have : i = 0 := by dsimp at hi; omega
      subst this; exact h3⟩
    obtain ⟨p, q, r⟩ := main 2 [o.lb, u] (by rw [gridOf, if_pos h1, getUb, h2]; rfl) hw
    exact ⟨_, p, q, fun _ => ⟨rfl, rfl⟩, fun _ h => absurd h1 h, r⟩
  · obtain ⟨p, q, r⟩ := main o.num x (by
      have hlen : x.length = o.num := h2.hn
      rw [gridOf, if_neg h3, h1]
      dsimp only
      rw [if_neg (by omega), List.take_of_length_le (by omega)]) h2
    exact ⟨_, p, q, fun h => absurd h h3, fun y _ hy => Option.some.inj (h1.symm.trans hy), r⟩

/-- **C112** Functions with given zeros on a fixed grid: the value at a node is zero exactly if the node is within the tolerance of
a requested zero, and one otherwise. -/
theorem onezero_fixed_value {tol tol' : K} (ht : 0 ≤ tol') {zeros x : List K} {o : AOpts K} (ha : o.adapt = false)
    (hn : o.nodes = some x) (hx : (Lin.LE.mk o.num x x).WF) (hnz : zeros.length < o.num) :
    ∃ e, onezero tol zeros o = .ok e ∧ e.WF ∧ e.nodes = x ∧ (e.Sep tol' → ∀ k < o.num,
      ((∃ z ∈ zeros, |x.getD k 0 - z| < tol) → eval tol' e (x.getD k 0) = .ok 0) ∧
      (¬ (∃ z ∈ zeros, |x.getD k 0 - z| < tol) → eval tol' e (x.getD k 0) = .ok 1)) := by
  have two : 2 ≤ o.num := hx.two
  obtain ⟨e, h1, h2, h3, h4, _⟩ := Lin.onezero_fixed_value (tol := tol) (zeros := zeros) (x := x)
    (o := ⟨o.num, some x, 0, 0, false, 0, 0⟩) rfl rfl hx hnz
  have hnum : e.num = o.num := by rw [← h2.hn, h3]; exact hx.hn
  refine ⟨e, ?_, h2, h3, fun hs k hk => ?_⟩
  · rw [onezero, ha, if_neg (by simp), hn]
    dsimp only
    rw [cassert_of (decide_eq_true hnz), bind_ok, cassert_of (by simp; omega), bind_ok]
    exact h1
  · have ev := eval_node ht h2 hs (k := k) (by omega)
    have nd : e.nd k = x.getD k 0 := by rw [Lin.LE.nd, h3]
    rw [nd] at ev
    obtain ⟨a, b⟩ := h4 k hk
    refine ⟨fun h => by rw [ev, b.2 h], fun h => ?_⟩
    rcases a with a | a
    · exact absurd (b.1 a) h
    · rw [ev, a]

/-- **C112** Free nodes, no zeros requested: both nodes are 0, whatever the bounds, and the function is zero in between. -/
theorem onezero_none_counterexample :
    ∃ h : CE ℚ, onezero (1 / 10 ^ 14) [] ⟨0, none, 3, some 5, true⟩ = .ok h ∧ eval (1 / 10 ^ 15) h 4 = .ok 0 :=
  ⟨⟨2, [0, 0], [1, 0]⟩, rfl, by decide +kernel⟩

/-- **C112** Free nodes, zeros at the lower bound and at 9/10: the value at 9/10 is one. -/
theorem onezero_lower_counterexample :
    ∃ h : CE ℚ, onezero (1 / 10 ^ 14) [0, 9 / 10] ⟨0, none, 0, some 1, true⟩ = .ok h ∧ eval (1 / 10 ^ 15) h (9 / 10) = .ok 1 :=
  ⟨⟨3, [0, 0, 1], [0, 0, 1]⟩, by decide +kernel, by decide +kernel⟩

/-! ### Non-vacuity -/

example := paramGrad_value_partial (tol := (1 / 10 ^ 15 : ℚ)) Lin.exWF (nx := 2) (x := [1 / 4, 2]) (by simp) (by
  intro i hi
  have : i = 0 ∨ i = 1 := by omega
  rcases this with rfl | rfl <;> norm_num [Lin.LE.nd])
example := deriv_value_partial Lin.exWF
example := params_roundtrip Lin.exWF (p := [7, 8, 9]) (q := [0, 0, 0]) rfl rfl
example := createWithParams_value (o := ⟨3, some [0, 1, 3], (3 : ℚ), none, false⟩) (p := [7, 8, 9]) rfl rfl rfl
example := approx_value (tol := (1 / 10 ^ 15 : ℚ)) (by norm_num) (o := ⟨3, some [0, 1, 3], 3, none, false⟩) rfl rfl (WF.swap Lin.exWF rfl)
  (fun x => x ^ 2)
example := constant_value (tol := (1 / 10 ^ 15 : ℚ)) 7 (o := ⟨0, none, 0, some 2, true⟩) (u := 2) (.inl ⟨rfl, rfl, by norm_num⟩)
example := onezero_fixed_value (tol := (1 / 10 : ℚ)) (tol' := 1 / 10 ^ 15) (by norm_num) (zeros := [1])
  (o := ⟨3, some [0, 1, 3], 3, none, false⟩) rfl rfl (WF.swap Lin.exWF rfl) (by decide)

end C3.Pc
