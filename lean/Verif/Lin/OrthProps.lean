/- C64: the orthonormal basis of linear elements. -/
import Verif.Lin.Orth
import Verif.Lin.IntProps

set_option linter.unusedSectionVars false

namespace C3.Lin
open Finset

/-- The function with value `v` at node `i` and zero at all others. -/
def ev (num : Nat) (nodes : List ℝ) (i : Nat) (v : ℝ) : LE ℝ := ⟨num, nodes, (List.range num).map fun j => if j = i then v else 0⟩

variable {num : Nat} {nodes : List ℝ}

theorem ev_wf (h : (LE.mk num nodes nodes).WF) (i : Nat) (v : ℝ) : (ev num nodes i v).WF := WF.swap h (by simp)

theorem ev_cf {i j : Nat} (v : ℝ) (hj : j < num) : (ev num nodes i v).cf j = if j = i then v else 0 := by
  show ((List.range num).map _).getD j 0 = _
  rw [map_range_getD _ hj]

/-- The trapezoidal weight of node `i`. -/
noncomputable def wt (num : Nat) (nodes : List ℝ) (i : Nat) : ℝ := ∑ k ∈ range (num - 1),
  ((if k = i then 1 else 0) + (if k + 1 = i then 1 else 0)) / 2 * (nodes.getD (k + 1) 0 - nodes.getD k 0)

theorem inner_ev {tol : ℝ} (ht : 0 ≤ tol) (h : (LE.mk num nodes nodes).WF) {i : Nat} (v w : ℝ) (j : Nat) :
    inner tol (ev num nodes i v) (ev num nodes j w) = .ok (if i = j then v * w * wt num nodes i else 0) := by
  rw [inner_common ht (ev_wf h i v) (ev_wf h j w) rfl]
  congr 1
  have e : ∀ k ∈ range (num - 1), ((ev num nodes i v).cf k * (ev num nodes j w).cf k +
      (ev num nodes i v).cf (k + 1) * (ev num nodes j w).cf (k + 1)) / 2 * (nodes.getD (k + 1) 0 - nodes.getD k 0) =
      if i = j then v * w * (((if k = i then 1 else 0) + (if k + 1 = i then 1 else 0)) / 2 *
        (nodes.getD (k + 1) 0 - nodes.getD k 0)) else 0 := by
    intro k hk
    rw [mem_range] at hk
    rw [ev_cf _ (by omega), ev_cf _ (by omega), ev_cf _ (by omega), ev_cf _ (by omega)]
    by_cases hij : i = j
    · subst hij
      rw [if_pos rfl]
      by_cases h1 : k = i
      · have h2 : ¬ k + 1 = i := by omega
        rw [if_pos h1, if_neg h2, if_pos h1, if_neg h2, if_pos h1, if_neg h2]; ring
      · by_cases h2 : k + 1 = i
        · rw [if_neg h1, if_pos h2, if_neg h1, if_pos h2, if_neg h1, if_pos h2]; ring
        · rw [if_neg h1, if_neg h2, if_neg h1, if_neg h2, if_neg h1, if_neg h2]; ring
    · rw [if_neg hij]
      have a1 : (if k = i then v else 0) * (if k = j then w else 0) = 0 := by
        by_cases h1 : k = i
        · rw [if_neg (show ¬ k = j by omega), mul_zero]
        · rw [if_neg h1, zero_mul]
      have a2 : (if k + 1 = i then v else 0) * (if k + 1 = j then w else 0) = 0 := by
        by_cases h1 : k + 1 = i
        · rw [if_neg (show ¬ k + 1 = j by omega), mul_zero]
        · rw [if_neg h1, zero_mul]
      rw [a1, a2]; ring
  show ∑ k ∈ range (num - 1), _ * (nodes.getD (k + 1) 0 - nodes.getD k 0) = _
  rw [sum_congr rfl e]
  by_cases hij : i = j
  · rw [if_pos hij]; simp only [if_pos hij]; rw [wt, mul_sum]
  · rw [if_neg hij]; simp only [if_neg hij]; rw [sum_const_zero]

theorem wt_pos (h : (LE.mk num nodes nodes).WF) {i : Nat} (hi : i < num) : 0 < wt num nodes i := by
  obtain ⟨v, h1, h2, h3⟩ := inner_pos (tol := 0) le_rfl (ev_wf h i 1)
  rw [inner_ev le_rfl h, if_pos rfl, one_mul, one_mul] at h1
  injection h1 with h1
  rw [← h1] at h2 h3
  refine lt_of_le_of_ne h2 fun e => ?_
  have := h3 e.symm i hi
  rw [ev_cf _ hi, if_pos rfl] at this
  exact one_ne_zero this

theorem scale_ev (i : Nat) (v a : ℝ) : scale a (ev num nodes i v) = .ok (ev num nodes i (v * a)) := by
  have e := forN_inplace (n := num) (a := (ev num nodes i v).coeff) (body := fun i c => do
    let u ← rd c i
    wr c i (u * a)) (by simp [ev]) (fun _ u => u * a) (by
      intro i hi b hb1 hb2
      rw [rd_getD 0 (by omega), bind_ok, hb2])
  rw [scale, show (ev num nodes i v).num = num from rfl, e, bind_ok, pure_eq_ok]
  congr 1
  have : ((List.range num).map fun k => (ev num nodes i v).coeff.getD k 0 * a) =
      (List.range num).map fun j => if j = i then v * a else 0 := by
    apply List.map_congr_left
    intro k hk
    have := ev_cf (nodes := nodes) (i := i) v (List.mem_range.1 hk)
    rw [show (ev num nodes i v).coeff.getD k 0 = (ev num nodes i v).cf k from rfl, this]
    by_cases h : k = i
    · rw [if_pos h, if_pos h]
    · rw [if_neg h, if_neg h, zero_mul]
  rw [this]; rfl

theorem axpy_zero {tol : ℝ} (ht : 0 ≤ tol) (h : (LE.mk num nodes nodes).WF) (i j : Nat) (v w : ℝ) :
    axpy tol (-0) (ev num nodes i v) (ev num nodes j w) = .ok (ev num nodes j w) := by
  have wi := ev_wf h i v
  have wj := ev_wf h j w
  have e := forN_inplace (n := num) (a := (ev num nodes j w).coeff) (body := fun k c => do
    let u ← rd (ev num nodes i v).coeff k
    let w ← rd c k
    wr c k (-0 * u + w)) (by simp [ev]) (fun _ w => w) (by
      intro k hk b hb1 hb2
      rw [rd_getD 0 (by rw [wi.hc]; exact hk), bind_ok, rd_getD 0 (by omega), bind_ok, hb2]
      congr 1; ring)
  rw [axpy, sdiscp_ok wi wj rfl, bind_ok, if_pos (by
      rw [decide_eq_true_eq]; intro k _; rw [show (ev num nodes i v).nd k = (ev num nodes j w).nd k from rfl, sub_self, abs_zero]
      exact ht), axpySame, show (ev num nodes j w).num = num from rfl, e, bind_ok, pure_eq_ok]
  congr 1
  have : ((List.range num).map fun k => (ev num nodes j w).coeff.getD k 0) = (List.range num).map fun k => if k = j then w else 0 := by
    apply List.map_congr_left
    intro k hk
    exact ev_cf (nodes := nodes) (i := j) w (List.mem_range.1 hk)
  rw [this]; rfl

theorem orthInit_ev {i : Nat} (hi : i < num) : orthInit num nodes i = ev num nodes i 1 := by
  rw [orthInit, ev]
  congr 1
  apply List.ext_getElem?
  intro k
  by_cases hk : k < num
  · by_cases e : k = i
    · subst e; rw [List.getElem?_set_self (by simpa using hk)]; simp [hk]
    · rw [List.getElem?_set_ne (by omega)]; simp [hk, e]
  · rw [List.getElem?_eq_none (by simp; omega), List.getElem?_eq_none (by simp; omega)]

/-- **C64** For at most as many functions as nodes, and a grid that is not so fine that a weight falls below the threshold: the
result is a list of well-formed expansions on the grid that are orthonormal for the library's inner product of linear elements
(which is the trapezoid rule, see C57). -/
theorem orthBasis_value_partial {tol : ℝ} (ht : 0 ≤ tol) {thr : Option ℝ} {n : Nat} (h : (LE.mk num nodes nodes).WF) (hn : n ≤ num)
    (hthr : ∀ t, thr = some t → ∀ i < n, t < Real.sqrt (wt num nodes i)) :
    ∃ fs, orthBasis tol thr n num nodes = .ok fs ∧ fs.length = n ∧ (∀ f ∈ fs, f.WF ∧ f.nodes = nodes) ∧
      ∀ i j (hi : i < fs.length) (hj : j < fs.length), inner tol fs[i] fs[j] = .ok (if i = j then 1 else 0) := by
  let st : Nat → Nat → LE ℝ := fun m k => ev num nodes k (if k < m then 1 / Real.sqrt (wt num nodes k) else 1)
  obtain ⟨fs, h1, h2⟩ := forN_spec (n := n) (s := (List.range n).map (orthInit num nodes)) (body := orthStep tol thr n)
    (I := fun m fs => fs = (List.range n).map (st m)) (by
      apply List.map_congr_left
      intro k hk
      rw [orthInit_ev (by rw [List.mem_range] at hk; omega)]
      show _ = ev num nodes k (if k < 0 then _ else 1)
      rw [if_neg (by omega)]) (by
    intro m hm fs hfs
    subst hfs
    have hW := wt_pos h (show m < num by omega)
    have hsq := Real.sqrt_pos.2 hW
    have rdk : ∀ q k, k < n → rd ((List.range n).map (st q)) k = .ok (st q k) := by
      intro q k hk
      rw [rd_of_getElem?]; simp [hk]
    have stm : st m m = ev num nodes m 1 := by show ev _ _ _ _ = _; rw [if_neg (by omega)]
    have hset : ((List.range n).map (st m)).set m (ev num nodes m (1 / Real.sqrt (wt num nodes m))) = (List.range n).map (st (m + 1)) := by
      apply List.ext_getElem?
      intro k
      by_cases hk : k < n
      · by_cases e : k = m
        · subst e
          rw [List.getElem?_set_self (by simpa using hk)]
          simp [hk, st]
        · rw [List.getElem?_set_ne (by omega)]
          have : (k < m) = (k < m + 1) := by simp; omega
          simp only [List.getElem?_map, List.getElem?_range hk, Option.map_some, st, this]
      · rw [List.getElem?_eq_none (by simp; omega), List.getElem?_eq_none (by simp; omega)]
    refine ⟨(List.range n).map (st (m + 1)), ?_, rfl⟩
    have hnorm : norm tol (ev num nodes m 1) = .ok (Real.sqrt (wt num nodes m)) := by
      rw [norm, inner_ev ht h, if_pos rfl, one_mul, one_mul, bind_ok, pure_eq_ok]
    have hthr' : thr.elim true (fun t => decide (Real.sqrt (wt num nodes m) > t)) = true := by
      cases hh : thr with
      | none => rfl
      | some t => exact decide_eq_true (hthr t hh m hm)
    rw [orthStep, rdk m m hm, bind_ok, stm, hnorm, bind_ok, if_pos hthr', dv, if_neg hsq.ne', bind_ok, scale_ev, bind_ok, one_mul,
      wr_ok _ (by simpa using hm), bind_ok, hset, orthSweep]
    obtain ⟨s, p1, p2⟩ := forR_spec (a := m + 1) (b := n) (s := (List.range n).map (st (m + 1))) (body := fun jj fs => do
        let fi ← rd fs m
        let fj ← rd fs jj
        let proj ← inner tol fi fj
        let h ← axpy tol (-proj) fi fj
        wr fs jj h) (I := fun _ fs => fs = (List.range n).map (st (m + 1))) (by omega) rfl (by
      intro j hj1 hj2 fs hfs
      subst hfs
      refine ⟨_, ?_, rfl⟩
      rw [rdk _ m hm, bind_ok, rdk _ j hj2, bind_ok]
      show (do
        let proj ← inner tol (ev num nodes m _) (ev num nodes j _)
        let h ← axpy tol (-proj) (ev num nodes m _) (ev num nodes j _)
        wr _ j h : C (List (LE ℝ))) = _
      rw [inner_ev ht h, if_neg (by omega), bind_ok, axpy_zero ht h, bind_ok, wr_ok _ (by simpa using hj2)]
      congr 1
      apply List.ext_getElem?
      intro k
      by_cases e : k = j
      · subst e; rw [List.getElem?_set_self (by simpa using hj2)]; simp [hj2, st]
      · rw [List.getElem?_set_ne (by omega)])
    rw [p1, p2])
  subst h2
  refine ⟨_, h1, by simp, ?_, ?_⟩
  · intro f hf
    obtain ⟨k, _, rfl⟩ := List.mem_map.1 hf
    exact ⟨ev_wf h _ _, rfl⟩
  · intro i j hi hj
    have hi' : i < n := by simpa using hi
    have hj' : j < n := by simpa using hj
    simp only [List.getElem_map, List.getElem_range]
    show inner tol (ev num nodes i (if i < n then _ else 1)) (ev num nodes j (if j < n then _ else 1)) = _
    rw [if_pos hi', if_pos hj', inner_ev ht h]
    by_cases e : i = j
    · subst e
      rw [if_pos rfl, if_pos rfl]
      have hW := wt_pos h (show i < num by omega)
      congr 1
      rw [div_mul_div_comm, one_mul, Real.mul_self_sqrt hW.le, one_div, inv_mul_cancel₀ hW.ne']
    · rw [if_neg e, if_neg e]

example := orthBasis_value_partial (tol := 0) le_rfl (thr := none) (n := 2) (WF.swap exWFR rfl : (LE.mk 3 [0, 1, 3] [0, 1, 3] : LE ℝ).WF)
  (by decide) (fun t h => by simp at h)

/-- **C64** More functions than nodes: the extra function is zero, so it is not normalised. -/
theorem orthBasis_counterexample {tol : ℝ} (ht : 0 ≤ tol) :
    ∃ fs f, orthBasis tol (some 0) 3 2 [0, 2] = .ok fs ∧ fs[2]? = some f ∧ inner tol f f = .ok 0 := by
  have hw : (LE.mk 2 [0, 2] [0, 2] : LE ℝ).WF := ⟨rfl, rfl, le_rfl, by
    intro i hi
    have : i = 0 := by dsimp at hi; omega
    subst this; norm_num [LE.nd]⟩
  have i0 : orthInit 2 [0, 2] 0 = ev 2 [0, 2] 0 1 := orthInit_ev (by omega)
  have i1 : orthInit 2 [0, 2] 1 = ev 2 [0, 2] 1 1 := orthInit_ev (by omega)
  have i2 : orthInit 2 [0, 2] 2 = ev 2 [0, 2] 2 1 := rfl
  have w0 : wt 2 [0, 2] 0 = 1 := by norm_num [wt]
  have w1 : wt 2 [0, 2] 1 = 1 := by norm_num [wt]
  have w2 : wt 2 [0, 2] 2 = 0 := by norm_num [wt]
  have n0 : norm tol (ev 2 [0, 2] 0 1) = .ok 1 := by
    rw [norm, inner_ev ht hw, if_pos rfl, bind_ok, w0]; norm_num
  have n1 : norm tol (ev 2 [0, 2] 1 1) = .ok 1 := by
    rw [norm, inner_ev ht hw, if_pos rfl, bind_ok, w1]; norm_num
  have n2 : norm tol (ev 2 [0, 2] 2 1) = .ok 0 := by
    rw [norm, inner_ev ht hw, if_pos rfl, bind_ok, w2]; norm_num
  refine ⟨[ev 2 [0, 2] 0 1, ev 2 [0, 2] 1 1, ev 2 [0, 2] 2 1], ev 2 [0, 2] 2 1, ?_, rfl, by
    rw [inner_ev ht hw, if_pos rfl, w2, mul_zero]⟩
  have init : (List.range 3).map (orthInit 2 [0, 2]) = [ev 2 [0, 2] 0 1, ev 2 [0, 2] 1 1, ev 2 [0, 2] 2 1] := by
    rw [← i0, ← i1, ← i2]; rfl
  have sweep : ∀ ii < 3, orthSweep tol 3 ii [ev 2 [0, 2] 0 1, ev 2 [0, 2] 1 1, ev 2 [0, 2] 2 1] =
      .ok [ev 2 [0, 2] 0 1, ev 2 [0, 2] 1 1, ev 2 [0, 2] 2 1] := by
    intro ii hii
    obtain ⟨s, p1, p2⟩ := forR_spec (a := ii + 1) (b := 3) (s := [ev 2 [0, 2] 0 1, ev 2 [0, 2] 1 1, ev 2 [0, 2] 2 1])
      (body := fun jj fs => do
        let fi ← rd fs ii
        let fj ← rd fs jj
        let proj ← inner tol fi fj
        let h ← axpy tol (-proj) fi fj
        wr fs jj h) (I := fun _ fs => fs = [ev 2 [0, 2] 0 1, ev 2 [0, 2] 1 1, ev 2 [0, 2] 2 1]) (by omega) rfl (by
      intro j hj1 hj2 fs hfs
      subst hfs
      refine ⟨_, ?_, rfl⟩
      have rdk : ∀ k < 3, rd [ev 2 [0, 2] 0 1, ev 2 [0, 2] 1 1, ev 2 [0, 2] 2 1] k = .ok (ev 2 [0, 2] k 1) := by
        intro k hk
        have : k = 0 ∨ k = 1 ∨ k = 2 := by omega
        rcases this with rfl | rfl | rfl <;> rfl
      rw [rdk ii hii, bind_ok, rdk j hj2, bind_ok, inner_ev ht hw, if_neg (by omega), bind_ok, axpy_zero ht hw, bind_ok]
      have : j = 0 ∨ j = 1 ∨ j = 2 := by omega
      rcases this with rfl | rfl | rfl <;> rfl)
    rw [orthSweep, p1, p2]
  have step : ∀ ii < 2, orthStep tol (some 0) 3 ii [ev 2 [0, 2] 0 1, ev 2 [0, 2] 1 1, ev 2 [0, 2] 2 1] =
      .ok [ev 2 [0, 2] 0 1, ev 2 [0, 2] 1 1, ev 2 [0, 2] 2 1] := by
    intro ii hii
    have : ii = 0 ∨ ii = 1 := by omega
    rcases this with rfl | rfl
    · rw [orthStep, show rd [ev 2 [0, 2] 0 1, ev 2 [0, 2] 1 1, ev 2 [0, 2] 2 1] 0 = .ok (ev 2 [0, 2] 0 1) from rfl, bind_ok, n0, bind_ok,
        if_pos (by simp), dv, if_neg one_ne_zero, bind_ok, scale_ev, bind_ok]
      norm_num
      exact sweep 0 (by omega)
    · rw [orthStep, show rd [ev 2 [0, 2] 0 1, ev 2 [0, 2] 1 1, ev 2 [0, 2] 2 1] 1 = .ok (ev 2 [0, 2] 1 1) from rfl, bind_ok, n1, bind_ok,
        if_pos (by simp), dv, if_neg one_ne_zero, bind_ok, scale_ev, bind_ok]
      norm_num
      exact sweep 1 (by omega)
  rw [orthBasis, init, forN_succ, forN_succ, forN_succ]
  show Except.bind (Except.bind (Except.bind (.ok _) _) _) _ = _
  rw [ebind_ok, step 0 (by omega), ebind_ok, step 1 (by omega), ebind_ok, orthStep,
    show rd [ev 2 [0, 2] 0 1, ev 2 [0, 2] 1 1, ev 2 [0, 2] 2 1] 2 = .ok (ev 2 [0, 2] 2 1) from rfl, bind_ok, n2, bind_ok, if_neg (by simp)]
  rfl

end C3.Lin
