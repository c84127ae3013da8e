/-
C100: the objective of the regression and its gradient.
-/
import Verif.Sl.ObjModel
import Verif.Core.Buf
import Mathlib.Analysis.Calculus.Deriv.Add
import Mathlib.Analysis.Calculus.Deriv.Mul
import Mathlib.Analysis.Calculus.Deriv.Pow
import Mathlib.Tactic.FieldSimp
import Mathlib.Tactic.Ring
import Mathlib.Tactic.NormNum

set_option linter.unusedSectionVars false

namespace C3.Sl

/-! ### Specification -/

/-- Index of the datum `ii` of a batch. -/
def ixv : Option (List Nat) → Nat → Nat
  | none, ii => ii
  | some l, ii => l.getD ii 0

/-- Weight of datum `k`. -/
def wv {K : Type} [Field K] : Option (List K) → Nat → K
  | none, _ => 1
  | some w, k => w.getD k 0

/-- Weighted mean square error of the predictions `f` over a batch. -/
def mse {K : Type} [Field K] (y : List K) (w : Option (List K)) (N : Nat) (ind : Option (List Nat))
    (f : Nat → K) : K :=
  (∑ ii ∈ Finset.range N, wv w (ixv ind ii) * (y.getD (ixv ind ii) 0 - f (ixv ind ii)) ^ 2) / N

/-- The batch indices are valid for the data and the weights. -/
def BatchOk {K : Type} (y : List K) (w : Option (List K)) (N : Nat) (ind : Option (List Nat)) :
    Prop :=
  ∀ ii, ii < N → (∀ l, ind = some l → ii < l.length) ∧ ixv ind ii < y.length ∧
    ∀ l, w = some l → ixv ind ii < l.length

section Value

variable {K S U : Type} [Field K] [DecidableEq K]

/-- The mapping produces the predictions `f` and the gradients `df` and leaves the state `upd`. -/
structure MapOk (nparam : Nat) (M : Mapping K S) (N : Nat) (ind : Option (List Nat)) (param : List K)
    (s : S) (f : Nat → K) (df : Nat → Nat → K) (upd : S) : Prop where
  vals : ∃ ev, M.vals param N ind s = .ok (ev, upd) ∧
    ∀ ii, ii < N → ev[ii]? = some (f (ixv ind ii))
  valsGrads : ∃ ev gr, M.valsGrads param N ind s = .ok (ev, gr, upd) ∧
    (∀ ii, ii < N → ev[ii]? = some (f (ixv ind ii))) ∧
    ∀ ii, ii < N → ∀ jj, jj < nparam → gr[ii * nparam + jj]? = some (df (ixv ind ii) jj)

theorem objAdd_eq (l : ObjList K S) (w : K) (f : ObjFn K S) : objAdd l w f = l ++ [(w, f)] := by
  induction l with
  | nil => rfl
  | cons o t ih => rw [objAdd, ih]; rfl

omit [Field K] [DecidableEq K] in
theorem ix_ok {y : List K} {w : Option (List K)} {N : Nat} {ind : Option (List Nat)}
    (h : BatchOk y w N ind) {ii : Nat} (hi : ii < N) : ix ind ii = .ok (ixv ind ii) := by
  cases ind with
  | none => rfl
  | some l => exact rd_getD 0 ((h ii hi).1 l rfl)

theorem sw_ok {y : List K} {w : Option (List K)} {N : Nat} {ind : Option (List Nat)}
    (h : BatchOk y w N ind) {ii : Nat} (hi : ii < N) (v : K) :
    sw w (ixv ind ii) v = .ok (wv w (ixv ind ii) * v) := by
  cases w with
  | none => simp [sw, wv]
  | some l =>
    rw [sw, rd_getD 0 ((h ii hi).2.2 l rfl), bind_ok, mul_comm]
    rfl

theorem lsStep_ok {y : List K} {w : Option (List K)} {N : Nat} {ind : Option (List Nat)}
    (h : BatchOk y w N ind) {f : Nat → K} {ev : List K} {ii : Nat} (hi : ii < N)
    (hev : ev[ii]? = some (f (ixv ind ii))) (out : K) :
    lsStep y w ind ev ii out
      = .ok (out + wv w (ixv ind ii) * (y.getD (ixv ind ii) 0 - f (ixv ind ii)) ^ 2) := by
  rw [lsStep, ix_ok h hi, bind_ok, rd_getD 0 (h ii hi).2.1, bind_ok, rd_of_getElem? hev, bind_ok,
    sw_ok h hi, bind_ok, pow_two]

theorem lsStepGrad_ok {nparam : Nat} {y : List K} {w : Option (List K)} {N : Nat}
    {ind : Option (List Nat)} (h : BatchOk y w N ind) {f : Nat → K} {df : Nat → Nat → K}
    {ev gr : List K} {ii : Nat} (hi : ii < N) (hev : ev[ii]? = some (f (ixv ind ii)))
    (hgr : ∀ jj, jj < nparam → gr[ii * nparam + jj]? = some (df (ixv ind ii) jj)) (out : K)
    (g0 : Nat → K) :
    lsStepGrad nparam y w ind ev gr ii (out, (List.range nparam).map g0)
      = .ok (out + wv w (ixv ind ii) * (y.getD (ixv ind ii) 0 - f (ixv ind ii)) ^ 2,
        (List.range nparam).map (fun jj => g0 jj - wv w (ixv ind ii)
          * (2 * (y.getD (ixv ind ii) 0 - f (ixv ind ii)) * df (ixv ind ii) jj))) := by
  rw [lsStepGrad, ix_ok h hi, bind_ok, rd_getD 0 (h ii hi).2.1, bind_ok, rd_of_getElem? hev, bind_ok,
    sw_ok h hi, bind_ok]
  set k := ixv ind ii with hk
  have := forN_traj (n := nparam) (fun n => (List.range nparam).map (fun jj =>
      if jj < n then g0 jj - wv w k * (2 * (y.getD k 0 - f k) * df k jj) else g0 jj))
    (body := fun jj b => do
      let a ← rd gr (ii * nparam + jj)
      let t ← sw w k (2 * (y.getD k 0 - f k) * a)
      let o ← rd b jj
      wr b jj (o - t)) (by
      intro jj hjj
      rw [rd_of_getElem? (hgr jj hjj), bind_ok, hk, sw_ok h hi, bind_ok, ← hk,
        rd_ok (by simpa using hjj), bind_ok, wr_ok _ (by simpa using hjj)]
      congr 1
      refine List.ext_getElem (by simp) (fun m h1 h2 => ?_)
      have hm : m < nparam := by simpa using h2
      rw [List.getElem_set]
      simp only [List.getElem_map, List.getElem_range]
      by_cases hmj : jj = m
      · subst hmj; simp
      · rw [if_neg hmj]
        by_cases hlt : m < jj
        · rw [if_pos hlt, if_pos (by omega)]
        · rw [if_neg hlt, if_neg (by omega)])
  have h0 : (List.range nparam).map (fun jj => if jj < 0 then
      g0 jj - wv w k * (2 * (y.getD k 0 - f k) * df k jj) else g0 jj)
      = (List.range nparam).map g0 := by simp
  have h1 : (List.range nparam).map (fun jj => if jj < nparam then
      g0 jj - wv w k * (2 * (y.getD k 0 - f k) * df k jj) else g0 jj)
      = (List.range nparam).map
        (fun jj => g0 jj - wv w k * (2 * (y.getD k 0 - f k) * df k jj)) := by
    refine List.map_congr_left (fun m hm => ?_)
    rw [if_pos (List.mem_range.1 hm)]
  rw [h0, h1] at this
  dsimp only
  rw [this, bind_ok, pow_two]

/-- Value of the least squares function without gradient. -/
theorem lsObj_none {nparam : Nat} {M : Mapping K S} {y : List K} {w : Option (List K)} {N : Nat}
    {ind : Option (List Nat)} {param : List K} {s upd : S} {f : Nat → K} {df : Nat → Nat → K}
    (hN : (N : K) ≠ 0) (h : BatchOk y w N ind) (hM : MapOk nparam M N ind param s f df upd) :
    lsObj nparam M y w param none N ind s = .ok (mse y w N ind f, none, upd) := by
  obtain ⟨ev, hv, hev⟩ := hM.vals
  have hs := forN_sum (n := N) (s0 := (0 : K)) (body := lsStep y w ind ev)
    (fun ii => wv w (ixv ind ii) * (y.getD (ixv ind ii) 0 - f (ixv ind ii)) ^ 2)
    (fun ii hi out => lsStep_ok h hi (hev ii hi) out)
  rw [zero_add] at hs
  unfold lsObj
  dsimp only
  rw [hv, bind_ok]
  dsimp only
  rw [hs, bind_ok, fdiv, if_neg hN, bind_ok, mse]

/-- Value and gradient of the least squares function: what is in the gradient buffer is divided by
the number of data together with the new contribution. -/
theorem lsObj_some_actual {nparam : Nat} {M : Mapping K S} {y : List K} {w : Option (List K)}
    {N : Nat} {ind : Option (List Nat)} {param : List K} {s upd : S} {f : Nat → K}
    {df : Nat → Nat → K} (hN : (N : K) ≠ 0) (h : BatchOk y w N ind)
    (hM : MapOk nparam M N ind param s f df upd) (g0 : Nat → K) :
    lsObj nparam M y w param (some ((List.range nparam).map g0)) N ind s
      = .ok (mse y w N ind f, some ((List.range nparam).map (fun jj =>
          (g0 jj - ∑ ii ∈ Finset.range N, wv w (ixv ind ii)
            * (2 * (y.getD (ixv ind ii) 0 - f (ixv ind ii)) * df (ixv ind ii) jj)) / N)), upd) := by
  obtain ⟨ev, gr, hv, hev, hgr⟩ := hM.valsGrads
  have hs := forN_traj (n := N) (fun n =>
      ((∑ ii ∈ Finset.range n, wv w (ixv ind ii) * (y.getD (ixv ind ii) 0 - f (ixv ind ii)) ^ 2,
        (List.range nparam).map (fun jj => g0 jj - ∑ ii ∈ Finset.range n, wv w (ixv ind ii)
            * (2 * (y.getD (ixv ind ii) 0 - f (ixv ind ii)) * df (ixv ind ii) jj))) :
          K × List K))
    (body := lsStepGrad nparam y w ind ev gr) (by
      intro ii hi
      rw [lsStepGrad_ok h hi (hev ii hi) (hgr ii hi)]
      simp only [Finset.sum_range_succ]
      congr 3
      refine funext (fun jj => ?_)
      ring)
  simp only [Finset.range_zero, Finset.sum_empty, sub_zero] at hs
  set G : Nat → K := fun jj => g0 jj - ∑ ii ∈ Finset.range N, wv w (ixv ind ii)
      * (2 * (y.getD (ixv ind ii) 0 - f (ixv ind ii)) * df (ixv ind ii) jj) with hG
  have hd := forN_traj (n := nparam) (fun n => (List.range nparam).map (fun jj =>
      if jj < n then G jj / N else G jj))
    (body := fun jj b => do
      let o ← rd b jj
      let v ← fdiv o (N : K)
      wr b jj v) (by
      intro jj hjj
      rw [rd_ok (by simpa using hjj), bind_ok, fdiv, if_neg hN, bind_ok,
        wr_ok _ (by simpa using hjj)]
      congr 1
      refine List.ext_getElem (by simp) (fun m h1 h2 => ?_)
      rw [List.getElem_set]
      simp only [List.getElem_map, List.getElem_range]
      by_cases hmj : jj = m
      · subst hmj; simp
      · rw [if_neg hmj]
        by_cases hlt : m < jj
        · rw [if_pos hlt, if_pos (by omega)]
        · rw [if_neg hlt, if_neg (by omega)])
  have h0 : (List.range nparam).map (fun jj => if jj < 0 then G jj / N else G jj)
      = (List.range nparam).map G := by simp
  have h1 : (List.range nparam).map (fun jj => if jj < nparam then G jj / N else G jj)
      = (List.range nparam).map (fun jj => G jj / N) := by
    refine List.map_congr_left (fun m hm => ?_)
    rw [if_pos (List.mem_range.1 hm)]
  rw [h0, h1] at hd
  unfold lsObj
  dsimp only
  rw [hv, bind_ok]
  dsimp only
  rw [hs, bind_ok]
  dsimp only
  rw [hd, bind_ok, fdiv, if_neg hN, bind_ok, mse]

/-- Without data the division is by zero. -/
theorem lsObj_no_data_actual {nparam : Nat} {M : Mapping K S} {y : List K} {w : Option (List K)}
    {ind : Option (List Nat)} {param : List K} {s upd : S} {ev : List K}
    (hM : M.vals param 0 ind s = .ok (ev, upd)) :
    lsObj nparam M y w param none 0 ind s = .error .ub := by
  unfold lsObj
  dsimp only
  rw [hM, bind_ok, forN_zero, bind_ok, fdiv, if_pos (by simp)]
  rfl

/-! ### Regulariser -/

theorem addAt_ok (scale : K) (d : List K) (off : Nat) (g : List K) (h : off + d.length ≤ g.length) :
    ∃ g', addAt scale d off g = .ok g' ∧ g'.length = g.length ∧
      ∀ j, g'.getD j 0 = g.getD j 0 + (if off ≤ j ∧ j < off + d.length then
        scale * d.getD (j - off) 0 else 0) := by
  obtain ⟨g', hg, h1, h2⟩ := forN_spec
    (I := fun n (b : List K) => b.length = g.length ∧
      ∀ j, b.getD j 0 = g.getD j 0 + (if off ≤ j ∧ j < off + n then
        scale * d.getD (j - off) 0 else 0)) (n := d.length) (s := g)
    (body := fun l b => do
      let a ← rd d l
      let o ← rd b (off + l)
      wr b (off + l) (o + scale * a))
    ⟨rfl, fun j => by rw [if_neg (by omega), add_zero]⟩ (by
      intro l hl b ⟨b1, b2⟩
      refine ⟨b.set (off + l) (b.getD (off + l) 0 + scale * d.getD l 0), by
        rw [rd_getD 0 hl, bind_ok, rd_getD 0 (show off + l < b.length by omega), bind_ok,
          wr_ok _ (show off + l < b.length by omega)], by simp [b1], ?_⟩
      intro j
      by_cases hj : j = off + l
      · subst hj
        rw [List.getD_eq_getElem?_getD, List.getElem?_set_self (by omega), Option.getD_some, b2,
          if_neg (by omega), add_zero, if_pos (by omega), show off + l - off = l by omega]
      · rw [List.getD_eq_getElem?_getD, List.getElem?_set_ne (by omega),
          ← List.getD_eq_getElem?_getD, b2]
        by_cases hc : off ≤ j ∧ j < off + l
        · rw [if_pos hc, if_pos (by omega)]
        · rw [if_neg hc, if_neg (by omega)])
  exact ⟨g', hg, h1, h2⟩

omit [DecidableEq K] in
theorem getD_app_left (a b : List K) (i : Nat) (h : i < a.length) :
    (a ++ b).getD i 0 = a.getD i 0 := by
  rw [List.getD_eq_getElem?_getD, List.getElem?_append_left h, ← List.getD_eq_getElem?_getD]

omit [DecidableEq K] in
theorem getD_app_right (a b : List K) (i : Nat) (h : a.length ≤ i) :
    (a ++ b).getD i 0 = b.getD (i - a.length) 0 := by
  rw [List.getD_eq_getElem?_getD, List.getElem?_append_right h, ← List.getD_eq_getElem?_getD]

/-- The derivatives of all functions one after the other. -/
def dAll (N : SqN K U) (l : List U) : List K := (l.map N.dsq).flatten

omit [Field K] [DecidableEq K] in
theorem coreNp_eq (N : SqN K U) (l : List U) : coreNp N l = (dAll N l).length := by
  simp [coreNp, dAll, List.length_flatten]
  rfl

theorem coreSq_none (N : SqN K U) (scale : K) (l : List U) (out : K) (run : Nat) :
    coreSq N scale l out run none = .ok (out + scale * (l.map N.sq).sum, none) := by
  induction l generalizing out with
  | nil => simp [coreSq]
  | cons u t ih => rw [coreSq, ih]; simp [mul_add, add_assoc]

theorem coreSq_some (N : SqN K U) (scale : K) (l : List U) (out : K) (run : Nat) (g : List K)
    (h : run + (dAll N l).length ≤ g.length) :
    ∃ g', coreSq N scale l out run (some g) = .ok (out + scale * (l.map N.sq).sum, some g') ∧
      g'.length = g.length ∧
      ∀ j, g'.getD j 0 = g.getD j 0 + (if run ≤ j ∧ j < run + (dAll N l).length then
        scale * (dAll N l).getD (j - run) 0 else 0) := by
  induction l generalizing out run g with
  | nil => exact ⟨g, by simp [coreSq], rfl, fun j => by simp [dAll]⟩
  | cons u t ih =>
    have hl : (dAll N (u :: t)).length = (N.dsq u).length + (dAll N t).length := by simp [dAll]
    obtain ⟨g1, h1, h1l, h1v⟩ := addAt_ok scale (N.dsq u) run g (by omega)
    obtain ⟨g2, h2, h2l, h2v⟩ := ih (out + scale * N.sq u) (run + (N.dsq u).length) g1 (by omega)
    refine ⟨g2, by rw [coreSq, h1, bind_ok, h2]; simp [mul_add, add_assoc], by omega, fun j => ?_⟩
    rw [h2v, h1v]
    have hcat : dAll N (u :: t) = N.dsq u ++ dAll N t := by simp [dAll]
    by_cases c1 : run ≤ j ∧ j < run + (N.dsq u).length
    · rw [if_pos c1, if_neg (by omega), if_pos (by omega), add_zero, hcat,
        getD_app_left _ _ _ (by omega)]
    · rw [if_neg c1, add_zero]
      by_cases c2 : run + (N.dsq u).length ≤ j ∧ j < run + (N.dsq u).length + (dAll N t).length
      · rw [if_pos c2, if_pos (by omega), hcat, getD_app_right _ _ _ (by omega),
          show j - run - (N.dsq u).length = j - (run + (N.dsq u).length) by omega]
      · rw [if_neg c2, if_neg (by omega)]

theorem ftSq_none (N : SqN K U) (weights : List K) (c : K) (cores : List (List U)) (ii : Nat)
    (hw : ∀ k, ii ≤ k → k < ii + cores.length → weights[k]? = some c) (out : K) (run : Nat) :
    ftSq N weights cores ii out run none
      = .ok (out + c * (cores.flatten.map N.sq).sum, none) := by
  induction cores generalizing ii out run with
  | nil => simp [ftSq]
  | cons l t ih =>
    rw [ftSq, rd_of_getElem? (hw ii (Nat.le_refl ii) (by simp)), bind_ok, coreSq_none, bind_ok,
      ih (ii + 1) (fun k h1 h2 => hw k (by omega) (by simp; omega))]
    simp [mul_add, add_assoc]

theorem ftSq_some (N : SqN K U) (weights : List K) (c : K) (cores : List (List U)) (ii : Nat)
    (hw : ∀ k, ii ≤ k → k < ii + cores.length → weights[k]? = some c) (out : K) (run : Nat)
    (g : List K) (h : run + (dAll N cores.flatten).length ≤ g.length) :
    ∃ g', ftSq N weights cores ii out run (some g)
        = .ok (out + c * (cores.flatten.map N.sq).sum, some g') ∧
      g'.length = g.length ∧
      ∀ j, g'.getD j 0 = g.getD j 0 + (if run ≤ j ∧ j < run + (dAll N cores.flatten).length then
        c * (dAll N cores.flatten).getD (j - run) 0 else 0) := by
  induction cores generalizing ii out run g with
  | nil => exact ⟨g, by simp [ftSq], rfl, fun j => by simp [dAll]⟩
  | cons l t ih =>
    have hcat : dAll N (l :: t).flatten = dAll N l ++ dAll N t.flatten := by simp [dAll]
    have hl : (dAll N (l :: t).flatten).length = (dAll N l).length + (dAll N t.flatten).length := by
      rw [hcat, List.length_append]
    obtain ⟨g1, h1, h1l, h1v⟩ := coreSq_some N c l 0 run g (by omega)
    obtain ⟨g2, h2, h2l, h2v⟩ := ih (ii + 1) (fun k h1 h2 => hw k (by omega) (by simp; omega))
      (out + (0 + c * (l.map N.sq).sum)) (run + (dAll N l).length) g1 (by omega)
    refine ⟨g2, ?_, by omega, fun j => ?_⟩
    · rw [ftSq, rd_of_getElem? (hw ii (Nat.le_refl ii) (by simp)), bind_ok, h1, bind_ok,
        coreNp_eq]
      dsimp only
      rw [h2]
      simp [mul_add, add_assoc]
    · rw [h2v, h1v]
      by_cases c1 : run ≤ j ∧ j < run + (dAll N l).length
      · rw [if_pos c1, if_neg (by omega), if_pos (by omega), add_zero, hcat,
          getD_app_left _ _ _ (by omega)]
      · rw [if_neg c1, add_zero]
        by_cases c2 : run + (dAll N l).length ≤ j
            ∧ j < run + (dAll N l).length + (dAll N t.flatten).length
        · rw [if_pos c2, if_pos (by omega), hcat, getD_app_right _ _ _ (by omega),
            show j - run - (dAll N l).length = j - (run + (dAll N l).length) by omega]
        · rw [if_neg c2, if_neg (by omega)]

/-- The regulariser without gradient: half the weight times the sum of the squared norms of the
univariate functions of the current train. -/
theorem regObj_none (N : SqN K U) (cores : S → List (List U)) (lam : K) (param : List K) (n : Nat)
    (ind : Option (List Nat)) (s : S) :
    regObj N cores lam param none n ind s
      = .ok (1 / 2 * lam * ((cores s).flatten.map N.sq).sum, none, s) := by
  unfold regObj
  rw [ftSq_none N _ (1 / 2 * lam) (cores s) 0 (fun k _ hk => by
    rw [List.getElem?_replicate, if_pos (by omega)]), bind_ok, zero_add]

/-- The regulariser adds its gradient to the buffer. -/
theorem regObj_some (N : SqN K U) (cores : S → List (List U)) (lam : K) (param : List K) (n : Nat)
    (ind : Option (List Nat)) (s : S) (np : Nat) (g0 : Nat → K)
    (hnp : (dAll N (cores s).flatten).length = np) :
    regObj N cores lam param (some ((List.range np).map g0)) n ind s
      = .ok (1 / 2 * lam * ((cores s).flatten.map N.sq).sum,
        some ((List.range np).map (fun j => g0 j
          + 1 / 2 * lam * (dAll N (cores s).flatten).getD j 0)), s) := by
  obtain ⟨g', h1, h2, h3⟩ := ftSq_some N (List.replicate (cores s).length (1 / 2 * lam))
    (1 / 2 * lam) (cores s) 0 (fun k _ hk => by
    rw [List.getElem?_replicate, if_pos (by omega)]) 0 0 ((List.range np).map g0) (by simp [hnp])
  unfold regObj
  rw [h1, bind_ok, zero_add]
  dsimp only
  congr 3
  congr 1
  refine List.ext_getElem (by rw [h2]; simp) (fun j hj1 hj2 => ?_)
  have hj : j < np := by simpa using hj2
  have := h3 j
  rw [if_pos (by omega), Nat.sub_zero] at this
  rw [List.getD_eq_getElem?_getD, List.getElem?_eq_getElem hj1, Option.getD_some] at this
  rw [this]
  simp [hj]

theorem objLoop_cons (param : List K) (N : Nat) (ind : Option (List Nat)) (c : K) (o : ObjFn K S)
    (t : ObjList K S) (out : K) (g : Option (List K)) (s : S) :
    objLoop param N ind ((c, o) :: t) out g s = (do
      let q ← o param g N ind s
      objLoop param N ind t (out + c * q.1) q.2.1 q.2.2) := rfl

theorem objClear_some (np : Nat) (g : List K) (h : g.length = np) :
    objClear np (some g) = .ok (some ((List.range np).map (fun _ => (0 : K)))) := by
  rw [objClear, forN_fill_all (fun _ => (0 : K)) h (fun _ _ _ _ => rfl), bind_ok]

end Value

/-! ### The objective of the regression -/

/-- The two objectives of the regression as functions of the predictions and of the sum of squared
norms. -/
noncomputable def J (y : List ℝ) (w : Option (List ℝ)) (N : Nat) (ind : Option (List Nat)) (lam : ℝ)
    (f : List ℝ → Nat → ℝ) (R : List ℝ → ℝ) (p : List ℝ) : ℝ :=
  mse y w N ind (f p) + 1 / 2 * lam * R p

/-- The mean square error is differentiated termwise. -/
theorem mse_hasDerivAt {y : List ℝ} {w : Option (List ℝ)} {N : Nat} {ind : Option (List Nat)}
    {F : ℝ → Nat → ℝ} {d : Nat → ℝ} {t : ℝ}
    (h : ∀ ii, ii < N → HasDerivAt (fun x => F x (ixv ind ii)) (d (ixv ind ii)) t) :
    HasDerivAt (fun x => mse y w N ind (F x))
      ((0 - ∑ ii ∈ Finset.range N, wv w (ixv ind ii)
        * (2 * (y.getD (ixv ind ii) 0 - F t (ixv ind ii)) * d (ixv ind ii))) / N) t := by
  have h1 : HasDerivAt (fun x => ∑ ii ∈ Finset.range N, wv w (ixv ind ii)
      * (y.getD (ixv ind ii) 0 - F x (ixv ind ii)) ^ 2)
      (∑ ii ∈ Finset.range N, wv w (ixv ind ii)
        * (2 * (y.getD (ixv ind ii) 0 - F t (ixv ind ii)) * (- d (ixv ind ii)))) t := by
    refine HasDerivAt.fun_sum (fun ii hi => ?_)
    have h2 := ((h ii (Finset.mem_range.1 hi)).const_sub (y.getD (ixv ind ii) 0)).pow 2
    have h3 := h2.const_mul (wv w (ixv ind ii))
    exact h3.congr_deriv (by push_cast; ring)
  have h2 := h1.div_const (N : ℝ)
  unfold mse
  refine h2.congr_deriv ?_
  congr 1
  rw [zero_sub, ← Finset.sum_neg_distrib]
  exact Finset.sum_congr rfl (fun ii _ => by ring)

variable {S U : Type}

/-- Data of a least squares problem with parameters `param`: the mapping reports the predictions
`f param` with gradients `df param` and sets the state to `upd param`. -/
structure LsProblem (nparam : Nat) (M : Mapping ℝ S) (y : List ℝ) (w : Option (List ℝ))
    (f : List ℝ → Nat → ℝ) (df : List ℝ → Nat → Nat → ℝ) (upd : List ℝ → S) (N : Nat)
    (ind : Option (List Nat)) (param : List ℝ) (s : S) : Prop where
  pos : 0 < N
  batch : BatchOk y w N ind
  map : MapOk nparam M N ind param s (f param) (df param) (upd param)
  deriv : ∀ ii, ii < N → ∀ j, j < nparam →
    HasDerivAt (fun t => f (param.set j t) (ixv ind ii)) (df param (ixv ind ii) j) (param.getD j 0)

/-- In addition the regulariser reports the derivatives of the sum of squared norms of the train in
the new state. -/
structure Problem (nparam : Nat) (M : Mapping ℝ S) (Q : SqN ℝ U) (cores : S → List (List U))
    (y : List ℝ) (w : Option (List ℝ)) (f : List ℝ → Nat → ℝ) (df : List ℝ → Nat → Nat → ℝ)
    (upd : List ℝ → S) (R : List ℝ → ℝ) (N : Nat) (ind : Option (List Nat)) (param : List ℝ)
    (s : S) : Prop extends LsProblem nparam M y w f df upd N ind param s where
  norm : ((cores (upd param)).flatten.map Q.sq).sum = R param
  dlen : (dAll Q (cores (upd param)).flatten).length = nparam
  dnorm : ∀ j, j < nparam → HasDerivAt (fun t => R (param.set j t))
    ((dAll Q (cores (upd param)).flatten).getD j 0) (param.getD j 0)

theorem set_self_getD (p : List ℝ) (j : Nat) : p.set j (p.getD j 0) = p := by
  by_cases h : j < p.length
  · simp [h]
  · rw [List.set_eq_of_length_le (by omega)]

/-- Least squares with regularisation: value, gradient (every entry is the partial derivative of the
value) and state, for every batch, with and without sample weights, whatever the buffer contained. -/
theorem objective_reg {nparam : Nat} {M : Mapping ℝ S} {Q : SqN ℝ U} {cores : S → List (List U)}
    {y : List ℝ} {w : Option (List ℝ)} {f : List ℝ → Nat → ℝ} {df : List ℝ → Nat → Nat → ℝ}
    {upd : List ℝ → S} {R : List ℝ → ℝ} {N : Nat} {ind : Option (List Nat)} {param : List ℝ} {s : S}
    (lam : ℝ) (h : Problem nparam M Q cores y w f df upd R N ind param s) (buf : List ℝ)
    (hb : buf.length = nparam) :
    objEval (buildLSReg (lsObj nparam M y w) (regObj Q cores lam)) nparam param none N ind s
      = .ok (J y w N ind lam f R param, none, upd param) ∧
    ∃ g, objEval (buildLSReg (lsObj nparam M y w) (regObj Q cores lam)) nparam param (some buf) N
        ind s = .ok (J y w N ind lam f R param, some g, upd param) ∧ g.length = nparam ∧
      ∀ j, j < nparam →
        HasDerivAt (fun t => J y w N ind lam f R (param.set j t)) (g.getD j 0) (param.getD j 0) := by
  have hN : (N : ℝ) ≠ 0 := Nat.cast_ne_zero.2 (by have := h.pos; omega)
  have hl : buildLSReg (lsObj nparam M y w) (regObj Q cores lam)
      = [((1 : ℝ), lsObj nparam M y w), (1, regObj Q cores lam)] := rfl
  refine ⟨?_, (List.range nparam).map (fun j =>
      (0 - ∑ ii ∈ Finset.range N, wv w (ixv ind ii)
        * (2 * (y.getD (ixv ind ii) 0 - f param (ixv ind ii)) * df param (ixv ind ii) j)) / N
      + 1 / 2 * lam * (dAll Q (cores (upd param)).flatten).getD j 0), ?_, ?_, ?_⟩
  · rw [objEval, objClear, bind_ok, hl, objLoop_cons, lsObj_none hN h.batch h.map, bind_ok, objLoop_cons]
    dsimp only
    rw [regObj_none, bind_ok, objLoop, J, h.norm, zero_add, one_mul, one_mul]
  · rw [objEval, objClear_some nparam buf hb, bind_ok, hl, objLoop_cons,
      lsObj_some_actual hN h.batch h.map (fun _ => 0), bind_ok, objLoop_cons]
    dsimp only
    rw [regObj_some Q cores lam param N ind (upd param) nparam _ h.dlen, bind_ok, objLoop, J, h.norm,
      zero_add, one_mul, one_mul]
  · simp
  · intro j hj
    have h1 := mse_hasDerivAt (y := y) (w := w) (N := N) (ind := ind)
      (F := fun t => f (param.set j t)) (d := fun k => df param k j) (t := param.getD j 0)
      (fun ii hi => h.deriv ii hi j hj)
    have h2 := (h.dnorm j hj).const_mul (1 / 2 * lam)
    have h3 := h1.add h2
    simp only [set_self_getD] at h3
    unfold J
    exact h3.congr_deriv (by simp [hj])

/-- Plain least squares. -/
theorem objective_ls {nparam : Nat} {M : Mapping ℝ S}
    {y : List ℝ} {w : Option (List ℝ)} {f : List ℝ → Nat → ℝ} {df : List ℝ → Nat → Nat → ℝ}
    {upd : List ℝ → S} {N : Nat} {ind : Option (List Nat)} {param : List ℝ} {s : S}
    (h : LsProblem nparam M y w f df upd N ind param s) (buf : List ℝ)
    (hb : buf.length = nparam) :
    objEval (buildLS (lsObj nparam M y w)) nparam param none N ind s
      = .ok (mse y w N ind (f param), none, upd param) ∧
    ∃ g, objEval (buildLS (lsObj nparam M y w)) nparam param (some buf) N ind s
        = .ok (mse y w N ind (f param), some g, upd param) ∧ g.length = nparam ∧
      ∀ j, j < nparam →
        HasDerivAt (fun t => mse y w N ind (f (param.set j t))) (g.getD j 0) (param.getD j 0) := by
  have hN : (N : ℝ) ≠ 0 := Nat.cast_ne_zero.2 (by have := h.pos; omega)
  have hl : buildLS (lsObj nparam M y w) = [((1 : ℝ), lsObj nparam M y w)] := rfl
  refine ⟨?_, (List.range nparam).map (fun j =>
      (0 - ∑ ii ∈ Finset.range N, wv w (ixv ind ii)
        * (2 * (y.getD (ixv ind ii) 0 - f param (ixv ind ii)) * df param (ixv ind ii) j)) / N), ?_, ?_, ?_⟩
  · rw [objEval, objClear, bind_ok, hl, objLoop_cons, lsObj_none hN h.batch h.map, bind_ok, objLoop,
      zero_add, one_mul]
  · rw [objEval, objClear_some nparam buf hb, bind_ok, hl, objLoop_cons,
      lsObj_some_actual hN h.batch h.map (fun _ => 0), bind_ok, objLoop, zero_add, one_mul]
  · simp
  · intro j hj
    have h1 := mse_hasDerivAt (y := y) (w := w) (N := N) (ind := ind)
      (F := fun t => f (param.set j t)) (d := fun k => df param k j) (t := param.getD j 0)
      (fun ii hi => h.deriv ii hi j hj)
    simp only [set_self_getD] at h1
    exact h1.congr_deriv (by simp [hj])

/-- The stochastic objective is unbiased: the mean of the objectives of the single data is the
objective of all data. -/
theorem stoch_mean (y : List ℝ) (w : Option (List ℝ)) (N : Nat) (hN : 0 < N) (lam : ℝ)
    (f : List ℝ → Nat → ℝ) (R : List ℝ → ℝ) (p : List ℝ) :
    (∑ k ∈ Finset.range N, J y w 1 (some [k]) lam f R p) / N = J y w N none lam f R p := by
  have hN' : (N : ℝ) ≠ 0 := Nat.cast_ne_zero.2 (by omega)
  have h1 : ∀ k, J y w 1 (some [k]) lam f R p
      = wv w k * (y.getD k 0 - f p k) ^ 2 + 1 / 2 * lam * R p := by
    intro k
    simp [J, mse, ixv]
  rw [Finset.sum_congr rfl (fun k _ => h1 k), Finset.sum_add_distrib, J, mse]
  simp only [ixv, Finset.sum_const, Finset.card_range, nsmul_eq_mul]
  field_simp

/-- The stochastic objective at one datum: the weighted square error of that datum and the regulariser, with the gradient. -/
theorem objStoch_value {nparam : Nat} {M : Mapping ℝ S} {Q : SqN ℝ U} {cores : S → List (List U)}
    {y : List ℝ} {w : Option (List ℝ)} {f : List ℝ → Nat → ℝ} {df : List ℝ → Nat → Nat → ℝ}
    {upd : List ℝ → S} {R : List ℝ → ℝ} {k : Nat} {param : List ℝ} {s : S}
    (lam : ℝ) (h : Problem nparam M Q cores y w f df upd R 1 (some [k]) param s) (buf : List ℝ)
    (hb : buf.length = nparam) :
    objStoch (buildLSReg (lsObj nparam M y w) (regObj Q cores lam)) nparam k param none s
      = .ok (wv w k * (y.getD k 0 - f param k) ^ 2 + 1 / 2 * lam * R param, none, upd param) ∧
    ∃ g, objStoch (buildLSReg (lsObj nparam M y w) (regObj Q cores lam)) nparam k param (some buf) s
        = .ok (wv w k * (y.getD k 0 - f param k) ^ 2 + 1 / 2 * lam * R param, some g, upd param) ∧ g.length = nparam ∧
      ∀ j, j < nparam → HasDerivAt (fun t => wv w k * (y.getD k 0 - f (param.set j t) k) ^ 2 + 1 / 2 * lam * R (param.set j t))
        (g.getD j 0) (param.getD j 0) := by
  have hJ : ∀ p, J y w 1 (some [k]) lam f R p = wv w k * (y.getD k 0 - f p k) ^ 2 + 1 / 2 * lam * R p := by
    intro p
    simp [J, mse, ixv]
  have := objective_reg lam h buf hb
  simp only [hJ] at this
  exact this

/-- The batch objective: all data. -/
theorem objBatch_value {nparam : Nat} {M : Mapping ℝ S} {Q : SqN ℝ U} {cores : S → List (List U)}
    {y : List ℝ} {w : Option (List ℝ)} {f : List ℝ → Nat → ℝ} {df : List ℝ → Nat → Nat → ℝ}
    {upd : List ℝ → S} {R : List ℝ → ℝ} {N : Nat} {param : List ℝ} {s : S}
    (lam : ℝ) (h : Problem nparam M Q cores y w f df upd R N none param s) :
    objBatch (buildLSReg (lsObj nparam M y w) (regObj Q cores lam)) nparam N param none s
      = .ok ((∑ k ∈ Finset.range N, wv w k * (y.getD k 0 - f param k) ^ 2) / N + 1 / 2 * lam * R param, none, upd param) :=
  (objective_reg lam h (List.replicate nparam 0) (List.length_replicate ..)).1

/-! ### Example and disagreements -/

/-- Predictions constant in the data, equal to the only parameter; the state is that parameter. -/
noncomputable def exM : Mapping ℝ ℝ where
  vals p N _ _ := .ok (List.replicate N (p.getD 0 0), p.getD 0 0)
  valsGrads p N _ _ := .ok (List.replicate N (p.getD 0 0), List.replicate N 1, p.getD 0 0)

/-- One function with squared norm `u^2`. -/
noncomputable def exQ : SqN ℝ ℝ := ⟨fun u => u ^ 2, fun u => [2 * u]⟩

theorem exM_ok (N : Nat) (ind : Option (List Nat)) (a s : ℝ) :
    MapOk 1 exM N ind [a] s (fun _ => a) (fun _ _ => 1) a := by
  refine ⟨⟨_, rfl, fun ii hi => by simp [hi]⟩, ⟨_, _, rfl, fun ii hi => by simp [hi], ?_⟩⟩
  intro ii hi jj hjj
  obtain rfl : jj = 0 := by omega
  simp [hi]

theorem ex_problem (y0 y1 w0 w1 a s : ℝ) :
    Problem 1 exM exQ (fun s => [[s]]) [y0, y1] (some [w0, w1]) (fun p _ => p.getD 0 0)
      (fun _ _ _ => 1) (fun p => p.getD 0 0) (fun p => (p.getD 0 0) ^ 2) 2 none [a] s := by
  refine ⟨⟨by omega, ?_, exM_ok 2 none a s, ?_⟩, ?_, ?_, ?_⟩
  · intro ii hi
    exact ⟨(fun l h => by cases h), (by simpa [ixv] using hi),
      (fun l h => by cases h; simpa [ixv] using hi)⟩
  · intro ii _ j hj
    obtain rfl : j = 0 := by omega
    exact hasDerivAt_id a
  · simp [exQ]
  · simp [exQ, dAll]
  · intro j hj
    obtain rfl : j = 0 := by omega
    have : HasDerivAt (fun t : ℝ => t ^ 2) ((2 : ℕ) * a ^ (2 - 1) * 1) a := (hasDerivAt_id a).pow 2
    exact this.congr_deriv (by simp [exQ, dAll])

/-- The second datum alone. -/
example (y0 y1 w0 w1 a s : ℝ) :
    Problem 1 exM exQ (fun s => [[s]]) [y0, y1] (some [w0, w1]) (fun p _ => p.getD 0 0)
      (fun _ _ _ => 1) (fun p => p.getD 0 0) (fun p => (p.getD 0 0) ^ 2) 1 (some [1]) [a] s := by
  have h := ex_problem y0 y1 w0 w1 a s
  refine ⟨⟨by omega, ?_, exM_ok 1 _ a s, ?_⟩, h.norm, h.dlen, h.dnorm⟩
  · intro ii hi
    obtain rfl : ii = 0 := by omega
    refine ⟨fun l h => by cases h; decide, by simp [ixv], fun l h => by cases h; simp [ixv]⟩
  · intro ii _ j hj
    obtain rfl : j = 0 := by omega
    exact hasDerivAt_id a

example (y0 y1 w0 w1 a s lam : ℝ) :
    ∃ g, objEval (buildLSReg (lsObj 1 exM [y0, y1] (some [w0, w1]))
      (regObj exQ (fun s : ℝ => [[s]]) lam)) 1 [a] (some [7]) 2 none s
      = .ok (J [y0, y1] (some [w0, w1]) 2 none lam (fun p _ => p.getD 0 0)
          (fun p => (p.getD 0 0) ^ 2) [a], some g, a) :=
  Exists.imp (fun _ h => h.1) (objective_reg lam (ex_problem y0 y1 w0 w1 a s) [7] rfl).2

/-- The weight of an objective function multiplies its value but not its gradient: with weight 2 the
returned gradient of `2 t^2` at `t = 1` is 2, the derivative is 4. -/
theorem objEval_weight_counterexample :
    objEval (objAdd [] 2 (lsObj 1 exM [0] none)) 1 [1] (some [0]) 1 none (0 : ℝ)
      = .ok (2, some [2], 1) ∧
    HasDerivAt (fun t : ℝ => 2 * mse [0] none 1 none (fun _ => t)) 4 1 := by
  have hb : BatchOk [(0 : ℝ)] none 1 none := by
    intro ii hi
    exact ⟨(fun l h => by cases h), (by simpa [ixv] using hi), (fun l h => by cases h)⟩
  constructor
  · rw [objEval, objClear_some 1 [0] rfl, bind_ok, objAdd, objLoop_cons,
      lsObj_some_actual (by norm_num) hb (exM_ok 1 none 1 0), bind_ok, objLoop]
    simp [mse, wv, ixv]
  · have := ((hasDerivAt_id (1 : ℝ)).pow 2).const_mul 2
    have h2 : (fun t : ℝ => 2 * mse [0] none 1 none (fun _ => t)) = fun t => 2 * (id t) ^ 2 := by
      funext t
      simp [mse, wv, ixv]
    rw [h2]
    exact this.congr_deriv (by norm_num)

/-- With the regulariser before the least squares function its gradient is divided by the number of
data: for two data and regularisation weight 1 the returned gradient at `t = 1` is 1/2, the
derivative is 1. -/
theorem objEval_order_counterexample :
    objEval (objAdd (objAdd [] 1 (regObj exQ (fun s : ℝ => [[s]]) 1)) 1 (lsObj 1 exM [1, 1] none)) 1
        [1] (some [0]) 2 none (1 : ℝ)
      = .ok (1 / 2, some [1 / 2], 1) ∧
    HasDerivAt (fun t : ℝ => J [1, 1] none 2 none 1 (fun p _ => p.getD 0 0)
      (fun p => (p.getD 0 0) ^ 2) [t]) 1 1 := by
  have hb : BatchOk [(1 : ℝ), 1] none 2 none := by
    intro ii hi
    exact ⟨(fun l h => by cases h), (by simpa [ixv] using hi), (fun l h => by cases h)⟩
  constructor
  · rw [objEval, objClear_some 1 [0] rfl, bind_ok]
    simp only [objAdd]
    rw [objLoop_cons, regObj_some exQ _ 1 [1] 2 none (1 : ℝ) 1 (fun _ => 0) (by simp [exQ, dAll]),
      bind_ok, objLoop_cons]
    dsimp only
    rw [lsObj_some_actual (by norm_num) hb (exM_ok 2 none 1 1), bind_ok, objLoop]
    simp [mse, wv, exQ, dAll, ixv, Finset.sum_range_succ]
  · have h1 : HasDerivAt (fun t : ℝ => (1 - t) ^ 2 + 1 / 2 * t ^ 2)
        ((2 : ℕ) * (1 - (1 : ℝ)) ^ (2 - 1) * (-1) + 1 / 2 * ((2 : ℕ) * (1 : ℝ) ^ (2 - 1) * 1)) 1 :=
      (((hasDerivAt_id (1 : ℝ)).const_sub 1).pow 2).add
        (((hasDerivAt_id (1 : ℝ)).pow 2).const_mul (1 / 2))
    have h2 : (fun t : ℝ => J [1, 1] none 2 none 1 (fun p _ => p.getD 0 0)
        (fun p => (p.getD 0 0) ^ 2) [t]) = fun t => (1 - t) ^ 2 + 1 / 2 * t ^ 2 := by
      funext t
      simp [J, mse, wv, ixv, Finset.sum_range_succ]
    rw [h2]
    exact h1.congr_deriv (by norm_num)

/-- The regulariser ignores the parameters handed to it and uses the state left by an earlier
evaluation: before any least squares evaluation it reports the value of the old train. -/
theorem regObj_stale_counterexample :
    objEval (objAdd [] 1 (regObj exQ (fun s : ℝ => [[s]]) 2)) 1 [1] none 1 none (0 : ℝ)
      = .ok (0, none, 0) := by
  rw [objEval, objClear, bind_ok, objAdd, objLoop_cons, regObj_none, bind_ok, objLoop]
  simp [exQ]

end C3.Sl
