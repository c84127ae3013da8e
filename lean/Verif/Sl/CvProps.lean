/-
C102: cross validation.
-/
import Verif.Sl.CvModel
import Verif.Sl.ObjProps
import Verif.Core.Buf
import Mathlib.Algebra.BigOperators.Intervals
import Mathlib.Algebra.BigOperators.Fin
import Mathlib.Tactic.Ring
import Mathlib.Tactic.NormNum

set_option linter.unusedSectionVars false

namespace C3.Sl

variable {K P O : Type}

/-! ### Specification -/

/-- Boundaries of the folds: fold `i` consists of the data `bd i, ..., bd (i+1) - 1`. -/
def bd (N k i : Nat) : Nat := if i < k then i * (N / k) else N

theorem bd_zero {N k : Nat} (hk : 0 < k) : bd N k 0 = 0 := by simp [bd, hk]
theorem bd_last (N k : Nat) : bd N k k = N := by simp [bd]

theorem bd_le (N k i : Nat) : bd N k i ≤ N := by
  unfold bd
  split
  · rename_i h
    exact le_trans (Nat.mul_le_mul_right _ (by omega)) (Nat.mul_div_le N k)
  · exact le_rfl

theorem bd_step (N k i : Nat) : bd N k i ≤ bd N k (i + 1) := by
  by_cases h : i + 1 < k
  · rw [bd, bd, if_pos (by omega), if_pos h]
    exact Nat.mul_le_mul_right _ (by omega)
  · have h2 : bd N k (i + 1) = N := by rw [bd, if_neg h]
    rw [h2]; exact bd_le N k i

theorem bd_mono (N k : Nat) {i j : Nat} (h : i ≤ j) : bd N k i ≤ bd N k j := by
  induction j with
  | zero => obtain rfl : i = 0 := by omega
            exact le_rfl
  | succ j ih =>
    by_cases hi : i = j + 1
    · subst hi; exact le_rfl
    · exact le_trans (ih (by omega)) (bd_step N k j)

/-- Every datum belongs to exactly one fold. -/
theorem bd_partition {N k : Nat} (hk : 0 < k) {j : Nat} (hj : j < N) :
    ∃! i, i < k ∧ bd N k i ≤ j ∧ j < bd N k (i + 1) := by
  have hex : ∀ n, n ≤ k → j < bd N k n → ∃ i, i < n ∧ bd N k i ≤ j ∧ j < bd N k (i + 1) := by
    intro n
    induction n with
    | zero => intro _ h; rw [bd_zero hk] at h; omega
    | succ n ih =>
      intro hn h
      by_cases hc : j < bd N k n
      · obtain ⟨i, h1, h2⟩ := ih (by omega) hc
        exact ⟨i, by omega, h2⟩
      · exact ⟨n, by omega, by omega, h⟩
  obtain ⟨i, h1, h2, h3⟩ := hex k le_rfl (by rw [bd_last]; exact hj)
  refine ⟨i, ⟨h1, h2, h3⟩, ?_⟩
  rintro i' ⟨_, h4, h5⟩
  by_contra hne
  rcases Nat.lt_or_gt_of_ne hne with h | h
  · have := bd_mono N k (show i' + 1 ≤ i from h); omega
  · have := bd_mono N k (show i + 1 ≤ i' from h); omega

/-- Row `j` of the features. -/
def row (dim : Nat) (x : List K) (j : Nat) : List K := (x.drop (j * dim)).take dim

/-- The rows without those of a fold, in the same order. -/
def without (dim : Nat) (x : List K) (a b : Nat) : List K := x.take (a * dim) ++ x.drop (b * dim)

/-! ### Copies -/

theorem mv_ok {dst src : List K} {doff soff n : Nat} (hs : soff + n ≤ src.length)
    (hd : doff + n ≤ dst.length) :
    mv dst doff src soff n
      = .ok (dst.take doff ++ (src.drop soff).take n ++ dst.drop (doff + n)) := by
  obtain ⟨b, h1, h2, h3, h4⟩ := forN_spec (n := n) (s := dst)
    (body := fun i b => do
      let v ← rd src (soff + i)
      wr b (doff + i) v)
    (I := fun m b => b.length = dst.length ∧ (∀ i, i < m → b[doff + i]? = src[soff + i]?) ∧
      ∀ q, (q < doff ∨ doff + m ≤ q) → b[q]? = dst[q]?)
    ⟨rfl, fun _ h => absurd h (by omega), fun _ _ => rfl⟩ (by
      intro i hi b ⟨a1, a2, a3⟩
      refine ⟨b.set (doff + i) src[soff + i], by rw [rd_ok (by omega), bind_ok, wr_ok _ (by omega)],
        by simpa using a1, ?_, ?_⟩
      · intro m hm
        by_cases hmi : m = i
        · subst hmi
          rw [List.getElem?_set_self (by omega), List.getElem?_eq_getElem (by omega)]
        · rw [List.getElem?_set_ne (by omega)]; exact a2 m (by omega)
      · intro q hq
        rw [List.getElem?_set_ne (by omega)]
        exact a3 q (by omega))
  rw [mv, h1]
  congr 1
  refine List.ext_getElem? (fun q => ?_)
  have hl1 : (dst.take doff).length = doff := by rw [List.length_take]; omega
  have hl2 : ((src.drop soff).take n).length = n := by
    rw [List.length_take, List.length_drop]; omega
  by_cases hq : q < doff
  · rw [h4 q (.inl hq), List.append_assoc, List.getElem?_append_left (by omega), List.getElem?_take,
      if_pos hq]
  · by_cases hq2 : q < doff + n
    · have := h3 (q - doff) (by omega)
      rw [show doff + (q - doff) = q by omega] at this
      rw [this, List.getElem?_append_left (by rw [List.length_append]; omega),
        List.getElem?_append_right (by omega), hl1, List.getElem?_take, if_pos (by omega),
        List.getElem?_drop]
    · rw [h4 q (.inr (by omega)), List.getElem?_append_right (by rw [List.length_append]; omega),
        List.length_append, hl1, hl2, List.getElem?_drop, show doff + n + (q - (doff + n)) = q by omega]

/-- Sizes of the arrays of a fold. -/
structure Sized (N dim : Nat) (s : Split K) : Prop where
  xt : s.xtest.length = N * dim
  yt : s.ytest.length = N
  xr : s.xtrain.length = N * dim
  yr : s.ytrain.length = N

theorem extractData_ok {N dim : Nat} {x y : List K} {a b : Nat} (hab : a ≤ b) (hb : b ≤ N)
    (hx : x.length = N * dim) (hy : y.length = N) {s : Split K} (hs : Sized N dim s) :
    ∃ t, extractData N dim x y a (b - a) s = .ok t ∧ Sized N dim t ∧
      t.xtest.take ((b - a) * dim) = (x.drop (a * dim)).take ((b - a) * dim) ∧
      t.ytest.take (b - a) = (y.drop a).take (b - a) ∧
      t.xtrain.take ((N - (b - a)) * dim) = without dim x a b ∧
      t.ytrain.take (N - (b - a)) = without 1 y a b := by
  have h1 : a * dim ≤ b * dim := Nat.mul_le_mul_right _ hab
  have h2 : b * dim ≤ N * dim := Nat.mul_le_mul_right _ hb
  have e1 : dim * (b - a) = b * dim - a * dim := by rw [Nat.mul_comm, Nat.sub_mul]
  have e1' : (b - a) * dim = b * dim - a * dim := by rw [Nat.sub_mul]
  have e2 : dim * (N - a - (b - a)) = N * dim - b * dim := by
    rw [show N - a - (b - a) = N - b by omega, Nat.mul_comm, Nat.sub_mul]
  have e3 : dim * a = a * dim := Nat.mul_comm _ _
  have e4 : (N - (b - a)) * dim = N * dim - (b * dim - a * dim) := by
    rw [Nat.sub_mul, Nat.sub_mul]
  have e5 : a + (b - a) = b := by omega
  obtain ⟨s1, s2, s3, s4⟩ := hs
  rw [extractData, mv_ok (by omega) (by omega), bind_ok, mv_ok (by omega) (by omega), bind_ok,
    mv_ok (by omega) (by omega), bind_ok, mv_ok (by omega) (by omega), bind_ok,
    mv_ok (by rw [e2, e5]; omega) (by simp; omega), bind_ok,
    mv_ok (by omega) (by simp; omega), bind_ok]
  refine ⟨_, rfl, ⟨by simp; omega, by simp; omega,
    by simp only [List.length_append, List.length_take, List.length_drop, e2, e3, e5]; omega,
    by simp; omega⟩, ?_, ?_, ?_, ?_⟩
  · dsimp only
    rw [List.take_zero, List.nil_append, e1, e1']
    rw [List.take_append_of_le_length (by simp; omega)]
    simp
  · dsimp only
    rw [List.take_zero, List.nil_append]
    rw [List.take_append_of_le_length (by simp; omega)]
    simp
  · dsimp only
    rw [e3, e2, e5, e4, without]
    rw [List.take_append_of_le_length (by simp; omega)]
    rw [List.take_of_length_le (by simp; omega)]
    congr 1
    · rw [List.take_zero, List.nil_append, List.drop_zero,
        List.take_append_of_le_length (by simp; omega), List.take_take, Nat.min_self]
    · rw [List.take_of_length_le (by simp; omega)]
  · dsimp only
    rw [e5, without]
    rw [List.take_append_of_le_length (by simp; omega)]
    rw [List.take_of_length_le (by simp; omega)]
    rw [Nat.mul_one, Nat.mul_one]
    congr 1
    · rw [List.take_zero, List.nil_append, List.drop_zero,
        List.take_append_of_le_length (by simp; omega), List.take_take, Nat.min_self]
    · rw [List.take_of_length_le (by simp; omega)]

/-! ### Errors -/

variable [Field K] [DecidableEq K]

theorem row_of_take {dim : Nat} {x xt : List K} {a n j : Nat} (hj : j < n)
    (h : xt.take (n * dim) = (x.drop (a * dim)).take (n * dim)) :
    row dim xt j = row dim x (a + j) := by
  have h1 : (j + 1) * dim ≤ n * dim := Nat.mul_le_mul_right _ hj
  rw [Nat.add_mul, Nat.one_mul] at h1
  have h2 : ∀ l : List K, (l.drop (j * dim)).take dim
      = ((l.take (n * dim)).drop (j * dim)).take dim := by
    intro l
    rw [List.drop_take, List.take_take, min_eq_left (by omega)]
  rw [row, h2, h, ← h2, List.drop_drop, row, Nat.add_mul]

theorem foldErr_ok {dim a b : Nat} (hab : a ≤ b) {x y xt yt : List K} (hb : b ≤ y.length)
    (ft : List K → K)
    (hx : xt.take ((b - a) * dim) = (x.drop (a * dim)).take ((b - a) * dim))
    (hy : yt.take (b - a) = (y.drop a).take (b - a)) :
    foldErr dim (b - a) ft xt yt
      = .ok (∑ j ∈ Finset.Ico a b, (y.getD j 0 - ft (row dim x j)) ^ 2,
        ∑ j ∈ Finset.Ico a b, y.getD j 0 ^ 2) := by
  have hyj : ∀ j, j < b - a → yt[j]? = y[a + j]? := by
    intro j hj
    have h1 := congrArg (fun l : List K => l[j]?) hy
    simpa [List.getElem?_take, hj, List.getElem?_drop] using h1
  have := forN_traj (n := b - a)
    (fun n => ((∑ j ∈ Finset.range n, (y.getD (a + j) 0 - ft (row dim x (a + j))) ^ 2 : K),
      (∑ j ∈ Finset.range n, y.getD (a + j) 0 ^ 2 : K)))
    (body := fun jj (s : K × K) => do
      let y ← rd yt jj
      let eval := ft ((xt.drop (jj * dim)).take dim)
      .ok (s.1 + (y - eval) * (y - eval), s.2 + y * y)) (by
      intro j hj
      have h1 : yt[j]? = some (y.getD (a + j) 0) := by
        rw [hyj j hj]; simp [show a + j < y.length by omega]
      have h2 : (xt.drop (j * dim)).take dim = row dim x (a + j) := row_of_take hj hx
      rw [rd_of_getElem? h1, bind_ok]
      dsimp only
      rw [h2, Finset.sum_range_succ, Finset.sum_range_succ, pow_two, pow_two])
  rw [foldErr]
  rw [Finset.range_zero, Finset.sum_empty, Finset.sum_empty] at this
  rw [this, Finset.sum_Ico_eq_sum_range, Finset.sum_Ico_eq_sum_range]

/-- State of optimizer and options before fold `i`; `g` is the result of learning from the original
parameterised train. -/
def optAt (N dim k : Nat) (x y : List K) (g : O → Nat → List K → List K → P × O × (List K → K))
    (opt : O) : Nat → O
  | 0 => opt
  | i + 1 => (g (optAt N dim k x y g opt i) (N - (bd N k (i + 1) - bd N k i))
      (without dim x (bd N k i) (bd N k (i + 1))) (without 1 y (bd N k i) (bd N k (i + 1)))).2.1

/-- The train learnt from all data outside fold `i`. -/
def ftAt (N dim k : Nat) (x y : List K) (g : O → Nat → List K → List K → P × O × (List K → K))
    (opt : O) (i : Nat) : List K → K :=
  (g (optAt N dim k x y g opt i) (N - (bd N k (i + 1) - bd N k i))
      (without dim x (bd N k i) (bd N k (i + 1))) (without 1 y (bd N k i) (bd N k (i + 1)))).2.2

/-- Cross validation: in fold `i` a train is learnt, always from the original parameters, from exactly
the data outside the fold, in order; the result is the sum of the squared errors of these trains at
the data of their folds divided by the sum of the squared labels, and the parameterised train is
restored. -/
theorem cvRun_ok {N dim k : Nat} (hk : 0 < k) {x y : List K} (hx : x.length = N * dim)
    (hy : y.length = N) {run : Learner K P O} {ftp : P}
    {g : O → Nat → List K → List K → P × O × (List K → K)}
    (hrun : ∀ o n a b, run ftp o n a b = .ok (g o n a b)) (opt : O) :
    cvRun N dim k x y run ftp opt
      = if ∑ j ∈ Finset.range N, y.getD j 0 ^ 2 = 0 then .error .ub
        else .ok ((∑ i ∈ Finset.range k, ∑ j ∈ Finset.Ico (bd N k i) (bd N k (i + 1)),
            (y.getD j 0 - ftAt N dim k x y g opt i (row dim x j)) ^ 2)
          / ∑ j ∈ Finset.range N, y.getD j 0 ^ 2, ftp, optAt N dim k x y g opt k) := by
  rw [cvRun, if_neg (by omega)]
  obtain ⟨s, h1, _, _, _, h4, h5, h6, h7⟩ := forN_spec (n := k)
    (body := cvFold N dim k x y run ftp)
    (s := ⟨⟨List.replicate (N * dim) 0, List.replicate N 0, List.replicate (N * dim) 0,
      List.replicate N 0⟩, N / k, 0, 0, 0, ftp, opt⟩)
    (I := fun n s => Sized N dim s.sp ∧ s.start = bd N k n ∧ (n < k → s.batch = N / k) ∧
      s.erri = ∑ i ∈ Finset.range n, ∑ j ∈ Finset.Ico (bd N k i) (bd N k (i + 1)),
        (y.getD j 0 - ftAt N dim k x y g opt i (row dim x j)) ^ 2 ∧
      s.norm = ∑ j ∈ Finset.range (bd N k n), y.getD j 0 ^ 2 ∧ s.ftp = ftp ∧
      s.opt = optAt N dim k x y g opt n)
    ⟨⟨by simp, by simp, by simp, by simp⟩, (bd_zero hk).symm, fun _ => rfl, by simp,
      by simp [bd_zero hk], rfl, rfl⟩ (by
      intro n hn s ⟨a1, a2, a3, a4, a5, a6, a7⟩
      have hbd := bd_step N k n
      have hbl := bd_le N k (n + 1)
      have hbatch : (if n = k - 1 then N - s.start else s.batch) = bd N k (n + 1) - bd N k n := by
        by_cases hl : n = k - 1
        · rw [if_pos hl, a2, show n + 1 = k by omega, bd_last]
        · rw [if_neg hl, a3 hn, bd, bd, if_pos (by omega), if_pos hn, Nat.add_mul, Nat.one_mul]
          omega
      obtain ⟨t, t1, t2, t3, t4, t5, t6⟩ := extractData_ok (x := x) (y := y) hbd hbl hx hy a1
      have hfe := foldErr_ok hbd (by omega) (ftAt N dim k x y g opt n) t3 t4
      refine ⟨⟨t, bd N k (n + 1) - bd N k n, s.start + (bd N k (n + 1) - bd N k n),
        s.erri + ∑ j ∈ Finset.Ico (bd N k n) (bd N k (n + 1)),
          (y.getD j 0 - ftAt N dim k x y g opt n (row dim x j)) ^ 2,
        s.norm + ∑ j ∈ Finset.Ico (bd N k n) (bd N k (n + 1)), y.getD j 0 ^ 2, ftp,
        optAt N dim k x y g opt (n + 1)⟩, ?_, t2, by dsimp only; omega, ?_, ?_, ?_, rfl, rfl⟩
      · rw [cvFold, hbatch, a2, t1, bind_ok, hrun, bind_ok, t5, t6, a7]
        have hft : (g (optAt N dim k x y g opt n) (N - (bd N k (n + 1) - bd N k n))
          (without dim x (bd N k n) (bd N k (n + 1)))
          (without 1 y (bd N k n) (bd N k (n + 1)))).2.2 = ftAt N dim k x y g opt n := rfl
        rw [hft, hfe, bind_ok]
        rfl
      · intro hn1
        show bd N k (n + 1) - bd N k n = N / k
        rw [bd, bd, if_pos hn1, if_pos hn, Nat.add_mul, Nat.one_mul]
        omega
      · dsimp only
        rw [a4, Finset.sum_range_succ]
      · dsimp only
        rw [a5, Finset.sum_range_add_sum_Ico _ hbd])
  dsimp only
  rw [h1, bind_ok, h5, h6, h7, h4, bd_last]

/-- With more folds than data all folds but the last are empty and the last consists of all data: the
error is that of a train learnt from no data. -/
theorem cv_many_folds_actual {N k : Nat} (hk : N < k) :
    (∀ i, i < k → bd N k i = 0) ∧ bd N k k = N := by
  refine ⟨fun i hi => ?_, bd_last N k⟩
  rw [bd, if_pos hi, Nat.div_eq_of_lt hk, Nat.mul_zero]

/-- Zero folds divide by zero. -/
theorem cv_zero_folds_actual (N dim : Nat) (x y : List K) (run : Learner K P O) (ftp : P) (opt : O) :
    cvRun N dim 0 x y run ftp opt = .error .ub := by
  rw [cvRun, if_pos rfl]

/-- Predicting the mean of the training labels, two folds of three data: the first fold holds datum 0,
the second the data 1 and 2. -/
def meanLearner : Learner ℚ Unit Unit :=
  fun _ _ n _ y => .ok ((), (), fun _ => y.sum / n)

example : cvRun 3 1 2 [0, 1, 2] [1, 2, 4] meanLearner () ()
    = .ok (((1 - 3) ^ 2 + ((2 - 1) ^ 2 + (4 - 1) ^ 2)) / (1 ^ 2 + 2 ^ 2 + 4 ^ 2), (), ()) := by
  have h := cvRun_ok (K := ℚ) (N := 3) (dim := 1) (k := 2) (x := [0, 1, 2]) (y := [1, 2, 4])
    (run := meanLearner) (ftp := ()) (g := fun _ n _ (y : List ℚ) => ((), (), fun _ => y.sum / (n : ℚ)))
    (by omega) rfl rfl
    (fun _ _ _ _ => rfl) ()
  rw [h]
  simp [Finset.sum_range_succ, bd, ftAt, without, Finset.sum_Ico_eq_sum_range]
  norm_num

omit [DecidableEq K] in
/-- Sample weights are not moved with the data: in a fold the training data after the fold get the
weights of the data shifted by the size of the fold. -/
theorem cv_weights_actual {N a b : Nat} (hab : a ≤ b) (hb : b ≤ N) {y : List K} (hy : y.length = N)
    (w f : List K) :
    mse (without 1 y a b) (some w) (N - (b - a)) none (fun t => f.getD t 0)
      = (∑ j ∈ Finset.range a, w.getD j 0 * (y.getD j 0 - f.getD j 0) ^ 2
        + ∑ j ∈ Finset.Ico b N, w.getD (j - (b - a)) 0
          * (y.getD j 0 - f.getD (j - (b - a)) 0) ^ 2) / ((N - (b - a) : Nat) : K) := by
  rw [mse]
  congr 1
  rw [show N - (b - a) = a + (N - b) by omega, Finset.sum_range_add, Finset.sum_Ico_eq_sum_range]
  have hl : (y.take (a * 1)).length = a := by rw [List.length_take]; omega
  congr 1
  · refine Finset.sum_congr rfl (fun j hj => ?_)
    have hj' := Finset.mem_range.1 hj
    have h1 : (without 1 y a b).getD j 0 = y.getD j 0 := by
      rw [without, List.getD_eq_getElem?_getD, List.getElem?_append_left (by omega),
        List.getElem?_take, if_pos (by omega), List.getD_eq_getElem?_getD]
    simp only [ixv, wv]
    rw [h1]
  · refine Finset.sum_congr rfl (fun j hj => ?_)
    have hj' := Finset.mem_range.1 hj
    have h1 : (without 1 y a b).getD (a + j) 0 = y.getD (b + j) 0 := by
      rw [without, List.getD_eq_getElem?_getD, List.getElem?_append_right (by omega), hl,
        List.getElem?_drop, List.getD_eq_getElem?_getD]
      congr 2
      omega
    simp only [ixv, wv]
    rw [h1, show b + j - (b - a) = a + j by omega]

/-- **Counterexample.** Two data with weights 1 and 0, two folds: in the first fold the only training
datum is datum 1, which should be ignored, but its squared residual enters with weight 1. -/
theorem cv_weights_counterexample :
    mse (without 1 [(5 : ℚ), 7] (bd 2 2 0) (bd 2 2 1)) (some [1, 0]) 1 none (fun _ => 0) = 49 ∧
      (0 : ℚ) * (7 - 0) ^ 2 / 1 ≠ 49 := by
  constructor
  · simp [mse, without, bd, ixv, wv]; norm_num
  · norm_num

end C3.Sl
