/-
C139: the loop of the skeleton decompositions.
-/
import Verif.Skel.SkelModel
import Verif.Skel.Props
import Verif.Opt.Lemmas
import Verif.Tt.FullProps

namespace C3.Sk
open Finset Matrix

/-! ## Specification -/

/-- The first `n` rows and `m` columns of a table. -/
def fullM (a : Nat → Nat → ℝ) (n m : Nat) : Matrix (Fin n) (Fin m) ℝ := Matrix.of fun i j => a i j

/-- Selected columns. -/
def selC (a : Nat → Nat → ℝ) (n r : Nat) (cols : List Nat) : Matrix (Fin n) (Fin r) ℝ := Matrix.of fun i k => a i (cols.getD k 0)

/-- Selected rows. -/
def selR (a : Nat → Nat → ℝ) (m r : Nat) (rows : List Nat) : Matrix (Fin r) (Fin m) ℝ := Matrix.of fun k j => a (rows.getD k 0) j

/-- The submatrix of selected rows and columns. -/
def crossM (a : Nat → Nat → ℝ) (r : Nat) (rows cols : List Nat) : Matrix (Fin r) (Fin r) ℝ :=
  Matrix.of fun k l => a (rows.getD k 0) (cols.getD l 0)

/-- A column-major buffer as a matrix. -/
def colMat (m n : Nat) (M : List ℝ) : Matrix (Fin m) (Fin n) ℝ := Matrix.of fun i j => M.getD (j.1 * m + i.1) 0

/-- What the two LAPACK calls promise and is needed here: the matrix is the returned factor times a square matrix. -/
def QrLaw (qr : Nat → Nat → List ℝ → List ℝ) : Prop :=
  ∀ m n M, n ≤ m → M.length = m * n → (qr m n M).length = m * n ∧
    ∃ T : Matrix (Fin n) (Fin n) ℝ, colMat m n M = colMat m n (qr m n M) * T

/-- The selection of rows works for the `N × r` matrix `Q`: code 0, rows in range, the inverse of their submatrix, independent of the former
contents of the two arrays. -/
def MvGood (mv : List ℝ → Nat → Nat → List Nat → List ℝ → C (Int × List Nat × List ℝ)) (N r : Nat) (Q : List ℝ) : Prop :=
  ∃ rows' V', (∀ rows V, rows.length = r → V.length = r * r → mv Q N r rows V = .ok (0, rows', V')) ∧ rows'.length = r ∧
    (∀ i < r, rows'.getD i 0 < N) ∧ V'.length = r * r ∧ mat r V' * sub Q N r rows' = 1

/-- Every column is a combination of the selected ones. -/
def SpanC (a : Nat → Nat → ℝ) (n m r : Nat) (cols : List Nat) : Prop := ∃ X, fullM a n m = selC a n r cols * X

/-- Every row is a combination of the selected ones. -/
def SpanR (a : Nat → Nat → ℝ) (n m r : Nat) (rows : List Nat) : Prop := ∃ Y, fullM a n m = Y * selR a m r rows

/-! ## Linear algebra -/

theorem span_step {a : Nat → Nat → ℝ} {N M r : Nat} {cols : List Nat} {X : Matrix (Fin r) (Fin M) ℝ}
    (h : fullM a N M = selC a N r cols * X) {Q : List ℝ} {T : Matrix (Fin r) (Fin r) ℝ} (hT : selC a N r cols = colMat N r Q * T)
    {rows : List Nat} (hr : ∀ i < r, rows.getD i 0 < N) {V : List ℝ} (hV : mat r V * sub Q N r rows = 1) :
    fullM a N M = (colMat N r Q * mat r V) * selR a M r rows := by
  have h1 : fullM a N M = colMat N r Q * (T * X) := by rw [h, hT, Matrix.mul_assoc]
  have h2 : selR a M r rows = sub Q N r rows * (T * X) := by
    ext k j
    have e := congrFun (congrFun h1 ⟨rows.getD k 0, hr k k.2⟩) j
    rw [Matrix.mul_apply] at e ⊢
    exact e
  rw [h2, Matrix.mul_assoc, ← Matrix.mul_assoc (mat r V), hV, Matrix.one_mul, h1]

theorem cross_exact {a : Nat → Nat → ℝ} {n m r : Nat} {rows cols : List Nat} (hr : ∀ i < r, rows.getD i 0 < n)
    (hc : ∀ i < r, cols.getD i 0 < m) (h1 : SpanC a n m r cols) (h2 : SpanR a n m r rows) {W : Matrix (Fin r) (Fin r) ℝ}
    (hW : crossM a r rows cols * W * crossM a r rows cols = crossM a r rows cols) :
    selC a n r cols * W * selR a m r rows = fullM a n m := by
  obtain ⟨X, hX⟩ := h1
  obtain ⟨Y, hY⟩ := h2
  have e1 : selR a m r rows = crossM a r rows cols * X := by
    ext k j
    have e := congrFun (congrFun hX ⟨rows.getD k 0, hr k k.2⟩) j
    rw [Matrix.mul_apply] at e ⊢
    exact e
  have e2 : selC a n r cols = Y * crossM a r rows cols := by
    ext i k
    have e := congrFun (congrFun hY i) ⟨cols.getD k 0, hc k k.2⟩
    rw [Matrix.mul_apply] at e ⊢
    exact e
  calc selC a n r cols * W * selR a m r rows = Y * (crossM a r rows cols * W * crossM a r rows cols) * X := by
        rw [e1, e2]; simp only [Matrix.mul_assoc]
    _ = fullM a n m := by rw [hW, ← e2, hX]

/-! ## The loop -/

theorem dgemmNT_ok {m n k : Nat} {A B c : List ℝ} (hA : m * k ≤ A.length) (hB : n * k ≤ B.length) (hc : c.length = m * n) :
    dgemmNT m n k A B c = .ok (cm m n fun i j => ∑ t ∈ range k, A.getD (t * m + i) 0 * B.getD (t * n + j) 0) := by
  rw [dgemmNT, forN_fill_cm _ hc]
  intro j hj i hi b _
  rw [forN_sum (fun t => A.getD (t * m + i) 0 * B.getD (t * n + j) 0), bind_ok, zero_add]
  intro t ht s
  rw [rd_getD 0 (lt_of_lt_of_le (cm_idx_lt hi ht) hA), rd_getD 0 (lt_of_lt_of_le (cm_idx_lt hj ht) hB)]; rfl

/-- What fetching must do: `I` is an invariant of the stored fibers, `hasC` and `hasR` say that the fibers of a list are stored. -/
structure OpsLaw {σ : Type} (a : Nat → Nat → ℝ) (n m r : Nat) (ops : Ops σ) (I : σ → Prop) (hasC hasR : σ → List Nat → Prop) : Prop where
  cols : ∀ st idx R, I st → idx.length = r → (∀ i < r, idx.getD i 0 < m) → R.length = n * r →
    ∃ st', ops.cols st idx R = .ok (cm n r fun i k => a i (idx.getD k 0), st') ∧ I st' ∧ hasC st' idx ∧ ∀ l, hasR st l → hasR st' l
  rows : ∀ st idx R, I st → idx.length = r → (∀ i < r, idx.getD i 0 < n) → R.length = m * r →
    ∃ st', ops.rows st idx R = .ok (cm m r fun j k => a (idx.getD k 0) j, st') ∧ I st' ∧ hasR st' idx

section Loop
variable {σ : Type} {a : Nat → Nat → ℝ} {n m r : Nat} {qr : Nat → Nat → List ℝ → List ℝ}
  {mv : List ℝ → Nat → Nat → List Nat → List ℝ → C (Int × List Nat × List ℝ)} {ops : Ops σ} {I : σ → Prop}
  {hasC hasR : σ → List Nat → Prop}

/-- State at the top of the loop. -/
structure Val (a : Nat → Nat → ℝ) (n m r : Nat) (I : σ → Prop) (s : LS σ) : Prop where
  R : s.R = cm n r fun i k => a i (s.cols.getD k 0)
  Cm : s.Cm.length = m * r
  rows : s.rows.length = r
  cols : s.cols.length = r
  colt : ∀ i < r, s.cols.getD i 0 < m
  ta : s.ta.length = r * r
  tb : s.tb.length = r * r
  Aold : s.Aold.length = n * m
  st : I s.st
  span : SpanC a n m r s.cols

/-- State after a pass. -/
structure Post (a : Nat → Nat → ℝ) (n m r : Nat) (I : σ → Prop) (hasC hasR : σ → List Nat → Prop) (s : LS σ) : Prop extends
    Val a n m r I s where
  rolt : ∀ i < r, s.rows.getD i 0 < n
  spanR : SpanR a n m r s.rows
  hC : hasC s.st s.cols
  hR : hasR s.st s.rows

/-- The assumption on the selection of rows and columns: it works for the factors of all spanning selections. -/
structure MvAll (qr : Nat → Nat → List ℝ → List ℝ) (mv : List ℝ → Nat → Nat → List Nat → List ℝ → C (Int × List Nat × List ℝ))
    (a : Nat → Nat → ℝ) (n m r : Nat) : Prop where
  cols : ∀ cols, cols.length = r → (∀ i < r, cols.getD i 0 < m) → SpanC a n m r cols →
    MvGood mv n r (qr n r (cm n r fun i k => a i (cols.getD k 0)))
  rows : ∀ rows, rows.length = r → (∀ i < r, rows.getD i 0 < n) → SpanR a n m r rows →
    MvGood mv m r (qr m r (cm m r fun j k => a (rows.getD k 0) j))

theorem colMat_cm {n r : Nat} (g : Nat → Nat → ℝ) : colMat n r (cm n r g) = (Matrix.of fun i k => g i k : Matrix (Fin n) (Fin r) ℝ) := by
  ext i k
  simp only [colMat, Matrix.of_apply]
  rw [getD_cm _ _ i.2 k.2]

theorem skIter_ok (hqr : QrLaw qr) (ho : OpsLaw a n m r ops I hasC hasR) (hmv : MvAll qr mv a n m r) (hrn : r ≤ n) (hrm : r ≤ m)
    {s : LS σ} (h : Val a n m r I s) :
    ∃ s', skIter qr mv ops n m r s = .ok (true, cm n m a, s') ∧ Post a n m r I hasC hasR s' ∧ s'.Aold = s.Aold := by
  obtain ⟨X, hX⟩ := h.span
  obtain ⟨q1, T, hT⟩ := hqr n r s.R hrn (by rw [h.R, cm_length])
  obtain ⟨p, V, m1, m2, m3, m4, m5⟩ := hmv.cols s.cols h.cols h.colt h.span
  rw [← h.R] at m1 m5
  have hTs : selC a n r s.cols = colMat n r (qr n r s.R) * T := by
    rw [← hT, h.R, colMat_cm]; rfl
  have hrow := span_step hX hTs m3 m5
  have hsr : SpanR a n m r p := ⟨_, hrow⟩
  obtain ⟨st1, g1, g2, g3⟩ := ho.rows s.st p s.Cm h.st m2 m3 h.Cm
  set Cg := cm m r fun j k => a (p.getD k 0) j with hCg
  obtain ⟨q2, T2, hT2⟩ := hqr m r Cg hrm (by rw [hCg, cm_length])
  obtain ⟨c, W, w1, w2, w3, w4, w5⟩ := hmv.rows p m2 m3 hsr
  rw [← hCg] at w1 w5
  -- the transposed table
  have hXt : fullM (fun i j => a j i) m n = selC (fun i j => a j i) m r p * (colMat n r (qr n r s.R) * mat r V).transpose := by
    have := congrArg Matrix.transpose hrow
    rw [Matrix.transpose_mul] at this
    exact this
  have hT2s : selC (fun i j => a j i) m r p = colMat m r (qr m r Cg) * T2 := by
    rw [← hT2, hCg, colMat_cm]; rfl
  have hcol := span_step hXt hT2s w3 w5
  obtain ⟨st2, k1, k2, k3, k4⟩ := ho.cols st1 c (qr n r s.R) g2 w2 w3 q1
  set tm := cm m r fun i j => ∑ t ∈ range r, (qr m r Cg).getD (t * m + i) 0 * W.getD (j * r + t) 0 with htm
  have htmM : colMat m r tm = colMat m r (qr m r Cg) * mat r W := by
    rw [htm, colMat_cm]
    ext i j
    rw [Matrix.mul_apply, Matrix.of_apply, Finset.sum_range]
    rfl
  have hcol' : fullM a n m = selC a n r c * (colMat m r tm).transpose := by
    rw [htmM]
    have := congrArg Matrix.transpose hcol
    rw [Matrix.transpose_mul] at this
    exact this
  have hAn : (cm n m fun i j => ∑ t ∈ range r, (cm n r fun i k => a i (c.getD k 0)).getD (t * n + i) 0 * tm.getD (t * m + j) 0)
      = cm n m a := by
    refine cm_congr fun i hi j hj => ?_
    have e := congrFun (congrFun hcol' ⟨i, hi⟩) ⟨j, hj⟩
    rw [Matrix.mul_apply] at e
    rw [Finset.sum_range]
    refine Eq.trans ?_ e.symm
    refine sum_congr rfl fun t _ => ?_
    rw [getD_cm _ _ hi t.2]
    rfl
  refine ⟨⟨cm n r fun i k => a i (c.getD k 0), qr m r Cg, p, c, V, W, s.Aold, st2⟩, ?_,
    ⟨⟨rfl, q2, m2, w2, w3, m4, w4, h.Aold, k2, ⟨_, hcol'⟩⟩, m3, hsr, k3, k4 _ g3⟩, rfl⟩
  rw [skIter]
  simp only []
  rw [m1 _ _ h.rows h.ta, bind_ok, if_neg (by simp), g1, bind_ok]
  simp only []
  rw [w1 _ _ h.cols h.tb, bind_ok, m1 _ _ m2 m4, bind_ok, if_neg (by simp)]
  simp only []
  rw [dgemmNN_ok q2.ge w4.ge (by simp), bind_ok, k1, bind_ok, dgemmNT_ok (by rw [cm_length]) (by rw [cm_length]) (by simp), bind_ok]
  simp only []
  rw [← htm, hAn]

theorem Post.setA {s : LS σ} (h : Post a n m r I hasC hasR s) {B : List ℝ} (hB : B.length = n * m) :
    Post a n m r I hasC hasR { s with Aold := B } :=
  ⟨⟨h.R, h.Cm, h.rows, h.cols, h.colt, h.ta, h.tb, hB, h.st, h.span⟩, h.rolt, h.spanR, h.hC, h.hR⟩

/-- The loop: `iter` passes are done; from the second pass on `Aold` is the table itself. -/
theorem skLoop_ok (hqr : QrLaw qr) (ho : OpsLaw a n m r ops I hasC hasR) (hmv : MvAll qr mv a n m r) (hrn : r ≤ n) (hrm : r ≤ m)
    (hn : 0 < n) (delta : ℝ) :
    ∀ (fuel iter : Nat) (s : LS σ), fuel + iter = n + 2 → 0 < fuel → Val a n m r I s → (0 < iter → s.Aold = cm n m a) →
      (fullM a n m ≠ 0 ∧ 0 < delta → iter ≤ 1) →
      ∃ c s', skLoop qr mv ops delta n m r fuel iter s = .ok (c, s') ∧ Post a n m r I hasC hasR s' ∧
        (fullM a n m ≠ 0 ∧ 0 < delta → c = 1) ∧ (¬ (fullM a n m ≠ 0 ∧ 0 < delta) → c = 2)
  | 0, _, _, _, h0, _, _, _ => absurd h0 (by decide)
  | fuel + 1, iter, s, hf, _, h, hA, hz => by
    obtain ⟨s', e1, e2, e3⟩ := skIter_ok hqr ho hmv hrn hrm h
    have hlen : (cm n m a).length = n * m := cm_length n m a
    rw [skLoop, e1, bind_ok]
    simp only []
    rw [if_neg (by decide), Opt.norm2diff_ok _ hlen h.Aold, bind_ok, conv]
    by_cases hi : iter = 0
    · rw [if_pos hi, bind_ok, if_neg (by decide)]
      exact skLoop_ok hqr ho hmv hrn hrm hn delta fuel (iter + 1) _ (by omega) (by omega) (e2.setA hlen).toVal (fun _ => rfl)
        (fun _ => by omega)
    · rw [if_neg hi, Tt.norm2_ok hlen, bind_ok, bind_ok]
      have hd : Opt.dist2 (n * m) (cm n m a) s.Aold = 0 := by
        rw [hA (by omega), Opt.dist2]
        exact sum_eq_zero fun i _ => by rw [sub_self]; norm_num
      have hfro : Real.sqrt (∑ b ∈ range (n * m), (cm n m a).getD b 0 ^ 2) = 0 ↔ fullM a n m = 0 := by
        rw [Real.sqrt_eq_zero (sum_nonneg fun i _ => sq_nonneg _), sum_eq_zero_iff_of_nonneg (fun i _ => sq_nonneg _)]
        constructor
        · intro hh
          ext i j
          have := hh (j * n + i) (mem_range.2 (cm_idx_lt i.2 j.2))
          rw [getD_cm _ _ i.2 j.2] at this
          exact pow_eq_zero_iff (two_ne_zero) |>.1 this
        · intro hh b hb
          have hb' := mem_range.1 hb
          have hj : b / n < m := (Nat.div_lt_iff_lt_mul hn).2 (by rwa [Nat.mul_comm])
          have e := congrFun (congrFun hh ⟨b % n, Nat.mod_lt _ hn⟩) ⟨b / n, hj⟩
          have : (cm n m a).getD (b / n * n + b % n) 0 = a (b % n) (b / n) := getD_cm _ _ (Nat.mod_lt _ hn) hj
          rw [Nat.div_add_mod'] at this
          rw [this, show a (b % n) (b / n) = 0 from e]
          norm_num
      have hq : quotLt (Real.sqrt (Opt.dist2 (n * m) (cm n m a) s.Aold)) (Real.sqrt (∑ b ∈ range (n * m), (cm n m a).getD b 0 ^ 2)) delta
          = decide (fullM a n m ≠ 0 ∧ 0 < delta) := by
        rw [quotLt, hd, Real.sqrt_zero, zero_div]
        exact decide_eq_decide.2 (and_congr_left fun _ => not_congr hfro)
      rw [hq]
      by_cases hg : fullM a n m ≠ 0 ∧ 0 < delta
      · have := hz hg
        rw [if_neg (show ¬ n < iter by omega), decide_eq_true hg, if_pos rfl, if_pos (by decide)]
        exact ⟨1, _, rfl, e2.setA hlen, fun _ => rfl, fun hh => absurd hg hh⟩
      · rw [decide_eq_false hg]
        by_cases hni : n < iter
        · rw [if_pos hni, if_pos (by decide)]
          exact ⟨2, _, rfl, e2.setA hlen, fun hh => absurd hh hg, fun _ => rfl⟩
        · rw [if_neg hni, if_neg (by decide)]
          exact skLoop_ok hqr ho hmv hrn hrm hn delta fuel (iter + 1) _ (by omega) (by omega) (e2.setA hlen).toVal (fun _ => rfl)
            (fun hh => absurd hh hg)

theorem skRun_ok (hqr : QrLaw qr) (ho : OpsLaw a n m r ops I hasC hasR) (hmv : MvAll qr mv a n m r) (hrn : r ≤ n) (hrm : r ≤ m)
    (hn : 0 < n) (delta : ℝ) {rows cols : List Nat} (hr : rows.length = r) (hc : cols.length = r) (hcl : ∀ i < r, cols.getD i 0 < m)
    (hsp : SpanC a n m r cols) {st : σ} (hst : I st) :
    ∃ c s', skRun qr mv ops delta n m r rows cols st = .ok (c, s') ∧ Post a n m r I hasC hasR s' ∧
      (fullM a n m ≠ 0 ∧ 0 < delta → c = 1) ∧ (¬ (fullM a n m ≠ 0 ∧ 0 < delta) → c = 2) := by
  obtain ⟨st', h1, h2, -, -⟩ := ho.cols st cols (List.replicate (n * r) 0) hst hc hcl (by simp)
  rw [skRun, h1, bind_ok]
  exact skLoop_ok hqr ho hmv hrn hrm hn delta (n + 2) 0 _ rfl (by omega)
    ⟨rfl, by simp, hr, hc, hcl, by simp, by simp, by simp, h2, hsp⟩ (fun h => absurd h (by decide)) (fun _ => by decide)

end Loop
end C3.Sk
