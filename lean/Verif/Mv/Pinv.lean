/-
C106: `pinv` and `remove_duplicates`.
-/
import Verif.Mv.Props
import Verif.Round.Inst

set_option linter.unusedSectionVars false

namespace C3.Mv
open Finset C3.Ft C3.Round
variable {U X : Type} {e : Ev ℝ U X} {F : Fam U X}

/-! ### `pinv` -/

/-- Reciprocal of a singular value, or zero if it is below the cutoff. -/
noncomputable def rcp (cutoff v : ℝ) : ℝ := if |v| < cutoff then 0 else 1 / v

theorem recip_ok {n : Nat} {cutoff : ℝ} {s : List ℝ} (hs : s.length = n)
    (h0 : ∀ p < n, s.getD p 0 = 0 → 0 < cutoff) :
    ∃ sm, recip n cutoff s n = .ok (sm, ((range n).filter fun p => cutoff ≤ |s.getD p 0|).card) ∧ sm.length = n * n ∧
      ∀ i < n, ∀ j < n, sm.getD (j * n + i) 0 = if i = j then rcp cutoff (s.getD i 0) else 0 := by
  obtain ⟨t, t1, t2, t3, t4⟩ := forN_spec (n := n) (body := fun ii (t : List ℝ × Nat) => do
      let v ← rd s ii
      if |v| < cutoff then do
        let sm ← wr t.1 (ii * n + ii) 0
        pure (sm, t.2)
      else if v = 0 then .error .ub
      else do
        let sm ← wr t.1 (ii * n + ii) (1 / v)
        pure (sm, t.2 + 1)) (s := (List.replicate (n * n) 0, 0))
    (I := fun k (t : List ℝ × Nat) => t.1.length = n * n ∧
      t.2 = ((range k).filter fun p => cutoff ≤ |s.getD p 0|).card ∧
      ∀ i < n, ∀ j < n, t.1.getD (j * n + i) 0 = if i = j ∧ i < k then rcp cutoff (s.getD i 0) else 0)
    ⟨by simp, by simp, fun i hi j hj => by rw [if_neg (by omega), List.getD_eq_getElem?_getD, List.getElem?_replicate]; split <;> rfl⟩
    (by
      rintro k hk ⟨sm, c⟩ ⟨a1, a2, a3⟩
      dsimp only at a1 a2 a3
      have hidx : k * n + k < sm.length := by rw [a1]; exact cm_idx_lt hk hk
      have hset : ∀ v, v = rcp cutoff (s.getD k 0) → ∀ i < n, ∀ j < n, (sm.set (k * n + k) v).getD (j * n + i) 0
          = if i = j ∧ i < k + 1 then rcp cutoff (s.getD i 0) else 0 := by
        intro v hv i hi j hj
        rw [List.getD_eq_getElem?_getD, List.getElem?_set]
        by_cases hij : k * n + k = j * n + i
        · have e1 := congrArg (· % n) hij
          have e2 := congrArg (· / n) hij
          simp only [cm_mod hi, cm_mod hk, cm_div hi, cm_div hk] at e1 e2
          subst e1; subst e2
          rw [if_pos rfl, if_pos hidx, if_pos ⟨rfl, by omega⟩, hv]; rfl
        · rw [if_neg hij, ← List.getD_eq_getElem?_getD, a3 i hi j hj]
          by_cases h : i = j ∧ i < k + 1
          · by_cases hik : i = k
            · exact absurd (by rw [← h.1, hik]) hij
            · rw [if_pos h, if_pos ⟨h.1, by omega⟩]
          · rw [if_neg h, if_neg (fun hh => h ⟨hh.1, by omega⟩)]
      rw [rd_getD 0 (by rw [hs]; exact hk), bind_ok, range_add_one, filter_insert]
      by_cases hc : |s.getD k 0| < cutoff
      · rw [if_pos hc, wr_ok _ hidx, bind_ok, pure_eq_ok]
        exact ⟨_, rfl, by simp [a1], by rw [if_neg (not_le.2 hc)]; exact a2, hset _ (by rw [rcp, if_pos hc])⟩
      · have hne : s.getD k 0 ≠ 0 := by
          intro h
          have := h0 k hk h
          rw [h, abs_zero] at hc
          exact hc this
        rw [if_neg hc, if_neg hne, wr_ok _ hidx, bind_ok, pure_eq_ok]
        exact ⟨_, rfl, by simp [a1], by rw [if_pos (not_lt.1 hc), card_insert_of_notMem (by simp), a2], hset _ (by rw [rcp, if_neg hc])⟩)
  refine ⟨t.1, by rw [recip, t1, ← t3], t2, fun i hi j hj => ?_⟩
  rw [t4 i hi j hj]
  by_cases h : i = j
  · rw [if_pos ⟨h, hi⟩, if_pos h]
  · rw [if_neg (fun hh => h hh.1), if_neg h]

theorem gemmX_ok {m : Nat} {A B : List ℝ} {ia ib : Nat → Nat → Nat} (ha : ∀ i < m, ∀ l < m, ia i l < A.length)
    (hb : ∀ l < m, ∀ j < m, ib l j < B.length) :
    gemmX m A ia B ib = .ok (cm m m (fun i j => ∑ l ∈ range m, A.getD (ia i l) 0 * B.getD (ib l j) 0)) := by
  rw [gemmX, forN_fill_cm _ (by simp)]
  intro j hj i hi b _
  rw [forN_sum (fun l => A.getD (ia i l) 0 * B.getD (ib l j) 0), bind_ok, zero_add]
  intro t ht s
  rw [rd_getD 0 (ha i hi t ht), rd_getD 0 (hb t ht j hj)]; rfl

/-- C106, `pinv`: the result is `V diag(1/s) Uᵀ` over the singular values not below the cutoff, and the returned number is
how many these are. -/
theorem pinv_formula {svd : Nat → Nat → List ℝ → C Svd} (h : SvdLaw svd) {n : Nat} (hn : 0 < n) {M : List ℝ}
    (hM : M.length = n * n) {cutoff : ℝ} :
    ∃ w, svd n n M = .ok w ∧ SvdGood n M w ∧ ((∀ p < n, w.s.getD p 0 = 0 → 0 < cutoff) →
      ∃ inv, pinv svd cutoff n M = .ok (inv, ((range n).filter fun p => cutoff ≤ w.s.getD p 0).card) ∧
        inv.length = n * n ∧ ∀ i < n, ∀ j < n, ent n inv i j
          = ∑ p ∈ range n, ent n w.vt p i * (rcp cutoff (w.s.getD p 0) * ent n w.u j p)) := by
  obtain ⟨w, w1, w2⟩ := h n M hn hM
  refine ⟨w, w1, w2, fun h0 => ?_⟩
  obtain ⟨sm, s1, s2, s3⟩ := recip_ok (cutoff := cutoff) w2.ls h0
  have hcard : ((range n).filter fun p => cutoff ≤ |w.s.getD p 0|) = (range n).filter fun p => cutoff ≤ w.s.getD p 0 :=
    filter_congr fun p hp => by rw [abs_of_nonneg (w2.nonneg p (mem_range.1 hp))]
  rw [hcard] at s1
  refine ⟨_, by
    rw [pinv, w1, bind_ok, s1, bind_ok]
    dsimp only
    rw [gemmX_ok (fun i hi l hl => by rw [w2.lvt]; exact cm_idx_lt hl hi) (fun l hl j hj => by rw [s2]; exact cm_idx_lt hj hl),
      bind_ok, gemmX_ok (fun i hi l hl => by rw [show (cm n n _ : List ℝ).length = n * n by simp [cm]]; exact cm_idx_lt hi hl)
        (fun l hl j hj => by rw [w2.lu]; exact cm_idx_lt hj hl), bind_ok, pure_eq_ok], by simp [cm], ?_⟩
  intro i hi j hj
  rw [ent, getD_cm _ _ hi hj]
  refine sum_congr rfl fun p hp => ?_
  have hp' := mem_range.1 hp
  rw [getD_cm _ _ hi hp', sum_eq_single_of_mem p hp (fun q hq hqp => by
    rw [s3 p hp' q (mem_range.1 hq), if_neg (fun hh => hqp hh.symm), mul_zero]), s3 p hp' p hp', if_pos rfl]
  rw [ent, ent, mul_assoc]

theorem mat_mul {n : Nat} {A B : List ℝ} (i j : Fin n) :
    (mat n A * mat n B) i j = ∑ p ∈ range n, ent n A i p * ent n B p j := by
  rw [Matrix.mul_apply, Finset.sum_range]; rfl

/-- C106, `pinv`: if no singular value is below the cutoff (and none vanishes), the result is the inverse, from both
sides, and the returned number is the order. -/
theorem pinv_inverse {svd : Nat → Nat → List ℝ → C Svd} (h : SvdLaw svd) {n : Nat} (hn : 0 < n) {M : List ℝ}
    (hM : M.length = n * n) {cutoff : ℝ}
    (hs : ∀ w, svd n n M = .ok w → ∀ p < n, 0 < w.s.getD p 0 ∧ cutoff ≤ w.s.getD p 0) :
    ∃ inv, pinv svd cutoff n M = .ok (inv, n) ∧ inv.length = n * n ∧ mat n inv * mat n M = 1 ∧ mat n M * mat n inv = 1 := by
  obtain ⟨w, w1, w2, w3⟩ := pinv_formula h hn hM (cutoff := cutoff)
  have hp := hs w w1
  obtain ⟨inv, i1, i2, i3⟩ := w3 (fun p hp' h0 => absurd h0 (hp p hp').1.ne')
  have hcard : ((range n).filter fun p => cutoff ≤ w.s.getD p 0).card = n := by
    rw [filter_true_of_mem (fun p hp' => (hp p (mem_range.1 hp')).2), card_range]
  rw [hcard] at i1
  have hU : (mat n w.u).transpose * mat n w.u = 1 := by
    ext p q
    rw [Matrix.mul_apply, Matrix.one_apply]
    have := w2.uon p p.2 q q.2
    rw [Finset.sum_range] at this
    simp only [Fin.ext_iff]
    exact this
  have hV : mat n w.vt * (mat n w.vt).transpose = 1 := by
    ext p q
    rw [Matrix.mul_apply, Matrix.one_apply]
    have := w2.von p p.2 q q.2
    rw [Finset.sum_range] at this
    simp only [Fin.ext_iff]
    exact this
  have hMm : mat n M = mat n w.u * (Matrix.diagonal (fun p : Fin n => w.s.getD p 0) * mat n w.vt) := by
    ext i j
    rw [Matrix.mul_apply, mat, Matrix.of_apply, w2.prod i i.2 j j.2, Finset.sum_range]
    refine sum_congr rfl fun p _ => ?_
    rw [Matrix.diagonal_mul]; rfl
  have hinv : mat n inv = (mat n w.vt).transpose * (Matrix.diagonal (fun p : Fin n => 1 / w.s.getD p 0) * (mat n w.u).transpose) := by
    ext i j
    rw [Matrix.mul_apply, mat, Matrix.of_apply, i3 i i.2 j j.2, Finset.sum_range]
    refine sum_congr rfl fun p _ => ?_
    rw [Matrix.diagonal_mul, rcp, if_neg (by rw [abs_of_pos (hp p p.2).1]; exact not_lt.2 (hp p p.2).2)]
    rfl
  have hone : mat n M * mat n inv = 1 := by
    have hd : (Matrix.diagonal (fun p : Fin n => w.s.getD p 0)) * Matrix.diagonal (fun p : Fin n => 1 / w.s.getD p 0) = 1 := by
      rw [Matrix.diagonal_mul_diagonal, ← Matrix.diagonal_one]
      congr 1
      funext p
      rw [mul_one_div, div_self (hp p p.2).1.ne']
    calc mat n M * mat n inv
        = mat n w.u * (Matrix.diagonal (fun p : Fin n => w.s.getD p 0) * ((mat n w.vt * (mat n w.vt).transpose) *
            (Matrix.diagonal (fun p : Fin n => 1 / w.s.getD p 0) * (mat n w.u).transpose))) := by
          rw [hMm, hinv]; simp only [mul_assoc]
      _ = mat n w.u * (((Matrix.diagonal (fun p : Fin n => w.s.getD p 0)) *
            Matrix.diagonal (fun p : Fin n => 1 / w.s.getD p 0)) * (mat n w.u).transpose) := by
          rw [hV, one_mul]; simp only [mul_assoc]
      _ = 1 := by rw [hd, one_mul]; exact mul_eq_one_comm.1 hU
  exact ⟨inv, i1, i2, mul_eq_one_comm.1 hone, hone⟩

/-- C106: with a cutoff of zero the result is the inverse for every nonsingular matrix. -/
theorem pinv_nonsingular {svd : Nat → Nat → List ℝ → C Svd} (h : SvdLaw svd) {n : Nat} (hn : 0 < n) {M : List ℝ}
    (hM : M.length = n * n) {cutoff : ℝ} (hc : cutoff ≤ 0) (hdet : (mat n M).det ≠ 0) :
    ∃ inv, pinv svd cutoff n M = .ok (inv, n) ∧ inv.length = n * n ∧ mat n inv * mat n M = 1 ∧ mat n M * mat n inv = 1 := by
  refine pinv_inverse h hn hM fun w hw p hp => ?_
  obtain ⟨w', w1, w2⟩ := h n M hn hM
  obtain rfl : w' = w := Except.ok.inj (w1.symm.trans hw)
  have hpos : 0 < w'.s.getD p 0 := by
    refine lt_of_le_of_ne (w2.nonneg p hp) fun h0 => hdet ?_
    have hMm : mat n M = mat n w'.u * (Matrix.diagonal (fun p : Fin n => w'.s.getD p 0) * mat n w'.vt) := by
      ext i j
      rw [Matrix.mul_apply, mat, Matrix.of_apply, w2.prod i i.2 j j.2, Finset.sum_range]
      refine sum_congr rfl fun p _ => ?_
      rw [Matrix.diagonal_mul]; rfl
    rw [hMm, Matrix.det_mul, Matrix.det_mul, Matrix.det_diagonal,
      prod_eq_zero (mem_univ (⟨p, hp⟩ : Fin n)) (by exact h0.symm)]
    ring
  exact ⟨hpos, hc.trans hpos.le⟩

/-- C106, disagreement: with a cutoff of zero, as in the call of lib_probability/probability.c:1200, a singular matrix makes
the routine divide by zero. -/
theorem pinv_zero_cutoff_actual {svd : Nat → Nat → List ℝ → C Svd} (h : SvdLaw svd) {M : List ℝ}
    (hM : M.length = 1 * 1) (h0 : M = [0]) : pinv svd 0 1 M = .error .ub := by
  obtain ⟨w, w1, w2⟩ := h 1 M (by omega) hM
  obtain ⟨s, hs⟩ := List.length_eq_one_iff.1 w2.ls
  obtain ⟨u, hu⟩ := List.length_eq_one_iff.1 w2.lu
  obtain ⟨v, hv⟩ := List.length_eq_one_iff.1 w2.lvt
  have h1 := w2.prod 0 (by omega) 0 (by omega)
  have h2 := w2.uon 0 (by omega) 0 (by omega)
  have h3 := w2.von 0 (by omega) 0 (by omega)
  rw [sum_range_one, hu, hs, hv, h0] at h1
  rw [sum_range_one, hu] at h2
  rw [sum_range_one, hv] at h3
  have h1 : (0 : ℝ) = u * (s * v) := h1
  have h2 : u * u = 1 := by rw [if_pos rfl] at h2; exact h2
  have h3 : v * v = 1 := by rw [if_pos rfl] at h3; exact h3
  have hs0 : s = 0 := by
    have : s = (u * u) * s * (v * v) := by rw [h2, h3]; ring
    rw [this, show u * u * s * (v * v) = u * (s * v) * (u * v) by ring, ← h1, zero_mul]
  have hrec : recip 1 0 [0] 1 = .error .ub := by
    rw [recip, forN_succ, forN_zero, ebind_ok]
    dsimp only
    rw [show rd [(0 : ℝ)] 0 = .ok 0 from rfl, bind_ok, if_neg (by simp), if_pos rfl]
  rw [pinv, w1, bind_ok, hs, hs0, hrec]
  rfl

example : ∃ inv, pinv svdAny 0 2 [1, 1, 0, 1] = .ok (inv, 2) ∧ mat 2 inv * mat 2 [1, 1, 0, 1] = 1 := by
  obtain ⟨inv, h1, -, h2, -⟩ := pinv_nonsingular svdAny_law (n := 2) (by omega) (M := [1, 1, 0, 1]) rfl (cutoff := 0) le_rfl (by
    rw [Matrix.det_fin_two]
    show ((1 : ℝ) * 1 - 0 * 1) ≠ 0
    norm_num)
  exact ⟨inv, h1, h2⟩

/-! ### `remove_duplicates` -/

/-- No two pivots of the same row are closer than `thr`. -/
def Apart (thr : ℝ) (dim : Nat) (piv : List Nat) (px : List ℝ) : Prop :=
  ∀ i j, i < j → j < dim → piv.getD i 0 = piv.getD j 0 → thr ≤ |px.getD i 0 - px.getD j 0|

theorem dupJ_ok {thr : ℝ} {piv : List Nat} {px : List ℝ} {ii : Nat} : ∀ (n jj : Nat), ii < jj → jj + n ≤ piv.length →
    jj + n ≤ px.length →
    (dupJ thr piv px ii n jj = .ok none ∧ ∀ j, jj ≤ j → j < jj + n → piv.getD ii 0 = piv.getD j 0 →
      thr ≤ |px.getD ii 0 - px.getD j 0|) ∨
    ∃ j, dupJ thr piv px ii n jj = .ok (some j) ∧ jj ≤ j ∧ j < jj + n ∧ piv.getD ii 0 = piv.getD j 0 ∧
      |px.getD ii 0 - px.getD j 0| < thr := by
  intro n
  induction n with
  | zero => intro jj _ _ _; exact Or.inl ⟨rfl, fun j h1 h2 => by omega⟩
  | succ n ih =>
    intro jj h1 h2 h3
    rw [dupJ, rd_getD 0 (by omega : ii < piv.length), bind_ok, rd_getD 0 (by omega : jj < piv.length), bind_ok,
      rd_getD 0 (by omega : ii < px.length), bind_ok, rd_getD 0 (by omega : jj < px.length), bind_ok]
    by_cases hc : piv.getD ii 0 = piv.getD jj 0 ∧ |px.getD ii 0 - px.getD jj 0| < thr
    · rw [if_pos hc]
      exact Or.inr ⟨jj, rfl, le_rfl, by omega, hc.1, hc.2⟩
    · rw [if_neg hc]
      rcases ih (jj + 1) (by omega) (by omega) (by omega) with ⟨a, b⟩ | ⟨j, a, b, c, d⟩
      · refine Or.inl ⟨a, fun j hj1 hj2 hp => ?_⟩
        by_cases hj : j = jj
        · subst hj
          exact not_lt.1 fun hh => hc ⟨hp, hh⟩
        · exact b j (by omega) (by omega) hp
      · exact Or.inr ⟨j, a, by omega, by omega, d⟩

theorem dupI_ok {thr : ℝ} {dim : Nat} {piv : List Nat} {px : List ℝ} (hp : piv.length = dim) (hx : px.length = dim) :
    ∀ (n ii : Nat), ii + n = dim →
    (dupI thr dim piv px n ii = .ok none ∧ ∀ i j, ii ≤ i → i < j → j < dim → piv.getD i 0 = piv.getD j 0 →
      thr ≤ |px.getD i 0 - px.getD j 0|) ∨
    ∃ i j, dupI thr dim piv px n ii = .ok (some j) ∧ i < j ∧ j < dim ∧ piv.getD i 0 = piv.getD j 0 ∧
      |px.getD i 0 - px.getD j 0| < thr := by
  intro n
  induction n with
  | zero => intro ii h; exact Or.inl ⟨rfl, fun i j h1 h2 h3 => by omega⟩
  | succ n ih =>
    intro ii h
    rw [dupI]
    rcases dupJ_ok (thr := thr) (piv := piv) (px := px) (ii := ii) (dim - (ii + 1)) (ii + 1) (by omega) (by omega) (by omega) with
      ⟨a, b⟩ | ⟨j, a, b, c, d, f⟩
    · rw [a, bind_ok]
      rcases ih (ii + 1) (by omega) with ⟨a', b'⟩ | ⟨i, j, a', b', c', d'⟩
      · refine Or.inl ⟨a', fun i j h1 h2 h3 hpv => ?_⟩
        by_cases hi : i = ii
        · subst hi; exact b j (by omega) (by omega) hpv
        · exact b' i j (by omega) h2 h3 hpv
      · exact Or.inr ⟨i, j, a', b', c', d'⟩
    · rw [a, bind_ok]
      exact Or.inr ⟨ii, j, rfl, by omega, by omega, d, f⟩

/-- C106, `remove_duplicates`: pivots that are apart are kept, and whatever is returned is apart. -/
theorem rdup_spec {thr lb ub : ℝ} {dim : Nat} {piv : List Nat} (hp : piv.length = dim) :
    ∀ (fuel : Nat) (px : List ℝ), px.length = dim →
      (Apart thr dim piv px → 0 < fuel → rdup thr lb ub dim piv fuel px = .ok px) ∧
      ∀ px', rdup thr lb ub dim piv fuel px = .ok px' → px'.length = dim ∧ Apart thr dim piv px' := by
  intro fuel
  induction fuel with
  | zero => intro px _; exact ⟨fun _ h => by omega, fun px' h => by simp [rdup] at h⟩
  | succ fuel ih =>
    intro px hx
    rcases dupI_ok (thr := thr) hp hx dim 0 (by omega) with ⟨a, b⟩ | ⟨i, j, a, b, c, d, f⟩
    · have hrun : rdup thr lb ub dim piv (fuel + 1) px = .ok px := by
        rw [rdup, a, bind_ok]; rfl
      refine ⟨fun _ _ => hrun, fun px' h => ?_⟩
      rw [hrun] at h
      rw [← Except.ok.inj h]
      exact ⟨hx, fun i j h1 h2 h3 => b i j (by omega) h1 h2 h3⟩
    · refine ⟨fun h _ => absurd (h i j b c d) (not_le.2 f), fun px' h => ?_⟩
      rw [rdup, a, bind_ok] at h
      dsimp only at h
      rw [rd_getD 0 (by omega : j < px.length), bind_ok, wr_ok _ (by omega : j < px.length), bind_ok] at h
      exact (ih _ (by simp [hx])).2 px' h

/-- C106, disagreement: `remove_duplicates` does not end when two pivots coincide in a domain that is a single point. -/
theorem rdup_diverges {thr : ℝ} (ht : 0 < thr) (a : ℝ) : ∀ fuel, rdup thr a a 2 [0, 0] fuel [a, a] = .error .diverge := by
  intro fuel
  induction fuel with
  | zero => rfl
  | succ n ih =>
    have h1 : dupI thr 2 [0, 0] [a, a] 2 0 = .ok (some 1) := by
      rcases dupI_ok (thr := thr) (dim := 2) (piv := [0, 0]) (px := [a, a]) rfl rfl 2 0 rfl with ⟨-, b⟩ | ⟨i, j, x, b, c, -⟩
      · exact absurd (b 0 1 (by omega) (by omega) (by omega) rfl) (by
          rw [not_le]
          show |a - a| < thr
          rwa [sub_self, abs_zero])
      · obtain rfl : j = 1 := by omega
        exact x
    rw [rdup, h1, bind_ok]
    dsimp only
    rw [show rd [a, a] 1 = .ok a from rfl, bind_ok, sub_self, abs_zero, if_neg (not_lt.2 ht.le), add_self_div_two,
      show wr [a, a] 1 a = .ok [a, a] from rfl, bind_ok, ih]

/-- Two coinciding pivots of one row in `[0,1]`: the second is halved. -/
example : ∀ px, rdup (1 / 100) 0 1 2 [0, 0] 5 [1, 1] = .ok px → Apart (1 / 100) 2 [0, 0] px := fun px h =>
  ((rdup_spec (dim := 2) (piv := [0, 0]) rfl 5 [1, 1] rfl).2 px h).2

end C3.Mv
