/- Modified Gram-Schmidt factorization of arrays of functions (C30). -/
import Verif.Qr.Props
import Mathlib.LinearAlgebra.Finsupp.LinearCombination

set_option linter.unusedSectionVars false

namespace C3.Qr
open Finset
open C3.Lin (dv dv_ok)
variable {E : Type} [NormedAddCommGroup E] [InnerProductSpace ℝ E]

section
variable {thr : ℝ} {pos rpos : Nat → Nat → Nat} {m len N M ii : Nat}

/-- State before step `ii`, for the array `A0` the call was given. -/
structure GInv (thr : ℝ) (pos rpos : Nat → Nat → Nat) (m len N M : Nat) (A0 : List E) (R0 : List ℝ) (ii : Nat) (s : List E × List ℝ) : Prop where
  lenA : s.1.length = N
  lenR : s.2.length = M
  orth : ∀ i < ii, ∀ j < ii, inner ℝ (vw len s.1 (pos i)) (vw len s.1 (pos j)) = if i = j then (1 : ℝ) else 0
  perp : ∀ k < ii, ∀ j, ii ≤ j → j < m → inner ℝ (vw len s.1 (pos k)) (vw len s.1 (pos j)) = (0 : ℝ)
  lo : ∀ j < ii, vw len A0 (pos j) = ∑ k ∈ range (j + 1), s.2.getD (rpos j k) 0 • vw len s.1 (pos k)
  hi : ∀ j, ii ≤ j → j < m → vw len A0 (pos j) = vw len s.1 (pos j) + ∑ k ∈ range ii, s.2.getD (rpos j k) 0 • vw len s.1 (pos k)
  diag : ∀ j < ii, thr < s.2.getD (rpos j j) 0
  keep : ∀ j < m, ∀ k < m, j < k → s.2.getD (rpos j k) 0 = R0.getD (rpos j k) 0

variable {A0 : List E} {R0 : List ℝ} {s : List E × List ℝ}

theorem gsStep_abort (hL : Lay pos m len N) (hLR : Lay rpos m m M) (hii : ii < m) (h : GInv thr pos rpos m len N M A0 R0 ii s)
    (hn : ‖vw len s.1 (pos ii)‖ ≤ thr) : gsStep thr pos rpos m len ii s = .error .assertFail := by
  have hAl : ∀ l < len, pos ii l < s.1.length := fun l hl => by rw [h.lenA]; exact hL.lt ii hii l hl
  have hRl : rpos ii ii < s.2.length := by rw [h.lenR]; exact hLR.lt ii hii ii hii
  unfold gsStep
  rw [arrNorm_ok hAl, bind_ok, wr_ok _ hRl, bind_ok, rd_getD 0 (by rw [List.length_set]; exact hRl), bind_ok, getD_setR hRl, if_pos rfl,
    if_neg (not_lt.2 hn)]

theorem gsStep_ok (ht : 0 ≤ thr) (hL : Lay pos m len N) (hLR : Lay rpos m m M) (hii : ii < m) (h : GInv thr pos rpos m len N M A0 R0 ii s)
    (hn : thr < ‖vw len s.1 (pos ii)‖) : ∃ s', gsStep thr pos rpos m len ii s = .ok s' ∧ GInv thr pos rpos m len N M A0 R0 (ii + 1) s' := by
  have hAl : ∀ l < len, pos ii l < s.1.length := fun l hl => by rw [h.lenA]; exact hL.lt ii hii l hl
  have hRl : rpos ii ii < s.2.length := by rw [h.lenR]; exact hLR.lt ii hii ii hii
  set ρ := ‖vw len s.1 (pos ii)‖ with hρ
  have hρ0 : 0 < ρ := lt_of_le_of_lt ht hn
  obtain ⟨A1, e1, u1⟩ := scale_ok (n := len) (q := pos ii) (y := s.1) hAl (hL.inj1 hii) (1 / ρ)
  have hA1 : A1.length = N := by rw [u1.len, h.lenA]
  set q := (1 / ρ) • vw len s.1 (pos ii) with hq
  have hqq : inner ℝ q q = (1 : ℝ) := by
    rw [hq, real_inner_smul_left, real_inner_smul_right, real_inner_self_eq_norm_sq, ← hρ]; field_simp
  obtain ⟨A', R', e2, h1, h2, h3, h4, h5, h6⟩ := sweep_ok (m := m) (ii := ii) hL hLR hii (A := A1) (R := s.2.set (rpos ii ii) ρ)
    (fun x => (-(inner ℝ q x : ℝ)) • q + x) (fun x => inner ℝ q x)
    (body := fun jj (s : List E × List ℝ) => do
      let r ← innerSum len (pos ii) s.1 (pos jj) s.1
      let R ← wr s.2 (rpos jj ii) r
      let rr ← rd R (rpos jj ii)
      let A ← axpyIn len (-rr) (pos ii) (pos jj) s.1
      pure (A, R))
    (fun kk hk hkm B S hB hS hq' => by
      rw [u1.val] at hq'
      have hBi : ∀ l < len, pos ii l < B.length := fun l hl => by rw [hB]; exact hL.lt ii hii l hl
      have hBk : ∀ l < len, pos kk l < B.length := fun l hl => by rw [hB]; exact hL.lt kk hkm l hl
      have hSl : rpos kk ii < S.length := by rw [hS]; exact hLR.lt kk hkm ii hii
      obtain ⟨B', e, u⟩ := axpyIn_ok hBk (hL.inj1 hkm) (-(inner ℝ q (vw len B (pos kk)) : ℝ)) hBi (hL.disj hkm hii (by omega))
      rw [hq'] at u
      refine ⟨B', ?_, u⟩
      dsimp only
      rw [innerSum_ok hBi hBk, bind_ok, hq', wr_ok _ hSl, bind_ok, rd_getD 0 (by rw [List.length_set]; exact hSl), bind_ok, getD_setR hSl, if_pos rfl,
        e, bind_ok]
      rfl) hA1 (by rw [List.length_set, h.lenR])
  refine ⟨(A', R'), ?_, ?_⟩
  · unfold gsStep
    rw [arrNorm_ok hAl, bind_ok, wr_ok _ hRl, bind_ok, rd_getD 0 (by rw [List.length_set]; exact hRl), bind_ok, getD_setR hRl, if_pos rfl,
      ← hρ, if_pos hn, dv_ok hρ0.ne', bind_ok, e1, bind_ok, e2]
  · have hvlo : ∀ j < ii, vw len A' (pos j) = vw len s.1 (pos j) := fun j hj => by
      rw [h3 j (by omega), u1.other (hL.disj hii (by omega) (by omega))]
    have hvi : vw len A' (pos ii) = q := by rw [h3 ii le_rfl, u1.val]
    have hvhi : ∀ j, ii < j → j < m → vw len A' (pos j) = (-(inner ℝ q (vw len s.1 (pos j)) : ℝ)) • q + vw len s.1 (pos j) := fun j hj1 hj2 => by
      rw [h4 j hj1 hj2, u1.other (hL.disj hii hj2 (by omega))]
    have hR1 : ∀ j < m, ∀ k < m, k ≠ ii → R'.getD (rpos j k) 0 = s.2.getD (rpos j k) 0 := fun j hj k hk hki => by
      rw [h5 j hj k hk (Or.inl hki), getD_setR hRl, if_neg (fun c => hki (hLR.inj j hj k hk ii hii ii hii c).2)]
    have hR2 : ∀ j < ii, R'.getD (rpos j ii) 0 = s.2.getD (rpos j ii) 0 := fun j hj => by
      rw [h5 j (by omega) ii hii (Or.inr (by omega)), getD_setR hRl, if_neg (fun c => by have := (hLR.inj j (by omega) ii hii ii hii ii hii c).1; omega)]
    have hRd : R'.getD (rpos ii ii) 0 = ρ := by rw [h5 ii hii ii hii (Or.inr le_rfl), getD_setR hRl, if_pos rfl]
    have hRh : ∀ j, ii < j → j < m → R'.getD (rpos j ii) 0 = inner ℝ q (vw len s.1 (pos j)) := fun j hj1 hj2 => by
      rw [h6 j hj1 hj2, u1.other (hL.disj hii hj2 (by omega))]
    have hqp : ∀ k < ii, inner ℝ (vw len s.1 (pos k)) q = (0 : ℝ) := fun k hk => by
      rw [hq, real_inner_smul_right, h.perp k hk ii le_rfl hii, mul_zero]
    refine ⟨h1, h2, fun i hi j hj => ?_, fun k hk j hj1 hj2 => ?_, fun j hj => ?_, fun j hj1 hj2 => ?_, fun j hj => ?_, fun j hj k hk hjk => ?_⟩
    · dsimp only
      by_cases hi' : i = ii
      · by_cases hj' : j = ii
        · rw [hi', hj', hvi, hqq, if_pos rfl]
        · rw [hi', hvi, hvlo j (by omega), real_inner_comm, hqp j (by omega), if_neg (by omega)]
      · by_cases hj' : j = ii
        · rw [hj', hvi, hvlo i (by omega), hqp i (by omega), if_neg (by omega)]
        · rw [hvlo i (by omega), hvlo j (by omega), h.orth i (by omega) j (by omega)]
    · dsimp only
      rw [hvhi j (by omega) hj2, inner_add_right, real_inner_smul_right]
      by_cases hk' : k = ii
      · rw [hk', hvi, hqq]; ring
      · rw [hvlo k (by omega), hqp k (by omega), h.perp k (by omega) j (by omega) hj2]; ring
    · dsimp only
      by_cases hj' : j = ii
      · subst hj'
        rw [h.hi j le_rfl hii, sum_range_succ, hRd, hvi, hq, smul_smul, mul_one_div_cancel hρ0.ne', one_smul, add_comm]
        congr 1
        refine sum_congr rfl fun k hk => ?_
        have hk' := mem_range.1 hk
        rw [hvlo k hk', hR1 j hii k (by omega) (by omega)]
      · rw [h.lo j (by omega)]
        refine sum_congr rfl fun k hk => ?_
        have hk' := mem_range.1 hk
        rw [hvlo k (by omega), hR1 j (by omega) k (by omega) (by omega)]
    · dsimp only
      rw [h.hi j (by omega) hj2, sum_range_succ, hvhi j (by omega) hj2, hRh j (by omega) hj2, hvi]
      rw [show ∑ k ∈ range ii, R'.getD (rpos j k) 0 • vw len A' (pos k) = ∑ k ∈ range ii, s.2.getD (rpos j k) 0 • vw len s.1 (pos k) from
        sum_congr rfl fun k hk => by
          have hk' := mem_range.1 hk
          rw [hvlo k hk', hR1 j hj2 k (by omega) (by omega)]]
      module
    · dsimp only
      by_cases hj' : j = ii
      · rw [hj', hRd]; exact hn
      · rw [hR1 j (by omega) j (by omega) hj']; exact h.diag j (by omega)
    · dsimp only
      by_cases hk' : k = ii
      · rw [hk', hR2 j (by omega)]; exact h.keep j hj ii hii (by omega)
      · rw [hR1 j hj k hk hk']; exact h.keep j hj k hk hjk

/-- Vector `j` is within `thr` of a combination of the vectors before it. -/
def Dependent (thr : ℝ) (pos : Nat → Nat → Nat) (len : Nat) (A : List E) (j : Nat) : Prop :=
  ∃ c : Nat → ℝ, ∑ i ∈ range len, ‖A.getD (pos j i) 0 - ∑ k ∈ range j, c k • A.getD (pos k i) 0‖ ^ 2 ≤ thr ^ 2

theorem dependent_iff (ht : 0 ≤ thr) {A : List E} {j : Nat} : Dependent thr pos len A j ↔
    ∃ c : Nat → ℝ, ‖vw len A (pos j) - ∑ k ∈ range j, c k • vw len A (pos k)‖ ≤ thr := by
  unfold Dependent
  refine exists_congr fun c => ?_
  have : ∑ i ∈ range len, ‖A.getD (pos j i) 0 - ∑ k ∈ range j, c k • A.getD (pos k i) 0‖ ^ 2 =
      ‖vw len A (pos j) - ∑ k ∈ range j, c k • vw len A (pos k)‖ ^ 2 := by
    rw [← real_inner_self_eq_norm_sq, PiLp.inner_apply, Finset.sum_range]
    refine sum_congr rfl fun i _ => ?_
    rw [real_inner_self_eq_norm_sq]
    congr 2
    rw [PiLp.sub_apply, WithLp.ofLp_sum, Finset.sum_apply]
    rfl
  rw [this]
  exact pow_le_pow_iff_left₀ (norm_nonneg _) ht two_ne_zero

/-- The orthonormal vectors are combinations of the given ones. -/
theorem GInv.span (ht : 0 ≤ thr) (h : GInv thr pos rpos m len N M A0 R0 ii s) : ∀ k < ii,
    vw len s.1 (pos k) ∈ Submodule.span ℝ ((fun l => vw len A0 (pos l)) '' Set.Iio ii) := by
  intro k
  induction k using Nat.strong_induction_on with
  | _ k ih =>
    intro hk
    have h0 : s.2.getD (rpos k k) 0 ≠ 0 := by have := h.diag k hk; intro c; rw [c] at this; linarith
    have h1 : vw len s.1 (pos k) = (s.2.getD (rpos k k) 0)⁻¹ •
        (vw len A0 (pos k) - ∑ l ∈ range k, s.2.getD (rpos k l) 0 • vw len s.1 (pos l)) := by
      rw [h.lo k hk, sum_range_succ, add_sub_cancel_left, inv_smul_smul₀ h0]
    rw [h1]
    refine Submodule.smul_mem _ _ (Submodule.sub_mem _ (Submodule.subset_span ⟨k, hk, rfl⟩) (Submodule.sum_mem _ fun l hl => ?_))
    have hl' := mem_range.1 hl
    exact Submodule.smul_mem _ _ (ih l hl' (by omega))

theorem span_coef {X : Type} [AddCommGroup X] [Module ℝ X] {a : Nat → X} {n : Nat} {x : X} (h : x ∈ Submodule.span ℝ (a '' Set.Iio n)) :
    ∃ c : Nat → ℝ, x = ∑ k ∈ range n, c k • a k := by
  refine Submodule.span_induction (p := fun x _ => ∃ c : Nat → ℝ, x = ∑ k ∈ range n, c k • a k) ?_ ?_ ?_ ?_ h
  · rintro _ ⟨k, hk, rfl⟩
    refine ⟨fun i => if i = k then 1 else 0, ?_⟩
    have hk' : k < n := hk
    simp [hk']
  · exact ⟨fun _ => 0, by simp⟩
  · rintro _ _ _ _ ⟨c, rfl⟩ ⟨d, rfl⟩
    exact ⟨fun k => c k + d k, by simp [add_smul, sum_add_distrib]⟩
  · rintro r _ _ ⟨c, rfl⟩
    exact ⟨fun k => r * c k, by simp [mul_smul, smul_sum]⟩

theorem sum_mem_span {X : Type} [AddCommGroup X] [Module ℝ X] {a : Nat → X} {n : Nat} {c : Nat → ℝ} :
    ∑ k ∈ range n, c k • a k ∈ Submodule.span ℝ (a '' Set.Iio n) :=
  Submodule.sum_mem _ fun k hk => Submodule.smul_mem _ _ (Submodule.subset_span ⟨k, mem_range.1 hk, rfl⟩)

/-- In a finished factorization no vector depends on the ones before it. -/
theorem GInv.indep (ht : 0 ≤ thr) (h : GInv thr pos rpos m len N M A0 R0 m s) {j : Nat} (hj : j < m) : ¬ Dependent thr pos len A0 j := by
  rw [dependent_iff ht]
  rintro ⟨c, hc⟩
  set q := vw len s.1 (pos j) with hq
  have h1 : inner ℝ q (vw len A0 (pos j) - ∑ k ∈ range j, c k • vw len A0 (pos k)) = s.2.getD (rpos j j) 0 := by
    have h2 : ∀ l ≤ j, inner ℝ q (vw len A0 (pos l)) = if l = j then s.2.getD (rpos j j) 0 else (0 : ℝ) := by
      intro l hl
      rw [h.lo l (by omega), inner_sum]
      rw [sum_congr rfl fun k hk => show inner ℝ q (s.2.getD (rpos l k) 0 • vw len s.1 (pos k)) = if j = k then s.2.getD (rpos l k) 0 else 0 by
        have hk' := mem_range.1 hk
        rw [real_inner_smul_right, hq, h.orth j hj k (by omega), mul_ite, mul_one, mul_zero]]
      rw [sum_ite_eq]
      by_cases hlj : l = j
      · subst hlj; simp
      · rw [if_neg (by rw [mem_range]; omega), if_neg hlj]
    rw [inner_sub_right, h2 j le_rfl, if_pos rfl, inner_sum, sum_eq_zero, sub_zero]
    intro k hk
    have hk' := mem_range.1 hk
    rw [real_inner_smul_right, h2 k hk'.le, if_neg (by omega), mul_zero]
  have h3 := real_inner_le_norm q (vw len A0 (pos j) - ∑ k ∈ range j, c k • vw len A0 (pos k))
  have h4 : ‖q‖ = 1 := by
    have := h.orth j hj j hj
    rw [if_pos rfl, real_inner_self_eq_norm_sq] at this
    have h0 := norm_nonneg q
    nlinarith
  rw [h1, h4, one_mul] at h3
  have := h.diag j hj
  linarith

end

end C3.Qr
