/- Helper lemmas for the algebra of orthogonal polynomial expansions. -/
import Verif.Poly.Alg
import Verif.Poly.ArrProps

set_option linter.unusedSectionVars false

namespace C3.Poly
open Finset
open C3.Lin (dv dv_ok)
variable {K : Type} [Field K] [LinearOrder K] [IsStrictOrderedRing K]

/-- What rounding may do: drop or clear coefficients that are below the threshold, absolutely or relatively to the number of
polynomials times some coefficient; nothing else changes. -/
structure Rounded (thr : K) (f r : Ope K) : Prop where
  fam : r.fam = f.fam
  map : r.map = f.map
  lb : r.lb = f.lb
  ub : r.ub = f.ub
  krist : r.krist = f.krist
  nalloc : r.nalloc = f.nalloc
  len : r.coeff.length = f.coeff.length
  pos : 1 ≤ r.num
  le : r.num ≤ f.num
  cf : ∀ k, r.cf k = f.cf k ∨ (r.cf k = 0 ∧ (|f.cf k| < thr ∨ ∃ j < f.num, |f.cf k| < thr * (f.num * |f.cf j|)))

theorem getD_of_ge {l : List K} {k : Nat} (h : l.length ≤ k) : l.getD k 0 = 0 := by
  rw [List.getD_eq_getElem?_getD, List.getElem?_eq_none h]; rfl

theorem maxAbs_ok {f : Ope K} (h : 1 ≤ f.num) (hl : f.num ≤ f.coeff.length) :
    ∃ m, maxAbs f = .ok m ∧ (∃ j < f.num, m = |f.coeff.getD j 0|) ∧ ∀ k < f.num, |f.coeff.getD k 0| ≤ m := by
  rw [maxAbs, rd_getD 0 (by omega), bind_ok]
  refine forR_spec (I := fun n m => (∃ j < f.num, m = |f.coeff.getD j 0|) ∧ ∀ k < n, |f.coeff.getD k 0| ≤ m) h
    ⟨⟨0, h, rfl⟩, fun k hk => by obtain rfl : k = 0 := by omega
                                 exact le_rfl⟩ ?_
  rintro i h1 h2 m ⟨⟨j, hj, hm⟩, hk⟩
  refine ⟨_, by rw [rd_getD 0 (by omega), bind_ok]; rfl, ?_, ?_⟩
  · split
    · exact ⟨i, h2, rfl⟩
    · exact ⟨j, hj, hm⟩
  · intro k hk'
    rcases Nat.lt_or_eq_of_le (Nat.lt_succ_iff.1 hk') with h4 | h4
    · have := hk k h4
      split
      · rename_i h5; exact this.trans (le_of_lt h5)
      · exact this
    · subst h4
      split
      · exact le_rfl
      · rename_i h5; exact not_lt.1 h5

/-- The value a coefficient has after the two tests. -/
def cut (thr m v : K) : K := if relSmall thr m (absCut thr v) then 0 else absCut thr v

theorem roundCut_ok (thr m : K) {n : Nat} {c : List K} (hl : n ≤ c.length) :
    ∃ s, roundCut thr m n c = .ok s ∧ s.1.length = c.length ∧ (∀ k < n, s.1.getD k 0 = cut thr m (c.getD k 0)) ∧
      (s.2 = true → ∀ k < n, relSmall thr m (absCut thr (c.getD k 0)) = true) := by
  obtain ⟨s, hs, h1, h2, h3, -⟩ := forN_spec (n := n) (s := (c, true))
    (body := fun jj (s : List K × Bool) => do
      let v ← rd s.1 jj
      if relSmall thr m (absCut thr v) then do
        let c ← wr s.1 jj 0
        pure (c, s.2)
      else do
        let c ← wr s.1 jj (absCut thr v)
        pure (c, false))
    (I := fun i s => s.1.length = c.length ∧ (∀ k < i, s.1.getD k 0 = cut thr m (c.getD k 0)) ∧
      (s.2 = true → ∀ k < i, relSmall thr m (absCut thr (c.getD k 0)) = true) ∧ ∀ k, i ≤ k → s.1.getD k 0 = c.getD k 0)
    ⟨rfl, fun k hk => absurd hk (Nat.not_lt_zero _), fun _ k hk => absurd hk (Nat.not_lt_zero _), fun _ _ => rfl⟩
    (by
      rintro i hi s ⟨h1, h2, h3, h4⟩
      have hs : ∀ (v : K) (k : Nat), (s.1.set i v).getD k 0 = if k = i then v else s.1.getD k 0 := by
        intro v k
        by_cases hk : k = i
        · subst hk
          rw [if_pos rfl, List.getD_eq_getElem?_getD, List.getElem?_set_self (by omega)]; rfl
        · rw [if_neg hk, List.getD_eq_getElem?_getD, List.getElem?_set_ne (Ne.symm hk), ← List.getD_eq_getElem?_getD]
      rw [rd_getD 0 (by omega), bind_ok, h4 i le_rfl]
      by_cases hr : relSmall thr m (absCut thr (c.getD i 0)) = true
      · rw [if_pos hr, wr_ok _ (by omega), bind_ok]
        refine ⟨_, rfl, by rw [List.length_set, h1], ?_, ?_, ?_⟩
        · intro k hk
          dsimp only
          rw [hs]
          by_cases hki : k = i
          · rw [if_pos hki, hki, cut, if_pos hr]
          · rw [if_neg hki, h2 k (by omega)]
        · intro ht k hk
          by_cases hki : k = i
          · rw [hki]; exact hr
          · exact h3 ht k (by omega)
        · intro k hk
          dsimp only
          rw [hs, if_neg (by omega), h4 k (by omega)]
      · rw [if_neg hr, wr_ok _ (by omega), bind_ok]
        refine ⟨_, rfl, by rw [List.length_set, h1], ?_, by simp, ?_⟩
        · intro k hk
          dsimp only
          rw [hs]
          by_cases hki : k = i
          · rw [if_pos hki, hki, cut, if_neg hr]
          · rw [if_neg hki, h2 k (by omega)]
        · intro k hk
          dsimp only
          rw [hs, if_neg (by omega), h4 k (by omega)])
  exact ⟨s, hs, h1, h2, h3⟩

theorem trimEnd_ok (thr : K) {c : List K} : ∀ {n : Nat}, n ≤ c.length →
    ∃ e, trimEnd thr c n = .ok e ∧ e ≤ n ∧ (∀ k, e ≤ k → k < n → |c.getD k 0| < thr) ∧ (0 < e → ¬ |c.getD (e - 1) 0| < thr)
  | 0, _ => ⟨0, rfl, le_rfl, fun k h1 h2 => by omega, fun h => by omega⟩
  | n + 1, hn => by
    rw [trimEnd, rd_getD 0 (by omega), bind_ok]
    by_cases h : |c.getD n 0| < thr
    · rw [if_pos h]
      obtain ⟨e, he, h1, h2, h3⟩ := trimEnd_ok thr (c := c) (n := n) (by omega)
      refine ⟨e, he, by omega, fun k hk1 hk2 => ?_, h3⟩
      rcases Nat.lt_or_eq_of_le (Nat.lt_succ_iff.1 hk2) with h4 | h4
      · exact h2 k hk1 h4
      · rw [h4]; exact h
    · rw [if_neg h]
      exact ⟨n + 1, rfl, le_rfl, fun k h1 h2 => by omega, fun _ => h⟩

theorem absCut_cases (thr v : K) : absCut thr v = v ∨ (absCut thr v = 0 ∧ |v| < thr) := by
  unfold absCut
  split
  · rename_i h; exact Or.inr ⟨rfl, h⟩
  · exact Or.inl rfl

theorem absCut_sub_le {thr : K} (h : 0 ≤ thr) (v : K) : |absCut thr v - v| ≤ thr := by
  rcases absCut_cases thr v with e | ⟨e, hv⟩
  · rw [e, sub_self, abs_zero]; exact h
  · rw [e, zero_sub, abs_neg]; exact hv.le

/-- A coefficient changes only to zero, and only when it is small. -/
theorem cut_cases {thr m v : K} (hm : 0 ≤ m) :
    cut thr m v = v ∨ (cut thr m v = 0 ∧ (|v| < thr ∨ |v| < thr * m)) := by
  unfold cut
  split
  · rename_i h
    right
    refine ⟨rfl, ?_⟩
    simp only [relSmall, Bool.and_eq_true, Bool.not_eq_true', decide_eq_false_iff_not, decide_eq_true_eq] at h
    obtain ⟨h0, h1⟩ := h
    rcases absCut_cases thr v with e | ⟨_, hv⟩
    · right
      rw [e, div_lt_iff₀ (lt_of_le_of_ne hm (Ne.symm h0))] at h1
      exact h1
    · exact Or.inl hv
  · rcases absCut_cases thr v with e | ⟨e, hv⟩
    · exact Or.inl e
    · exact Or.inr ⟨e, Or.inl hv⟩

/-- After the tests a coefficient is zero or at least the threshold. -/
theorem cut_small {thr m v : K} (h : |cut thr m v| < thr) : cut thr m v = 0 := by
  unfold cut at h ⊢
  split
  · rfl
  · rename_i h0
    rw [if_neg h0] at h
    unfold absCut at h ⊢
    split
    · rfl
    · rename_i h1; rw [if_neg h1] at h; exact absurd h h1

theorem round_ok {thr : K} {f : Ope K} (h : 1 ≤ f.num) (hl : f.num ≤ f.coeff.length) :
    ∃ r, round thr f = .ok r ∧ Rounded thr f r ∧
      (0 < thr → 2 < f.num → r.num = 1 ∨ r.cf (r.num - 1) ≠ 0 ∨ ∀ k, r.cf k = 0) := by
  obtain ⟨m, em, ⟨j, hj, hmj⟩, hmax⟩ := maxAbs_ok h hl
  have hm0 : 0 ≤ m * (f.num : K) := mul_nonneg (by rw [hmj]; exact abs_nonneg _) (Nat.cast_nonneg _)
  obtain ⟨s, es, s1, s2, s3⟩ := roundCut_ok thr (m * f.num) hl
  have cfk : ∀ k, f.cf k = if k < f.num then f.coeff.getD k 0 else 0 := fun _ => rfl
  -- the common part: any new number of polynomials that keeps all non-zero coefficients
  have fin : ∀ n, 1 ≤ n → n ≤ f.num → (∀ k, n ≤ k → k < f.num → s.1.getD k 0 = 0) →
      Rounded thr f { f with num := n, coeff := s.1 } := by
    intro n hn1 hn2 hz
    refine ⟨rfl, rfl, rfl, rfl, rfl, rfl, s1, hn1, hn2, fun k => ?_⟩
    have ek : ({ f with num := n, coeff := s.1 } : Ope K).cf k = if k < n then s.1.getD k 0 else 0 := rfl
    rw [ek]
    by_cases hk : k < f.num
    · have hc := cut_cases (thr := thr) (v := f.coeff.getD k 0) hm0
      rw [← s2 k hk] at hc
      have e1 : f.cf k = f.coeff.getD k 0 := by rw [cfk, if_pos hk]
      rw [e1]
      have tail : (|f.coeff.getD k 0| < thr ∨ |f.coeff.getD k 0| < thr * (m * ↑f.num)) →
          (|f.coeff.getD k 0| < thr ∨ ∃ j < f.num, |f.coeff.getD k 0| < thr * (f.num * |f.cf j|)) := by
        rintro (h1 | h1)
        · exact Or.inl h1
        · refine Or.inr ⟨j, hj, ?_⟩
          rw [show f.cf j = f.coeff.getD j 0 by rw [cfk, if_pos hj], ← hmj, mul_comm (f.num : K)]
          exact h1
      by_cases hkn : k < n
      · rw [if_pos hkn]
        rcases hc with h1 | ⟨h1, h2⟩
        · exact Or.inl h1
        · exact Or.inr ⟨h1, tail h2⟩
      · rw [if_neg hkn]
        have hz' := hz k (not_lt.1 hkn) hk
        rcases hc with h1 | ⟨h1, h2⟩
        · left; rw [← h1, hz']
        · exact Or.inr ⟨rfl, tail h2⟩
    · left
      rw [if_neg (by omega), cfk, if_neg hk]
  rw [round, em, bind_ok, es, bind_ok, roundNum]
  by_cases ha : s.2 = true
  · rw [if_pos ha, bind_ok]
    refine ⟨_, rfl, fin 1 le_rfl h (fun k _ hk => ?_), fun _ _ => Or.inl rfl⟩
    rw [s2 k hk, cut, if_pos (s3 ha k hk)]
  · rw [if_neg ha]
    by_cases hn : f.num > 2
    · rw [if_pos hn]
      obtain ⟨e, ee, e1, e2, e3⟩ := trimEnd_ok thr (c := s.1) (n := f.num) (by omega)
      rw [ee, bind_ok, pure_eq_ok, bind_ok]
      refine ⟨_, rfl, ?_, fun ht _ => ?_⟩
      · by_cases he : e > 0
        · rw [if_pos he]
          refine fin e he e1 (fun k h1 h2 => ?_)
          have := e2 k h1 h2
          rw [s2 k h2] at this ⊢
          exact cut_small this
        · rw [if_neg he]
          exact fin f.num h le_rfl (fun k h1 h2 => by omega)
      · by_cases he : e > 0
        · rw [if_pos he]
          right; left
          simp only [Ope.cf]
          rw [if_pos (by omega)]
          intro h0
          have e3' := e3 he
          rw [h0, abs_zero] at e3'; exact e3' ht
        · rw [if_neg he]
          right; right
          intro k
          simp only [Ope.cf]
          split
          · rename_i hk
            have := e2 k (by omega) hk
            rw [s2 k hk] at this ⊢
            exact cut_small this
          · rfl
    · rw [if_neg hn, bind_ok]
      exact ⟨_, rfl, fin f.num h le_rfl (fun k h1 h2 => by omega), fun _ h => absurd h hn⟩

end C3.Poly
