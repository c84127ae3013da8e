/- Householder sweeps over strided arrays: each step, and the chain of steps. -/
import Verif.Qr.Lemmas
import Verif.Qr.Theory

set_option linter.unusedSectionVars false

namespace C3.Qr
open Finset
open C3.Lin (dv)
variable {E : Type} [NormedAddCommGroup E] [InnerProductSpace ℝ E]

theorem getD_setR {l : List ℝ} {i : Nat} (hi : i < l.length) (v : ℝ) (k : Nat) : (l.set i v).getD k 0 = if k = i then v else l.getD k 0 := by
  rw [List.getD_eq_getElem?_getD, List.getElem?_set, List.getD_eq_getElem?_getD]
  by_cases hk : i = k
  · subst hk; simp [hi]
  · simp [hk, Ne.symm hk]

/-- Sizes of the arrays. -/
structure Shape (N M : Nat) (s : HS E) : Prop where
  A : s.A.length = N
  Q : s.Q.length = N
  V : s.V.length = N
  R : s.R.length = M

/-- What one step of a sweep does to the vectors. -/
structure StepRel (thr τ : ℝ) (pos rpos : Nat → Nat → Nat) (m len ii : Nat) (s s' : HS E) : Prop where
  Qk : ∀ k < m, k ≠ ii → vw len s'.Q (pos k) = vw len s.Q (pos k)
  Qi : vw len s'.Q (pos ii) = vw len s.Q (pos ii) ∨ vw len s'.Q (pos ii) = -vw len s.Q (pos ii)
  Vk : ∀ k < m, k ≠ ii → vw len s'.V (pos k) = vw len s.V (pos k)
  Rk : ∀ j < m, ∀ i < m, (i ≠ ii ∨ j < ii) → s'.R.getD (rpos j i) 0 = s.R.getD (rpos j i) 0
  nonneg : 0 ≤ s'.R.getD (rpos ii ii) 0
  unit : ‖vw len s'.V (pos ii)‖ = 1
  span : ∃ a b : ℝ, vw len s'.V (pos ii) = a • vw len s'.Q (pos ii) + b • vw len s.A (pos ii)
  upd : ∀ j, ii < j → j < m → ∃ t : ℝ, |t - inner ℝ (vw len s'.V (pos ii)) (vw len s.A (pos j))| ≤ τ ∧
    s'.R.getD (rpos j ii) 0 = inner ℝ (vw len s'.Q (pos ii)) (vw len s.A (pos j) - (2 * t) • vw len s'.V (pos ii)) ∧
    vw len s'.A (pos j) = vw len s.A (pos j) - (2 * t) • vw len s'.V (pos ii) - s'.R.getD (rpos j ii) 0 • vw len s'.Q (pos ii)
  diag : refl (vw len s'.V (pos ii)) (vw len s.A (pos ii)) = s'.R.getD (rpos ii ii) 0 • vw len s'.Q (pos ii) ∨
    (s'.R.getD (rpos ii ii) 0 < 2 * thr ∧
      ‖refl (vw len s'.V (pos ii)) (vw len s.A (pos ii)) - s'.R.getD (rpos ii ii) 0 • vw len s'.Q (pos ii)‖ ≤ 4 * thr)

/-- The facts a step needs about the vectors processed before. -/
structure Pre (pos : Nat → Nat → Nat) (m len ii : Nat) (s : HS E) : Prop where
  orth : ∀ i < m, ∀ j < m, inner ℝ (vw len s.Q (pos i)) (vw len s.Q (pos j)) = if i = j then (1 : ℝ) else 0
  perp : ∀ k < ii, ∀ j, ii ≤ j → j < m → inner ℝ (vw len s.Q (pos k)) (vw len s.A (pos j)) = (0 : ℝ)

section
variable {thr τ : ℝ} {pos rpos : Nat → Nat → Nat} {m len N M ii : Nat} {s s' : HS E}

theorem StepRel.pre (h : StepRel thr τ pos rpos m len ii s s') (hi : ii < m) (hp : Pre pos m len ii s) : Pre pos m len (ii + 1) s' := by
  have ho : ∀ i < m, ∀ j < m, inner ℝ (vw len s'.Q (pos i)) (vw len s'.Q (pos j)) = if i = j then (1 : ℝ) else 0 := by
    intro i hi' j hj
    by_cases h1 : i = ii
    · by_cases h2 : j = ii
      · subst h1; subst h2
        rcases h.Qi with e | e <;> rw [e]
        · exact hp.orth _ hi' _ hj
        · rw [inner_neg_neg]; exact hp.orth _ hi' _ hj
      · rw [h.Qk j hj h2]; subst h1
        have h3 := hp.orth i hi' j hj
        rcases h.Qi with e | e <;> rw [e]
        · exact h3
        · rw [inner_neg_left, h3, if_neg (Ne.symm h2)]; simp
    · rw [h.Qk i hi' h1]
      by_cases h2 : j = ii
      · subst h2
        have h3 := hp.orth i hi' j hj
        rcases h.Qi with e | e <;> rw [e]
        · exact h3
        · rw [inner_neg_right, h3, if_neg h1]; simp
      · rw [h.Qk j hj h2]; exact hp.orth i hi' j hj
  refine ⟨ho, fun k hk j hij hj => ?_⟩
  obtain ⟨t, -, hr, hA⟩ := h.upd j (by omega) hj
  rw [hA]
  by_cases hki : k = ii
  · subst hki
    rw [inner_sub_right, real_inner_smul_right, ho k hi k hi, if_pos rfl, ← hr]; ring
  · obtain ⟨a, b, hs⟩ := h.span
    have h1 : inner ℝ (vw len s'.Q (pos k)) (vw len s'.V (pos ii)) = (0 : ℝ) := by
      rw [hs, inner_add_right, real_inner_smul_right, real_inner_smul_right, ho k (by omega) ii hi, if_neg hki, h.Qk k (by omega) hki,
        hp.perp k (by omega) ii le_rfl hi]; ring
    rw [inner_sub_right, inner_sub_right, real_inner_smul_right, real_inner_smul_right, h1, ho k (by omega) ii hi, if_neg hki,
      h.Qk k (by omega) hki, hp.perp k (by omega) j (by omega) hj]; ring

/-- The chain of steps gives the relations of the abstract sweep. -/
theorem run_of_chain {t : Nat → HS E} (hS : ∀ i < m, StepRel thr τ pos rpos m len i (t i) (t (i + 1))) (hP : Pre pos m len m (t m)) :
    ∃ (c : Nat → Nat → ℝ),
    Run m τ (fun j => if (t m).R.getD (rpos j j) 0 < 2 * thr then 4 * thr else 0) (fun i j => vw len (t i).A (pos j))
      (fun j => vw len (t m).Q (pos j)) (fun j => vw len (t m).V (pos j)) c (fun j i => (t m).R.getD (rpos j i) 0) := by
  have hQ : ∀ k < m, ∀ d, k + 1 + d ≤ m → vw len (t (k + 1 + d)).Q (pos k) = vw len (t (k + 1)).Q (pos k) := by
    intro k hk d
    induction d with
    | zero => intro _; rfl
    | succ d ih => intro hd; rw [← ih (by omega)]; exact (hS (k + 1 + d) (by omega)).Qk k hk (by omega)
  have hV : ∀ k < m, ∀ d, k + 1 + d ≤ m → vw len (t (k + 1 + d)).V (pos k) = vw len (t (k + 1)).V (pos k) := by
    intro k hk d
    induction d with
    | zero => intro _; rfl
    | succ d ih => intro hd; rw [← ih (by omega)]; exact (hS (k + 1 + d) (by omega)).Vk k hk (by omega)
  have hR : ∀ k < m, ∀ j < m, ∀ d, k + 1 + d ≤ m → (t (k + 1 + d)).R.getD (rpos j k) 0 = (t (k + 1)).R.getD (rpos j k) 0 := by
    intro k hk j hj d
    induction d with
    | zero => intro _; rfl
    | succ d ih => intro hd; rw [← ih (by omega)]; exact (hS (k + 1 + d) (by omega)).Rk j hj k hk (Or.inl (by omega))
  have hQ' : ∀ k < m, vw len (t m).Q (pos k) = vw len (t (k + 1)).Q (pos k) := fun k hk => by
    have := hQ k hk (m - (k + 1)) (by omega); rwa [show k + 1 + (m - (k + 1)) = m by omega] at this
  have hV' : ∀ k < m, vw len (t m).V (pos k) = vw len (t (k + 1)).V (pos k) := fun k hk => by
    have := hV k hk (m - (k + 1)) (by omega); rwa [show k + 1 + (m - (k + 1)) = m by omega] at this
  have hR' : ∀ k < m, ∀ j < m, (t m).R.getD (rpos j k) 0 = (t (k + 1)).R.getD (rpos j k) 0 := fun k hk j hj => by
    have := hR k hk j hj (m - (k + 1)) (by omega); rwa [show k + 1 + (m - (k + 1)) = m by omega] at this
  have hc : ∀ i j, ∃ c : ℝ, i < j → j < m → |c - inner ℝ (vw len (t (i + 1)).V (pos i)) (vw len (t i).A (pos j))| ≤ τ ∧
      (t (i + 1)).R.getD (rpos j i) 0 = inner ℝ (vw len (t (i + 1)).Q (pos i)) (vw len (t i).A (pos j) - (2 * c) • vw len (t (i + 1)).V (pos i)) ∧
      vw len (t (i + 1)).A (pos j) = vw len (t i).A (pos j) - (2 * c) • vw len (t (i + 1)).V (pos i) -
        (t (i + 1)).R.getD (rpos j i) 0 • vw len (t (i + 1)).Q (pos i) := by
    intro i j
    by_cases h : i < j ∧ j < m
    · obtain ⟨c, h1⟩ := (hS i (by omega)).upd j h.1 h.2
      exact ⟨c, fun _ _ => h1⟩
    · exact ⟨0, fun h1 h2 => absurd ⟨h1, h2⟩ h⟩
  choose c hc using hc
  refine ⟨c, hP.orth, fun i hi => ?_, fun i hi => ?_, fun i j hij hj => ?_, fun i j hij hj => ?_, fun i j hij hj => ?_, fun i hi => ?_⟩
  · rw [hV' i hi]; exact (hS i hi).unit
  · rw [hV' i hi, hQ' i hi]; exact (hS i hi).span
  · rw [hV' i (by omega)]; exact (hc i j hij hj).1
  · rw [hV' i (by omega), hQ' i (by omega), hR' i (by omega) j hj]; exact (hc i j hij hj).2.1
  · rw [hV' i (by omega), hQ' i (by omega), hR' i (by omega) j hj]; exact (hc i j hij hj).2.2
  · rw [hV' i hi, hQ' i hi, hR' i hi i hi]
    rcases (hS i hi).diag with h | ⟨h1, h2⟩
    · rw [h, sub_self, norm_zero]
      split
      · have := (hS i hi).nonneg; linarith
      · exact le_rfl
    · rw [if_pos h1]; exact h2

variable (hL : Lay pos m len N)
include hL

/-- Forming the orthonormal factor from the reflectors. -/
theorem formQ_ok {V Q : List E} (hV : V.length = N) (hQ : Q.length = N) : ∃ Q', formQ pos m len V Q = .ok Q' ∧ Q'.length = N ∧
    ∀ j < m, vw len Q' (pos j) = qvec (fun k => vw len Q (pos k)) (fun k => vw len V (pos k)) j := by
  set v := fun k => vw len V (pos k) with hv
  obtain ⟨Q', e, h1, h2, h3⟩ := forN_spec (n := m) (s := Q)
    (body := fun counter Q =>
      let ii := m - 1 - counter
      forR ii m (fun jj Q => do
        let val ← innerSum len (pos jj) Q (pos ii) V
        axpy len (-2 * val) (pos ii) V (pos jj) Q) Q)
    (I := fun c Z => Z.length = N ∧ (∀ j < m - c, vw len Z (pos j) = vw len Q (pos j)) ∧
      ∀ j, m - c ≤ j → j < m → U v (m - c) (vw len Z (pos j)) = qvec (fun k => vw len Q (pos k)) v j)
    ⟨hQ, fun _ _ => rfl, fun j h1 h2 => by omega⟩
    (by
      rintro c hc Z ⟨h1, h2, h3⟩
      dsimp only
      set ii := m - 1 - c with hii
      have him : ii < m := by omega
      obtain ⟨Z', e, k1, k2, k3⟩ := forR_spec (a := ii) (b := m) (s := Z)
        (body := fun jj Q => do
          let val ← innerSum len (pos jj) Q (pos ii) V
          axpy len (-2 * val) (pos ii) V (pos jj) Q)
        (I := fun i Y => Y.length = N ∧ (∀ j < m, (j < ii ∨ i ≤ j) → vw len Y (pos j) = vw len Z (pos j)) ∧
          ∀ j, ii ≤ j → j < i → vw len Y (pos j) = refl (v ii) (vw len Z (pos j)))
        (by omega) ⟨h1, fun _ _ _ => rfl, fun j h1 h2 => by omega⟩
        (by
          rintro i hi1 hi2 Y ⟨k1, k2, k3⟩
          obtain ⟨Y', e, u⟩ := axpy_ok (n := len) (q := pos i) (y := Y) (fun l hl => by rw [k1]; exact hL.lt i hi2 l hl) (hL.inj1 hi2)
            (-2 * inner ℝ (vw len Y (pos i)) (vw len V (pos ii))) (p := pos ii) (x := V) (fun l hl => by rw [hV]; exact hL.lt ii him l hl)
          refine ⟨Y', ?_, by rw [u.len, k1], fun j hj hj' => ?_, fun j hj1 hj2 => ?_⟩
          · rw [innerSum_ok (fun l hl => by rw [k1]; exact hL.lt i hi2 l hl) (fun l hl => by rw [hV]; exact hL.lt ii him l hl), bind_ok, e]
          · rw [u.other (hL.disj hi2 hj (by omega)), k2 j hj (by omega)]
          · by_cases hji : j = i
            · subst hji
              rw [u.val, k2 j hi2 (Or.inr le_rfl), refl, real_inner_comm]
              module
            · rw [u.other (hL.disj hi2 (by omega) (Ne.symm hji)), k3 j hj1 (by omega)])
      refine ⟨Z', e, k1, fun j hj => ?_, fun j hj1 hj2 => ?_⟩
      · rw [k2 j (by omega) (Or.inl (by omega)), h2 j (by omega)]
      · have hm : m - (c + 1) = ii := by omega
        have hm' : m - c = ii + 1 := by omega
        rw [hm]
        rw [k3 j (by omega) hj2]
        by_cases hji : j = ii
        · rw [hji, h2 ii (by omega)]; rfl
        · have := h3 j (by omega) hj2
          rw [hm'] at this
          exact this)
  refine ⟨Q', e, h1, fun j hj => ?_⟩
  have := h3 j (by omega) hj
  rwa [Nat.sub_self, U] at this

end

end C3.Qr
