/- One step of `qmarray_householder`, `qmarray_householder_rows` and `quasimatrix_householder`. -/
import Verif.Qr.HqrStep

set_option linter.unusedSectionVars false

namespace C3.Qr
open Finset
open C3.Lin (dv dv_ok)
variable {E : Type} [NormedAddCommGroup E] [InnerProductSpace ℝ E]
variable {X : Type} [NormedAddCommGroup X] [InnerProductSpace ℝ X]

/-- The reflector chosen with thresholds: what it does to the vector it was built from. -/
theorem house_cases {thr ρ σ : ℝ} (ht : 0 ≤ thr) {e x v : X} (he : ‖e‖ = 1) (hex : inner ℝ e x < thr ∨ inner ℝ e x ≤ -thr)
    (hρ : ρ = if ‖x‖ < thr then 0 else ‖x‖) (hσ : σ = if ‖ρ • e - x‖ < thr then 0 else ‖ρ • e - x‖)
    (hv : v = if |σ| ≤ thr then e else (1 / σ) • (ρ • e - x)) :
    ‖v‖ = 1 ∧ (∃ a b : ℝ, v = a • e + b • x) ∧ (refl v x = ρ • e ∨ (ρ < 2 * thr ∧ ‖refl v x - ρ • e‖ ≤ 4 * thr)) := by
  by_cases h1 : ‖x‖ < thr
  · rw [if_pos h1] at hρ
    subst hρ
    have h2 : ‖(0 : ℝ) • e - x‖ < thr := by rwa [zero_smul, zero_sub, norm_neg]
    rw [if_pos h2] at hσ
    subst hσ
    rw [if_pos (by rw [abs_zero]; exact ht)] at hv
    subst hv
    have h3 := norm_nonneg x
    refine ⟨he, ⟨1, 0, by module⟩, Or.inr ⟨by linarith, ?_⟩⟩
    rw [zero_smul, sub_zero, refl_norm he]; linarith
  · rw [if_neg h1] at hρ
    subst hρ
    by_cases h2 : |σ| ≤ thr
    · rw [if_pos h2] at hv
      subst hv
      have h3 : ‖‖x‖ • v - x‖ ≤ thr := by
        by_cases h4 : ‖‖x‖ • v - x‖ < thr
        · exact h4.le
        · rw [if_neg h4] at hσ
          rwa [hσ, abs_of_nonneg (norm_nonneg _)] at h2
      have hn := norm_nonneg x
      refine ⟨he, ⟨1, 0, by module⟩, ?_⟩
      by_cases h5 : ‖x‖ < 2 * thr
      · refine Or.inr ⟨h5, (norm_sub_le _ _).trans ?_⟩
        rw [refl_norm he, norm_smul, he, norm_norm]; linarith
      · have hx0 : ‖x‖ = 0 := by
          rcases hex with h | h
          · have := house_small (ρ := ‖x‖) he (le_refl (inner ℝ v x)); linarith
          · have := house_small (ρ := ‖x‖) he h; linarith
        rw [norm_eq_zero] at hx0
        subst hx0
        left; unfold refl; simp
    · rw [if_neg h2] at hv
      have h3 : σ = ‖‖x‖ • e - x‖ := by
        by_cases h4 : ‖‖x‖ • e - x‖ < thr
        · rw [if_pos h4] at hσ; rw [hσ, abs_zero] at h2; exact absurd ht h2
        · rw [if_neg h4] at hσ; exact hσ
      have h4 : σ ≠ 0 := by intro c; rw [c, abs_zero] at h2; exact h2 ht
      obtain ⟨k1, k2⟩ := refl_house (x := x) he h3 h4
      rw [← hv] at k1 k2
      exact ⟨k1, ⟨1 / σ * ‖x‖, -(1 / σ), by rw [hv]; module⟩, Or.inl k2⟩

theorem trunc_close {thr : ℝ} (ht : 0 ≤ thr) (t : ℝ) : |(if |t| < thr then 0 else t) - t| ≤ thr := by
  split
  · next h => rw [zero_sub, abs_neg]; exact h.le
  · rw [sub_self, abs_zero]; exact ht

section
variable {thr : ℝ} {pos rpos : Nat → Nat → Nat} {m len N M ii : Nat} {s : HS E}

theorem unit_sign {Q : List E} {e : PiLp 2 (fun _ : Fin len => E)} (h1 : inner ℝ (vw len Q (pos ii)) (vw len Q (pos ii)) = (1 : ℝ))
    (he : e = vw len Q (pos ii) ∨ e = -vw len Q (pos ii)) : ‖e‖ = 1 := by
  have h2 : ‖vw len Q (pos ii)‖ = 1 := by
    rw [real_inner_self_eq_norm_sq] at h1
    have h0 := norm_nonneg (vw len Q (pos ii))
    nlinarith
  rcases he with c | c <;> rw [c]
  · exact h2
  · rw [norm_neg, h2]

/-- The sign choice of the threshold versions. -/
theorem sign_choice (ht : 0 ≤ thr) (a : ℝ) {b : ℝ} (hb : b = if |a| < thr then 0 else a) : (thr ≤ b → -a ≤ -thr) ∧ (¬ thr ≤ b → a < thr) := by
  by_cases h : |a| < thr
  · rw [if_pos h] at hb
    subst hb
    refine ⟨fun c => absurd (lt_of_le_of_lt (abs_nonneg a) h) (by linarith), fun _ => lt_of_le_of_lt (le_abs_self a) h⟩
  · rw [if_neg h] at hb
    subst hb
    exact ⟨fun c => by linarith, fun c => not_le.1 c⟩

theorem idp_lt {v : List E} (h : v.length = len) : ∀ l < len, idp l < v.length := fun l hl => by rw [h]; exact hl

variable (hL : Lay pos m len N)
include hL

theorem hhInner_ok (hLR : Lay rpos m m M) (hi : ii < m) {Q v2 : List E} (hQ : Q.length = N) (hv2 : v2.length = len)
    {kk : Nat} (hkm : kk < m) {A : List E} {R : List ℝ} (hA : A.length = N) (hR : R.length = M)
    {x e v : PiLp 2 (fun _ : Fin len => E)} {T : ℝ} (hx : x = vw len A (pos kk)) (he : e = vw len Q (pos ii)) (hv : v = vw len v2 idp)
    (hT : T = if |(inner ℝ v x : ℝ)| < thr then 0 else inner ℝ v x) :
    ∃ A', hhInner thr len ii pos rpos Q v2 kk (A, R) = .ok (A', R.set (rpos kk ii) (inner ℝ e (x - (2 * T) • v))) ∧
      Upd len (pos kk) A A' (x - (2 * T) • v - (inner ℝ e (x - (2 * T) • v) : ℝ) • e) := by
  have hQl : ∀ l < len, pos ii l < Q.length := fun l hl => by rw [hQ]; exact hL.lt ii hi l hl
  have hAl : ∀ l < len, pos kk l < A.length := fun l hl => by rw [hA]; exact hL.lt kk hkm l hl
  have hRl : rpos kk ii < R.length := by rw [hR]; exact hLR.lt kk hkm ii hi
  obtain ⟨at', e1, l1, u1⟩ := daxpby_ok (n := len) 1 (-2 * T) hAl (idp_lt hv2)
  have hat : vw len at' idp = x - (2 * T) • v := by rw [u1, hx, hv]; module
  obtain ⟨w, e2, l2, u2⟩ := daxpby_ok (n := len) 1 (-(inner ℝ e (x - (2 * T) • v) : ℝ)) (idp_lt l1) hQl
  obtain ⟨A', e3, u3⟩ := setVec_ok hAl (hL.inj1 hkm) l2
  refine ⟨A', ?_, ?_⟩
  · unfold hhInner
    rw [innerSum_ok (idp_lt hv2) hAl, bind_ok, ← hv, ← hx]
    dsimp only
    rw [← hT, e1, bind_ok, innerSum_ok hQl (idp_lt l1), bind_ok, wr_ok _ hRl, bind_ok, rd_getD 0 (by rw [List.length_set]; exact hRl), bind_ok,
      getD_setR hRl, if_pos rfl, ← he, hat, e2, bind_ok, e3, bind_ok]
    rfl
  · rw [u2, hat, ← he] at u3
    convert u3 using 1
    module

/-- One step of `qmarray_householder`. -/
theorem hhStep_ok (ht : 0 ≤ thr) (hLR : Lay rpos m m M) (hi : ii < m) (hs : Shape N M s) (hp : Pre pos m len ii s) :
    ∃ s', hhStep thr pos rpos m len ii s = .ok s' ∧ Shape N M s' ∧ StepRel thr thr pos rpos m len ii s s' := by
  have hAl : ∀ l < len, pos ii l < s.A.length := fun l hl => by rw [hs.A]; exact hL.lt ii hi l hl
  have hQl : ∀ l < len, pos ii l < s.Q.length := fun l hl => by rw [hs.Q]; exact hL.lt ii hi l hl
  have hVl : ∀ l < len, pos ii l < s.V.length := fun l hl => by rw [hs.V]; exact hL.lt ii hi l hl
  have hRl : rpos ii ii < s.R.length := by rw [hs.R]; exact hLR.lt ii hi ii hi
  set x := vw len s.A (pos ii) with hx
  set ρ := (if ‖x‖ < thr then 0 else ‖x‖) with hρ
  set α := (if |(inner ℝ (vw len s.Q (pos ii)) x : ℝ)| < thr then 0 else inner ℝ (vw len s.Q (pos ii)) x) with hα
  have hsc := sign_choice ht (inner ℝ (vw len s.Q (pos ii)) x) hα
  obtain ⟨Q, e, eQ, uQ, he, hex⟩ : ∃ Q e, hhSign thr α len (pos ii) s.Q = .ok Q ∧ Upd len (pos ii) s.Q Q e ∧
      (e = vw len s.Q (pos ii) ∨ e = -vw len s.Q (pos ii)) ∧ (inner ℝ e x < thr ∨ inner ℝ e x ≤ -thr) := by
    by_cases h : thr ≤ α
    · obtain ⟨Q', e, u⟩ := flip_ok (n := len) (q := pos ii) (y := s.Q) hQl (hL.inj1 hi)
      exact ⟨Q', _, by rw [hhSign, if_pos h]; exact e, u, Or.inr rfl, Or.inr (by rw [inner_neg_left]; exact hsc.1 h)⟩
    · exact ⟨s.Q, _, by rw [hhSign, if_neg h], Upd.refl, Or.inl rfl, Or.inl (hsc.2 h)⟩
  have hQN : Q.length = N := by rw [uQ.len, hs.Q]
  have hQl' : ∀ l < len, pos ii l < Q.length := fun l hl => by rw [hQN]; exact hL.lt ii hi l hl
  have hee : ‖e‖ = 1 := unit_sign (by have := hp.orth ii hi ii hi; rwa [if_pos rfl] at this) he
  obtain ⟨w, e1, l1, u1⟩ := daxpby_ok (n := len) ρ (-1) hQl' hAl
  have hw : vw len w idp = ρ • e - x := by rw [u1, uQ.val, ← hx]; module
  have hperp : ∀ z < ii, inner ℝ (ρ • e - x) (vw len Q (pos z)) = (0 : ℝ) := by
    intro z hz
    rw [uQ.other (hL.disj hi (by omega) (by omega)), inner_sub_left, real_inner_smul_left]
    have h1 : inner ℝ e (vw len s.Q (pos z)) = (0 : ℝ) := by
      have h2 := hp.orth ii hi z (by omega)
      rw [if_neg (by omega)] at h2
      rcases he with c | c <;> rw [c]
      · exact h2
      · rw [inner_neg_left, h2, neg_zero]
    rw [h1, real_inner_comm, hp.perp z hz ii le_rfl hi]; ring
  obtain ⟨w', e2, l2, u2⟩ : ∃ w', hhOrth len ii pos Q w = .ok w' ∧ w'.length = len ∧ vw len w' idp = ρ • e - x := by
    unfold hhOrth
    by_cases h : 1 < ii
    · rw [if_pos h]
      refine forN_spec (n := ii - 1) (s := w)
        (body := fun jj v => do
          let temp1 ← innerSum len idp v (pos jj) Q
          daxpby len 1 idp v (-temp1) (pos jj) Q)
        (I := fun _ v => v.length = len ∧ vw len v idp = ρ • e - x) ⟨l1, hw⟩ ?_
      rintro z hz v ⟨k1, k2⟩
      have hQz : ∀ l < len, pos z l < Q.length := fun l hl => by rw [hQN]; exact hL.lt z (by omega) l hl
      obtain ⟨y, e3, l3, u3⟩ := daxpby_ok (n := len) 1 (-(inner ℝ (vw len v idp) (vw len Q (pos z)) : ℝ)) (idp_lt k1) hQz
      refine ⟨y, by rw [innerSum_ok (idp_lt k1) hQz, bind_ok, e3], l3, ?_⟩
      rw [u3, k2, hperp z (by omega)]; module
    · exact ⟨w, by rw [if_neg h], l1, hw⟩
  set σ := (if ‖ρ • e - x‖ < thr then 0 else ‖ρ • e - x‖) with hσ
  obtain ⟨v2, e3, l3, u3⟩ : ∃ v2, hhRefl thr σ len (pos ii) Q w' = .ok v2 ∧ v2.length = len ∧ vw len v2 idp = if |σ| ≤ thr then e else (1 / σ) • (ρ • e - x) := by
    unfold hhRefl
    by_cases h : |σ| ≤ thr
    · obtain ⟨v2, e3, l3, u3⟩ := daxpby1_ok (n := len) 1 hQl'
      exact ⟨v2, by rw [if_pos h]; exact e3, l3, by rw [u3, uQ.val, if_pos h, one_smul]⟩
    · obtain ⟨v2, e3, l3, u3⟩ := daxpby1_ok (n := len) (1 / σ) (idp_lt l2)
      exact ⟨v2, by rw [if_neg h, dv_ok (by intro c; rw [c, abs_zero] at h; exact h ht), bind_ok]; exact e3, l3, by rw [u3, u2, if_neg h]⟩
  obtain ⟨V, e4, uV⟩ := setVec_ok (y := s.V) hVl (hL.inj1 hi) l3
  rw [u3] at uV
  set v := (if |σ| ≤ thr then e else (1 / σ) • (ρ • e - x)) with hv
  have hkey := house_cases ht hee hex hρ hσ hv
  have hρ0 : 0 ≤ ρ := by rw [hρ]; split; exacts [le_rfl, norm_nonneg x]
  obtain ⟨A', R', e5, h1, h2⟩ := step_mk (thr := thr) (τ := thr) (T := fun y => if |(inner ℝ v y : ℝ)| < thr then 0 else inner ℝ v y) hL hLR hi hs
    uQ he uV hρ0 hkey.1 hkey.2.1 (fun y => trunc_close ht _) hkey.2.2 (body := hhInner thr len ii pos rpos Q v2)
    (fun kk hk hkm A R hA hR => hhInner_ok hL hLR hi hQN l3 hkm hA hR rfl uQ.val.symm u3.symm rfl)
  refine ⟨_, ?_, h1, h2⟩
  unfold hhStep
  rw [arrNorm_ok hAl, bind_ok]
  dsimp only
  rw [← hx, ← hρ, wr_ok _ hRl, bind_ok, innerSum_ok hQl hAl, bind_ok]
  rw [← hx, ← hα, eQ, bind_ok, e1, bind_ok, e2, bind_ok, arrNorm_ok (idp_lt l2), bind_ok, u2]
  rw [← hσ, e3, bind_ok, e4, bind_ok, e5, bind_ok]
  rfl

end

section single
/-! One function per vector. -/

/-- A function as a vector with one component. -/
noncomputable def one (x : E) : PiLp 2 (fun _ : Fin 1 => E) := WithLp.toLp 2 (fun _ => x)

theorem one_inner (x y : E) : inner ℝ (one x) (one y) = inner ℝ x y := by rw [PiLp.inner_apply, Fin.sum_univ_one]; rfl

theorem one_norm (x : E) : ‖one x‖ = ‖x‖ := by
  rw [← sq_eq_sq₀ (norm_nonneg _) (norm_nonneg _), ← real_inner_self_eq_norm_sq, ← real_inner_self_eq_norm_sq, one_inner]

theorem one_add (x y : E) : one (x + y) = one x + one y := rfl
theorem one_sub (x y : E) : one (x - y) = one x - one y := rfl
theorem one_neg (x : E) : one (-x) = -one x := rfl
theorem one_smul' (c : ℝ) (x : E) : one (c • x) = c • one x := rfl

/-- Positions of single functions. -/
def sp : Nat → Nat → Nat := fun v i => v + i

theorem vw_one (a : List E) (k : Nat) : vw 1 a (sp k) = one (a.getD k 0) := vw_ext fun i => by
  have : (i : Nat) = 0 := by omega
  rw [this]; rfl

theorem upd_set {a : List E} {k : Nat} (h : k < a.length) (x : E) : Upd 1 (sp k) a (a.set k x) (one x) := by
  refine ⟨List.length_set, ?_, fun j hj => ?_⟩
  · rw [vw_one, List.getD_eq_getElem?_getD, List.getElem?_set]; simp [h]
  · have := hj 0 (by omega)
    rw [List.getD_eq_getElem?_getD, List.getElem?_set, if_neg (by simpa [sp] using this), List.getD_eq_getElem?_getD]

variable {thr : ℝ} {n ii : Nat} {s : HS E}

theorem qmInner_ok (hi : ii < n) {e v2 : E} {kk : Nat} (hkm : kk < n) {A : List E} {R : List ℝ} (hA : A.length = n) (hR : R.length = n * n)
    {x : PiLp 2 (fun _ : Fin 1 => E)} {T : ℝ} (hx : x = vw 1 A (sp kk)) (hT : T = if |(inner ℝ (one v2) x : ℝ)| < thr then 0 else inner ℝ (one v2) x) :
    ∃ A', qmInner thr n ii e v2 kk (A, R) = .ok (A', R.set (kk * n + ii) (inner ℝ (one e) (x - (2 * T) • one v2))) ∧
      Upd 1 (sp kk) A A' (x - (2 * T) • one v2 - (inner ℝ (one e) (x - (2 * T) • one v2) : ℝ) • one e) := by
  have hkA : kk < A.length := by omega
  have hRl : kk * n + ii < R.length := by rw [hR]; exact (Lay.cols n n).lt kk hkm ii hi
  rw [vw_one] at hx
  subst hx
  rw [one_inner] at hT
  set a := A.getD kk 0 with ha
  have hat : (1 : ℝ) • a + (-2 * T) • v2 = a - (2 * T) • v2 := by module
  have u := upd_set hkA (a - (2 * T) • v2 - (inner ℝ e (a - (2 * T) • v2) : ℝ) • e)
  refine ⟨A.set kk (a - (2 * T) • v2 - (inner ℝ e (a - (2 * T) • v2) : ℝ) • e), ?_, ?_⟩
  · unfold qmInner
    dsimp only
    rw [rd_getD 0 hkA, bind_ok]
    rw [← ha, ← hT, hat, wr_ok _ hRl, bind_ok, rd_getD 0 (by rw [List.length_set]; exact hRl), bind_ok, getD_setR hRl, if_pos rfl, wr_ok _ hkA, bind_ok]
    rw [← one_smul', ← one_sub, one_inner]
    rw [show (1 : ℝ) • (a - (2 * T) • v2) + (-(inner ℝ e (a - (2 * T) • v2) : ℝ)) • e = a - (2 * T) • v2 - (inner ℝ e (a - (2 * T) • v2) : ℝ) • e by module]
    rfl
  · rw [← one_smul', ← one_sub, one_inner]
    exact u

/-- One step of `quasimatrix_householder`. -/
theorem qmStep_ok (ht : 0 ≤ thr) (hi : ii < n) (hs : Shape n (n * n) s) (hp : Pre sp n 1 ii s) :
    ∃ s', qmStep thr n ii s = .ok s' ∧ Shape n (n * n) s' ∧ StepRel thr thr sp (fun k i => k * n + i) n 1 ii s s' := by
  have hL : Lay sp n 1 n := Lay.single n
  have hA : ii < s.A.length := by rw [hs.A]; exact hi
  have hQ : ii < s.Q.length := by rw [hs.Q]; exact hi
  have hV : ii < s.V.length := by rw [hs.V]; exact hi
  have hRl : ii * n + ii < s.R.length := by rw [hs.R]; exact (Lay.cols n n).lt ii hi ii hi
  set e0 := s.Q.getD ii 0 with he0
  set x := s.A.getD ii 0 with hx
  obtain ⟨Q, e, eQ, eQ', uQ, he, hex⟩ : ∃ Q e, qmSign thr (inner ℝ e0 x) ii s.Q e0 = .ok Q ∧ rd Q ii = .ok e ∧
      Upd 1 (sp ii) s.Q Q (one e) ∧ (e = e0 ∨ e = -e0) ∧ (inner ℝ e x < thr ∨ inner ℝ e x ≤ -thr) := by
    by_cases h : thr ≤ (inner ℝ e0 x : ℝ)
    · refine ⟨s.Q.set ii (-e0), -e0, by rw [qmSign, if_pos h, wr_ok _ hQ], ?_, upd_set hQ _, Or.inr rfl, Or.inr (by rw [inner_neg_left]; linarith)⟩
      exact rd_of_getElem? (by rw [List.getElem?_set]; simp [hQ])
    · refine ⟨s.Q, e0, by rw [qmSign, if_neg h], rd_getD 0 hQ, ?_, Or.inl rfl, Or.inl (not_le.1 h)⟩
      have := Upd.refl (n := 1) (q := sp ii) (a := s.Q)
      rwa [vw_one] at this
  have h1 : vw 1 s.Q (sp ii) = one e0 := vw_one _ _
  have he' : one e = vw 1 s.Q (sp ii) ∨ one e = -vw 1 s.Q (sp ii) := by
    rw [h1, ← one_neg]
    rcases he with c | c <;> rw [c]
    · exact Or.inl rfl
    · exact Or.inr rfl
  have hee1 : ‖one e‖ = 1 := unit_sign (pos := sp) (by have := hp.orth ii hi ii hi; rwa [if_pos rfl] at this) he'
  have hee : ‖e‖ = 1 := by rwa [one_norm] at hee1
  have hA1 : vw 1 s.A (sp ii) = one x := vw_one _ _
  set σ := ‖‖x‖ • e - x‖ with hσ
  have hvv : ‖x‖ • e + (-1 : ℝ) • x = ‖x‖ • e - x := by module
  obtain ⟨v2, e3, hv2⟩ : ∃ v2, qmRefl thr σ e (‖x‖ • e - x) = .ok v2 ∧ v2 = if |σ| ≤ thr then e else (1 / σ) • (‖x‖ • e - x) := by
    by_cases h : |σ| ≤ thr
    · exact ⟨e, by rw [qmRefl, if_pos h], by rw [if_pos h]⟩
    · exact ⟨_, by rw [qmRefl, if_neg h, dv_ok (by intro c; rw [c, abs_zero] at h; exact h ht), bind_ok]; rfl, by rw [if_neg h]⟩
  have hkey : ‖v2‖ = 1 ∧ (∃ a b : ℝ, v2 = a • e + b • x) ∧ (refl v2 x = ‖x‖ • e ∨ (‖x‖ < 2 * thr ∧ ‖refl v2 x - ‖x‖ • e‖ ≤ 4 * thr)) := by
    have hn := norm_nonneg x
    by_cases h : |σ| ≤ thr
    · rw [if_pos h] at hv2
      subst hv2
      rw [abs_of_nonneg (norm_nonneg _)] at h
      refine ⟨hee, ⟨1, 0, by module⟩, ?_⟩
      by_cases h5 : ‖x‖ < 2 * thr
      · refine Or.inr ⟨h5, (norm_sub_le _ _).trans ?_⟩
        rw [refl_norm hee, norm_smul, hee, norm_norm]; linarith
      · have hx0 : ‖x‖ = 0 := by
          rcases hex with h' | h'
          · have := house_small (ρ := ‖x‖) hee (le_refl (inner ℝ v2 x)); linarith
          · have := house_small (ρ := ‖x‖) hee h'; linarith
        rw [norm_eq_zero] at hx0
        left; rw [hx0]; unfold refl; simp
    · rw [if_neg h] at hv2
      obtain ⟨k1, k2⟩ := refl_house (x := x) hee hσ (by intro c; rw [c, abs_zero] at h; exact h ht)
      rw [← hv2] at k1 k2
      exact ⟨k1, ⟨1 / σ * ‖x‖, -(1 / σ), by rw [hv2]; module⟩, Or.inl k2⟩
  obtain ⟨k1, ⟨a, b, k2⟩, k3⟩ := hkey
  have hrefl : refl (one v2) (one x) = one (refl v2 x) := by unfold refl; rw [one_inner]; rfl
  obtain ⟨A', R', e5, h3, h4⟩ := step_mk (thr := thr) (τ := thr) (T := fun y => if |(inner ℝ (one v2) y : ℝ)| < thr then 0 else inner ℝ (one v2) y) hL
    (Lay.cols n n) hi hs uQ he' (upd_set hV v2) (norm_nonneg x) (by rw [one_norm]; exact k1)
    ⟨a, b, by rw [hA1, k2]; rfl⟩ (fun y => trunc_close ht _)
    (by
      rw [hA1, hrefl]
      rcases k3 with k | ⟨k, k'⟩
      · left; rw [k]; rfl
      · right; refine ⟨k, ?_⟩
        rw [← one_smul', ← one_sub, one_norm]; exact k')
    (body := qmInner thr n ii e v2)
    (fun kk hk hkm A R hA hR => qmInner_ok hi hkm hA hR rfl rfl)
  refine ⟨_, ?_, h3, h4⟩
  unfold qmStep
  rw [rd_getD 0 hQ, bind_ok, rd_getD 0 hA, bind_ok]
  dsimp only
  rw [fnorm_eq, ← hx, wr_ok _ hRl, bind_ok, ← he0, eQ, bind_ok, eQ', bind_ok]
  rw [hvv, fnorm_eq, ← hσ, e3, bind_ok, wr_ok _ hV, bind_ok, e5, bind_ok]
  rfl

end single

end C3.Qr
