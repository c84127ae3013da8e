/- One step of the Householder sweeps. -/
import Verif.Qr.HqrLemmas
import Verif.Lin.Lemmas

set_option linter.unusedSectionVars false

namespace C3.Qr
open Finset
open C3.Lin (dv dv_ok)
variable {E : Type} [NormedAddCommGroup E] [InnerProductSpace ℝ E]

theorem Upd.trans {n : Nat} {q : Nat → Nat} {a b c : List E} {x y : PiLp 2 (fun _ : Fin n => E)} (h : Upd n q a b x) (k : Upd n q b c y) :
    Upd n q a c y := ⟨by rw [k.len, h.len], k.val, fun j hj => by rw [k.keep j hj, h.keep j hj]⟩

theorem Upd.refl {n : Nat} {q : Nat → Nat} {a : List E} : Upd n q a a (vw n a q) := ⟨rfl, rfl, fun _ _ => rfl⟩

section
variable {thr τ : ℝ} {pos rpos : Nat → Nat → Nat} {m len N M ii : Nat} {s : HS E}

/-- The inner loop of a step. -/
theorem sweep_ok (hL : Lay pos m len N) (hLR : Lay rpos m m M) (hi : ii < m) {body : Nat → List E × List ℝ → C (List E × List ℝ)}
    (F : PiLp 2 (fun _ : Fin len => E) → PiLp 2 (fun _ : Fin len => E)) (G : PiLp 2 (fun _ : Fin len => E) → ℝ)
    {A : List E} {R : List ℝ}
    (hb : ∀ kk, ii < kk → kk < m → ∀ (B : List E) (S : List ℝ), B.length = N → S.length = M → vw len B (pos ii) = vw len A (pos ii) →
      ∃ B', body kk (B, S) = .ok (B', S.set (rpos kk ii) (G (vw len B (pos kk)))) ∧ Upd len (pos kk) B B' (F (vw len B (pos kk))))
    (hA : A.length = N) (hR : R.length = M) :
    ∃ A' R', forR (ii + 1) m body (A, R) = .ok (A', R') ∧ A'.length = N ∧ R'.length = M ∧
      (∀ j ≤ ii, vw len A' (pos j) = vw len A (pos j)) ∧ (∀ j, ii < j → j < m → vw len A' (pos j) = F (vw len A (pos j))) ∧
      (∀ j < m, ∀ i < m, (i ≠ ii ∨ j ≤ ii) → R'.getD (rpos j i) 0 = R.getD (rpos j i) 0) ∧
      ∀ j, ii < j → j < m → R'.getD (rpos j ii) 0 = G (vw len A (pos j)) := by
  obtain ⟨⟨A', R'⟩, e, h1, h2, h3, h4, h5, h6⟩ := forR_spec (a := ii + 1) (b := m) (s := (A, R)) (body := body)
    (I := fun k s => s.1.length = N ∧ s.2.length = M ∧
      (∀ j < m, (j ≤ ii ∨ k ≤ j) → vw len s.1 (pos j) = vw len A (pos j)) ∧ (∀ j, ii < j → j < k → vw len s.1 (pos j) = F (vw len A (pos j))) ∧
      (∀ j < m, ∀ i < m, (i ≠ ii ∨ j ≤ ii) → s.2.getD (rpos j i) 0 = R.getD (rpos j i) 0) ∧
      ∀ j, ii < j → j < k → s.2.getD (rpos j ii) 0 = G (vw len A (pos j)))
    (by omega) ⟨hA, hR, fun _ _ _ => rfl, fun j h1 h2 => by omega, fun _ _ _ _ _ => rfl, fun j h1 h2 => by omega⟩
    (by
      rintro k hk1 hk2 ⟨Z, Y⟩ ⟨h1, h2, h3, h4, h5, h6⟩
      dsimp only at h1 h2 h3 h4 h5 h6
      obtain ⟨Z', e, u⟩ := hb k (by omega) hk2 Z Y h1 h2 (h3 ii hi (Or.inl le_rfl))
      have hY : rpos k ii < Y.length := by rw [h2]; exact hLR.lt k hk2 ii hi
      refine ⟨_, e, by rw [u.len]; exact h1, by rw [List.length_set]; exact h2, fun j hj hj' => ?_, fun j hj1 hj2 => ?_, fun j hj i hi' hij => ?_,
        fun j hj1 hj2 => ?_⟩
      · dsimp only; rw [u.other (hL.disj hk2 hj (by omega)), h3 j hj (by omega)]
      · dsimp only
        by_cases hjk : j = k
        · subst hjk; rw [u.val, h3 j hk2 (Or.inr le_rfl)]
        · rw [u.other (hL.disj hk2 (by omega) (Ne.symm hjk)), h4 j hj1 (by omega)]
      · dsimp only
        rw [getD_setR hY, if_neg (fun c => by have := hLR.inj j hj i hi' k hk2 ii hi c; omega), h5 j hj i hi' hij]
      · dsimp only
        rw [getD_setR hY]
        by_cases hjk : j = k
        · subst hjk; rw [if_pos rfl, h3 j hk2 (Or.inr le_rfl)]
        · rw [if_neg (fun c => hjk (hLR.inj j (by omega) ii hi k hk2 ii hi c).1), h6 j hj1 (by omega)])
  exact ⟨A', R', e, h1, h2, fun j hj => h3 j (by omega) (Or.inl hj), fun j hj1 hj2 => h4 j hj1 hj2, h5, h6⟩

/-- Assembling a step from its parts. -/
theorem step_mk (hL : Lay pos m len N) (hLR : Lay rpos m m M) (hi : ii < m) (hs : Shape N M s)
    {Q V : List E} {ρ : ℝ} {e v : PiLp 2 (fun _ : Fin len => E)} {T : PiLp 2 (fun _ : Fin len => E) → ℝ}
    (hQ : Upd len (pos ii) s.Q Q e) (he : e = vw len s.Q (pos ii) ∨ e = -vw len s.Q (pos ii))
    (hV : Upd len (pos ii) s.V V v) (hρ : 0 ≤ ρ) (hu : ‖v‖ = 1) (hsp : ∃ a b : ℝ, v = a • e + b • vw len s.A (pos ii))
    (hT : ∀ x, |T x - inner ℝ v x| ≤ τ)
    (hd : refl v (vw len s.A (pos ii)) = ρ • e ∨ (ρ < 2 * thr ∧ ‖refl v (vw len s.A (pos ii)) - ρ • e‖ ≤ 4 * thr))
    {body : Nat → List E × List ℝ → C (List E × List ℝ)}
    (hb : ∀ kk, ii < kk → kk < m → ∀ (A : List E) (R : List ℝ), A.length = N → R.length = M →
      ∃ A', body kk (A, R) = .ok (A', R.set (rpos kk ii) (inner ℝ e (vw len A (pos kk) - (2 * T (vw len A (pos kk))) • v))) ∧
        Upd len (pos kk) A A' (vw len A (pos kk) - (2 * T (vw len A (pos kk))) • v -
          (inner ℝ e (vw len A (pos kk) - (2 * T (vw len A (pos kk))) • v) : ℝ) • e)) :
    ∃ A' R', forR (ii + 1) m body (s.A, s.R.set (rpos ii ii) ρ) = .ok (A', R') ∧ Shape N M ⟨A', Q, V, R'⟩ ∧
      StepRel thr τ pos rpos m len ii s ⟨A', Q, V, R'⟩ := by
  obtain ⟨A', R', e1, h1, h2, h3, h4, h5, h6⟩ := sweep_ok hL hLR hi
    (fun x => x - (2 * T x) • v - (inner ℝ e (x - (2 * T x) • v) : ℝ) • e) (fun x => inner ℝ e (x - (2 * T x) • v))
    (fun kk h1 h2 B S h3 h4 _ => hb kk h1 h2 B S h3 h4) hs.A
    (R := s.R.set (rpos ii ii) ρ) (by rw [List.length_set, hs.R])
  have hR : rpos ii ii < s.R.length := by rw [hs.R]; exact hLR.lt ii hi ii hi
  have hdg : R'.getD (rpos ii ii) 0 = ρ := by rw [h5 ii hi ii hi (Or.inr le_rfl), getD_setR hR, if_pos rfl]
  refine ⟨A', R', e1, ⟨h1, by rw [hQ.len]; exact hs.Q, by rw [hV.len]; exact hs.V, h2⟩, ?_⟩
  refine ⟨fun k hk hki => ?_, ?_, fun k hk hki => ?_, fun j hj i hi' hij => ?_, ?_, ?_, ?_, fun j hj1 hj2 => ?_, ?_⟩
  · exact hQ.other (hL.disj hi hk (Ne.symm hki))
  · dsimp only; rw [hQ.val]; exact he
  · exact hV.other (hL.disj hi hk (Ne.symm hki))
  · dsimp only
    rw [h5 j hj i hi' (by omega), getD_setR hR, if_neg (fun c => by have := hLR.inj j hj i hi' ii hi ii hi c; omega)]
  · dsimp only; rw [hdg]; exact hρ
  · dsimp only; rw [hV.val]; exact hu
  · dsimp only; rw [hV.val, hQ.val]; exact hsp
  · refine ⟨T (vw len s.A (pos j)), ?_, ?_, ?_⟩
    · dsimp only; rw [hV.val]; exact hT _
    · dsimp only; rw [hV.val, hQ.val]; exact h6 j hj1 hj2
    · dsimp only; rw [hV.val, hQ.val, h6 j hj1 hj2]; exact h4 j hj1 hj2
  · dsimp only; rw [hV.val, hQ.val, hdg]; exact hd

variable (hL : Lay pos m len N)
include hL

theorem signFix_ok (ht : 0 < thr) (hi : ii < m) {Q : List E} (hQ : Q.length = N) (x : PiLp 2 (fun _ : Fin len => E)) :
    ∃ Q' e, signFix thr len (pos ii) (inner ℝ (vw len Q (pos ii)) x) Q = .ok Q' ∧ Upd len (pos ii) Q Q' e ∧
      (e = vw len Q (pos ii) ∨ e = -vw len Q (pos ii)) ∧ inner ℝ e x ≤ thr := by
  set α := (inner ℝ (vw len Q (pos ii)) x : ℝ) with hα
  unfold signFix
  by_cases h : |α| < thr
  · exact ⟨Q, _, by rw [if_pos h], Upd.refl, Or.inl rfl, (le_abs_self _).trans h.le⟩
  · rw [if_neg h]
    have ha : 0 < |α| := lt_of_lt_of_le ht (not_lt.1 h)
    rw [dv_ok ha.ne', bind_ok]
    by_cases h2 : -α / |α| < 0
    · obtain ⟨Q', e, u⟩ := flip_ok (n := len) (q := pos ii) (y := Q) (fun l hl => by rw [hQ]; exact hL.lt ii hi l hl) (hL.inj1 hi)
      refine ⟨Q', _, by rw [if_pos h2]; exact e, u, Or.inr rfl, ?_⟩
      rw [inner_neg_left, ← hα]
      have : -α < 0 := by
        by_contra c
        exact absurd (div_nonneg (not_lt.1 c) ha.le) (not_le.2 h2)
      linarith
    · refine ⟨Q, _, by rw [if_neg h2], Upd.refl, Or.inl rfl, ?_⟩
      have : 0 ≤ -α := by
        by_contra c
        exact h2 (div_neg_of_neg_of_pos (not_le.1 c) ha)
      rw [← hα]; linarith

theorem reorth_ok (hi : ii < m) {Q V : List E} (hQ : Q.length = N) (hV : V.length = N)
    (ho : ∀ z < ii, inner ℝ (vw len V (pos ii)) (vw len Q (pos z)) = (0 : ℝ)) :
    ∃ V', reorth len ii pos Q V = .ok V' ∧ Upd len (pos ii) V V' (vw len V (pos ii)) := by
  unfold reorth
  refine forN_spec (n := ii) (s := V)
    (body := fun zz V => do
      let v ← innerSum len (pos ii) V (pos zz) Q
      axpy len (-v) (pos zz) Q (pos ii) V)
    (I := fun _ Z => Upd len (pos ii) V Z (vw len V (pos ii))) Upd.refl ?_
  intro z hz Z u
  have hZ : ∀ l < len, pos ii l < Z.length := fun l hl => by rw [u.len, hV]; exact hL.lt ii hi l hl
  have hQz : ∀ l < len, pos z l < Q.length := fun l hl => by rw [hQ]; exact hL.lt z (by omega) l hl
  obtain ⟨Y, e, w⟩ := axpy_ok hZ (hL.inj1 hi) (-(inner ℝ (vw len Z (pos ii)) (vw len Q (pos z)) : ℝ)) hQz
  refine ⟨Y, by rw [innerSum_ok hZ hQz, bind_ok, e], ?_⟩
  have := u.trans w
  rw [u.val, ho z hz, neg_zero, zero_smul, zero_add] at this
  exact this

theorem normalise_ok (ht : 0 < thr) (hi : ii < m) {Q V : List E} (hQ : Q.length = N) (hV : V.length = N) :
    ∃ V', normalise thr len (pos ii) Q V = .ok V' ∧ Upd len (pos ii) V V'
      (if ‖vw len V (pos ii)‖ < thr then vw len Q (pos ii) else (1 / ‖vw len V (pos ii)‖) • vw len V (pos ii)) := by
  have hVl : ∀ l < len, pos ii l < V.length := fun l hl => by rw [hV]; exact hL.lt ii hi l hl
  have hQl : ∀ l < len, pos ii l < Q.length := fun l hl => by rw [hQ]; exact hL.lt ii hi l hl
  have h1 := forN_sum (n := len) (s0 := (0 : ℝ)) (fun i => ‖V.getD (pos ii i) 0‖ ^ 2)
    (body := fun kk s => do
      let x ← rd V (pos ii kk)
      pure (s + inner ℝ x x))
    (fun i hi' s => by rw [rd_getD 0 (hVl i hi'), bind_ok, real_inner_self_eq_norm_sq]; rfl)
  unfold normalise
  rw [h1, bind_ok, zero_add, ← vw_norm_sq, Real.sqrt_sq (norm_nonneg _), abs_of_nonneg (norm_nonneg _)]
  by_cases h : ‖vw len V (pos ii)‖ < thr
  · rw [if_pos h, if_pos h]
    exact copy_ok hVl (hL.inj1 hi) hQl
  · rw [if_neg h, if_neg h, dv_ok (by have := not_lt.1 h; intro c; rw [c] at this; linarith), bind_ok]
    exact scale_ok hVl (hL.inj1 hi) _

theorem hqrInner_ok (hLR : Lay rpos m m M) (hi : ii < m) {Q V : List E} (hQ : Q.length = N) (hV : V.length = N) {kk : Nat} (hk : ii < kk)
    (hkm : kk < m) {A : List E} {R : List ℝ} (hA : A.length = N) (hR : R.length = M)
    {x e v : PiLp 2 (fun _ : Fin len => E)} (hx : x = vw len A (pos kk)) (he : e = vw len Q (pos ii)) (hv : v = vw len V (pos ii)) :
    ∃ A', hqrInner len ii pos rpos (inner ℝ e v) Q V kk (A, R) = .ok (A', R.set (rpos kk ii) (inner ℝ e (x - (2 * inner ℝ v x : ℝ) • v))) ∧
      Upd len (pos kk) A A' (x - (2 * inner ℝ v x : ℝ) • v - (inner ℝ e (x - (2 * inner ℝ v x : ℝ) • v) : ℝ) • e) := by
  have hVl : ∀ l < len, pos ii l < V.length := fun l hl => by rw [hV]; exact hL.lt ii hi l hl
  have hQl : ∀ l < len, pos ii l < Q.length := fun l hl => by rw [hQ]; exact hL.lt ii hi l hl
  have hAl : ∀ l < len, pos kk l < A.length := fun l hl => by rw [hA]; exact hL.lt kk hkm l hl
  have hRl : rpos kk ii < R.length := by rw [hR]; exact hLR.lt kk hkm ii hi
  have hrr : (inner ℝ e x : ℝ) + -2 * inner ℝ e v * inner ℝ v x = inner ℝ e (x - (2 * inner ℝ v x : ℝ) • v) := by
    rw [inner_sub_right, real_inner_smul_right]; ring
  set r := (inner ℝ e (x - (2 * inner ℝ v x : ℝ) • v) : ℝ) with hr
  set temp := (inner ℝ v x : ℝ) with htemp
  have hset : (R.set (rpos kk ii) (inner ℝ e x)).set (rpos kk ii) r = R.set (rpos kk ii) r := List.set_set _
  obtain ⟨A', e1, u⟩ := upd_vec (n := len) (q := pos kk) (y := A) hAl (hL.inj1 hkm)
    (body := fun ll A => do
      let v ← rd V (pos ii ll)
      let a ← rd A (pos kk ll)
      let A ← wr A (pos kk ll) ((-2 * temp) • v + a)
      let rr ← rd (R.set (rpos kk ii) r) (rpos kk ii)
      let q ← rd Q (pos ii ll)
      let a ← rd A (pos kk ll)
      wr A (pos kk ll) ((-rr) • q + a))
    (fun l a => (-r) • Q.getD (pos ii l) 0 + ((-2 * temp) • V.getD (pos ii l) 0 + a)) (x - (2 * temp) • v - r • e)
    (fun l hl z hz => by
      have hzl : pos kk l < z.length := by rw [hz]; exact hAl l hl
      rw [rd_getD 0 (hVl l hl), bind_ok, rd_getD 0 hzl, bind_ok, wr_ok _ hzl, bind_ok, rd_getD 0 (by rw [List.length_set]; exact hRl), bind_ok,
        getD_setR hRl, if_pos rfl, rd_getD 0 (hQl l hl), bind_ok, rd_getD 0 (by rw [List.length_set]; exact hzl), bind_ok,
        wr_ok _ (by rw [List.length_set]; exact hzl), List.set_set]
      congr 2
      rw [List.getD_eq_getElem?_getD (l := z.set _ _), List.getElem?_set]
      simp [hzl])
    (fun l => by
      rw [hx, he, hv]
      show (-r) • Q.getD (pos ii l) 0 + ((-2 * temp) • V.getD (pos ii l) 0 + A.getD (pos kk l) 0) =
        A.getD (pos kk l) 0 - (2 * temp) • V.getD (pos ii l) 0 - r • Q.getD (pos ii l) 0
      module)
  refine ⟨A', ?_, u⟩
  unfold hqrInner
  rw [innerSum_ok hVl hAl, bind_ok, innerSum_ok hQl hAl, bind_ok, ← hv, ← hx, ← he, ← htemp, wr_ok _ hRl, bind_ok,
    rd_getD 0 (by rw [List.length_set]; exact hRl), bind_ok, wr_ok _ (by rw [List.length_set]; exact hRl), bind_ok, getD_setR hRl, if_pos rfl, hrr,
    hset, e1, bind_ok]
  rfl

/-- One step of `hqr`. -/
theorem hqrStep_ok (ht : 0 < thr) (hLR : Lay rpos m m M) (hi : ii < m) (hs : Shape N M s) (hp : Pre pos m len ii s) :
    ∃ s', hqrStep thr pos rpos m len ii s = .ok s' ∧ Shape N M s' ∧ StepRel thr 0 pos rpos m len ii s s' := by
  have hAl : ∀ l < len, pos ii l < s.A.length := fun l hl => by rw [hs.A]; exact hL.lt ii hi l hl
  have hQl : ∀ l < len, pos ii l < s.Q.length := fun l hl => by rw [hs.Q]; exact hL.lt ii hi l hl
  have hVl : ∀ l < len, pos ii l < s.V.length := fun l hl => by rw [hs.V]; exact hL.lt ii hi l hl
  have hRl : rpos ii ii < s.R.length := by rw [hs.R]; exact hLR.lt ii hi ii hi
  set x := vw len s.A (pos ii) with hx
  obtain ⟨Q, e, eQ, uQ, he, hex⟩ := signFix_ok hL ht hi hs.Q x
  have hQN : Q.length = N := by rw [uQ.len, hs.Q]
  have hQl' : ∀ l < len, pos ii l < Q.length := fun l hl => by rw [hQN]; exact hL.lt ii hi l hl
  obtain ⟨V1, eV1, uV1⟩ := wsum_ok (n := len) (q := pos ii) (y := s.V) hVl (hL.inj1 hi) ‖x‖ hQl' hAl
  rw [uQ.val, ← hx] at uV1
  have hV1N : V1.length = N := by rw [uV1.len, hs.V]
  have hee : ‖e‖ = 1 := by
    have h1 : ‖vw len s.Q (pos ii)‖ = 1 := by
      have := hp.orth ii hi ii hi
      rw [if_pos rfl, real_inner_self_eq_norm_sq] at this
      have h0 := norm_nonneg (vw len s.Q (pos ii))
      nlinarith
    rcases he with c | c <;> rw [c]
    · exact h1
    · rw [norm_neg, h1]
  have hperp : ∀ z < ii, inner ℝ (vw len V1 (pos ii)) (vw len Q (pos z)) = (0 : ℝ) := by
    intro z hz
    rw [uV1.val, uQ.other (hL.disj hi (by omega) (by omega)), inner_sub_left, real_inner_smul_left]
    have h1 : inner ℝ e (vw len s.Q (pos z)) = (0 : ℝ) := by
      have h2 := hp.orth ii hi z (by omega)
      rw [if_neg (by omega)] at h2
      rcases he with c | c <;> rw [c]
      · exact h2
      · rw [inner_neg_left, h2, neg_zero]
    rw [h1, real_inner_comm, hp.perp z hz ii le_rfl hi]; ring
  obtain ⟨V2, eV2, uV2⟩ := reorth_ok hL hi hQN hV1N hperp
  have hV2N : V2.length = N := by rw [uV2.len, hV1N]
  obtain ⟨V3, eV3, uV3⟩ := normalise_ok hL ht hi hQN hV2N
  have hV3N : V3.length = N := by rw [uV3.len, hV2N]
  rw [uV2.val, uV1.val, uQ.val] at uV3
  have uV := (uV1.trans uV2).trans uV3
  set v := (if ‖‖x‖ • e - x‖ < thr then e else (1 / ‖‖x‖ • e - x‖) • (‖x‖ • e - x)) with hv
  have hkey : ‖v‖ = 1 ∧ (∃ a b : ℝ, v = a • e + b • x) ∧
      (refl v x = ‖x‖ • e ∨ (‖x‖ < 2 * thr ∧ ‖refl v x - ‖x‖ • e‖ ≤ 4 * thr)) := by
    by_cases hσ : ‖‖x‖ • e - x‖ < thr
    · rw [hv, if_pos hσ]
      have hsm := house_small (ρ := ‖x‖) hee hex
      refine ⟨hee, ⟨1, 0, by module⟩, Or.inr ⟨by linarith, ?_⟩⟩
      refine (norm_sub_le _ _).trans ?_
      rw [refl_norm hee, norm_smul, hee, norm_norm]; linarith
    · rw [hv, if_neg hσ]
      obtain ⟨h1, h2⟩ := refl_house (x := x) hee rfl (by have := not_lt.1 hσ; intro c; rw [c] at this; linarith)
      exact ⟨h1, ⟨1 / ‖‖x‖ • e - x‖ * ‖x‖, -(1 / ‖‖x‖ • e - x‖), by module⟩, Or.inl h2⟩
  obtain ⟨A', R', e1, h1, h2⟩ := step_mk (thr := thr) (τ := 0) (T := fun y => inner ℝ v y) hL hLR hi hs uQ he uV (norm_nonneg x) hkey.1 hkey.2.1
    (fun y => by rw [sub_self, abs_zero]) hkey.2.2 (body := hqrInner len ii pos rpos (inner ℝ e v) Q V3)
    (fun kk hk hkm A R hA hR => hqrInner_ok hL hLR hi hQN hV3N hk hkm hA hR rfl uQ.val.symm uV.val.symm)
  refine ⟨_, ?_, h1, h2⟩
  unfold hqrStep
  rw [arrNorm_ok hAl, bind_ok, wr_ok _ hRl, bind_ok, innerSum_ok hQl hAl, bind_ok, eQ, bind_ok, eV1, bind_ok, eV2, bind_ok, eV3, bind_ok,
    innerSum_ok hQl' (fun l hl => by rw [hV3N]; exact hL.lt ii hi l hl), bind_ok, uQ.val, uV.val, e1, bind_ok]
  rfl

end

end C3.Qr
