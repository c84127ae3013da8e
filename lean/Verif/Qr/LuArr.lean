/- The loops of `qmarray_lu1d` and `create_any_L`. -/
import Verif.Qr.LuLemmas

set_option linter.unusedSectionVars false

namespace C3.Qr.Lu
open Finset
open C3.Lin (dv dv_ok)
variable {K : Type} [Field K] [LinearOrder K] [IsStrictOrderedRing K]

/-- Column `j` of an array of functions, as a function of row and point. -/
def cv (nrows : Nat) (A : List (K → K)) (j : Nat) : Nat × K → K := fun q => if q.1 < nrows then A.getD (j * nrows + q.1) 0 q.2 else 0

/-- What a replacement column has to satisfy: it is 1 at the new pivot `kk` and vanishes at the pivots before. -/
def AnyOk (nrows ncols : Nat) (anyL : Nat → List Nat → List K → C (List (K → K) × List Nat × List K)) : Prop :=
  ∀ kk < ncols, ∀ (piv : List Nat) (px : List K), piv.length = ncols → px.length = ncols → (∀ j < kk, piv.getD j 0 < nrows) →
    ∀ w, anyL kk piv px = .ok w → w.1.length = nrows ∧ ∃ i < nrows, ∃ x, w.2.1 = piv.set kk i ∧ w.2.2 = px.set kk x ∧
      w.1.getD i 0 x = 1 ∧ ∀ j < kk, w.1.getD (piv.getD j 0) 0 (px.getD j 0) = 0

theorem column_ok {nrows ncols j : Nat} (hj : j < ncols) {A : List (K → K)} (hA : A.length = nrows * ncols) :
    ∃ c, column nrows j A = .ok c ∧ c.length = nrows ∧ ∀ i < nrows, c.getD i 0 = A.getD (j * nrows + i) 0 := by
  obtain ⟨z, e, h1, h2, -⟩ := updG (0 : K → K) (n := nrows) (q := fun i => i) (y := List.replicate nrows (fun _ => 0))
    (body := fun i z => do
      let f ← rd A (j * nrows + i)
      wr z i f)
    (fun i _ => A.getD (j * nrows + i) 0) (fun i hi => by simpa using hi) (fun i _ k _ h => h)
    (fun i hi z hz => by
      rw [List.length_replicate] at hz
      rw [rd_getD 0 (by rw [hA]; exact (Lay.cols nrows ncols).lt j hj i hi), bind_ok, wr_ok _ (by omega)])
  exact ⟨z, e, by rw [h1, List.length_replicate], h2⟩

theorem scaleCol_ok {nrows ncols j : Nat} (hj : j < ncols) {A : List (K → K)} (hA : A.length = nrows * ncols) (c : K) :
    ∃ z, forN nrows (fun i z => do
      let f ← rd A (j * nrows + i)
      wr z i (fun x => c * f x)) (List.replicate nrows (fun _ => 0)) = .ok z ∧ z.length = nrows ∧
      ∀ i < nrows, ∀ x, z.getD i 0 x = c * A.getD (j * nrows + i) 0 x := by
  obtain ⟨z, e, h1, h2, -⟩ := updG (0 : K → K) (n := nrows) (q := fun i => i) (y := List.replicate nrows (fun _ => 0))
    (body := fun i z => do
      let f ← rd A (j * nrows + i)
      wr z i (fun x => c * f x))
    (fun i _ x => c * A.getD (j * nrows + i) 0 x) (fun i hi => by simpa using hi) (fun i _ k _ h => h)
    (fun i hi z hz => by
      rw [List.length_replicate] at hz
      rw [rd_getD 0 (by rw [hA]; exact (Lay.cols nrows ncols).lt j hj i hi), bind_ok, wr_ok _ (by omega)])
  exact ⟨z, e, by rw [h1, List.length_replicate], fun i hi x => by rw [h2 i hi]⟩

theorem setCol_ok {nrows ncols kk : Nat} (hk : kk < ncols) {c L : List (K → K)} (hc : c.length = nrows) (hL : L.length = nrows * ncols) :
    ∃ L', setCol nrows kk c L = .ok L' ∧ L'.length = nrows * ncols ∧ (∀ i < nrows, L'.getD (kk * nrows + i) 0 = c.getD i 0) ∧
      ∀ j < ncols, j ≠ kk → cv nrows L' j = cv nrows L j := by
  obtain ⟨z, e, h1, h2, h3⟩ := updG (0 : K → K) (n := nrows) (q := fun i => kk * nrows + i) (y := L)
    (body := fun i L => do
      let f ← rd c i
      wr L (kk * nrows + i) f)
    (fun i _ => c.getD i 0) (fun i hi => by rw [hL]; exact (Lay.cols nrows ncols).lt kk hk i hi) (fun i _ j _ h => by omega)
    (fun i hi z hz => by
      rw [rd_getD 0 (by omega), bind_ok, wr_ok _ (by rw [hz, hL]; exact (Lay.cols nrows ncols).lt kk hk i hi)])
  refine ⟨z, e, by rw [h1, hL], h2, fun j hj hjk => ?_⟩
  funext q
  unfold cv
  by_cases hq : q.1 < nrows
  · rw [if_pos hq, if_pos hq, h3 _ (fun i hi c => hjk ((Lay.cols nrows ncols).inj kk hk i hi j hj q.1 hq c).1.symm)]
  · rw [if_neg hq, if_neg hq]

theorem mrows_ok {nrows ncols kk : Nat} (hk : kk < ncols) {val amloc : K} {amind : Nat} (hamind : amind < nrows) {A L : List (K → K)} {u : List K}
    (hA : A.length = nrows * ncols) (hL : L.length = nrows * ncols) (hu : u.length = ncols * ncols) :
    ∃ A' u', forN ncols (mrow nrows ncols kk val amind amloc L) (A, u) = .ok (A', u') ∧ A'.length = nrows * ncols ∧ u'.length = ncols * ncols ∧
      (∀ j < ncols, ∀ q, cv nrows A' j q = cv nrows A j q - u'.getD (j * ncols + kk) 0 * cv nrows L kk q) ∧
      (∀ j < ncols, u'.getD (j * ncols + kk) 0 = if j = kk then val else cv nrows A j (amind, amloc)) ∧
      ∀ j < ncols, ∀ i < ncols, i ≠ kk → u'.getD (j * ncols + i) 0 = u.getD (j * ncols + i) 0 := by
  obtain ⟨⟨A', u'⟩, e, h1, h2, h3, h4, h5, h6⟩ := forN_spec (n := ncols) (s := (A, u)) (body := mrow nrows ncols kk val amind amloc L)
    (I := fun m s => s.1.length = nrows * ncols ∧ s.2.length = ncols * ncols ∧
      (∀ j < m, ∀ q, cv nrows s.1 j q = cv nrows A j q - s.2.getD (j * ncols + kk) 0 * cv nrows L kk q) ∧
      (∀ j, m ≤ j → j < ncols → cv nrows s.1 j = cv nrows A j) ∧
      (∀ j < m, s.2.getD (j * ncols + kk) 0 = if j = kk then val else cv nrows A j (amind, amloc)) ∧
      ∀ j < ncols, ∀ i < ncols, i ≠ kk → s.2.getD (j * ncols + i) 0 = u.getD (j * ncols + i) 0)
    ⟨hA, hu, fun j hj => by omega, fun _ _ _ => rfl, fun j hj => by omega, fun _ _ _ _ _ => rfl⟩
    (by
      rintro m hm ⟨B, v⟩ ⟨h1, h2, h3, h4, h5, h6⟩
      dsimp only at h1 h2 h3 h4 h5 h6
      have hB : ∀ l < nrows, m * nrows + l < B.length := fun l hl => by rw [h1]; exact (Lay.cols nrows ncols).lt m hm l hl
      have hv : m * ncols + kk < v.length := by rw [h2]; exact (Lay.cols ncols ncols).lt m hm kk hk
      have hg : B.getD (m * nrows + amind) 0 amloc = cv nrows A m (amind, amloc) := by
        rw [← h4 m le_rfl hm]; unfold cv; rw [if_pos hamind]
      set w := (if m = kk then val else B.getD (m * nrows + amind) 0 amloc) with hw
      obtain ⟨B', e, k1, k2, k3⟩ := updG (0 : K → K) (n := nrows) (q := fun l => m * nrows + l) (y := B)
        (body := fun l A => do
          let a ← rd A (m * nrows + l)
          let b ← rd L (kk * nrows + l)
          wr A (m * nrows + l) (fun x => 1 * a x + (-w) * b x))
        (fun l a x => 1 * a x + (-w) * L.getD (kk * nrows + l) 0 x) hB (fun i _ j _ h => by omega)
        (fun l hl z hz => by
          rw [rd_getD 0 (by rw [hz]; exact hB l hl), bind_ok, rd_getD 0 (by rw [hL]; exact (Lay.cols nrows ncols).lt kk hk l hl), bind_ok,
            wr_ok _ (by rw [hz]; exact hB l hl)])
      have hcv : ∀ j < ncols, j ≠ m → cv nrows B' j = cv nrows B j := by
        intro j hj hjm
        funext q
        unfold cv
        by_cases hq : q.1 < nrows
        · rw [if_pos hq, if_pos hq, k3 _ (fun i hi c => hjm ((Lay.cols nrows ncols).inj m hm i hi j hj q.1 hq c).1.symm)]
        · rw [if_neg hq, if_neg hq]
      have hne : ∀ j < ncols, j ≠ m → j * ncols + kk ≠ m * ncols + kk := fun j hj hjm c =>
        hjm ((Lay.cols ncols ncols).inj j hj kk hk m hm kk hk c).1
      refine ⟨(B', v.set (m * ncols + kk) w), ?_, ?_, ?_, ?_, ?_, ?_, ?_⟩
      · unfold mrow
        dsimp only
        rw [rd_getD 0 (hB amind hamind), bind_ok, wr_ok _ hv, bind_ok, rd_getD 0 (by rw [List.length_set]; exact hv), bind_ok, getD_setG hv, if_pos rfl,
          ← hw, e, bind_ok]
        rfl
      · dsimp only; rw [k1, h1]
      · dsimp only; rw [List.length_set, h2]
      · intro j hj q
        dsimp only
        rw [getD_setG hv]
        by_cases hjm : j = m
        · subst hjm
          rw [if_pos rfl, ← h4 j le_rfl hm]
          unfold cv
          by_cases hq : q.1 < nrows
          · rw [if_pos hq, if_pos hq, if_pos hq, k2 q.1 hq]; ring
          · rw [if_neg hq, if_neg hq, if_neg hq]; ring
        · rw [if_neg (hne j (by omega) hjm), hcv j (by omega) hjm]; exact h3 j (by omega) q
      · intro j hj1 hj2
        dsimp only
        rw [hcv j hj2 (by omega)]; exact h4 j (by omega) hj2
      · intro j hj
        dsimp only
        rw [getD_setG hv]
        by_cases hjm : j = m
        · rw [hjm, if_pos rfl, hw, hg]
        · rw [if_neg (hne j (by omega) hjm)]; exact h5 j (by omega)
      · intro j hj i hi hik
        dsimp only
        rw [getD_setG hv, if_neg (fun c => hik ((Lay.cols ncols ncols).inj j hj i hi m hm kk hk c).2)]; exact h6 j hj i hi hik)
  exact ⟨A', u', e, h1, h2, h3, h5, h6⟩

/-- Sizes, and pivots found so far. -/
structure MShape (nrows ncols kk : Nat) (s : MS K) : Prop where
  A : s.A.length = nrows * ncols
  L : s.L.length = nrows * ncols
  u : s.u.length = ncols * ncols
  piv : s.piv.length = ncols
  px : s.px.length = ncols
  lt : ∀ j < kk, s.piv.getD j 0 < nrows

/-- The pivots as rows and points. -/
def pv (s : MS K) (k : Nat) : Nat × K := (s.piv.getD k 0, s.px.getD k 0)

/-- The relation of one step. -/
structure MRel (thr : K) (nrows ncols kk : Nat) (s s' : MS K) : Prop where
  sr : SR ncols kk (thr < |s'.u.getD (kk * ncols + kk) 0|) (cv nrows s.A) (cv nrows s'.A) (cv nrows s.L) (cv nrows s'.L) (pv s) (pv s')
    (fun j k => s.u.getD (j * ncols + k) 0) (fun j k => s'.u.getD (j * ncols + k) 0)
  one : cv nrows s'.L kk (pv s' kk) = 1
  zero : ¬ thr < |s'.u.getD (kk * ncols + kk) 0| → ∀ i < kk, cv nrows s'.L kk (pv s' i) = 0

theorem mstep_ok {thr : K} (ht : 0 ≤ thr) {am : List (K → K) → Nat × K} {nrows ncols : Nat}
    {anyL : Nat → List Nat → List K → C (List (K → K) × List Nat × List K)}
    (ham : ∀ c : List (K → K), c.length = nrows → (am c).1 < nrows) (hany : AnyOk nrows ncols anyL)
    {kk : Nat} (hkk : kk < ncols) {s : MS K} (hs : MShape nrows ncols kk s) :
    (∃ e, mstep thr am anyL nrows ncols kk s = .error e ∧ ∃ k piv px, anyL k piv px = .error e) ∨
    ∃ s', mstep thr am anyL nrows ncols kk s = .ok s' ∧ MShape nrows ncols (kk + 1) s' ∧ MRel thr nrows ncols kk s s' := by
  obtain ⟨col, e1, hcl, hcv⟩ := column_ok hkk hs.A
  have hind := ham col hcl
  set ind := (am col).1 with hindd
  set loc := (am col).2 with hloc
  have hfl : kk * nrows + ind < s.A.length := by rw [hs.A]; exact (Lay.cols nrows ncols).lt kk hkk ind hind
  set val := s.A.getD (kk * nrows + ind) 0 loc with hval
  have hpk : kk < s.piv.length := by rw [hs.piv]; exact hkk
  have hxk : kk < s.px.length := by rw [hs.px]; exact hkk
  have hpg : ∀ (v : Nat) j, (s.piv.set kk v).getD j 0 = if j = kk then v else s.piv.getD j 0 := fun v j => getD_setG hpk v j
  have hxg : ∀ (v : K) j, (s.px.set kk v).getD j 0 = if j = kk then v else s.px.getD j 0 := fun v j => getD_setG hxk v j
  have hmc : (∃ e, mcol thr nrows kk anyL val (s.piv.set kk ind) (s.px.set kk loc) s.A = .error e ∧ ∃ k piv px, anyL k piv px = .error e) ∨
      ∃ w i x, mcol thr nrows kk anyL val (s.piv.set kk ind) (s.px.set kk loc) s.A = .ok w ∧ w.1.length = nrows ∧ i < nrows ∧
        w.2.1 = s.piv.set kk i ∧ w.2.2 = s.px.set kk x ∧ w.1.getD i 0 x = 1 ∧
        (thr < |val| → i = ind ∧ x = loc ∧ ∀ l < nrows, ∀ y, w.1.getD l 0 y = val⁻¹ * s.A.getD (kk * nrows + l) 0 y) ∧
        (¬ thr < |val| → ∀ j < kk, w.1.getD (s.piv.getD j 0) 0 (s.px.getD j 0) = 0) := by
    unfold mcol
    by_cases h : |val| ≤ thr
    · rw [if_pos h]
      cases hw : anyL kk (s.piv.set kk ind) (s.px.set kk loc) with
      | error e => exact Or.inl ⟨e, rfl, _, _, _, hw⟩
      | ok w =>
        obtain ⟨h1, i, hi, x, h2, h3, h4, h5⟩ := hany kk hkk _ _ (by rw [List.length_set]; exact hs.piv) (by rw [List.length_set]; exact hs.px)
          (fun j hj => by rw [hpg, if_neg (by omega)]; exact hs.lt j hj) w hw
        refine Or.inr ⟨w, i, x, rfl, h1, hi, by rw [h2, List.set_set], by rw [h3, List.set_set], h4, fun c => absurd h (not_le.2 c), fun _ j hj => ?_⟩
        have := h5 j hj
        rwa [hpg, hxg, if_neg (by omega), if_neg (by omega)] at this
    · rw [if_neg h]
      have h0 : val ≠ 0 := by intro c; rw [c, abs_zero] at h; exact h ht
      obtain ⟨z, e, h1, h2⟩ := scaleCol_ok hkk hs.A (1 / val)
      refine Or.inr ⟨(z, s.piv.set kk ind, s.px.set kk loc), ind, loc, ?_, h1, hind, rfl, rfl, ?_, fun _ => ⟨rfl, rfl, fun l hl y => ?_⟩,
        fun c => absurd (not_le.1 h) c⟩
      · rw [dv_ok h0, bind_ok, e, bind_ok]; rfl
      · dsimp only; rw [h2 ind hind, ← hval]; exact one_div_mul_cancel h0
      · dsimp only; rw [h2 l hl, one_div]
  have hpre : mstep thr am anyL nrows ncols kk s = (do
      let w ← mcol thr nrows kk anyL val (s.piv.set kk ind) (s.px.set kk loc) s.A
      let L ← setCol nrows kk w.1 s.L
      let amind ← rd w.2.1 kk
      let amloc ← rd w.2.2 kk
      let Au ← forN ncols (mrow nrows ncols kk val amind amloc L) (s.A, s.u)
      pure ⟨Au.1, L, Au.2, w.2.1, w.2.2⟩) := by
    unfold mstep
    rw [e1, bind_ok, ← hindd, ← hloc, wr_ok _ hpk, bind_ok, wr_ok _ hxk, bind_ok, rd_getD 0 hfl, bind_ok]
  rw [hpre]
  rcases hmc with ⟨e, he, hb⟩ | ⟨w, i, x, e2, h1, hi, h2, h3, h4, h5, h6⟩
  · exact Or.inl ⟨e, by rw [he]; rfl, hb⟩
  · obtain ⟨L', e3, l1, l2, l3⟩ := setCol_ok hkk h1 hs.L
    obtain ⟨A', u', e4, m1, m2, m3, m4, m5⟩ := mrows_ok (val := val) (amloc := x) hkk hi hs.A l1 hs.u
    have hcvL : ∀ q : Nat × K, q.1 < nrows → cv nrows L' kk q = w.1.getD q.1 0 q.2 := fun q hq => by unfold cv; rw [if_pos hq, l2 q.1 hq]
    have hdiag : u'.getD (kk * ncols + kk) 0 = val := by rw [m4 kk hkk, if_pos rfl]
    have hpvk : pv (⟨A', L', u', w.2.1, w.2.2⟩ : MS K) kk = (i, x) := by unfold pv; dsimp only; rw [h2, h3, hpg, hxg, if_pos rfl, if_pos rfl]
    have hpvo : ∀ j, j ≠ kk → pv (⟨A', L', u', w.2.1, w.2.2⟩ : MS K) j = pv s j := fun j hj => by
      unfold pv; dsimp only; rw [h2, h3, hpg, hxg, if_neg hj, if_neg hj]
    refine Or.inr ⟨⟨A', L', u', w.2.1, w.2.2⟩, ?_, ⟨m1, l1, m2, by rw [h2, List.length_set]; exact hs.piv, by rw [h3, List.length_set]; exact hs.px, ?_⟩,
      ⟨fun j hj q => ?_, fun j hj hjk => ?_, fun hr => ?_, fun j hj hjk => ?_, fun j hj hjk => ?_, fun j hj i' hi' hik => ?_⟩, ?_, ?_⟩
    · rw [e2, bind_ok, e3, bind_ok, rd_getD 0 (by rw [h2, List.length_set]; exact hpk), bind_ok, rd_getD 0 (by rw [h3, List.length_set]; exact hxk),
        bind_ok, h2, h3, hpg, hxg, if_pos rfl, if_pos rfl, e4, bind_ok]
      rfl
    · intro j hj
      dsimp only
      rw [h2, hpg]
      by_cases hjk : j = kk
      · rw [if_pos hjk]; exact hi
      · rw [if_neg hjk]; exact hs.lt j (by omega)
    · exact m3 j hj q
    · rw [hpvk]
      have := m4 j hj
      rwa [if_neg hjk] at this
    · dsimp only at hr ⊢
      rw [hdiag] at hr ⊢
      obtain ⟨k1, k2, k3⟩ := h5 hr
      refine ⟨?_, ?_, fun q => ?_⟩
      · intro c; rw [c, abs_zero] at hr; exact absurd ht (not_le.2 hr)
      · rw [hpvk, k1, k2, hval]; unfold cv; rw [if_pos hind]
      · by_cases hq : q.1 < nrows
        · rw [hcvL q hq, k3 q.1 hq]; unfold cv; rw [if_pos hq]
        · unfold cv; rw [if_neg hq, if_neg hq, mul_zero]
    · exact l3 j hj hjk
    · exact hpvo j hjk
    · exact m5 j hj i' hi' hik
    · rw [hpvk, hcvL (i, x) hi]; exact h4
    · intro hn j hj
      dsimp only at hn
      rw [hdiag] at hn
      rw [hpvo j (by omega), hcvL _ (hs.lt j hj)]
      exact h6 hn j hj

/-! ### The replacement column -/

theorem zerosOf_ok {upto : Nat} {piv : List Nat} {px : List K} (h1 : upto ≤ piv.length) (h2 : upto ≤ px.length) (ii : Nat) :
    ∃ z, zerosOf upto piv px ii = .ok z ∧ ∀ j < upto, piv.getD j 0 = ii → px.getD j 0 ∈ z := by
  obtain ⟨z, e, h⟩ := forN_spec (n := upto) (s := ([] : List K))
    (body := fun jj z => do
      let p ← rd piv jj
      if p = ii then do
        let x ← rd px jj
        pure (z ++ [x])
      else pure z)
    (I := fun m z => ∀ j < m, piv.getD j 0 = ii → px.getD j 0 ∈ z)
    (fun j hj => by omega)
    (by
      intro m hm z hz
      rw [rd_getD 0 (show m < piv.length by omega), bind_ok]
      by_cases hp : piv.getD m 0 = ii
      · refine ⟨z ++ [px.getD m 0], by rw [if_pos hp, rd_getD 0 (show m < px.length by omega), bind_ok]; rfl, fun j hj hj' => ?_⟩
        by_cases hjm : j = m
        · rw [hjm]; simp
        · exact List.mem_append_left _ (hz j (by omega) hj')
      · refine ⟨z, by rw [if_neg hp]; rfl, fun j hj hj' => ?_⟩
        by_cases hjm : j = m
        · rw [hjm] at hj'; exact absurd hj' hp
        · exact hz j (by omega) hj')
  exact ⟨z, e, h⟩

/-- `create_any_L` meets the requirement, whatever the search returns. -/
theorem createAnyL_ok {thr : K} {am : List (K → K) → Nat × K} {nrows ncols : Nat} (ham : ∀ c : List (K → K), c.length = nrows → (am c).1 < nrows) :
    AnyOk nrows ncols (createAnyL thr am nrows) := by
  intro kk hkk piv px hpiv hpx hlt w hw
  have hz := fun ii => zerosOf_ok (upto := kk) (piv := piv) (px := px) (by omega) (by omega) ii
  choose z hz1 hz2 using hz
  obtain ⟨L, e, h1, h2, -⟩ := updG (0 : K → K) (n := nrows) (q := fun i => i) (y := List.replicate nrows (fun _ => 0))
    (body := fun ii L => do
      let z ← zerosOf kk piv px ii
      wr L ii (if z.length = 0 then (fun _ => 1) else fun x => (z.map (fun a => x - a)).prod))
    (fun ii _ => if (z ii).length = 0 then (fun _ => 1) else fun x => ((z ii).map (fun a => x - a)).prod) (fun i hi => by simpa using hi)
    (fun i _ k _ h => h)
    (fun i hi y hy => by
      rw [List.length_replicate] at hy
      rw [hz1 i, bind_ok, wr_ok _ (by omega)])
  rw [List.length_replicate] at h1
  have hind := ham L h1
  unfold createAnyL at hw
  rw [e, bind_ok, wr_ok _ (by omega), bind_ok, wr_ok _ (by omega), bind_ok, rd_getD 0 (by omega), bind_ok] at hw
  set ind := (am L).1 with hindd
  set loc := (am L).2 with hloc
  by_cases hv : L.getD ind 0 loc = 0
  · dsimp only at hw
    rw [hv, dv, if_pos rfl] at hw
    exact absurd hw (by simp [bind, Except.bind])
  · dsimp only at hw
    rw [dv_ok hv, bind_ok] at hw
    set cc := 1 / (L.getD ind 0 loc) with hcc
    obtain ⟨L', e', k1, k2, -⟩ := updG (0 : K → K) (n := nrows) (q := fun i => i) (y := L)
      (body := fun i L => do
        let g ← rd L i
        wr L i (fun x => cc * g x))
      (fun ii g x => cc * g x) (fun i hi => by omega) (fun i _ k _ h => h)
      (fun i hi y hy => by
        rw [rd_getD 0 (by omega), bind_ok, wr_ok _ (by omega)])
    rw [e', bind_ok] at hw
    by_cases hc : thr < |L.getD ind 0 loc|
    · rw [cassert_of (by simpa using hc), bind_ok] at hw
      have hw' : w = (L', piv.set kk ind, px.set kk loc) := by
        have := hw
        simp only [pure, Except.pure, Except.ok.injEq] at this
        exact this.symm
      subst hw'
      refine ⟨by rw [k1, h1], ind, hind, loc, rfl, rfl, ?_, fun j hj => ?_⟩
      · dsimp only; rw [k2 ind hind, hcc]; exact one_div_mul_cancel hv
      · dsimp only
        rw [k2 _ (hlt j hj), h2 _ (hlt j hj)]
        have hm := hz2 (piv.getD j 0) j hj rfl
        rw [if_neg (by intro c; rw [List.length_eq_zero_iff] at c; rw [c] at hm; simp at hm)]
        dsimp only
        rw [show ((z (piv.getD j 0)).map (fun a => px.getD j 0 - a)).prod = 0 from List.prod_eq_zero (List.mem_map.2 ⟨_, hm, sub_self _⟩), mul_zero]
    · rw [show decide (thr < |L.getD ind 0 loc|) = false by simpa using hc, cassert_false] at hw
      exact absurd hw (by simp [bind, Except.bind])

end C3.Qr.Lu
