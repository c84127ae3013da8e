/-
Canonical decompositions (c3/lib_tensdecomp/candecomp.c) and their conversion to tensor trains (c3/lib_tensdecomp/convert.c), C136.
-/
import Verif.Tt.Props
import Mathlib.Algebra.BigOperators.Fin

namespace C3.Tt
open Finset
variable {K : Type} [CommRing K]

/-! ## Model -/

/-- `struct mat` (c3/lib_linalg/matrix_util.h): rows, columns, values. -/
structure CMat (K : Type) where
  nrows : Nat
  ncols : Nat
  vals : List K
  deriving DecidableEq

/-- `struct candecomp` (c3/lib_tensdecomp/candecomp.h:50-54). -/
structure CD (K : Type) where
  dim : Nat
  rank : Nat
  cores : List (CMat K)

/-- c3/lib_tensdecomp/candecomp.c:62-75 `cdelem`. -/
def cdelem (cd : CD K) (elem : List Nat) : C K :=
  forN cd.rank (fun ii out => do
    let temp ← forN cd.dim (fun jj temp => do
      let e ← rd elem jj
      let m ← rd cd.cores jj
      let x ← rd m.vals (e * cd.rank + ii)
      pure (temp * x)) 1
    pure (out + temp)) 0

/-- c3/lib_tensdecomp/candecomp.c:88-105 `cd2tt_corem`. -/
def corem (m : CMat K) : C (T3 K) := do
  let v ← forN m.nrows (fun ii => forN m.ncols (fun jj v => do
    let x ← rd m.vals (ii * m.ncols + jj)
    wr v (jj + ii * m.ncols + jj * m.ncols * m.nrows) x)) (initT3 m.ncols m.nrows m.ncols : T3 K).vals
  pure ⟨m.ncols, m.nrows, m.ncols, v⟩

/-- c3/lib_tensdecomp/candecomp.c:118-135 `cd2tt_corel`. -/
def corel (m : CMat K) : C (T3 K) := do
  let v ← forN m.nrows (fun ii => forN m.ncols (fun jj v => do
    let x ← rd m.vals (ii * m.ncols + jj)
    wr v (0 + ii * 1 + jj * 1 * m.nrows) x)) (initT3 1 m.nrows m.ncols : T3 K).vals
  pure ⟨1, m.nrows, m.ncols, v⟩

/-- c3/lib_tensdecomp/candecomp.c:147-163 `cd2tt_corer`. -/
def corer (m : CMat K) : C (T3 K) := do
  let v ← forN m.nrows (fun ii => forN m.ncols (fun jj v => do
    let x ← rd m.vals (ii * m.ncols + jj)
    wr v (jj + ii * m.ncols) x)) (initT3 m.ncols m.nrows 1 : T3 K).vals
  pure ⟨m.ncols, m.nrows, 1, v⟩

/-- c3/lib_tensdecomp/convert.c:60-82 `cd2tt`. The loop over the middle cores writes cores and ranks; the two arrays are filled by two
loops here. `dim - 1` is truncated (in C it wraps for dimension 0, but `cores[0]` is read first). -/
def cd2tt (cd : CD K) : C (TT K) := do
  let nv ← forN cd.dim (fun ii nv => do
    let m ← rd cd.cores ii
    wr nv ii m.nrows) (List.replicate cd.dim 0)
  let rk ← initRanks cd.dim
  let nv ← initNvals cd.dim nv
  let m0 ← rd cd.cores 0
  let Q0 ← corel m0
  let cs ← wr (List.replicate cd.dim none) 0 (some Q0)
  let rk ← wr rk 0 1
  let cs ← forR 1 (cd.dim - 1) (fun ii cs => do
    let m ← rd cd.cores ii
    let Q ← corem m
    wr cs ii (some Q)) cs
  let rk ← forR 1 (cd.dim - 1) (fun ii rk => do
    let m ← rd cd.cores ii
    wr rk ii m.ncols) rk
  let ml ← rd cd.cores (cd.dim - 1)
  let Ql ← corer ml
  let cs ← wr cs (cd.dim - 1) (some Ql)
  let rk ← wr rk (cd.dim - 1) Ql.n0
  let rk ← wr rk cd.dim 1
  let cs ← allSome cs
  pure ⟨cd.dim, nv, rk, cs⟩

/-! ## Specification -/

/-- Entry `(e,r)` of factor `k` (stored by rows). -/
def CD.A (cd : CD K) (k e r : Nat) : K := ((cd.cores[k]?).map (fun m => m.vals.getD (e * m.ncols + r) 0)).getD 0

/-- Size of mode `k`. -/
def CD.nv (cd : CD K) (k : Nat) : Nat := ((cd.cores[k]?).map CMat.nrows).getD 0

/-- The element of the represented tensor: `Σ_r Π_k A_k[e_k, r]`. -/
def CD.elem (cd : CD K) (es : List Nat) : K := ∑ r ∈ range cd.rank, ∏ k ∈ range cd.dim, cd.A k (es.getD k 0) r

/-- One factor per dimension, each with `rank` columns and all values stored. -/
structure CD.WF (cd : CD K) : Prop where
  len : cd.cores.length = cd.dim
  core : ∀ (k : Nat) (m : CMat K), cd.cores[k]? = some m → m.ncols = cd.rank ∧ m.vals.length = m.nrows * m.ncols

/-- A multi-index of the decomposition. -/
structure CD.Ix (cd : CD K) (es : List Nat) : Prop where
  len : es.length = cd.dim
  lt : ∀ k < cd.dim, es.getD k 0 < cd.nv k

/-! ## Proofs -/

theorem CD.WF.core_get {cd : CD K} (h : cd.WF) {k : Nat} (hk : k < cd.dim) :
    ∃ m, rd cd.cores k = .ok m ∧ m.nrows = cd.nv k ∧ m.ncols = cd.rank ∧ m.vals.length = cd.nv k * cd.rank ∧
      ∀ e < cd.nv k, ∀ r < cd.rank, m.vals[e * cd.rank + r]? = some (cd.A k e r) := by
  have hk' : k < cd.cores.length := by rw [h.len]; exact hk
  have hg := List.getElem?_eq_getElem hk'
  obtain ⟨h1, h2⟩ := h.core k _ hg
  have hn : cd.nv k = cd.cores[k].nrows := by rw [CD.nv, hg]; rfl
  refine ⟨_, rd_ok hk', hn.symm, h1, by rw [h2, h1, hn], fun e he r hr => ?_⟩
  have : e * cd.rank + r < cd.cores[k].vals.length := by
    rw [h2, h1]
    rw [hn] at he
    calc e * cd.rank + r < e * cd.rank + cd.rank := by omega
      _ = (e + 1) * cd.rank := by ring
      _ ≤ _ := Nat.mul_le_mul_right _ he
  rw [CD.A, hg, Option.map_some, Option.getD_some, h1, List.getD_eq_getElem?_getD, List.getElem?_eq_getElem this]
  rfl

/-- Storing a factor as the slices of a three-dimensional array at the positions `pos`. -/
theorem core_fill {m : CMat K} {n R a c : Nat} {A : Nat → Nat → K}
    (hA : ∀ e < n, ∀ r < R, m.vals[e * R + r]? = some (A e r)) (g : Nat → Nat → Nat → K) (pi pj : Nat → Nat)
    (hi : ∀ r < R, pi r < a) (hj : ∀ r < R, pj r < c) (hg : ∀ e < n, ∀ r < R, g (pi r) e (pj r) = A e r)
    (h0 : ∀ i < a, ∀ e < n, ∀ j < c, (∃ r < R, pi r = i ∧ pj r = j) ∨ g i e j = 0)
    (body : Nat → Nat → List K → C (List K))
    (hb : ∀ e < n, ∀ r < R, ∀ v, body e r v = (do let x ← rd m.vals (e * R + r); wr v (pi r + e * a + pj r * a * n) x)) :
    ∃ v, forN n (fun ii => forN R (body ii)) (initT3 a n c : T3 K).vals = .ok v ∧ (⟨a, n, c, v⟩ : T3 K).Is a n c g := by
  have hF : FillsV (fun p => g (p % a) (p / a % n) (p / (a * n))) (a * n * c) (forN n (fun ii => forN R (body ii)))
      (fun p => ∃ e < n, ∃ r < R, p = pi r + e * a + pj r * a * n) := by
    refine FillsV.forN fun e he => FillsV.forN fun r hr => ?_
    have : body e r = fun v => (do let x ← rd m.vals (e * R + r); wr v (pi r + e * a + pj r * a * n) x) :=
      funext fun v => hb e he r hr v
    rw [this]
    refine FillsV.bind (rd_of_getElem? (hA e he r hr)) (FillsV.wr (idx3_lt (hi r hr) he (hj r hr)) ?_)
    obtain ⟨h1, h2, h3⟩ := idx3_inv (r := a) (i := pi r) (e := e) (j := pj r) (n := n) (hi r hr) he
    rw [h1, h2, h3, hg e he r hr]
  obtain ⟨v, hv, hc⟩ := hF (fun p => ¬ ∃ e < n, ∃ r < R, p = pi r + e * a + pj r * a * n) (initT3 a n c : T3 K).vals
    ⟨by simp [initT3], by
      intro p hp hS
      obtain ⟨q1, q2, q3, q4⟩ := idx3_cov hp
      rcases h0 (p % a) q1 (p / a % n) q2 (p / (a * n)) q3 with ⟨r, hr, e1, e2⟩ | hz
      · exact absurd ⟨_, q2, r, hr, by rw [e1, e2]; exact q4.symm⟩ hS
      · rw [hz]
        simp [initT3, hp]⟩
  refine ⟨v, hv, rfl, rfl, rfl, hc.len, fun i hi' e he j hj' => ?_⟩
  obtain ⟨h1, h2, h3⟩ := idx3_inv (r := a) (i := i) (e := e) (j := j) (n := n) hi' he
  rw [show (⟨a, n, c, v⟩ : T3 K).vals = v from rfl, hc.cov _ (idx3_lt hi' he hj') (Classical.em _).symm, h1, h2, h3]

theorem corem_ok {m : CMat K} {n R : Nat} {A : Nat → Nat → K} (hn : m.nrows = n) (hR : m.ncols = R)
    (hA : ∀ e < n, ∀ r < R, m.vals[e * R + r]? = some (A e r)) :
    ∃ Q, corem m = .ok Q ∧ Q.Is R n R (fun i e j => if i = j then A e i else 0) := by
  obtain ⟨v, h1, h2⟩ := core_fill (a := R) (c := R) hA (fun i e j => if i = j then A e i else 0) (fun r => r) (fun r => r)
    (fun r h => h) (fun r h => h) (fun e _ r _ => if_pos rfl)
    (fun i hi e _ j _ => by
      by_cases h : i = j
      · exact .inl ⟨i, hi, rfl, h⟩
      · exact .inr (if_neg h))
    (fun ii jj v => do
      let x ← rd m.vals (ii * R + jj)
      wr v (jj + ii * R + jj * R * n) x) (fun e _ r _ v => rfl)
  refine ⟨_, ?_, h2⟩
  rw [corem, hn, hR, h1, bind_ok]; rfl

theorem corel_ok {m : CMat K} {n R : Nat} {A : Nat → Nat → K} (hn : m.nrows = n) (hR : m.ncols = R)
    (hA : ∀ e < n, ∀ r < R, m.vals[e * R + r]? = some (A e r)) :
    ∃ Q, corel m = .ok Q ∧ Q.Is 1 n R (fun _ e j => A e j) := by
  obtain ⟨v, h1, h2⟩ := core_fill (a := 1) (c := R) hA (fun _ e j => A e j) (fun _ => 0) (fun r => r)
    (fun r h => by omega) (fun r h => h) (fun e _ r _ => rfl)
    (fun i hi e _ j hj => .inl ⟨j, hj, by omega, rfl⟩)
    (fun ii jj v => do
      let x ← rd m.vals (ii * R + jj)
      wr v (0 + ii * 1 + jj * 1 * n) x) (fun e _ r _ v => rfl)
  refine ⟨_, ?_, h2⟩
  rw [corel, hn, hR, h1, bind_ok]; rfl

theorem corer_ok {m : CMat K} {n R : Nat} {A : Nat → Nat → K} (hn : m.nrows = n) (hR : m.ncols = R)
    (hA : ∀ e < n, ∀ r < R, m.vals[e * R + r]? = some (A e r)) :
    ∃ Q, corer m = .ok Q ∧ Q.Is R n 1 (fun i e _ => A e i) := by
  obtain ⟨v, h1, h2⟩ := core_fill (a := R) (c := 1) hA (fun i e _ => A e i) (fun r => r) (fun _ => 0)
    (fun r h => h) (fun r h => by omega) (fun e _ r _ => rfl)
    (fun i hi e _ j hj => .inl ⟨i, hi, rfl, by omega⟩)
    (fun ii jj v => do
      let x ← rd m.vals (ii * R + jj)
      wr v (jj + ii * R) x) (fun e _ r _ v => by simp only [Nat.zero_mul, Nat.add_zero])
  refine ⟨_, ?_, h2⟩
  rw [corer, hn, hR, h1, bind_ok]; rfl

/-- Ranks and cores of the converted train. -/
def CD.S (cd : CD K) (k : Nat) : Nat := if k = 0 ∨ k = cd.dim then 1 else cd.rank
def CD.G (cd : CD K) (k i e j : Nat) : K :=
  if k = 0 then cd.A 0 e j else if k = cd.dim - 1 then cd.A k e i else if i = j then cd.A k e i else 0

omit [CommRing K] in
theorem CD.S_mid {cd : CD K} {k : Nat} (h : 0 < k) (h' : k < cd.dim) : cd.S k = cd.rank := by
  rw [CD.S, if_neg (by omega)]

theorem CD.tail_eq {cd : CD K} : ∀ (es : List Nat) (k i : Nat), k + es.length = cd.dim → 0 < k → k < cd.dim → i < cd.rank →
    tail cd.S cd.G k es i = ∏ m ∈ range es.length, cd.A (k + m) (es.getD m 0) i := by
  intro es
  induction es with
  | nil => intro k i hk h0 hlt; simp only [List.length_nil] at hk; omega
  | cons e es ih =>
    intro k i hk h0 hkd hi
    simp only [List.length_cons] at hk
    by_cases hl : k = cd.dim - 1
    · have hes : es = [] := List.length_eq_zero_iff.1 (by omega)
      have hk1 : k + 1 = cd.dim := by omega
      subst hes
      simp only [tail, hk1, CD.S, or_true, if_true, sum_range_one, mul_one]
      rw [CD.G, if_neg (by omega), if_pos hl]
      simp
    · rw [tail, CD.S_mid (by omega) (by omega), List.length_cons, prod_range_succ', Finset.sum_eq_single i]
      · rw [ih (k + 1) i (by omega) (by omega) (by omega) hi, CD.G, if_neg (by omega), if_neg hl, if_pos rfl, mul_comm]
        simp only [List.getD_cons_succ, List.getD_cons_zero, Nat.add_zero]
        congr 1
        exact prod_congr rfl fun m _ => by rw [show k + 1 + m = k + (m + 1) by omega]
      · intro c _ hc
        rw [CD.G, if_neg (by omega), if_neg hl, if_neg (Ne.symm hc), zero_mul]
      · intro h; exact absurd (mem_range.2 hi) h

/-! ## Theorems -/

/-- **C136** Evaluating a canonical decomposition at a multi-index gives `Σ_r Π_k A_k[e_k, r]`. -/
theorem cdelem_value {cd : CD K} (h : cd.WF) {es : List Nat} (he : cd.Ix es) : cdelem cd es = .ok (cd.elem es) := by
  obtain ⟨s, h1, h2⟩ := forN_spec (n := cd.rank) (s := (0 : K))
    (body := fun ii out => do
      let temp ← forN cd.dim (fun jj temp => do
        let e ← rd es jj
        let m ← rd cd.cores jj
        let x ← rd m.vals (e * cd.rank + ii)
        pure (temp * x)) 1
      pure (out + temp))
    (I := fun r out => out = ∑ r' ∈ range r, ∏ k ∈ range cd.dim, cd.A k (es.getD k 0) r') (by simp)
    (by
      rintro r hr s rfl
      obtain ⟨t, h1, h2⟩ := forN_spec (n := cd.dim) (s := (1 : K))
        (body := fun jj temp => do
          let e ← rd es jj
          let m ← rd cd.cores jj
          let x ← rd m.vals (e * cd.rank + r)
          pure (temp * x))
        (I := fun k out => out = ∏ k ∈ range k, cd.A k (es.getD k 0) r) (by simp)
        (by
          rintro k hk s rfl
          obtain ⟨m, hm, -, -, -, hv⟩ := h.core_get hk
          have hke : k < es.length := by rw [he.len]; exact hk
          have hg : es.getD k 0 = es[k] := by
            rw [List.getD_eq_getElem?_getD, List.getElem?_eq_getElem hke]; rfl
          refine ⟨_, ?_, (prod_range_succ _ _).symm⟩
          have := hv (es.getD k 0) (he.lt k hk) r hr
          rw [rd_ok hke, bind_ok, hm, bind_ok, ← hg, rd_of_getElem? this, bind_ok]; rfl)
      subst h2
      exact ⟨_, by rw [h1, bind_ok]; rfl, (sum_range_succ _ _).symm⟩)
  rw [cdelem, h1, h2]; rfl

/-- **C136** Converting a canonical decomposition of dimension ≥ 2 gives a well-formed tensor train with the same mode sizes, with all
inner ranks equal to the canonical rank, and with the same elements. Missing: dimension 1 (`cd2tt_dim1_counterexample`). -/
theorem cd2tt_value_partial {cd : CD K} (h : cd.WF) (h2 : 2 ≤ cd.dim) (hR : 0 < cd.rank) :
    ∃ t, cd2tt cd = .ok t ∧ t.WF ∧ t.dim = cd.dim ∧ (∀ k < cd.dim, t.nv k = cd.nv k) ∧
      (∀ k, 0 < k → k < cd.dim → t.rk k = cd.rank) ∧ ∀ es, cd.Ix es → t.elem es = cd.elem es := by
  have hs0 : cd.S 0 = 1 := by simp [CD.S]
  have hsd : cd.S cd.dim = 1 := by simp [CD.S]
  -- sizes
  have hnv : forN cd.dim (fun ii nv => do
      let m ← rd cd.cores ii
      wr nv ii m.nrows) (List.replicate cd.dim 0) = .ok ((List.range cd.dim).map cd.nv) := by
    refine FillsV.finish (T := fun p => ∃ i < cd.dim, p = i) (FillsV.forN fun i hi => ?_) (fun p hp => ⟨p, hp, rfl⟩) (by simp)
    obtain ⟨m, hm, hn, -⟩ := h.core_get hi
    exact FillsV.bind hm (FillsV.wr hi hn)
  -- cores
  obtain ⟨m0, hm0, n0, c0, -, v0⟩ := h.core_get (k := 0) (by omega)
  obtain ⟨Q0, hQ0, iQ0⟩ := corel_ok n0 c0 v0
  obtain ⟨ml, hml, nl, cl, -, vl⟩ := h.core_get (k := cd.dim - 1) (by omega)
  obtain ⟨Ql, hQl, iQl⟩ := corer_ok nl cl vl
  have f1 : Fills (fun k (Q : T3 K) => Q.Is (cd.S k) (cd.nv k) (cd.S (k + 1)) (cd.G k)) cd.dim
      (fun cs => wr cs 0 (some Q0)) (· = 0) := by
    refine Fills.wr (by omega) ?_
    rw [hs0, CD.S_mid (by omega) (by omega)]
    exact iQ0.congr fun i _ e _ j _ => by rw [CD.G, if_pos rfl]
  have f2 : Fills (fun k (Q : T3 K) => Q.Is (cd.S k) (cd.nv k) (cd.S (k + 1)) (cd.G k)) cd.dim
      (forR 1 (cd.dim - 1) (fun ii cs => do
        let m ← rd cd.cores ii
        let Q ← corem m
        wr cs ii (some Q))) (fun p => ∃ i, 1 ≤ i ∧ i < cd.dim - 1 ∧ p = i) := by
    refine Fills.forR fun i hi1 hi2 => ?_
    obtain ⟨m, hm, nm, cm, -, vm⟩ := h.core_get (k := i) (by omega)
    obtain ⟨Q, hQ, iQ⟩ := corem_ok nm cm vm
    refine Fills.bind hm (Fills.bind hQ (Fills.wr (by omega) ?_))
    rw [CD.S_mid (by omega) (by omega), CD.S_mid (by omega) (by omega)]
    exact iQ.congr fun i' _ e _ j _ => by conv_rhs => rw [CD.G, if_neg (by omega), if_neg (by omega)]
  have f3 : Fills (fun k (Q : T3 K) => Q.Is (cd.S k) (cd.nv k) (cd.S (k + 1)) (cd.G k)) cd.dim
      (fun cs => wr cs (cd.dim - 1) (some Ql)) (· = cd.dim - 1) := by
    refine Fills.wr (by omega) ?_
    rw [Nat.sub_add_cancel (by omega), hsd, CD.S_mid (by omega) (by omega)]
    exact iQl.congr fun i _ e _ j _ => by conv_rhs => rw [CD.G, if_neg (by omega), if_pos rfl]
  obtain ⟨cs, l, hcs, hl, hll, hlM⟩ := ((f1.seq f2).seq f3).finish (by
    intro p hp
    by_cases h : p = 0
    · exact .inl (.inl h)
    · by_cases h' : p = cd.dim - 1
      · exact .inr h'
      · exact .inl (.inr ⟨p, by omega, by omega, rfl⟩))
  rcases hc1 : wr (List.replicate cd.dim none) 0 (some Q0) with er | cs1
  · simp only [hc1] at hcs; cases hcs
  simp only [hc1, bind_ok] at hcs
  rcases hc2 : forR 1 (cd.dim - 1) (fun ii cs => do
        let m ← rd cd.cores ii
        let Q ← corem m
        wr cs ii (some Q)) cs1 with er | cs2
  · simp only [hc2] at hcs; cases hcs
  simp only [hc2, bind_ok] at hcs
  -- ranks
  have g1 : FillsV cd.S (cd.dim + 1) (fun rk => wr rk 0 1) (· = 0) := FillsV.wr (by omega) hs0.symm
  have g2 : FillsV cd.S (cd.dim + 1) (forR 1 (cd.dim - 1) (fun ii rk => do
      let m ← rd cd.cores ii
      wr rk ii m.ncols)) (fun p => ∃ i, 1 ≤ i ∧ i < cd.dim - 1 ∧ p = i) := by
    refine FillsV.forR fun i hi1 hi2 => ?_
    obtain ⟨m, hm, nm, cm, -⟩ := h.core_get (k := i) (by omega)
    exact FillsV.bind hm (FillsV.wr (by omega) (by rw [CD.S_mid (by omega) (by omega), cm]))
  have g3 : FillsV cd.S (cd.dim + 1) (fun rk => wr rk (cd.dim - 1) Ql.n0) (· = cd.dim - 1) :=
    FillsV.wr (by omega) (by rw [CD.S_mid (by omega) (by omega)]; exact iQl.1)
  have g4 : FillsV cd.S (cd.dim + 1) (fun rk => wr rk cd.dim 1) (· = cd.dim) := FillsV.wr (by omega) hsd.symm
  have hrk := (((g1.seq g2).seq g3).seq g4).finish (by
    intro p hp
    by_cases h : p = 0
    · exact .inl (.inl (.inl h))
    · by_cases h' : p = cd.dim - 1
      · exact .inl (.inr h')
      · by_cases h'' : p = cd.dim
        · exact .inr h''
        · exact .inl (.inl (.inr ⟨p, by omega, by omega, rfl⟩)))
    (a := (List.replicate (cd.dim + 1) 0).set 0 1) (by simp)
  simp only [bind_assoc] at hrk
  have hrep : Rep cd.dim cd.nv cd.S cd.G ⟨cd.dim, ((List.range cd.dim).map cd.nv).take cd.dim, (List.range (cd.dim + 1)).map cd.S, l⟩ := by
    refine mk_rep (by omega) (by simp) (by simp) hll ?_ ?_ (fun k hk => hlM k hk) hs0 hsd ?_
    · intro k hk
      rw [List.getElem?_take, if_pos hk]; simp [hk]
    · intro k hk
      have : k < cd.dim + 1 := by omega
      simp [this]
    · intro k hk
      rw [CD.S]; split
      · omega
      · exact hR
  refine ⟨_, ?_, hrep.wf, rfl, ?_, ?_, ?_⟩
  rotate_left
  · intro k hk; exact hrep.nv k (by omega)
  · intro k h1 h2'; rw [hrep.rk k (by omega), CD.S_mid h1 (by omega)]
  · intro es hes
    rw [hrep.elem ⟨hes.len, fun k hk => by rw [hrep.nv k hk]; exact hes.lt k hk⟩]
    have e0 : es = es.getD 0 0 :: es.drop 1 := by
      have := drop_cons (es := es) (k := 0) (by rw [hes.len]; omega)
      rwa [List.drop_zero] at this
    have hel : es.length = cd.dim := hes.len
    rw [e0, tail, Nat.zero_add, CD.S_mid (by omega) (by omega), CD.elem]
    refine sum_congr rfl fun c hc => ?_
    have hc := mem_range.1 hc
    rw [CD.tail_eq (es.drop 1) 1 c (by rw [List.length_drop, hel]; omega) (by omega) (by omega) hc, CD.G, if_pos rfl,
      List.length_drop, hel]
    obtain ⟨d, hd⟩ : ∃ d, cd.dim = d + 1 := ⟨cd.dim - 1, by omega⟩
    rw [hd, Nat.add_sub_cancel, prod_range_succ', mul_comm, List.getD_cons_zero]
    congr 1
    exact prod_congr rfl fun m _ => by rw [List.getD_cons_succ, Nat.add_comm 1 m]
  · rw [cd2tt, hnv, bind_ok, initRanks_ok, bind_ok, initNvals_ok (by simp), bind_ok, hm0, bind_ok, hQ0, bind_ok, hc1, bind_ok]
    rcases r1 : wr ((List.replicate (cd.dim + 1) 0).set 0 1) 0 1 with er | a1
    · simp only [r1] at hrk; cases hrk
    simp only [r1, bind_ok] at hrk
    rcases r2 : forR 1 (cd.dim - 1) (fun ii rk => do
      let m ← rd cd.cores ii
      wr rk ii m.ncols) a1 with er | a2
    · simp only [r2] at hrk; cases hrk
    simp only [r2, bind_ok] at hrk
    rcases r3 : wr a2 (cd.dim - 1) Ql.n0 with er | a3
    · simp only [r3] at hrk; cases hrk
    simp only [r3, bind_ok] at hrk
    rw [bind_ok, hc2, bind_ok, r2, bind_ok, hml, bind_ok, hQl, bind_ok, hcs, bind_ok, r3, bind_ok, hrk, bind_ok, hl, bind_ok]
    rfl

/-- A decomposition of dimension 3, rank 2 and sizes 2, 1, 2. -/
def exCD : CD Int := ⟨3, 2, [⟨2, 2, [1, 2, 3, 4]⟩, ⟨1, 2, [5, 6]⟩, ⟨2, 2, [7, 8, 9, 10]⟩]⟩

theorem exCD_wf : exCD.WF := by
  refine ⟨rfl, ?_⟩
  rintro (_ | _ | _ | k) Q hQ <;> simp [exCD] at hQ <;> subst hQ <;> exact ⟨rfl, rfl⟩

example : cdelem exCD [1, 0, 1] = .ok (3 * 5 * 9 + 4 * 6 * 10) := by decide
example := cdelem_value exCD_wf (es := [1, 0, 1]) ⟨rfl, by decide⟩
example := cd2tt_value_partial exCD_wf (by decide) (by decide)

/-- **C136** In dimension 1 the result declares first rank 2 and its only core keeps the terms apart: it is not a train of the
vector `Σ_r A[e, r]` (evaluated as a train it would give the first term only). -/
theorem cd2tt_dim1_counterexample : (⟨1, 2, [⟨2, 2, [1, 2, 3, 4]⟩]⟩ : CD Int).WF ∧
    cdelem (⟨1, 2, [⟨2, 2, [1, 2, 3, 4]⟩]⟩ : CD Int) [1] = .ok 7 ∧
    ∃ t, cd2tt (⟨1, 2, [⟨2, 2, [1, 2, 3, 4]⟩]⟩ : CD Int) = .ok t ∧ ¬ t.WF ∧ t.elem [1] = 3 := by
  refine ⟨⟨rfl, ?_⟩, by decide, ⟨1, [2], [2, 1], [⟨2, 2, 1, [1, 2, 3, 4]⟩]⟩, by decide, ?_, by decide⟩
  · rintro (_ | k) Q hQ <;> simp at hQ; subst hQ; exact ⟨rfl, rfl⟩
  · intro h
    have := h.first
    revert this
    decide

end C3.Tt
