/-
Right orthogonalisation of a tensor train keeps the tensor and makes the rows of all cores but the first orthonormal.
-/
import Verif.Tt.RqLaw
import Verif.Tt.FullProps

set_option linter.unusedSectionVars false

namespace C3.Tt
open Finset C3.Ft C3.Round

theorem forN_congrN {σ : Type} {n : Nat} {f g : Nat → σ → C σ} {s : σ} (h : ∀ i < n, f i = g i) : forN n f s = forN n g s := by
  induction n with
  | zero => rfl
  | succ n ih => rw [forN_succ, forN_succ, ih fun i hi => h i (by omega), h n (by omega)]

theorem idMat_ok (r : Nat) : forN r (fun jj v => wr v (jj * r + jj) 1) (List.replicate (r * r) (0 : ℝ))
    = .ok (cm r r (fun i j => if i = j then 1 else 0)) := by
  have h := diagM_ok (n := r) (s := List.replicate r 1) (by simp)
  rw [diagM] at h
  rw [← forN_congrN (f := fun ii v => do
    let x ← rd (List.replicate r (1 : ℝ)) ii
    wr v (ii * r + ii) x)] at h
  · rw [forN_congrN (g := fun jj v => wr v (jj * r + jj) 1)] at h
    · rw [h]
      congr 1
      apply ext_cm (n := r) (m := r) (by simp) (by simp)
      intro i hi j hj
      have a := getD_cm (fun i j => if i = j then (List.replicate r (1 : ℝ)).getD i 0 else 0) 0 hi hj
      have b := getD_cm (fun i j => if i = j then (1 : ℝ) else 0) 0 hi hj
      rw [List.getD_eq_getElem?_getD, List.getElem?_eq_getElem (by simpa using cm_idx_lt hi hj)] at a b
      rw [List.getElem?_eq_getElem (by simpa using cm_idx_lt hi hj), List.getElem?_eq_getElem (by simpa using cm_idx_lt hi hj)]
      simp only [Option.getD_some] at a b
      rw [a, b]
      simp [hi]
    · intro i hi
      funext v
      rw [rd_ok (by simpa using hi), bind_ok]
      simp
  · intro i hi; rfl

/-- The rows of the matrix with `r` rows made of a core are orthonormal. -/
def RowsOn (t : TT ℝ) (k : Nat) : Prop :=
  ∀ i < t.rk k, ∀ i' < t.rk k, ∑ e ∈ range (t.nv k), ∑ j ∈ range (t.rk (k + 1)), t.G k i e j * t.G k i' e j = if i = i' then 1 else 0

theorem rightOrthoCore_ok {rq : Nat → Nat → List ℝ → C Rq} (hrq : RqLaw rq) {a : TT ℝ} (ha : a.WF) {p : Nat} (hp : p + 1 < a.dim)
    (hle : a.rk (p + 1) ≤ a.nv (p + 1) * a.rk (p + 2)) :
    ∃ b, rightOrthoCore rq a (p + 1) = .ok b ∧ b.WF ∧ b.dim = a.dim ∧ b.nvals = a.nvals ∧ b.ranks = a.ranks ∧
      (∀ k, k ≠ p → k ≠ p + 1 → b.G k = a.G k) ∧ RowsOn b (p + 1) ∧
      ∃ R : Nat → Nat → ℝ,
        (∀ i < a.rk (p + 1), ∀ e < a.nv (p + 1), ∀ j < a.rk (p + 2),
          a.G (p + 1) i e j = ∑ t ∈ Ico i (a.rk (p + 1)), R i t * b.G (p + 1) t e j) ∧
        ∀ i < a.rk p, ∀ e < a.nv p, ∀ j < a.rk (p + 1), b.G p i e j = ∑ t ∈ range (j + 1), a.G p i e t * R t j := by
  obtain ⟨Q, hQ1, hQ2, hQ3⟩ := ha.core_get (k := p + 1) hp
  obtain ⟨P, hP1, hP2, hP3⟩ := ha.core_get (k := p) (by omega)
  have hr := ha.rpos (p + 1) (by omega)
  generalize hgr : a.rk (p + 1) = r at *
  generalize hgr' : a.rk (p + 2) = r' at *
  generalize hgn : a.nv (p + 1) = n at *
  generalize hgrp : a.rk p = rp at *
  generalize hgnp : a.nv p = np at *
  have hle' : r ≤ r' * n := by rw [Nat.mul_comm]; exact hle
  obtain ⟨w, hw1, hw2⟩ := hrq r (r' * n) Q.vals hr hle' (by rw [hQ3.len]; ring)
  let R : Nat → Nat → ℝ := fun i t => w.f.getD ((r' * n - r + t) * r + i) 0
  have hfl : ∀ t j, t ≤ j → j < r → (r' * n - r) * r + (j * r + t) < w.f.length := by
    intro t j htj hj
    have : (r' * n - r + j) * r + t < r * (r' * n) := cm_idx_lt (by omega) (by omega)
    rw [hw2.lf]
    calc _ = (r' * n - r + j) * r + t := by ring
      _ < _ := this
  have hT1 := trmmR_ok (m := r) (n := r) (ao := (r' * n - r) * r) (lda := r) (A := w.f)
    (B := cm r r (fun i j => if i = j then (1 : ℝ) else 0)) (by simp) hfl
  generalize hbd : cm r r (fun i j => ∑ t ∈ range (j + 1), (cm r r (fun i j => if i = j then (1 : ℝ) else 0)).getD (t * r + i) 0
    * w.f.getD ((r' * n - r) * r + (j * r + t)) 0) = bm at hT1
  have hbm : ∀ i j, i ≤ j → j < r → bm.getD (j * r + i) 0 = R i j := by
    intro i j hij hj
    rw [← hbd, getD_cm _ _ (by omega) hj, sum_eq_single i]
    · rw [getD_cm _ _ (show i < r by omega) (show i < r by omega), if_pos rfl, one_mul]
      show _ = w.f.getD _ 0
      congr 1; ring
    · intro t ht hti
      have := mem_range.1 ht
      rw [getD_cm _ _ (show i < r by omega) (show t < r by omega), if_neg (Ne.symm hti), zero_mul]
    · intro h; exact absurd (mem_range.2 (by omega)) h
  have hbl : bm.length = r * r := by rw [← hbd]; simp
  have hT2 := trmmR_ok (m := rp * np) (n := r) (ao := 0) (lda := r) (A := bm) (B := P.vals) hP3.len
    (fun t j htj hj => by rw [hbl, Nat.zero_add]; exact cm_idx_lt (by omega) hj)
  let Q' : T3 ℝ := ⟨r, n, r', w.q⟩
  generalize hvd : cm (rp * np) r (fun i j => ∑ t ∈ range (j + 1), P.vals.getD (t * (rp * np) + i) 0 * bm.getD (0 + (j * r + t)) 0) = v at hT2
  let P' : T3 ℝ := ⟨rp, np, r, v⟩
  have hcl : p + 1 < a.cores.length := by rw [ha.ncores]; exact hp
  refine ⟨⟨a.dim, a.nvals, a.ranks, (a.cores.set (p + 1) Q').set p P'⟩, ?_, ?_⟩
  · rw [rightOrthoCore, ha.rk_get (by omega), bind_ok, hgr, idMat_ok, bind_ok, ha.rk_get (by omega), bind_ok,
      show p + 1 + 1 = p + 2 from rfl, hgr', ha.nv_get hp, bind_ok, hgn, hQ1, bind_ok, rqMult, hw1]
    simp only [bind_ok]
    rw [if_neg (by omega), hT1]
    simp only [bind_ok, pure_eq_ok]
    rw [wr_ok _ hcl]
    simp only [bind_ok, Nat.add_sub_cancel]
    rw [ha.rk_get (by omega), bind_ok, hgrp, ha.nv_get (by omega), bind_ok, hgnp,
      rd_of_getElem? (v := P) (by rw [List.getElem?_set_ne (by omega)]; exact hP2), bind_ok, hT2, bind_ok,
      wr_ok _ (by rw [List.length_set]; omega), bind_ok, hQ3.n0, hQ3.n1, hQ3.n2, hP3.n0, hP3.n1, hP3.n2]
  · generalize hb : (⟨a.dim, a.nvals, a.ranks, (a.cores.set (p + 1) Q').set p P'⟩ : TT ℝ) = b
    have e1 : b.dim = a.dim := by rw [← hb]
    have e2 : b.nvals = a.nvals := by rw [← hb]
    have e3 : b.ranks = a.ranks := by rw [← hb]
    have e4 : b.cores = (a.cores.set (p + 1) Q').set p P' := by rw [← hb]
    have e5 : ∀ k, b.rk k = a.rk k := fun k => by rw [TT.rk, TT.rk, e3]
    have e6 : ∀ k, b.nv k = a.nv k := fun k => by rw [TT.nv, TT.nv, e2]
    have c1 : b.cores[p + 1]? = some Q' := by
      rw [e4, List.getElem?_set_ne (by omega), List.getElem?_set_self hcl]
    have c2 : b.cores[p]? = some P' := by
      rw [e4, List.getElem?_set_self (by rw [List.length_set]; omega)]
    have c3 : ∀ k, k ≠ p → k ≠ p + 1 → b.cores[k]? = a.cores[k]? := by
      intro k k1 k2
      rw [e4, List.getElem?_set_ne (Ne.symm k1), List.getElem?_set_ne (Ne.symm k2)]
    have hG1 : ∀ i e j, b.G (p + 1) i e j = ent r w.q i (j * n + e) := by
      intro i e j
      rw [TT.G_eq c1, T3.get, ent]
      show w.q.getD (i + e * r + j * r * n) 0 = _
      congr 1; ring
    refine ⟨?_, e1, e2, e3, ?_, ?_, R, ?_, ?_⟩
    · refine ⟨by rw [e1]; exact ha.pos, by rw [e4, e1, List.length_set, List.length_set, ha.ncores], by rw [e3, e1, ha.nranks],
        by rw [e2, e1, ha.nnvals], by rw [e5, ha.first], by rw [e5, e1, ha.last], fun k hk => by rw [e5]; exact ha.rpos k (by omega), ?_⟩
      intro k Qk hk
      rw [e5, e5, e6]
      by_cases k1 : k = p
      · subst k1
        rw [c2, Option.some.injEq] at hk
        subst hk
        refine ⟨?_, by rw [hgrp], by rw [hgnp], by rw [hgr]⟩
        show v.length = rp * np * r
        rw [← hvd]; simp
      · by_cases k2 : k = p + 1
        · subst k2
          rw [c1, Option.some.injEq] at hk
          subst hk
          refine ⟨?_, by rw [hgr], by rw [hgn], by rw [show p + 1 + 1 = p + 2 from rfl, hgr']⟩
          show w.q.length = r * n * r'
          rw [hw2.lq]; ring
        · rw [c3 k k1 k2] at hk
          exact ha.core k Qk hk
    · intro k k1 k2
      funext i e j
      rw [TT.G, TT.G, c3 k k1 k2]
    · intro i hi i' hi'
      rw [e5, hgr] at hi hi'
      rw [e6, e5, hgn, show p + 1 + 1 = p + 2 from rfl, hgr', ← hw2.on i hi i' hi',
        ← sum_rows (r := n) (n := r') (fun c => ent r w.q i c * ent r w.q i' c)]
      refine sum_congr rfl fun e _ => sum_congr rfl fun j _ => ?_
      rw [hG1, hG1]
    · intro i hi e he j hj
      have hcol : j * n + e < r' * n := by rw [Nat.mul_comm r' n]; exact cm_idx_lt he hj
      have h1 := hw2.prod i hi (j * n + e) hcol
      have h2 : ent r Q.vals i (j * n + e) = a.G (p + 1) i e j :=
        hQ3.getD hi he hj (by ring)
      rw [← h2, h1]
      refine sum_congr rfl fun t _ => ?_
      rw [hG1]
    · intro i hi e he j hj
      rw [TT.G_eq c2, T3.get]
      show v.getD (i + e * rp + j * rp * np) 0 = _
      rw [idx3_eq, ← hvd, getD_cm _ _ (cm_idx_lt hi he) hj]
      refine sum_congr rfl fun t ht => ?_
      have htj : t ≤ j := by have := mem_range.1 ht; omega
      rw [Nat.zero_add, hbm t j htj hj]
      congr 1
      exact hP3.getD hi he (show t < r by omega) (by ring)

/-- Two trains that agree below `q` and whose tails agree at `q` have the same tails below. -/
theorem tail_head {s : Nat → Nat} {G H : Nat → Nat → Nat → Nat → ℝ} {n : Nat → Nat} {d q : Nat} (hq : q ≤ d)
    (hG : ∀ k < q, G k = H k)
    (h : ∀ es : List Nat, q + es.length = d → (∀ m < es.length, es.getD m 0 < n (q + m)) → ∀ i < s q, tail s G q es i = tail s H q es i) :
    ∀ m k, k + m = q → ∀ es : List Nat, k + es.length = d → (∀ m < es.length, es.getD m 0 < n (k + m)) →
      ∀ i < s k, tail s G k es i = tail s H k es i := by
  intro m
  induction m with
  | zero =>
    intro k hk
    have : k = q := by omega
    subst this
    exact h
  | succ m ih =>
    intro k hk es hes hlt i hi
    match es, hes, hlt with
    | [], hes, _ => simp at hes; omega
    | e :: es, hes, hlt =>
      rw [tail, tail]
      refine sum_congr rfl fun c hc => ?_
      rw [hG k (by omega), ih (k + 1) (by omega) es (by simp at hes; omega) (fun m hm => by
        have := hlt (m + 1) (by simpa using hm)
        rw [show k + (m + 1) = k + 1 + m by ring] at this
        simpa using this) c (mem_range.1 hc)]

theorem rightOrthoCore_elem {a b : TT ℝ} {p : Nat} (hp : p + 1 < a.dim)
    (hr : b.ranks = a.ranks) (hk : ∀ k, k ≠ p → k ≠ p + 1 → b.G k = a.G k) {R : Nat → Nat → ℝ}
    (h1 : ∀ i < a.rk (p + 1), ∀ e < a.nv (p + 1), ∀ j < a.rk (p + 2),
      a.G (p + 1) i e j = ∑ t ∈ Ico i (a.rk (p + 1)), R i t * b.G (p + 1) t e j)
    (h2 : ∀ i < a.rk p, ∀ e < a.nv p, ∀ j < a.rk (p + 1), b.G p i e j = ∑ t ∈ range (j + 1), a.G p i e t * R t j)
    (h0 : a.rk 0 = 1) {es : List Nat} (hes : a.Ix es) : b.elem es = a.elem es := by
  have e5 : b.rk = a.rk := by funext k; rw [TT.rk, TT.rk, hr]
  rw [TT.elem, TT.elem, e5]
  -- tails above the two cores
  have hup : ∀ (es : List Nat) (k i : Nat), p + 1 < k → tail a.rk b.G k es i = tail a.rk a.G k es i := by
    intro es
    induction es with
    | nil => intros; rfl
    | cons e es ih =>
      intro k i hki
      rw [tail, tail, hk k (by omega) (by omega)]
      exact sum_congr rfl fun c _ => by rw [ih (k + 1) c (by omega)]
  refine tail_head (n := a.nv) (d := a.dim) (q := p) (by omega) (fun k hkp => hk k (by omega) (by omega)) ?_ p 0 (by omega) es
    (by rw [hes.len]; omega) (fun m hm => by rw [Nat.zero_add]; exact hes.lt m (by rw [← hes.len]; exact hm)) 0 (by rw [h0]; exact Nat.one_pos)
  intro es hlen hlt i hi
  match es, hlen, hlt with
  | [], hlen, _ => simp at hlen; omega
  | [e], hlen, _ => simp at hlen; omega
  | e :: e' :: es, hlen, hlt =>
    have he : e < a.nv p := by simpa using hlt 0 (by simp)
    have he' : e' < a.nv (p + 1) := by simpa using hlt 1 (by simp)
    have ht : ∀ c < a.rk (p + 1), tail a.rk a.G (p + 1) (e' :: es) c
        = ∑ t ∈ range (a.rk (p + 1)), (if c ≤ t then R c t else 0) * tail a.rk b.G (p + 1) (e' :: es) t := by
      intro c hc
      have hx : ∀ t, (if c ≤ t then R c t else 0) * tail a.rk b.G (p + 1) (e' :: es) t
          = ∑ j ∈ range (a.rk (p + 1 + 1)), ((if c ≤ t then R c t else 0) * b.G (p + 1) t e' j) * tail a.rk a.G (p + 1 + 1) es j := by
        intro t
        rw [tail, mul_sum]
        refine sum_congr rfl fun j _ => ?_
        rw [hup es (p + 1 + 1) j (by omega)]; ring
      simp only [hx]
      rw [sum_comm, tail]
      refine sum_congr rfl fun j hj => ?_
      rw [h1 c hc e' he' j (mem_range.1 hj), ← sum_mul]
      congr 1
      rw [range_eq_Ico, ← sum_Ico_consecutive _ (Nat.zero_le c) (le_of_lt hc)]
      rw [sum_eq_zero (s := Ico 0 c), zero_add]
      · refine sum_congr rfl fun t ht => ?_
        rw [if_pos (mem_Ico.1 ht).1]
      · intro t ht
        rw [if_neg (by have := (mem_Ico.1 ht).2; omega), zero_mul]
    rw [tail, tail]
    have hl : ∀ j ∈ range (a.rk (p + 1)), b.G p i e j * tail a.rk b.G (p + 1) (e' :: es) j
        = ∑ t ∈ range (a.rk (p + 1)), a.G p i e t * ((if t ≤ j then R t j else 0) * tail a.rk b.G (p + 1) (e' :: es) j) := by
      intro j hj
      have hj := mem_range.1 hj
      rw [h2 i hi e he j hj, ← sum_range_add_sum_Ico _ (show j + 1 ≤ a.rk (p + 1) by omega), sum_eq_zero (s := Ico _ _), add_zero, sum_mul]
      · refine sum_congr rfl fun t ht => ?_
        rw [if_pos (by have := mem_range.1 ht; omega)]; ring
      · intro t ht
        rw [if_neg (by have := (mem_Ico.1 ht).1; omega)]; ring
    rw [sum_congr rfl hl, sum_comm]
    refine sum_congr rfl fun t htm => ?_
    rw [ht t (mem_range.1 htm), mul_sum]

/-- **C130** The orthogonalisation sweep: same shape, same tensor, and the rows of every core but the first are orthonormal.
Missing: ranks larger than the number of values to the right, see `ttRound_rank_counterexample`. -/
theorem rightLeftOrth_partial {rq : Nat → Nat → List ℝ → C Rq} (hrq : RqLaw rq) {a : TT ℝ} (ha : a.WF)
    (hle : ∀ k, 1 ≤ k → k < a.dim → a.rk k ≤ a.nv k * a.rk (k + 1)) :
    ∃ b, rightLeftOrth rq a = .ok b ∧ b.WF ∧ b.dim = a.dim ∧ b.nvals = a.nvals ∧ b.ranks = a.ranks ∧
      (∀ es, a.Ix es → b.elem es = a.elem es) ∧ ∀ k, 1 ≤ k → k < a.dim → RowsOn b k := by
  obtain ⟨b, h1, h2, h3, h4, h5, h6, h7⟩ := forN_spec
    (I := fun i (b : TT ℝ) => b.WF ∧ b.dim = a.dim ∧ b.nvals = a.nvals ∧ b.ranks = a.ranks ∧
      (∀ es, a.Ix es → b.elem es = a.elem es) ∧ ∀ k, a.dim - i ≤ k → k < a.dim → RowsOn b k)
    (n := a.dim - 1) (s := a) (body := fun ii b => rightOrthoCore rq b (b.dim - ii - 1))
    ⟨ha, rfl, rfl, rfl, fun _ _ => rfl, fun k h1 h2 => by omega⟩
    (by
      rintro i hi b ⟨h2, h3, h4, h5, h6, h7⟩
      have e5 : ∀ k, b.rk k = a.rk k := fun k => by rw [TT.rk, TT.rk, h5]
      have e6 : ∀ k, b.nv k = a.nv k := fun k => by rw [TT.nv, TT.nv, h4]
      obtain ⟨p, hp⟩ : ∃ p, b.dim - i - 1 = p + 1 := ⟨b.dim - i - 2, by omega⟩
      obtain ⟨c, g1, g2, g3, g4, g5, g6, g7, R, g8, g9⟩ := rightOrthoCore_ok hrq h2 (p := p) (by omega) (by
        rw [e5, e5, e6]; exact hle (p + 1) (by omega) (by omega))
      rw [hp]
      refine ⟨c, g1, g2, by rw [g3, h3], by rw [g4, h4], by rw [g5, h5], fun es hes => ?_, fun k hk1 hk2 => ?_⟩
      · have hb : b.Ix es := hes.of h3 (fun k _ => e6 k)
        rw [rightOrthoCore_elem (by omega) g5 g6 g8 g9 h2.first hb, h6 es hes]
      · by_cases hkp : k = p + 1
        · subst hkp; exact g7
        · have := h7 k (by omega) hk2
          rw [RowsOn] at this ⊢
          have f5 : ∀ k, c.rk k = b.rk k := fun k => by rw [TT.rk, TT.rk, g5]
          have f6 : ∀ k, c.nv k = b.nv k := fun k => by rw [TT.nv, TT.nv, g4]
          rw [f5, f5, f6, g6 k (by omega) hkp]
          exact this)
  exact ⟨b, h1, h2, h3, h4, h5, h6, fun k hk1 hk2 => h7 k (by omega) hk2⟩

/-- The products of the cores to the right of an orthogonalised core are orthonormal. -/
theorem tails_on {b : TT ℝ} (hb : b.WF) {p : Nat} (h : ∀ k, p ≤ k → k < b.dim → RowsOn b k) :
    ∀ m k, k + m = b.dim → p ≤ k → ∀ i < b.rk k, ∀ i' < b.rk k,
      msum (b.nvals.drop k) (fun es => tail b.rk b.G k es i * tail b.rk b.G k es i') = if i = i' then 1 else 0 := by
  intro m
  induction m with
  | zero =>
    intro k hk hpk i hi i' hi'
    have hkd : k = b.dim := by omega
    rw [hkd, hb.last] at hi hi'
    have : i = 0 := by omega
    subst this
    have : i' = 0 := by omega
    subst this
    rw [List.drop_of_length_le (by rw [hb.nnvals]; omega)]
    simp [msum, tail]
  | succ m ih =>
    intro k hk hpk i hi i' hi'
    have h1 := dtail_cons b b k (b.nv k) (b.nvals.drop (k + 1)) i i'
    rw [← drop_cons_nv hb (show k < b.dim by omega)] at h1
    rw [dtail] at h1
    rw [h1, ← h k hpk (by omega) i hi i' hi']
    refine sum_congr rfl fun e _ => sum_congr rfl fun c hc => ?_
    rw [sum_eq_single c]
    · rw [dtail, ih (k + 1) (by omega) (by omega) c (mem_range.1 hc) c (mem_range.1 hc), if_pos rfl, mul_one]
    · intro c' hc' hne
      rw [dtail, ih (k + 1) (by omega) (by omega) c (mem_range.1 hc) c' (mem_range.1 hc'), if_neg (Ne.symm hne), mul_zero]
    · intro h; exact absurd hc h

end C3.Tt
