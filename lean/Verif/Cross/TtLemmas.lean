/- Lemmas for C140: one step of the sweeps of `tt_cross`. -/
import Verif.Cross.TtModel
import Verif.Cross.SweepProps
import Verif.Skel.SkelProps
import Verif.Tt.Spec

set_option linter.unusedSectionVars false

namespace C3.Tc
open C3.Cross C3.Sk C3.Arr Finset

/-! ## Specification -/

section Spec
variable (T : List Nat → ℝ) (p : P)

def P.N (p : P) (k : Nat) : Nat := p.nvals.getD k 0
def P.R (p : P) (k : Nat) : Nat := p.ranks.getD k 0

/-- Indices for the modes before mode `k`. -/
def Pre (k : Nat) (l : List Nat) : Prop := List.Forall₂ (· < ·) l (p.nvals.take k)

/-- Indices for mode `k` and the modes after it. -/
def Suf (k : Nat) (l : List Nat) : Prop := List.Forall₂ (· < ·) l (p.nvals.drop k)

/-- An index set for the modes before core `k`, one after core `k`. -/
def LSet (k : Nat) (L : List (List Nat)) : Prop := L.length = p.R k ∧ ∀ x ∈ L, Pre p k x
def RSet (k : Nat) (Rt : List (List Nat)) : Prop := Rt.length = p.R (k + 1) ∧ ∀ x ∈ Rt, Suf p (k + 1) x

/-- Every slice of the tensor with fixed first indices is a combination of the slices through the set. -/
def SpanL (k : Nat) (L : List (List Nat)) : Prop :=
  ∀ l, Pre p k l → ∃ y : Nat → ℝ, ∀ s, Suf p k s → T (l ++ s) = ∑ a ∈ range (p.R k), T (L.getD a [] ++ s) * y a

/-- Every slice with fixed last indices is a combination of the slices through the set. -/
def SpanRt (k : Nat) (Rt : List (List Nat)) : Prop :=
  ∀ s, Suf p (k + 1) s → ∃ x : Nat → ℝ, ∀ l, Pre p (k + 1) l → T (l ++ s) = ∑ j ∈ range (p.R (k + 1)), T (l ++ Rt.getD j []) * x j

/-- Fibers of core `k` through two index sets, as the matrix of a left-to-right or a right-to-left step. -/
def fibL (k : Nat) (L Rt : List (List Nat)) (row j : Nat) : ℝ := T (L.getD (row % p.R k) [] ++ (row / p.R k) :: Rt.getD j [])
def fibR (k : Nat) (L Rt : List (List Nat)) (row a : Nat) : ℝ :=
  T (L.getD a [] ++ (row / p.R (k + 1)) :: Rt.getD (row % p.R (k + 1)) [])

end Spec

/-- The callback evaluates the tensor; sizes and ranks fit. -/
structure Law (T : List Nat → ℝ) (A : Nat → List Nat → List ℝ) (p : P) : Prop where
  d2 : 2 ≤ p.dim
  nv : p.nvals.length = p.dim
  rk : p.ranks.length = p.dim + 1
  r0 : p.R 0 = 1
  rlast : p.R p.dim = 1
  len : ∀ k < p.dim, ∀ x, (A k x).length = p.N k
  val : ∀ k < p.dim, ∀ l r e, Pre p k l → Suf p (k + 1) r → e < p.N k → (A k (l ++ 0 :: r)).getD e 0 = T (l ++ e :: r)
  rpos : ∀ k ≤ p.dim, 0 < p.R k
  inner : ∀ k, 1 ≤ k → k + 1 < p.dim → p.R k = p.R (k + 1)
  up : ∀ k, k + 1 < p.dim → p.R (k + 1) ≤ p.R k * p.N k
  down : ∀ k, 1 ≤ k → k < p.dim → p.R k ≤ p.R (k + 1) * p.N k
  small : ∀ k < p.dim, p.N k ≤ 2 ^ 53 ∧ p.R k * p.N k < 2 ^ 64 ∧ p.R k < 2 ^ 64

/-- The selection of rows works for the fibers through spanning index sets. -/
def MvAll (T : List Nat → ℝ) (qr : Nat → Nat → List ℝ → List ℝ)
    (mv : List ℝ → Nat → Nat → List Nat → List ℝ → C (Int × List Nat × List ℝ)) (p : P) : Prop :=
  ∀ k < p.dim, ∀ L Rt, LSet p k L → RSet p k Rt → SpanL T p k L → SpanRt T p k Rt →
    (k + 1 < p.dim → MvGood mv (p.R k * p.N k) (p.R (k + 1)) (qr (p.R k * p.N k) (p.R (k + 1)) (cm (p.R k * p.N k) (p.R (k + 1)) (fibL T p k L Rt)))) ∧
    (1 ≤ k → MvGood mv (p.R (k + 1) * p.N k) (p.R k) (qr (p.R (k + 1) * p.N k) (p.R k) (cm (p.R (k + 1) * p.N k) (p.R k) (fibR T p k L Rt))))

/-- A state with index sets in range, right stored fibers and cores of the right sizes. -/
structure WS (A : Nat → List Nat → List ℝ) (p : P) (s : S) : Prop where
  left : s.left.length = p.dim
  right : s.right.length = p.dim
  cache : s.cache.length = p.dim
  cores : s.cores.length = p.dim
  lset : ∀ k < p.dim, LSet p k (s.left.getD k [])
  rset : ∀ k < p.dim, RSet p k (s.right.getD k [])
  inv : ∀ k < p.dim, Cross.Inv (A k) k (p.dim - k - 1) (s.cache.getD k ⟨[], []⟩)
  csz : ∀ k < p.dim, (s.cores.getD k []).length = p.R k * p.N k * p.R (k + 1)

/-! ## Indices -/

section Ix
variable {p : P}

theorem Pre.length {k : Nat} {l : List Nat} (hk : k ≤ p.nvals.length) (h : Pre p k l) : l.length = k := by
  have := h.length_eq
  rw [List.length_take] at this; omega

theorem Suf.length {k : Nat} {l : List Nat} (h : Suf p k l) : l.length = p.nvals.length - k := by
  have := h.length_eq
  rwa [List.length_drop] at this

theorem Pre.snoc {k e : Nat} {l : List Nat} (hk : k < p.nvals.length) (h : Pre p k l) (he : e < p.N k) : Pre p (k + 1) (l ++ [e]) := by
  rw [Pre, List.take_succ_eq_append_getElem hk]
  refine List.rel_append h (List.Forall₂.cons ?_ List.Forall₂.nil)
  rw [P.N, List.getD_eq_getElem?_getD, List.getElem?_eq_getElem hk] at he
  exact he

theorem Suf.cons {k e : Nat} {l : List Nat} (hk : k < p.nvals.length) (h : Suf p (k + 1) l) (he : e < p.N k) : Suf p k (e :: l) := by
  rw [Suf, List.drop_eq_getElem_cons hk]
  refine List.Forall₂.cons ?_ h
  rw [P.N, List.getD_eq_getElem?_getD, List.getElem?_eq_getElem hk] at he
  exact he

theorem Suf.uncons {k : Nat} {l : List Nat} (hk : k < p.nvals.length) (h : Suf p k l) : ∃ e s, l = e :: s ∧ e < p.N k ∧ Suf p (k + 1) s := by
  rw [Suf, List.drop_eq_getElem_cons hk] at h
  obtain ⟨e, s, h1, h2, rfl⟩ := List.forall₂_cons_right_iff.1 h
  refine ⟨e, s, rfl, ?_, h2⟩
  rw [P.N, List.getD_eq_getElem?_getD, List.getElem?_eq_getElem hk]
  exact h1

theorem Pre.unsnoc {k : Nat} {l : List Nat} (hk : k < p.nvals.length) (h : Pre p (k + 1) l) : ∃ s e, l = s ++ [e] ∧ e < p.N k ∧ Pre p k s := by
  have hl := h.length (by omega)
  rw [Pre, List.take_succ_eq_append_getElem hk] at h
  have h1 := List.forall₂_take_append _ _ _ h
  have h2 := List.forall₂_drop_append _ _ _ h
  obtain ⟨e, s, h3, h4, h5⟩ := List.forall₂_cons_right_iff.1 h2
  have hs : s = [] := by rw [List.forall₂_nil_right_iff] at h4; exact h4
  refine ⟨l.take (p.nvals.take k).length, e, ?_, ?_, h1⟩
  · rw [← hs, ← h5, List.take_append_drop]
  · rw [P.N, List.getD_eq_getElem?_getD, List.getElem?_eq_getElem hk]
    exact h3

theorem LSet.get {k a : Nat} {L : List (List Nat)} (h : LSet p k L) (ha : a < p.R k) : Pre p k (L.getD a []) := by
  have hl : a < L.length := by rw [h.1]; exact ha
  rw [List.getD_eq_getElem?_getD, List.getElem?_eq_getElem hl]
  exact h.2 _ (List.getElem_mem hl)

theorem RSet.get {k a : Nat} {L : List (List Nat)} (h : RSet p k L) (ha : a < p.R (k + 1)) : Suf p (k + 1) (L.getD a []) := by
  have hl : a < L.length := by rw [h.1]; exact ha
  rw [List.getD_eq_getElem?_getD, List.getElem?_eq_getElem hl]
  exact h.2 _ (List.getElem_mem hl)

theorem row_split {r n row : Nat} (h : row < r * n) : 0 < r ∧ row % r < r ∧ row / r < n := by
  have hr : 0 < r := Nat.pos_of_ne_zero fun e => by subst e; simp at h
  exact ⟨hr, Nat.mod_lt _ hr, (Nat.div_lt_iff_lt_mul hr).2 (by rwa [Nat.mul_comm])⟩

end Ix

/-! ## Fibers -/

section Step
variable {T : List Nat → ℝ} {A : Nat → List Nat → List ℝ} {p : P}

theorem rd_R (hL : Law T A p) {k : Nat} (hk : k ≤ p.dim) : rd p.ranks k = .ok (p.R k) := rd_getD 0 (by rw [hL.rk]; omega)
theorem rd_N (hL : Law T A p) {k : Nat} (hk : k < p.dim) : rd p.nvals k = .ok (p.N k) := rd_getD 0 (by rw [hL.nv]; omega)

theorem WS.setCache {s : S} (h : WS A p s) {k : Nat} {c : Cache ℝ} (hc : Cross.Inv (A k) k (p.dim - k - 1) c) (hk : k < p.dim) :
    WS A p { s with cache := s.cache.set k c } := by
  refine ⟨h.left, h.right, by simpa using h.cache, h.cores, h.lset, h.rset, fun j hj => ?_, h.csz⟩
  by_cases e : k = j
  · subst e
    rw [List.getD_eq_getElem?_getD, List.getElem?_set_self (by rw [h.cache]; omega)]
    exact hc
  · show Cross.Inv (A j) j (p.dim - j - 1) ((s.cache.set k c).getD j ⟨[], []⟩)
    rw [List.getD_eq_getElem?_getD, List.getElem?_set_ne e, ← List.getD_eq_getElem?_getD]
    exact h.inv j hj

theorem setupCore_ok (hL : Law T A p) {s : S} (h : WS A p s) {k : Nat} (hk : k < p.dim) (lr : Bool) :
    ∃ cs, setupCore A p k lr s = .ok (if lr then cm (p.R k * p.N k) (p.R (k + 1)) (fibL T p k (s.left.getD k []) (s.right.getD k []))
        else cm (p.R (k + 1) * p.N k) (p.R k) (fibR T p k (s.left.getD k []) (s.right.getD k [])), { s with cache := cs }) ∧
      WS A p { s with cache := cs } := by
  have hl := h.lset k hk
  have hr := h.rset k hk
  set q : Req := ⟨p.R k, p.N k, p.R (k + 1), k, s.left.getD k [], p.dim - k - 1, s.right.getD k [], lr⟩ with hq
  have hwf : q.WF (p.N k) k (p.dim - k - 1) := ⟨rfl, rfl, rfl, hl.1, hr.1,
    fun x hx => (hl.2 x hx).length (by rw [hL.nv]; omega), fun x hx => by rw [(hr.2 x hx).length, hL.nv]; omega⟩
  obtain ⟨Ak, c', h1, h2, -, h3, h4⟩ := setup_value hwf (hL.len k hk) (h.inv k hk)
  have hval : ∀ kk < p.R k, ∀ e < p.N k, ∀ ii < p.R (k + 1),
      direct (A k) q 0 kk e ii = T ((s.left.getD k []).getD kk [] ++ e :: (s.right.getD k []).getD ii []) := fun kk hkk e he ii hii =>
    hL.val k hk _ _ e (hl.get hkk) (hr.get hii) he
  refine ⟨s.cache.set k c', ?_, h.setCache h2 hk⟩
  rw [setupCore, rd_R hL (by omega), bind_ok, rd_N hL hk, bind_ok, rd_R hL (by omega), bind_ok, rd_getD [] (by rw [h.left]; exact hk), bind_ok,
    rd_getD [] (by rw [h.right]; exact hk), bind_ok, rd_getD ⟨[], []⟩ (by rw [h.cache]; exact hk), bind_ok, h1, bind_ok,
    wr_ok _ (by rw [h.cache]; exact hk), bind_ok]
  congr 2
  have h3' : Ak.length = p.R k * p.N k * p.R (k + 1) := h3
  cases lr with
  | true =>
    simp only [if_true]
    refine ext_cm h3' (cm_length _ _ _) fun i hi j hj => ?_
    obtain ⟨-, a1, a2⟩ := row_split hi
    have e := h4 (i % p.R k) a1 (i / p.R k) a2 j hj
    rw [hval _ a1 _ a2 _ hj] at e
    have : pos q (i % p.R k) (i / p.R k) j = j * (p.R k * p.N k) + i := by
      show i % p.R k + i / p.R k * p.R k + j * p.R k * p.N k = _
      have := Nat.mod_add_div i (p.R k)
      rw [Nat.mul_comm (i / p.R k), this, Nat.mul_assoc, Nat.add_comm]
    rw [this] at e
    rw [e, cm_getElem? _ hi hj]; rfl
  | false =>
    simp only [Bool.false_eq_true, if_false]
    refine ext_cm (by rw [h3']; ring) (cm_length _ _ _) fun i hi j hj => ?_
    obtain ⟨-, a1, a2⟩ := row_split hi
    have e := h4 j hj (i / p.R (k + 1)) a2 (i % p.R (k + 1)) a1
    rw [hval _ hj _ a2 _ a1] at e
    have : pos q j (i / p.R (k + 1)) (i % p.R (k + 1)) = j * (p.R (k + 1) * p.N k) + i := by
      show i % p.R (k + 1) + i / p.R (k + 1) * p.R (k + 1) + j * p.R (k + 1) * p.N k = _
      have := Nat.mod_add_div i (p.R (k + 1))
      rw [Nat.mul_comm (i / p.R (k + 1)), this, Nat.mul_assoc, Nat.add_comm]
    rw [this] at e
    rw [e, cm_getElem? _ hi hj]; rfl

/-! ## Selection of rows -/

/-- Product of the factor and the inverse, entry by entry. -/
def wt (N r : Nat) (Q V : List ℝ) (i b : Nat) : ℝ := ∑ t ∈ range r, Q.getD (t * N + i) 0 * V.getD (b * r + t) 0

theorem sweep_step {N r : Nat} {g : Nat → Nat → ℝ} {Q V : List ℝ} {Tm : Matrix (Fin r) (Fin r) ℝ} {rows : List Nat}
    (hT : colMat N r (cm N r g) = colMat N r Q * Tm) (hr : ∀ i < r, rows.getD i 0 < N) (hV : mat r V * sub Q N r rows = 1)
    (x : Nat → ℝ) {row : Nat} (hrow : row < N) :
    ∑ j ∈ range r, g row j * x j = ∑ b ∈ range r, wt N r Q V row b * ∑ j ∈ range r, g (rows.getD b 0) j * x j := by
  let xv : Fin r → ℝ := fun j => x j
  have hg : ∀ i (hi : i < N), ∑ j ∈ range r, g i j * x j = (colMat N r Q).mulVec (Tm.mulVec xv) ⟨i, hi⟩ := fun i hi => by
    rw [Matrix.mulVec_mulVec, ← hT, Matrix.mulVec, dotProduct, ← Fin.sum_univ_eq_sum_range (fun j => g i j * x j)]
    refine Finset.sum_congr rfl fun j _ => ?_
    simp only [colMat, Matrix.of_apply]
    rw [getD_cm _ _ hi j.2]
  set z := Tm.mulVec xv with hz
  have h1 : (mat r V).mulVec ((sub Q N r rows).mulVec z) = z := by rw [Matrix.mulVec_mulVec, hV, Matrix.one_mulVec]
  have h2 : ∀ b : Fin r, ∑ j ∈ range r, g (rows.getD b 0) j * x j = (sub Q N r rows).mulVec z b := fun b => by
    rw [hg _ (hr b b.2)]; rfl
  rw [hg row hrow, ← Fin.sum_univ_eq_sum_range (fun b => wt N r Q V row b * ∑ j ∈ range r, g (rows.getD b 0) j * x j)]
  rw [show (colMat N r Q).mulVec z = (colMat N r Q).mulVec ((mat r V).mulVec ((sub Q N r rows).mulVec z)) by rw [h1],
    Matrix.mulVec_mulVec]
  simp only [Matrix.mulVec, dotProduct]
  refine Finset.sum_congr rfl fun b _ => ?_
  rw [h2 b]
  congr 1
  rw [Matrix.mul_apply, wt, ← Fin.sum_univ_eq_sum_range (fun t => Q.getD (t * N + row) 0 * V.getD (b.1 * r + t) 0)]
  rfl

/-- What a selection gives. -/
theorem sel_ok {qr : Nat → Nat → List ℝ → List ℝ} {mv : List ℝ → Nat → Nat → List Nat → List ℝ → C (Int × List Nat × List ℝ)}
    (hqr : QrLaw qr) {N r : Nat} (hrn : r ≤ N) {g : Nat → Nat → ℝ} (hmv : MvGood mv N r (qr N r (cm N r g))) :
    ∃ rows V, mv (qr N r (cm N r g)) N r (List.replicate r 0) (List.replicate (r * r) 0) = .ok (0, rows, V) ∧ rows.length = r ∧
      (∀ x ∈ rows, x < N) ∧ (∀ i < r, rows.getD i 0 < N) ∧ V.length = r * r ∧ (qr N r (cm N r g)).length = N * r ∧
      ∀ (x : Nat → ℝ) (row : Nat), row < N →
        ∑ j ∈ range r, g row j * x j = ∑ b ∈ range r, wt N r (qr N r (cm N r g)) V row b * ∑ j ∈ range r, g (rows.getD b 0) j * x j := by
  obtain ⟨rows, V, h1, h2, h3, h4, h5⟩ := hmv
  obtain ⟨hq, Tm, hT⟩ := hqr N r (cm N r g) hrn (by rw [cm_length])
  refine ⟨rows, V, h1 _ _ (by simp) (by simp), h2, fun x hx => ?_, h3, h4, hq, fun x row hrow => sweep_step hT h3 h5 x hrow⟩
  obtain ⟨i, hi, rfl⟩ := List.getElem_of_mem hx
  have := h3 i (by omega)
  rwa [List.getD_eq_getElem?_getD, List.getElem?_eq_getElem hi] at this

theorem setFirst_ok {N : Nat} {rows : List Nat} {set : List (List Nat)} (hr : rows.length = N) (hs : set.length = N)
    (h1 : ∀ x ∈ set, x.length = 1) : setFirst N rows set = .ok (rows.map fun row => [row]) := by
  obtain ⟨s, e, hl, ha, hb⟩ := forN_spec (n := N) (s := set)
    (body := fun jj set => do
      let v ← rd rows jj
      let ix ← rd set jj
      let ix ← wr ix 0 v
      wr set jj ix)
    (I := fun j s => s.length = N ∧ (∀ k < j, s[k]? = some [rows.getD k 0]) ∧ ∀ k, j ≤ k → ∀ x, s[k]? = some x → x.length = 1)
    ⟨hs, fun k hk => by omega, fun k _ x hx => h1 x (List.mem_of_getElem? hx)⟩
    (by
      rintro j hj s ⟨hs, ha, hb⟩
      have hsj : s[j]? = some s[j] := List.getElem?_eq_getElem (by omega)
      have hl1 := hb j le_rfl _ hsj
      obtain ⟨z, hz⟩ := List.length_eq_one_iff.1 hl1
      refine ⟨s.set j [rows.getD j 0], ?_, by simpa using hs, fun k hk => ?_, fun k hk x hx => ?_⟩
      · rw [rd_getD 0 (by omega), bind_ok, rd_of_getElem? hsj, bind_ok, hz, wr_ok _ (by simp), bind_ok, wr_ok _ (by omega)]
        rfl
      · by_cases e : j = k
        · subst e; rw [List.getElem?_set_self (by omega)]
        · rw [List.getElem?_set_ne e]; exact ha k (by omega)
      · rw [List.getElem?_set_ne (by omega)] at hx
        exact hb k (by omega) x hx)
  rw [setFirst, e]
  congr 1
  apply List.ext_getElem?
  intro k
  by_cases hk : k < N
  · rw [ha k hk, List.getElem?_map, List.getElem?_eq_getElem (by omega : k < rows.length)]
    simp [List.getElem?_eq_getElem (by omega : k < rows.length)]
  · rw [List.getElem?_eq_none (by omega), List.getElem?_eq_none (by simp; omega)]

end Step
end C3.Tc
