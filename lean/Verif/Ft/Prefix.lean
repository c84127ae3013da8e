/- Left and right products of a chain of matrices, and replacing one matrix. -/
import Verif.Ft.AlgLemmas

set_option linter.unusedSectionVars false

namespace C3.Ft
open Finset
variable {K U X : Type} [Field K]

/-- First row of the product of the first `k` matrices (size and entries). -/
def pre (Ms : List (Mat K)) : Nat → Nat × (Nat → K)
  | 0 => (1, fun c => if c = 0 then 1 else 0)
  | k + 1 => match Ms[k]? with
    | none => pre Ms k
    | some A => (A.1, fun c => ∑ r ∈ range (pre Ms k).1, A.2 r c * (pre Ms k).2 r)

theorem pre_succ {Ms : List (Mat K)} {k : Nat} {A : Mat K} (h : Ms[k]? = some A) :
    pre Ms (k + 1) = (A.1, fun c => ∑ r ∈ range (pre Ms k).1, A.2 r c * (pre Ms k).2 r) := by
  rw [pre, h]

/-- Splitting a chain at `k`. -/
theorem chain_pre {Ms : List (Mat K)} : ∀ {k : Nat}, k ≤ Ms.length →
    chain Ms 0 = ∑ r ∈ range (pre Ms k).1, (pre Ms k).2 r * chain (Ms.drop k) r
  | 0, _ => by simp [pre]
  | k + 1, hk => by
    have hk' : k < Ms.length := hk
    rw [chain_pre (k := k) (by omega), pre_succ (List.getElem?_eq_getElem hk'), List.drop_eq_getElem_cons hk']
    exact (chain_step (pre Ms k).1 (pre Ms k).2 Ms[k] _).symm

theorem pre_congr {Ms Ms' : List (Mat K)} : ∀ {k : Nat}, (∀ j < k, Ms[j]? = Ms'[j]?) → pre Ms k = pre Ms' k
  | 0, _ => rfl
  | k + 1, h => by
    rw [pre, pre, h k (by omega), pre_congr (fun j hj => h j (by omega))]

/-- Replacing one matrix of a chain. -/
theorem chain_set {Ms : List (Mat K)} {i : Nat} (hi : i < Ms.length) (A : Mat K) :
    chain (Ms.set i A) 0 = ∑ r ∈ range (pre Ms i).1, (pre Ms i).2 r *
      ∑ c ∈ range A.1, A.2 r c * chain (Ms.drop (i + 1)) c := by
  rw [chain_pre (k := i) (by simp; omega), pre_congr (Ms' := Ms) (k := i) (fun j hj => by rw [List.getElem?_set_ne (by omega)])]
  refine sum_congr rfl fun r _ => ?_
  congr 1
  rw [List.drop_eq_getElem_cons (by simpa using hi)]
  simp [chain, List.drop_set_of_lt]

section train
variable {e : Ev K U X} {F : Fam U X} {ft : FT K U} {x : List X}

theorem mats_get {k : Nat} {Q : Qma U} {xk : X} (hQ : ft.cores[k]? = some Q) (hx : x[k]? = some xk) :
    (mats e ft.cores x)[k]? = some (Q.ncols, Q.val e xk) := by
  rw [mats, List.getElem?_zipWith, hQ, hx]

/-- A core of a well-formed train. -/
theorem FT.WF.get (h : ft.WF) {k : Nat} (hk : k < ft.dim) :
    ∃ Q, rd ft.cores k = .ok Q ∧ ft.cores[k]? = some Q ∧ Q.WF ∧ Q.nrows = ft.rk k ∧ Q.ncols = ft.rk (k + 1) ∧
      rd ft.ranks k = .ok (ft.rk k) ∧ rd ft.ranks (k + 1) = .ok (ft.rk (k + 1)) := by
  have hk' : k < ft.cores.length := by rw [← h.dim]; exact hk
  have e1 := h.ranks_get hk'
  have e2 := h.ranks_get' hk'
  refine ⟨_, rd_ok hk', List.getElem?_eq_getElem hk', (h.fits.get hk').1, ?_, ?_, rd_of_getElem? (h.rk_get (by omega)),
    rd_of_getElem? (h.rk_get (by omega))⟩
  · rw [FT.rk, List.getD_eq_getElem?_getD, e1]; rfl
  · rw [FT.rk, List.getD_eq_getElem?_getD, e2]; rfl

/-- Left product after `k` cores. -/
def preL (e : Ev K U X) (ft : FT K U) (x : List X) (k c : Nat) : K := (pre (mats e ft.cores x) k).2 c

/-- Right product from core `k`. -/
def sufR (e : Ev K U X) (ft : FT K U) (x : List X) (k r : Nat) : K := chain ((mats e ft.cores x).drop k) r

theorem pre_size (h : ft.WF) (hx : ft.dim ≤ x.length) : ∀ {k : Nat}, k ≤ ft.dim → (pre (mats e ft.cores x) k).1 = ft.rk k
  | 0, _ => h.rk_zero.symm
  | k + 1, hk => by
    obtain ⟨Q, -, hQ, -, -, hc, -⟩ := h.get (k := k) (by omega)
    rw [pre_succ (mats_get hQ (List.getElem?_eq_getElem (by omega)))]; exact hc

theorem preL_succ (h : ft.WF) (hx : ft.dim ≤ x.length) {k : Nat} (hk : k < ft.dim) {Q : Qma U} (hQ : ft.cores[k]? = some Q)
    {xk : X} (hxk : x[k]? = some xk) (c : Nat) :
    preL e ft x (k + 1) c = ∑ r ∈ range (ft.rk k), Q.val e xk r c * preL e ft x k r := by
  rw [preL, pre_succ (mats_get hQ hxk), pre_size h hx (by omega)]; rfl

theorem preL_one (h : ft.WF) (hx : ft.dim ≤ x.length) {Q : Qma U} (hQ : ft.cores[0]? = some Q)
    {xk : X} (hxk : x[0]? = some xk) (c : Nat) : preL e ft x 1 c = Q.val e xk 0 c := by
  have hd : 0 < ft.dim := by rw [h.dim]; exact h.len_pos
  rw [preL_succ h hx hd hQ hxk, h.rk_zero]
  simp [preL, pre]

theorem sufR_step {k : Nat} {Q : Qma U} (hQ : ft.cores[k]? = some Q)
    {xk : X} (hxk : x[k]? = some xk) (r : Nat) :
    sufR e ft x k r = ∑ c ∈ range Q.ncols, Q.val e xk r c * sufR e ft x (k + 1) c := by
  obtain ⟨h1, h2⟩ := List.getElem?_eq_some_iff.1 (mats_get (e := e) hQ hxk)
  rw [sufR, List.drop_eq_getElem_cons h1, h2, chain]; rfl

theorem sufR_end (h : ft.WF) (hx : ft.dim ≤ x.length) (r : Nat) : sufR e ft x ft.dim r = if r = 0 then 1 else 0 := by
  rw [sufR, List.drop_of_length_le (by rw [mats_length (by rw [← h.dim]; exact hx), h.dim]), chain]

/-- Right product of the last core. -/
theorem sufR_last (h : ft.WF) (hx : ft.dim ≤ x.length) {k : Nat} (hk : k + 1 = ft.dim) {Q : Qma U} (hQ : ft.cores[k]? = some Q)
    {xk : X} (hxk : x[k]? = some xk) (r : Nat) : sufR e ft x k r = Q.val e xk r 0 := by
  obtain ⟨Q', -, hQ', -, -, hc, -⟩ := h.get (k := k) (by omega)
  rw [hQ, Option.some.injEq] at hQ'
  subst hQ'
  rw [sufR_step hQ hxk, hc, hk, h.rk_last, sum_range_one, sufR_end h hx, if_pos rfl, mul_one]

theorem value_pre (h : ft.WF) (hx : ft.dim ≤ x.length) {k : Nat} (hk : k ≤ ft.dim) :
    value e ft.cores x = ∑ r ∈ range (ft.rk k), preL e ft x k r * sufR e ft x k r := by
  rw [value, chain_pre (k := k) (by rw [mats_length (by rw [← h.dim]; exact hx), ← h.dim]; exact hk), pre_size h hx hk]; rfl

theorem value_last (h : ft.WF) (hx : ft.dim ≤ x.length) : value e ft.cores x = preL e ft x ft.dim 0 := by
  rw [value_pre h hx (Nat.le_refl _), h.rk_last, sum_range_one, sufR_end h hx, if_pos rfl, mul_one]

/-- The value when core `i` is replaced by the matrix `M`. -/
theorem chain_replace (h : ft.WF) (hx : ft.dim ≤ x.length) {i : Nat} (hi : i < ft.dim) (m : Nat) (M : Nat → Nat → K) :
    chain ((mats e ft.cores x).set i (m, M)) 0
      = ∑ r ∈ range (ft.rk i), preL e ft x i r * ∑ c ∈ range m, M r c * sufR e ft x (i + 1) c := by
  rw [chain_set (by rw [mats_length (by rw [← h.dim]; exact hx), ← h.dim]; exact hi), pre_size h hx (by omega)]; rfl

/-- Changing one coordinate. -/
theorem mats_set {i : Nat} {Q : Qma U} (hQ : ft.cores[i]? = some Q) (t : X) (hi : i < x.length) :
    mats e ft.cores (x.set i t) = (mats e ft.cores x).set i (Q.ncols, Q.val e t) := by
  apply List.ext_getElem?
  intro j
  by_cases hj : j = i
  · subst hj
    have h1 : (mats e ft.cores (x.set j t))[j]? = some (Q.ncols, Q.val e t) := mats_get hQ (by simp [hi])
    have hlt : j < (mats e ft.cores x).length := by
      have := (List.getElem?_eq_some_iff.1 hQ).1
      simp [mats]; omega
    rw [h1, List.getElem?_set_self hlt]
  · rw [List.getElem?_set_ne (by omega), mats, mats, List.getElem?_zipWith, List.getElem?_zipWith,
      List.getElem?_set_ne (by omega)]

theorem value_set (h : ft.WF) (hx : ft.dim ≤ x.length) {i : Nat} (hi : i < ft.dim) {Q : Qma U} (hQ : ft.cores[i]? = some Q)
    (t : X) : value e ft.cores (x.set i t)
      = ∑ r ∈ range (ft.rk i), preL e ft x i r * ∑ c ∈ range (ft.rk (i + 1)), Q.val e t r c * sufR e ft x (i + 1) c := by
  obtain ⟨Q', -, hQ', -, -, hc, -⟩ := h.get hi
  rw [hQ, Option.some.injEq] at hQ'
  subst hQ'
  rw [value, mats_set hQ t (by omega), chain_replace h hx hi, hc]

end train

theorem getD_set_self {α : Type} {l : List α} {i : Nat} (v d : α) (h : i < l.length) : (l.set i v).getD i d = v := by
  rw [List.getD_eq_getElem?_getD, List.getElem?_set_self h]; rfl

theorem getD_set_ne {α : Type} {l : List α} {i j : Nat} (v d : α) (h : i ≠ j) : (l.set i v).getD j d = l.getD j d := by
  rw [List.getD_eq_getElem?_getD, List.getElem?_set_ne h, List.getD_eq_getElem?_getD]

theorem getD_drop {l : List K} (n i : Nat) (d : K) : (l.drop n).getD i d = l.getD (n + i) d := by
  rw [List.getD_eq_getElem?_getD, List.getElem?_drop, List.getD_eq_getElem?_getD]

theorem rk_le_maxrank {ft : FT K U} (h : ft.WF) : ∃ mr, maxrank ft = .ok mr ∧ 1 ≤ mr ∧ ∀ k ≤ ft.dim, ft.rk k ≤ mr := by
  obtain ⟨mr, h1, h2, h3⟩ := maxrank_ok h.ranks_len
  exact ⟨mr, h1, h2, fun k hk => h3 k _ (h.rk_get hk)⟩

end C3.Ft
