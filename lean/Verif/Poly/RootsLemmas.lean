import Verif.Poly.Roots
import Verif.Poly.DDerivProps
import Verif.Core.Buf
import Mathlib.LinearAlgebra.Matrix.ToLinearEquiv
import Mathlib.Analysis.Complex.Basic
import Mathlib.Topology.Order.Compact
import Mathlib.Analysis.Calculus.LocalExtr.Basic

/-! Lemmas on companion matrices for the real roots of expansions. -/

namespace C3.Poly
open Finset

section
variable {F : Type} [Field F]

/-- Entries of the companion matrix of `u N + sum e i * u i` where `x u_j = al_j u_(j+1) + ga_j u_(j-1)`. -/
def cmpE (N : Nat) (al ga e : Nat → F) (i j : Nat) : F :=
  (if i = j + 1 then al j else 0) + (if i + 1 = j then ga j else 0) - (if j = N - 1 then al (N - 1) * e i else 0)

theorem cmpE_sum {N : Nat} (al ga e w : Nat → F) {j : Nat} (hj : j < N) :
    ∑ i ∈ range N, w i * cmpE N al ga e i j = (if j + 1 < N then al j * w (j + 1) else 0) + (if 1 ≤ j then ga j * w (j - 1) else 0) -
      (if j = N - 1 then al (N - 1) * ∑ i ∈ range N, e i * w i else 0) := by
  have e1 : ∑ i ∈ range N, w i * (if i = j + 1 then al j else 0) = if j + 1 < N then al j * w (j + 1) else 0 := by
    simp only [mul_ite, mul_zero, Finset.sum_ite_eq', mem_range, mul_comm]
  have e2 : ∑ i ∈ range N, w i * (if i + 1 = j then ga j else 0) = if 1 ≤ j then ga j * w (j - 1) else 0 := by
    by_cases h : 1 ≤ j
    · obtain ⟨k, rfl⟩ : ∃ k, j = k + 1 := ⟨j - 1, by omega⟩
      simp only [Nat.add_right_cancel_iff, mul_ite, mul_zero, Finset.sum_ite_eq', mem_range]
      rw [if_pos (by omega), if_pos h, mul_comm, Nat.add_sub_cancel]
    · rw [if_neg h]
      exact sum_eq_zero fun i _ => by rw [if_neg (by omega), mul_zero]
  have e3 : ∑ i ∈ range N, w i * (if j = N - 1 then al (N - 1) * e i else 0) = if j = N - 1 then al (N - 1) * ∑ i ∈ range N, e i * w i else 0 := by
    split
    · rw [mul_sum]; exact sum_congr rfl fun i _ => by ring
    · simp
  simp only [cmpE, mul_sub, mul_add, sum_sub_distrib, sum_add_distrib, e1, e2, e3]

/-- The eigenvalues of the companion matrix are the zeros. -/
theorem comrade {N : Nat} (hN : 2 ≤ N) (al ga e u : Nat → F) (z : F) (h0 : u 0 = 1) (a0 : al 0 = 1) (h1 : u 1 = z)
    (hr : ∀ n, z * u (n + 1) = al (n + 1) * u (n + 2) + ga (n + 1) * u n) (ha : ∀ n, al n ≠ 0) :
    Matrix.det (z • (1 : Matrix (Fin N) (Fin N) F) - Matrix.of fun i j : Fin N => cmpE N al ga e i j) = 0 ↔
      u N + ∑ i ∈ range N, e i * u i = 0 := by
  rw [← Matrix.exists_vecMul_eq_zero_iff]
  have key : ∀ w : Nat → F, (Matrix.vecMul (fun i : Fin N => w i) (z • (1 : Matrix (Fin N) (Fin N) F) - Matrix.of fun i j : Fin N => cmpE N al ga e i j) = 0 ↔
      ∀ j < N, z * w j = (if j + 1 < N then al j * w (j + 1) else 0) + (if 1 ≤ j then ga j * w (j - 1) else 0) -
      (if j = N - 1 then al (N - 1) * ∑ i ∈ range N, e i * w i else 0)) := fun w => by
    have ent : ∀ j : Fin N, Matrix.vecMul (fun i : Fin N => w i) (z • (1 : Matrix (Fin N) (Fin N) F) - Matrix.of fun i j : Fin N => cmpE N al ga e i j) j =
        z * w j - ((if (j : Nat) + 1 < N then al j * w (j + 1) else 0) + (if 1 ≤ (j : Nat) then ga j * w (j - 1) else 0) -
      (if (j : Nat) = N - 1 then al (N - 1) * ∑ i ∈ range N, e i * w i else 0)) := fun j => by
      rw [Matrix.vecMul_sub, Matrix.vecMul_smul, Matrix.vecMul_one, ← cmpE_sum al ga e w j.2, Pi.sub_apply, Pi.smul_apply, smul_eq_mul]
      congr 1
      rw [Matrix.vecMul, dotProduct]
      exact Fin.sum_univ_eq_sum_range (fun i => w i * cmpE N al ga e i j) N
    constructor
    · intro h j hj
      have := congrFun h ⟨j, hj⟩
      rw [ent] at this
      exact sub_eq_zero.1 this
    · intro h
      funext j
      rw [ent]
      exact sub_eq_zero.2 (h j j.2)
  constructor
  · rintro ⟨v, hv, he⟩
    obtain ⟨w, rfl⟩ : ∃ w : Nat → F, v = fun i : Fin N => w i := ⟨fun i => if h : i < N then v ⟨i, h⟩ else 0, by funext i; simp⟩
    rw [key] at he
    have wu : ∀ j, j < N → w j = w 0 * u j := by
      intro j
      induction j using Nat.strong_induction_on with
      | _ j ih =>
        intro hj
        match j, ih, hj with
        | 0, _, _ => rw [h0, mul_one]
        | 1, _, hj =>
          have := he 0 (by omega)
          rw [if_pos (by omega), if_neg (by omega), if_neg (by omega), a0] at this
          rw [h1, Nat.zero_add] at *
          linear_combination -this
        | k + 2, ih, hj =>
          have := he (k + 1) (by omega)
          rw [if_pos (by omega), if_pos (by omega), if_neg (by omega), Nat.add_sub_cancel, ih k (by omega) (by omega), ih (k + 1) (by omega) (by omega)] at this
          have hh := hr k
          apply mul_left_cancel₀ (ha (k + 1))
          linear_combination -this + w 0 * hh
    have w0 : w 0 ≠ 0 := fun h => hv (by funext i; rw [wu i i.2, h, zero_mul]; rfl)
    have := he (N - 1) (by omega)
    rw [if_neg (by omega), if_pos (by omega), if_pos rfl, wu (N - 1) (by omega), wu (N - 1 - 1) (by omega),
      show ∑ i ∈ range N, e i * w i = w 0 * ∑ i ∈ range N, e i * u i by
        rw [mul_sum]; exact sum_congr rfl fun i hi => by rw [wu i (mem_range.1 hi)]; ring] at this
    have hh := hr (N - 2)
    rw [show N - 2 + 1 = N - 1 by omega, show N - 2 + 2 = N by omega] at hh
    rw [show N - 1 - 1 = N - 2 by omega] at this
    have h2 : (w 0 * al (N - 1)) * (u N + ∑ i ∈ range N, e i * u i) = 0 := by linear_combination this - w 0 * hh
    exact (mul_eq_zero.1 h2).resolve_left (mul_ne_zero w0 (ha _))
  · intro h
    refine ⟨fun i : Fin N => u i, fun hh => one_ne_zero (α := F) (by rw [← h0]; exact congrFun hh ⟨0, by omega⟩), (key u).2 fun j hj => ?_⟩
    by_cases hl : j = N - 1
    · subst hl
      rw [if_neg (by omega), if_pos (by omega), if_pos rfl]
      have hh := hr (N - 2)
      rw [show N - 2 + 1 = N - 1 by omega, show N - 2 + 2 = N by omega] at hh
      rw [show N - 1 - 1 = N - 2 by omega]
      linear_combination hh + al (N - 1) * h
    · rw [if_pos (by omega), if_neg hl]
      match j with
      | 0 => rw [if_neg (by omega), h0, h1, a0]; ring
      | k + 1 => rw [if_pos (by omega), Nat.add_sub_cancel, hr k]; ring

end

section
variable {K : Type} [Field K]

theorem getD_setAt (b : List K) {i k : Nat} (v : K) (hi : i < b.length) : (b.set i v).getD k 0 = if k = i then v else b.getD k 0 := by
  rw [List.getD_eq_getElem?_getD, List.getElem?_set, List.getD_eq_getElem?_getD]
  by_cases h : i = k
  · rw [if_pos h, if_pos hi, if_pos h.symm]; rfl
  · rw [if_neg h, if_neg (fun hh => h hh.symm)]

theorem cmIdx {N i j a c : Nat} (hi : i < N) (ha : a < N) : i + j * N = a + c * N ↔ i = a ∧ j = c := by
  constructor
  · intro h
    have h1 : (i + j * N) % N = (a + c * N) % N := by rw [h]
    rw [Nat.add_mul_mod_self_right, Nat.add_mul_mod_self_right, Nat.mod_eq_of_lt hi, Nat.mod_eq_of_lt ha] at h1
    subst h1
    have h2 : j * N = c * N := by omega
    exact ⟨rfl, Nat.eq_of_mul_eq_mul_right (by omega) h2⟩
  · rintro ⟨rfl, rfl⟩; rfl

theorem cmLt {N i j : Nat} (hi : i < N) (hj : j < N) : i + j * N < N * N := by
  calc i + j * N < N + j * N := by omega
    _ = (j + 1) * N := by ring
    _ ≤ N * N := Nat.mul_le_mul_right N hj

/-- A square buffer with given entries. -/
def Has (N : Nat) (b : List K) (E : Nat → Nat → K) : Prop := b.length = N * N ∧ ∀ i < N, ∀ j < N, b.getD (i + j * N) 0 = E i j

theorem Has.wr {N : Nat} {b : List K} {E : Nat → Nat → K} (h : Has N b E) {a c : Nat} (ha : a < N) (hc : c < N) (v : K) {k : Nat} (hk : k = a + c * N) :
    ∃ b', wr b k v = .ok b' ∧ Has N b' (fun i j => if i = a ∧ j = c then v else E i j) := by
  subst hk
  have hl : a + c * N < b.length := by rw [h.1]; exact cmLt ha hc
  refine ⟨b.set (a + c * N) v, wr_ok v hl, by rw [List.length_set, h.1], fun i hi j hj => ?_⟩
  rw [getD_setAt b v hl]
  simp only [cmIdx hi ha]
  split
  · rfl
  · exact h.2 i hi j hj

theorem Has.rd {N : Nat} {b : List K} {E : Nat → Nat → K} (h : Has N b E) {a c : Nat} (ha : a < N) (hc : c < N) {k : Nat} (hk : k = a + c * N) :
    rd b k = .ok (E a c) := by
  subst hk
  rw [← h.2 a ha c hc]
  have hl : a + c * N < b.length := by rw [h.1]; exact cmLt ha hc
  rw [rd_of_getElem? (List.getElem?_eq_getElem hl), List.getD_eq_getElem?_getD, List.getElem?_eq_getElem hl]; rfl

theorem Has.congr {N : Nat} {b : List K} {E E' : Nat → Nat → K} (h : Has N b E) (e : ∀ i < N, ∀ j < N, E i j = E' i j) : Has N b E' :=
  ⟨h.1, fun i hi j hj => by rw [h.2 i hi j hj, e i hi j hj]⟩

variable [LinearOrder K]

/-- The matrix the code builds. -/
theorem nsComp_ok {N : Nat} (hN : 2 ≤ N) {bn : Nat → K} {eps : K} {lo hi : Nat → K} {last : Nat → C K} {g : K} {lam : Nat → K}
    (hb : ∀ k, |bn k| < eps) (hl : ∀ k < N, last k = .ok (lam k)) :
    ∃ b, nsComp N bn eps lo hi last g = .ok b ∧ Has N b (fun i j => (if i = j + 1 then (if j = 0 then 1 else hi j) else 0) +
      (if i + 1 = j then (if j = N - 1 then g else lo j) else 0) + (if j = N - 1 then lam i else 0)) := by
  have z0 : Has N (List.replicate (N * N) (0 : K)) (fun _ _ => 0) := ⟨List.length_replicate, fun i hi j hj => by
    rw [List.getD_eq_getElem?_getD, List.getElem?_replicate]; split <;> rfl⟩
  obtain ⟨b1, e1, h1⟩ := z0.wr (a := 1) (c := 0) (by omega) (by omega) 1 (k := 1) (by omega)
  obtain ⟨b2, e2, h2⟩ := h1.wr (a := 0) (c := N - 1) (by omega) (by omega) (0 + lam 0) (k := (N - 1) * N) (by omega)
  have r1 := h1.rd (a := 0) (c := N - 1) (by omega) (by omega) (k := (N - 1) * N) (by omega)
  rw [if_neg (by omega)] at r1
  obtain ⟨b3, e3, h3⟩ := forR_spec (a := 1) (b := N - 1) (body := fun ii b => do
    cassert (decide (|bn ii| < eps))
    let b ← wr b (ii * N + ii - 1) (lo ii)
    let b ← wr b (ii * N + ii + 1) (hi ii)
    let v ← last ii
    let o ← rd b ((N - 1) * N + ii)
    wr b ((N - 1) * N + ii) (o + v)) (s := b2)
    (I := fun k b => Has N b (fun i j => (if i = j + 1 ∧ j < k then (if j = 0 then 1 else hi j) else 0) + (if i + 1 = j ∧ j < k then lo j else 0) +
      (if j = N - 1 ∧ i < k then lam i else 0))) (by omega)
    (h2.congr fun i hi j hj => by
      by_cases c1 : i = 0 ∧ j = N - 1
      · rw [if_pos c1, if_neg (by omega), if_neg (by omega), if_pos (by omega), c1.1]; ring
      · rw [if_neg c1, if_neg (show ¬ (i + 1 = j ∧ j < 1) by omega)]
        by_cases c2 : i = 1 ∧ j = 0
        · rw [if_pos c2, if_pos (by omega), if_pos c2.2, if_neg (by omega)]; ring
        · rw [if_neg c2, if_neg (by omega), if_neg (by omega)]; ring)
    (by
      intro k k1 k2 b hb'
      obtain ⟨c1, f1, g1⟩ := hb'.wr (a := k - 1) (c := k) (by omega) (by omega) (lo k) (k := k * N + k - 1) (by omega)
      obtain ⟨c2, f2, g2⟩ := g1.wr (a := k + 1) (c := k) (by omega) (by omega) (hi k) (k := k * N + k + 1) (by omega)
      have r2 := g2.rd (a := k) (c := N - 1) (by omega) (by omega) (k := (N - 1) * N + k) (by omega)
      rw [if_neg (by omega), if_neg (by omega), if_neg (by omega), if_neg (by omega), if_neg (by omega)] at r2
      obtain ⟨c3, f3, g3⟩ := g2.wr (a := k) (c := N - 1) (by omega) (by omega) (0 + 0 + 0 + lam k) (k := (N - 1) * N + k) (by omega)
      refine ⟨c3, by rw [cassert_of (decide_eq_true (hb k)), bind_ok, f1, bind_ok, f2, bind_ok, hl k (by omega), bind_ok, r2, bind_ok, f3], g3.congr fun i hi' j hj => ?_⟩
      by_cases d1 : i = k ∧ j = N - 1
      · rw [if_pos d1, if_neg (by omega), if_neg (by omega), if_pos (by omega), d1.1]; ring
      · rw [if_neg d1]
        by_cases d2 : i = k + 1 ∧ j = k
        · rw [if_pos d2, if_pos (by omega), if_neg (by omega), if_neg (by omega), if_neg (by omega), d2.2]; ring
        · rw [if_neg d2]
          by_cases d3 : i = k - 1 ∧ j = k
          · rw [if_pos d3, if_neg (by omega), if_pos (by omega), if_neg (by omega), d3.2]; ring
          · rw [if_neg d3]
            congr 1
            · congr 1
              · exact if_congr (by omega) rfl rfl
              · exact if_congr (by omega) rfl rfl
            · exact if_congr (by omega) rfl rfl)
  have r3 := h3.rd (a := N - 2) (c := N - 1) (by omega) (by omega) (k := N * N - 2) (by
    obtain ⟨M, rfl⟩ : ∃ M, N = M + 2 := ⟨N - 2, by omega⟩
    simp only [Nat.add_sub_cancel, show M + 2 - 1 = M + 1 by omega]
    have : (M + 2) * (M + 2) = M + (M + 1) * (M + 2) + 2 := by ring
    omega)
  rw [if_neg (by omega), if_neg (by omega)] at r3
  obtain ⟨b4, e4, h4⟩ := h3.wr (a := N - 2) (c := N - 1) (by omega) (by omega) (0 + 0 + (if N - 1 = N - 1 ∧ N - 2 < N - 1 then lam (N - 2) else 0) + g) (k := N * N - 2) (by
    obtain ⟨M, rfl⟩ : ∃ M, N = M + 2 := ⟨N - 2, by omega⟩
    simp only [Nat.add_sub_cancel, show M + 2 - 1 = M + 1 by omega]
    have : (M + 2) * (M + 2) = M + (M + 1) * (M + 2) + 2 := by ring
    omega)
  have i5 : N * N - 1 = N - 1 + (N - 1) * N := by
    obtain ⟨M, rfl⟩ : ∃ M, N = M + 2 := ⟨N - 2, by omega⟩
    simp only [show M + 2 - 1 = M + 1 by omega]
    have : (M + 2) * (M + 2) = M + 1 + (M + 1) * (M + 2) + 1 := by ring
    omega
  have r5 := h4.rd (a := N - 1) (c := N - 1) (by omega) (by omega) i5
  rw [if_neg (by omega), if_neg (by omega), if_neg (by omega), if_neg (by omega)] at r5
  obtain ⟨b5, e5, h5⟩ := h4.wr (a := N - 1) (c := N - 1) (by omega) (by omega) (0 + 0 + 0 + lam (N - 1)) i5
  refine ⟨b5, ?_, h5.congr fun i hi' j hj => ?_⟩
  · rw [nsComp, e1, bind_ok, hl 0 (by omega), bind_ok, r1, bind_ok, e2, bind_ok, e3, bind_ok, r3, bind_ok, e4, bind_ok, hl (N - 1) (by omega), bind_ok, r5, bind_ok, e5]
  · by_cases d1 : i = N - 1 ∧ j = N - 1
    · rw [if_pos d1, if_neg (by omega), if_neg (by omega), if_pos (by omega), d1.1]; try ring
    · rw [if_neg d1]
      by_cases d2 : i = N - 2 ∧ j = N - 1
      · rw [if_pos d2, if_pos (by omega), if_neg (by omega), if_pos (by omega), if_pos (by omega), if_pos (by omega), d2.1]; ring
      · rw [if_neg d2]
        congr 1
        · congr 1
          · exact if_congr (by omega) rfl rfl
          · by_cases d3 : i + 1 = j
            · rw [if_pos (by omega), if_pos d3, if_neg (by omega)]
            · rw [if_neg (by omega), if_neg d3]
        · exact if_congr (by omega) rfl rfl

end

end C3.Poly
