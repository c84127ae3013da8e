/-
The BLAS calls of the BFGS optimizer on the upper triangle of a buffer.
-/
import Verif.Opt.BfgsModel
import Verif.Opt.BfgsAlg
import Verif.Opt.GradProps
import Verif.Core.Blas

set_option linter.unusedSectionVars false

namespace C3.Opt
open Finset

variable {K : Type} [Field K] [LinearOrder K] [IsStrictOrderedRing K]

/-- A buffer as a vector. -/
def gv (x : List K) (i : Nat) : K := x.getD i 0

/-- The upper triangle of a column-major buffer as a symmetric matrix. -/
def Hm (d : Nat) (h : List K) (i j : Nat) : K := h.getD (up d i j) 0

theorem Hm_symm (d : Nat) (h : List K) : SymM d (Hm d h) := fun i _ j _ => by
  rw [Hm, Hm, up, up, min_comm, max_comm]

theorem up_lt {d i j : Nat} (hi : i < d) (hj : j < d) : up d i j < d * d := by
  have h1 : max i j + 1 ≤ d := by omega
  have h2 : min i j < d := by omega
  have := Nat.mul_le_mul_right d h1
  rw [up]
  rw [Nat.add_mul, Nat.one_mul] at this
  omega

theorem dot_ip (d : Nat) (x y : List K) : dot d x y = ip d (gv x) (gv y) := rfl

theorem dcopy_ok {d : Nat} {x b : List K} (hx : x.length = d) (hb : b.length = d) : dcopy d x b = .ok x := copy_ok hx hb

theorem daxpy_ok {d : Nat} (alpha : K) {x y : List K} (hx : x.length = d) (hy : y.length = d) :
    daxpy d alpha x y = .ok ((List.range d).map fun i => y.getD i 0 + alpha * x.getD i 0) := by
  rw [daxpy, C3.Lin.forN_inplace hy (fun i v => v + alpha * x.getD i 0)]
  intro i hi b hb e
  rw [rd_getD 0 (by omega), bind_ok, rd_getD 0 (by omega), bind_ok, e]

theorem dscal_ok {d : Nat} (alpha : K) {x : List K} (hx : x.length = d) :
    dscal d alpha x = .ok ((List.range d).map fun i => alpha * x.getD i 0) := by
  rw [dscal, C3.Lin.forN_inplace hx (fun i v => alpha * v)]
  intro i hi b hb e
  rw [rd_getD 0 (by omega), bind_ok, e]

theorem dsymv_ok {d : Nat} (alpha : K) {a x y : List K} (ha : a.length = d * d) (hx : x.length = d) (hy : y.length = d) :
    dsymv d alpha a x y = .ok ((List.range d).map fun i => alpha * mulv d (Hm d a) (gv x) i) := by
  rw [dsymv, forN_fill_all (fun i => alpha * mulv d (Hm d a) (gv x) i) hy]
  intro i hi b hb
  rw [forN_sum (fun j => Hm d a i j * gv x j), bind_ok, zero_add]
  · rfl
  · intro j hj s
    rw [rd_getD 0 (by rw [ha]; exact up_lt hi hj), bind_ok, rd_getD 0 (by omega), bind_ok]; rfl

theorem forN_tri {d : Nat} {body : Nat → Nat → List K → C (List K)} {a : List K} (g : Nat → Nat → K) (ha : a.length = d * d)
    (hb : ∀ j < d, ∀ i ≤ j, ∀ b : List K, b.length = d * d → body j i b = wr b (i + j * d) (b.getD (i + j * d) 0 + g i j)) :
    ∃ h, forN d (fun j a => forN (j + 1) (body j) a) a = .ok h ∧ h.length = d * d ∧
      ∀ i < d, ∀ j < d, h.getD (i + j * d) 0 = a.getD (i + j * d) 0 + if i ≤ j then g i j else 0 := by
  have hlt : ∀ i < d, ∀ j < d, i + j * d < d * d := by
    intro i hi j hj
    have := Nat.mul_le_mul_right d (show j + 1 ≤ d from hj)
    rw [Nat.add_mul, Nat.one_mul] at this
    omega
  obtain ⟨h, h1, h2, h3⟩ := forN_spec (n := d) (body := fun j a => forN (j + 1) (body j) a) (s := a)
    (I := fun J b => b.length = d * d ∧
      ∀ i < d, ∀ j < d, b.getD (i + j * d) 0 = a.getD (i + j * d) 0 + if i ≤ j ∧ j < J then g i j else 0)
    ⟨ha, fun i _ j _ => by simp⟩ (by
      intro J hJ b ⟨hl, hv⟩
      obtain ⟨c, c1, c2, c3⟩ := forN_spec (n := J + 1) (body := body J) (s := b)
        (I := fun I c => c.length = d * d ∧
          ∀ i < d, ∀ j < d, c.getD (i + j * d) 0 = a.getD (i + j * d) 0 + if i ≤ j ∧ j < J ∨ (j = J ∧ i < I) then g i j else 0)
        ⟨hl, fun i hi j hj => by rw [hv i hi j hj]; simp⟩ (by
          intro I hI c ⟨hl, hv⟩
          rw [hb J hJ I (by omega) c hl, wr_ok _ (by rw [hl]; exact hlt I (by omega) J hJ)]
          refine ⟨_, rfl, by simpa using hl, ?_⟩
          intro i hi j hj
          by_cases e : i = I ∧ j = J
          · obtain ⟨rfl, rfl⟩ := e
            rw [if_pos (Or.inr ⟨rfl, by omega⟩)]
            have : i + j * d < c.length := by rw [hl]; exact hlt i hi j hj
            rw [List.getD_eq_getElem?_getD, List.getElem?_set_self this, Option.getD_some, hv i hi j hj, if_neg (by omega), add_zero]
          · have hne : I + J * d ≠ i + j * d := by
              intro h
              have := row_inj (n := d) (i := J) (i' := j) (j := I) (j' := i) (by omega) hi (by omega)
              omega
            rw [List.getD_eq_getElem?_getD, List.getElem?_set_ne hne, ← List.getD_eq_getElem?_getD, hv i hi j hj]
            congr 1
            have : (i ≤ j ∧ j < J ∨ j = J ∧ i < I) ↔ (i ≤ j ∧ j < J ∨ j = J ∧ i < I + 1) := by omega
            simp only [this])
      refine ⟨c, c1, c2, ?_⟩
      intro i hi j hj
      rw [c3 i hi j hj]
      have : (i ≤ j ∧ j < J ∨ j = J ∧ i < J + 1) ↔ (i ≤ j ∧ j < J + 1) := by omega
      simp only [this])
  refine ⟨h, h1, h2, fun i hi j hj => ?_⟩
  rw [h3 i hi j hj]
  have : (i ≤ j ∧ j < d) ↔ i ≤ j := by omega
  simp only [this]

theorem Hm_of_tri {d : Nat} {a h : List K} {g : Nat → Nat → K} (hg : ∀ i j, g i j = g j i)
    (h3 : ∀ i < d, ∀ j < d, h.getD (i + j * d) 0 = a.getD (i + j * d) 0 + if i ≤ j then g i j else 0) :
    ∀ i < d, ∀ j < d, Hm d h i j = Hm d a i j + g i j := by
  intro i hi j hj
  rw [Hm, Hm, up, h3 _ (by omega) _ (by omega), if_pos (by omega)]
  rcases le_total i j with e | e
  · rw [min_eq_left e, max_eq_right e]
  · rw [min_eq_right e, max_eq_left e, hg]

theorem dsyr_ok {d : Nat} (alpha : K) {x a : List K} (hx : x.length = d) (ha : a.length = d * d) :
    ∃ h, dsyr d alpha x a = .ok h ∧ h.length = d * d ∧ (∀ i < d, ∀ j < d, Hm d h i j = Hm d a i j + alpha * gv x i * gv x j) ∧
      ∀ i < d, ∀ j < i, h.getD (i + j * d) 0 = a.getD (i + j * d) 0 := by
  obtain ⟨h, h1, h2, h3⟩ := forN_tri (d := d) (a := a) (body := fun j i a => do
      let u ← rd x i
      let v ← rd x j
      let w ← rd a (i + j * d)
      wr a (i + j * d) (w + alpha * u * v)) (fun i j => alpha * gv x i * gv x j) ha (by
    intro j hj i hi b hb
    have : i + j * d < d * d := by
      have := Nat.mul_le_mul_right d (show j + 1 ≤ d from hj)
      rw [Nat.add_mul, Nat.one_mul] at this
      omega
    rw [rd_getD 0 (by omega), bind_ok, rd_getD 0 (by omega), bind_ok, rd_getD 0 (by omega), bind_ok]; rfl)
  refine ⟨h, h1, h2, Hm_of_tri (fun i j => by ring) h3, ?_⟩
  intro i hi j hj
  rw [h3 i hi j (by omega), if_neg (by omega), add_zero]

theorem dsyr2_ok {d : Nat} (alpha : K) {x y a : List K} (hx : x.length = d) (hy : y.length = d) (ha : a.length = d * d) :
    ∃ h, dsyr2 d alpha x y a = .ok h ∧ h.length = d * d ∧
      (∀ i < d, ∀ j < d, Hm d h i j = Hm d a i j + alpha * (gv x i * gv y j + gv y i * gv x j)) ∧
      ∀ i < d, ∀ j < i, h.getD (i + j * d) 0 = a.getD (i + j * d) 0 := by
  obtain ⟨h, h1, h2, h3⟩ := forN_tri (d := d) (a := a) (body := fun j i a => do
      let xi ← rd x i
      let xj ← rd x j
      let yi ← rd y i
      let yj ← rd y j
      let w ← rd a (i + j * d)
      wr a (i + j * d) (w + alpha * (xi * yj + yi * xj))) (fun i j => alpha * (gv x i * gv y j + gv y i * gv x j)) ha (by
    intro j hj i hi b hb
    have : i + j * d < d * d := by
      have := Nat.mul_le_mul_right d (show j + 1 ≤ d from hj)
      rw [Nat.add_mul, Nat.one_mul] at this
      omega
    rw [rd_getD 0 (by omega), bind_ok, rd_getD 0 (by omega), bind_ok, rd_getD 0 (by omega), bind_ok, rd_getD 0 (by omega), bind_ok,
      rd_getD 0 (by omega), bind_ok]; rfl)
  refine ⟨h, h1, h2, Hm_of_tri (fun i j => by ring) h3, ?_⟩
  intro i hi j hj
  rw [h3 i hi j (by omega), if_neg (by omega), add_zero]

/-- C83: the update of the inverse Hessian is the BFGS formula (skipped if `|s'y| ≤ 1e-16`); the strict lower triangle is not touched. -/
theorem bfgsUpdate_ok {d : Nat} {s y w3 h : List K} (hs : s.length = d) (hy : y.length = d) (hw : w3.length = d) (hh : h.length = d * d) :
    ∃ h' w, bfgsUpdate d s y w3 h = .ok (h', w) ∧ h'.length = d * d ∧ w.length = d ∧
      (1 / 10 ^ 16 < |ip d (gv s) (gv y)| → ∀ i < d, ∀ j < d, Hm d h' i j = bfgs d (Hm d h) (gv s) (gv y) i j) ∧
      (|ip d (gv s) (gv y)| ≤ 1 / 10 ^ 16 → h' = h) ∧
      ∀ i < d, ∀ j < i, h'.getD (i + j * d) 0 = h.getD (i + j * d) 0 := by
  have hwl : ((List.range d).map fun i => (1 : K) * mulv d (Hm d h) (gv y) i).length = d := by simp
  have hwv : ∀ i < d, gv ((List.range d).map fun i => (1 : K) * mulv d (Hm d h) (gv y) i) i = mulv d (Hm d h) (gv y) i := by
    intro i hi
    rw [gv]; simp [hi]
  rw [bfgsUpdate, dsymv_ok 1 hh hy hw, bind_ok, dot_ok hs hy, bind_ok, dot_ok hy hwl, bind_ok, dot_ip, dot_ip,
    ip_congr (u := gv y) (u' := gv y) (fun _ _ => rfl) hwv]
  split
  · next hc =>
    have hne : ip d (gv s) (gv y) ≠ 0 := by
      intro h0
      rw [h0, abs_zero] at hc
      have : (0 : K) < 1 / 10 ^ 16 := by positivity
      exact absurd hc (not_lt.mpr this.le)
    obtain ⟨h1, e1, e2, e3, e4⟩ := dsyr_ok ((ip d (gv s) (gv y) + ip d (gv y) (mulv d (Hm d h) (gv y))) / (ip d (gv s) (gv y) * ip d (gv s) (gv y))) hs hh
    obtain ⟨h2, g1, g2, g3, g4⟩ := dsyr2_ok (-1 / ip d (gv s) (gv y)) hwl hs e2
    rw [e1, bind_ok, g1, bind_ok]
    refine ⟨h2, _, rfl, g2, hwl, fun _ i hi j hj => ?_, fun hle => absurd hc (not_lt.mpr hle), fun i hi j hj => by rw [g4 i hi j hj, e4 i hi j hj]⟩
    rw [g3 i hi j hj, e3 i hi j hj, hwv i hi, hwv j hj, bfgs]
    field_simp
    ring
  · next hc => exact ⟨h, _, rfl, hh, hwl, fun h => absurd h hc, fun _ => rfl, fun _ _ _ _ => rfl⟩

end C3.Opt
