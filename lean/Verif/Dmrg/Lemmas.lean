/-
Matrix products, the decomposition of the product of two triangular factors, and chains with a free right end.
-/
import Verif.Dmrg.Model
import Verif.Round.Main
import Mathlib.LinearAlgebra.Matrix.NonsingularInverse

set_option linter.unusedSectionVars false

namespace C3.Dmrg
open Finset C3.Ft C3.Round
variable {U X : Type} {e : Ev ℝ U X} {F : Fam U X} {I : Integ ℝ X}

theorem dgemmTN_ok {m n k : Nat} {A B c : List ℝ} (hA : k * m ≤ A.length) (hB : k * n ≤ B.length)
    (hc : c.length = m * n) :
    dgemmTN m n k A k B k c m = .ok (cm m n (fun i j => ∑ t ∈ range k, ent k A t i * ent k B t j)) := by
  rw [dgemmTN, forN_fill_cm _ hc]
  intro j hj i hi b _
  rw [forN_sum (fun t => ent k A t i * ent k B t j), bind_ok, zero_add]
  intro t ht s
  rw [rd_getD 0 (lt_of_lt_of_le (cm_idx_lt ht hi) hA), rd_getD 0 (lt_of_lt_of_le (cm_idx_lt ht hj) hB)]; rfl

theorem dgemmNT_ok {m n k : Nat} {A B c : List ℝ} (hA : m * k ≤ A.length) (hB : n * k ≤ B.length)
    (hc : c.length = m * n) :
    dgemmNT m n k A m B n c m = .ok (cm m n (fun i j => ∑ t ∈ range k, ent m A i t * ent n B j t)) := by
  rw [dgemmNT, forN_fill_cm _ hc]
  intro j hj i hi b _
  rw [forN_sum (fun t => ent m A i t * ent n B j t), bind_ok, zero_add]
  intro t ht s
  rw [rd_getD 0 (lt_of_lt_of_le (cm_idx_lt hi ht) hA), rd_getD 0 (lt_of_lt_of_le (cm_idx_lt hj ht) hB)]; rfl

theorem ent_cm {n m i j : Nat} (g : Nat → Nat → ℝ) (hi : i < n) (hj : j < m) : ent n (cm n m g) i j = g i j := by
  rw [ent, getD_cm _ _ hi hj]

/-- Rows orthonormal and square: columns orthonormal. -/
theorem ortho_flip {n : Nat} {g : Nat → Nat → ℝ}
    (h : ∀ p < n, ∀ q < n, ∑ j ∈ range n, g p j * g q j = if p = q then 1 else 0) :
    ∀ i < n, ∀ j < n, ∑ p ∈ range n, g p i * g p j = if i = j then 1 else 0 := by
  have h1 : (Matrix.of fun p j : Fin n => g p j) * (Matrix.of fun p j : Fin n => g p j).transpose = 1 := by
    ext p q
    rw [Matrix.mul_apply, Matrix.one_apply]
    have := h p p.2 q q.2
    rw [← Fin.sum_univ_eq_sum_range (fun j => g p j * g q j)] at this
    simp only [Matrix.of_apply, Matrix.transpose_apply]
    rw [this]
    simp [Fin.ext_iff]
  have h2 := mul_eq_one_comm.1 h1
  intro i hi j hj
  have := congrFun (congrFun h2 ⟨i, hi⟩) ⟨j, hj⟩
  rw [Matrix.mul_apply, Matrix.one_apply] at this
  simp only [Matrix.of_apply, Matrix.transpose_apply, Fin.mk.injEq] at this
  rw [← this, ← Fin.sum_univ_eq_sum_range (fun p => g p i * g p j)]

theorem sum_delta' {n : Nat} {f : Nat → ℝ} {c : Nat} (hc : c < n) :
    ∑ q ∈ range n, (if c = q then 1 else 0) * f q = f c := by
  rw [sum_eq_single c (fun q _ hq => by rw [if_neg (Ne.symm hq), zero_mul]) (fun h => absurd (mem_range.2 hc) h)]
  simp

/-- What the decomposition of the product `P Q` of two `n × n` matrices gives; everything is exact when no singular value
may be dropped. -/
structure DecOk (n : Nat) (P Q : List ℝ) (eps : ℝ) (t : Tsvd) : Prop where
  pos : 1 ≤ t.rank
  le : t.rank ≤ n
  lu : t.u.length = n * t.rank
  ls : t.s.length = t.rank
  lvt : t.vt.length = t.rank * n
  full : eps ≤ 0 → t.rank = n
  uu : eps ≤ 0 → ∀ i < n, ∀ j < n, ∑ p ∈ range n, ent n t.u i p * ent n t.u j p = if i = j then 1 else 0
  vv : eps ≤ 0 → ∀ i < n, ∀ j < n, ∑ p ∈ range n, ent n t.vt p i * ent n t.vt p j = if i = j then 1 else 0
  sv : eps ≤ 0 → ∀ p < n, ∀ j < n, t.s.getD p 0 * ent n t.vt p j
    = ∑ i ∈ range n, ent n t.u i p * ∑ c ∈ range n, ent n P i c * ent n Q c j
  us : eps ≤ 0 → ∀ i < n, ∀ p < n, ent n t.u i p * t.s.getD p 0
    = ∑ j ∈ range n, (∑ c ∈ range n, ent n P i c * ent n Q c j) * ent n t.vt p j

theorem decomp_ok {o : DmOps U} (hsvd : SvdLaw o.svd) {n : Nat} (hn : 0 < n) {p q : QRs U} (h1 : p.mr = n) (h2 : p.mc = n)
    (h3 : q.mc = n) (h4 : p.mat.length = n * n) (h5 : q.mat.length = n * n) (eps : ℝ) :
    ∃ t, decomp o p q eps = .ok t ∧ DecOk n p.mat q.mat eps t := by
  obtain ⟨w, t, t1, t2, t3⟩ := truncSvd_ok hsvd hn (M := cm n n (fun i j => ∑ c ∈ range n, ent n p.mat i c * ent n q.mat c j))
    (by simp) eps
  have hfull : eps ≤ 0 → t.rank = n := fun he => by
    by_contra hne
    have := t3.rank.small (lt_of_le_of_ne t3.rank.le hne)
    have := tailSq_nonneg (n := n) (s := w.s) (r := t.rank)
    linarith
  have hprod : ∀ i < n, ∀ j < n, ∑ c ∈ range n, ent n p.mat i c * ent n q.mat c j
      = ∑ r ∈ range n, ent n w.u i r * (w.s.getD r 0 * ent n w.vt r j) := fun i hi j hj => by
    rw [← t2.prod i hi j hj, ent_cm _ hi hj]
  refine ⟨t, ?_, t3.rank.pos, t3.rank.le, t3.lu, t3.ls, t3.lvt, hfull, ?_, ?_, ?_, ?_⟩
  · rw [decomp, h1, h2, h3, dgemmNN_ok (by rw [h4]) (by rw [h5]) (by simp), bind_ok, ← t1]
    rfl
  · intro he i hi j hj
    have hr := hfull he
    have := ortho_flip (g := fun p i => ent n w.u i p) (fun p hp q hq => t2.uon p hp q hq) i hi j hj
    rw [← this]
    exact sum_congr rfl fun p hp => by
      have hp := mem_range.1 hp
      rw [t3.u i hi p (by omega), t3.u j hj p (by omega)]
  · intro he i hi j hj
    have hr := hfull he
    have := ortho_flip (g := fun p i => ent n w.vt p i) (fun p hp q hq => t2.von p hp q hq) i hi j hj
    rw [← this]
    refine sum_congr rfl fun p hp => ?_
    have hp := mem_range.1 hp
    have e1 := t3.vt p (by omega) i hi
    have e2 := t3.vt p (by omega) j hj
    rw [hr] at e1 e2
    rw [e1, e2]
  · intro he r hr' j hj
    have hr := hfull he
    have e1 := t3.vt r (by omega) j hj
    rw [hr] at e1
    rw [e1, t3.s r (by omega)]
    have : ∀ i ∈ range n, ent n t.u i r * ∑ c ∈ range n, ent n p.mat i c * ent n q.mat c j
        = ∑ r' ∈ range n, (ent n w.u i r * ent n w.u i r') * (w.s.getD r' 0 * ent n w.vt r' j) := by
      intro i hi
      have hi := mem_range.1 hi
      rw [hprod i hi j hj, t3.u i hi r (by omega), mul_sum]
      exact sum_congr rfl fun _ _ => by ring
    rw [sum_congr rfl this, sum_comm]
    rw [sum_congr rfl fun r' hr'' => by rw [← sum_mul, t2.uon r hr' r' (mem_range.1 hr'')]]
    exact (sum_delta' (f := fun r' => w.s.getD r' 0 * ent n w.vt r' j) hr').symm
  · intro he i hi r hr'
    have hr := hfull he
    rw [t3.u i hi r (by omega), t3.s r (by omega)]
    have : ∀ j ∈ range n, (∑ c ∈ range n, ent n p.mat i c * ent n q.mat c j) * ent n t.vt r j
        = ∑ r' ∈ range n, (ent n w.vt r j * ent n w.vt r' j) * (ent n w.u i r' * w.s.getD r' 0) := by
      intro j hj
      have hj := mem_range.1 hj
      have e1 := t3.vt r (by omega) j hj
      rw [hr] at e1
      rw [hprod i hi j hj, e1, sum_mul]
      exact sum_congr rfl fun _ _ => by ring
    rw [sum_congr rfl this, sum_comm]
    rw [sum_congr rfl fun r' hr'' => by rw [← sum_mul, t2.von r hr' r' (mem_range.1 hr'')]]
    exact (sum_delta' (f := fun r' => ent n w.u i r' * w.s.getD r' 0) hr').symm

theorem scaleRows_ok {n r : Nat} {s vt : List ℝ} (hs : s.length = r) (hv : vt.length = r * n) :
    scaleRows n r s vt = .ok (cm r n (fun p j => ent r vt p j * s.getD p 0)) := by
  obtain ⟨b, b1, b2, b3, -⟩ := forN_upd2 (A := n) (B := r) (a := vt) (fun kk jj => kk * r + jj)
    (fun kk jj => ent r vt jj kk * s.getD jj 0)
    (body := fun kk jj vt => do
      let v ← rd vt (kk * r + jj)
      let x ← rd s jj
      wr vt (kk * r + jj) (v * x))
    (fun kk hk jj hj => by rw [hv]; exact cm_idx_lt hj hk)
    (fun i hi j hj i' hi' j' hj' h => by
      have a1 := cm_mod (n := r) (i := j) (j := i) hj
      have a2 := cm_mod (n := r) (i := j') (j := i') hj'
      have a3 := cm_div (n := r) (i := j) (j := i) hj
      have a4 := cm_div (n := r) (i := j') (j := i') hj'
      rw [h] at a1 a3
      exact ⟨by omega, by omega⟩)
    (fun kk hk jj hj b hb he => by
      have hlt : kk * r + jj < b.length := by rw [hb, hv]; exact cm_idx_lt hj hk
      rw [rd_getD 0 hlt, bind_ok, rd_getD 0 (by omega), bind_ok, List.getD_eq_getElem?_getD, he, ← List.getD_eq_getElem?_getD]
      rfl)
  rw [scaleRows, b1]
  congr 1
  refine ext_cm (n := r) (m := n) (by rw [b2, hv]) (by simp) (fun i hi j hj => ?_)
  rw [b3 j hj i hi, cm_getElem? _ hi hj]

theorem scaleCols_ok {n r : Nat} {s u : List ℝ} (hs : s.length = r) (hu : u.length = n * r) :
    scaleCols n r s u = .ok (cm n r (fun i p => ent n u i p * s.getD p 0)) := by
  obtain ⟨b, b1, b2, b3, -⟩ := forN_upd2 (A := r) (B := n) (a := u) (fun jj kk => jj * n + kk)
    (fun jj kk => ent n u kk jj * s.getD jj 0)
    (body := fun jj kk u => do
      let v ← rd u (jj * n + kk)
      let x ← rd s jj
      wr u (jj * n + kk) (v * x))
    (fun kk hk jj hj => by rw [hu]; exact cm_idx_lt hj hk)
    (fun i hi j hj i' hi' j' hj' h => by
      have a1 := cm_mod (n := n) (i := j) (j := i) hj
      have a2 := cm_mod (n := n) (i := j') (j := i') hj'
      have a3 := cm_div (n := n) (i := j) (j := i) hj
      have a4 := cm_div (n := n) (i := j') (j := i') hj'
      rw [h] at a1 a3
      exact ⟨by omega, by omega⟩)
    (fun kk hk jj hj b hb he => by
      have hlt : kk * n + jj < b.length := by rw [hb, hu]; exact cm_idx_lt hj hk
      rw [rd_getD 0 hlt, bind_ok, rd_getD 0 (by omega), bind_ok, List.getD_eq_getElem?_getD, he, ← List.getD_eq_getElem?_getD]
      rfl)
  rw [scaleCols, b1]
  congr 1
  refine ext_cm (n := n) (m := r) (by rw [b2, hu]) (by simp) (fun i hi j hj => ?_)
  rw [b3 j hj i hi, cm_getElem? _ hi hj]

/-- Product of a chain of matrices applied to a vector. -/
def chainV : List (Mat ℝ) → (Nat → ℝ) → Nat → ℝ
  | [], v, r => v r
  | A :: rest, v, r => ∑ c ∈ range A.1, A.2 r c * chainV rest v c

theorem chainV_append {As : List (Mat ℝ)} {B : Mat ℝ} {v : Nat → ℝ} : ∀ {r : Nat},
    chainV (As ++ [B]) v r = chainV As (fun i => ∑ c ∈ range B.1, B.2 i c * v c) r := by
  induction As with
  | nil => intro r; rfl
  | cons A As ih =>
    intro r
    simp only [List.cons_append, chainV]
    exact sum_congr rfl fun c _ => by rw [ih]

theorem chain_eq_chainV {As : List (Mat ℝ)} : ∀ {r : Nat}, chain As r = chainV As (fun i => if i = 0 then 1 else 0) r := by
  induction As with
  | nil => intro r; rfl
  | cons A As ih =>
    intro r
    simp only [chain, chainV]
    exact sum_congr rfl fun c _ => by rw [ih]

/-- The matrices of the target at the points of `xs`, for the dimensions from `k` on; `s` are the sizes. -/
def ym (s : Nat → Nat) (Y : Nat → X → Nat → Nat → ℝ) : Nat → List X → List (Mat ℝ)
  | _, [] => []
  | k, x :: xs => (s (k + 1), Y k x) :: ym s Y (k + 1) xs

theorem ym_append {s : Nat → Nat} {Y : Nat → X → Nat → Nat → ℝ} {x : X} : ∀ {xs : List X} {k : Nat},
    ym s Y k (xs ++ [x]) = ym s Y k xs ++ [(s (k + xs.length + 1), Y (k + xs.length) x)]
  | [], k => rfl
  | y :: xs, k => by
    rw [List.cons_append, ym, ym, ym_append, List.cons_append, List.length_cons,
      show k + 1 + xs.length = k + (xs.length + 1) by omega]

theorem mats_append {As : List (Qma U)} {B : Qma U} {xs : List X} {x : X} (h : As.length = xs.length) :
    mats e (As ++ [B]) (xs ++ [x]) = mats e As xs ++ [(B.ncols, B.val e x)] := by
  rw [mats, List.zipWith_append h]; rfl

theorem mats_take {As : List (Qma U)} : ∀ {xs : List X} {n : Nat}, As.length ≤ n → mats e As (xs.take n) = mats e As xs := by
  induction As with
  | nil => intro xs n _; rfl
  | cons A As ih =>
    intro xs n h
    cases xs with
    | nil => simp
    | cons x xs =>
      obtain ⟨m, rfl⟩ : ∃ m, n = m + 1 := ⟨n - 1, by simp at h; omega⟩
      rw [List.take_succ_cons]
      have := ih (xs := xs) (n := m) (by simpa using h)
      simp only [mats, List.zipWith_cons_cons] at this ⊢
      rw [this]

/-- `(q u)(uᵀ w) = q w` when `u uᵀ = 1`. -/
theorem proj_id {n : Nat} {u : Nat → Nat → ℝ} (h : ∀ a < n, ∀ t < n, ∑ c ∈ range n, u a c * u t c = if a = t then 1 else 0)
    (q w : Nat → ℝ) :
    ∑ c ∈ range n, (∑ a ∈ range n, q a * u a c) * (∑ t ∈ range n, u t c * w t) = ∑ a ∈ range n, q a * w a := by
  have h1 : ∀ c ∈ range n, (∑ a ∈ range n, q a * u a c) * (∑ t ∈ range n, u t c * w t)
      = ∑ a ∈ range n, ∑ t ∈ range n, (u a c * u t c) * (q a * w t) := fun c _ => by
    rw [sum_mul_sum]
    exact sum_congr rfl fun a _ => sum_congr rfl fun t _ => by ring
  rw [sum_congr rfl h1, sum_comm]
  refine sum_congr rfl fun a ha => ?_
  have ha := mem_range.1 ha
  rw [sum_comm, sum_congr rfl fun t ht => by rw [← sum_mul, h a ha t (mem_range.1 ht)]]
  exact sum_delta' (f := fun t => q a * w t) ha

theorem ap_mm {n m : Nat} (A : Nat → ℝ) (B : Nat → Nat → ℝ) (v : Nat → ℝ) :
    ∑ j ∈ range m, (∑ t ∈ range n, A t * B t j) * v j = ∑ t ∈ range n, A t * ∑ j ∈ range m, B t j * v j := by
  simp only [sum_mul, mul_sum]
  rw [sum_comm]
  exact sum_congr rfl fun _ _ => sum_congr rfl fun _ _ => by ring

theorem wr_at {α : Type} {l r : List α} {d v : α} {p : Nat} (hp : p = l.length) : wr (l ++ d :: r) p v = .ok (l ++ v :: r) := by
  subst hp
  rw [wr_ok v (by simp), List.set_append_right _ _ (le_refl _)]
  simp

theorem fits_shift {Qs : List (Qma U)} : ∀ {r : Nat}, Fits r Qs 1 → r :: Qs.map (·.ncols) = Qs.map (·.nrows) ++ [1] := by
  induction Qs with
  | nil => intro r h; cases h; rfl
  | cons Q Qs ih =>
    intro r h
    cases h with
    | cons _ _ _ h => rw [List.map_cons, List.map_cons, List.cons_append, ih h]

theorem rdp_ok {α : Type} {l : List (Option α)} {i : Nat} {v : α} (h : l[i]? = some (some v)) : rdp l i = .ok v := by
  rw [rdp, rd_of_getElem? h, bind_ok]; rfl

end C3.Dmrg
