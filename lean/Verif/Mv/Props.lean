/-
C106: the pivots of `qmarray_maxvol1d`.
-/
import Verif.Mv.Lemmas
import Mathlib.LinearAlgebra.Matrix.RowCol

set_option linter.unusedSectionVars false

namespace C3.Mv
open Finset C3.Ft C3.Round
variable {U X : Type} {e : Ev ℝ U X} {F : Fam U X}

/-- Row `i` of the array at the point `x`. -/
noncomputable def rowAt (e : Ev ℝ U X) (A : Qma U) (x : X) (i : Nat) : Fin A.ncols → ℝ := fun j => A.val e x i j

/-- Entry `(i,j)` of the array times a matrix, at the point `x`. -/
noncomputable def prodAt (e : Ev ℝ U X) (A : Qma U) (inv : List ℝ) (x : X) (i j : Nat) : ℝ :=
  ∑ t ∈ range A.ncols, A.val e x i t * ent A.ncols inv t j

theorem prodAt_vecMul (A : Qma U) (inv : List ℝ) (x : X) (i : Nat) (j : Fin A.ncols) :
    prodAt e A inv x i j = Matrix.vecMul (rowAt e A x i) (mat A.ncols inv) j := by
  rw [prodAt, Matrix.vecMul, dotProduct, Finset.sum_range]
  rfl

/-- State after inverting the submatrix at the pivots, whose volume is at least `v`. -/
structure Good (e : Ev ℝ U X) (F : Fam U X) (k : Nat) (A : Qma U) (v : ℝ) (s : Ms X) : Prop where
  piv : Piv F k A.nrows A.ncols s.piv s.px
  len : s.inv.length = A.ncols * A.ncols
  inv : mat A.ncols s.inv * sub e A s.piv s.px = 1
  vol : v ≤ |(sub e A s.piv s.px).det|
  row : s.mx.row < A.nrows
  col : s.mx.col < A.ncols
  dom : F.D k s.mx.x
  val : s.mx.val = |prodAt e A s.inv s.mx.x s.mx.row s.mx.col|
  max : ∀ x, F.D k x → ∀ i < A.nrows, ∀ j < A.ncols, |prodAt e A s.inv x i j| ≤ s.mx.val
  one : 1 ≤ s.mx.val

/-- The pseudoinverse is the inverse for the submatrices of volume at least `v`. -/
def PinvOn (e : Ev ℝ U X) (F : Fam U X) (k : Nat) (A : Qma U) (v : ℝ) (pinv : Nat → List ℝ → C (List ℝ)) : Prop :=
  ∀ piv px M, Piv F k A.nrows A.ncols piv px → v ≤ |(sub e A piv px).det| → M.length = A.ncols * A.ncols →
    mat A.ncols M = sub e A piv px →
      ∃ inv, pinv A.ncols M = .ok inv ∧ inv.length = A.ncols * A.ncols ∧ mat A.ncols inv * mat A.ncols M = 1

/-- At the pivots the product is the identity matrix. -/
theorem prod_piv {k : Nat} {A : Qma U} {piv : List Nat} {px : List X} (hp : Piv F k A.nrows A.ncols piv px) {inv : List ℝ}
    (h : mat A.ncols inv * sub e A piv px = 1) (i j : Fin A.ncols) {x : X} (hx : px[(i : Nat)]? = some x) :
    prodAt e A inv x (piv.getD i 0) j = (1 : Matrix (Fin A.ncols) (Fin A.ncols) ℝ) i j := by
  rw [← mul_eq_one_comm.1 h, prodAt_vecMul, Matrix.mul_apply, Matrix.vecMul, dotProduct]
  refine sum_congr rfl fun t _ => ?_
  rw [sub, Matrix.of_apply, hx]
  rfl

theorem refresh_ok {o : MvOps U X} (hL : LinLaw e o.lin F) (ham : AmLaw e F o.am) {k : Nat} {A : Qma U} (hA : QOk F k A)
    (hr : 0 < A.nrows) (hc : 0 < A.ncols) {v : ℝ} (hpi : PinvOn e F k A v o.pinv) {piv : List Nat} {px : List X}
    (hp : Piv F k A.nrows A.ncols piv px) (hv : v ≤ |(sub e A piv px).det|) :
    ∃ s, refresh e o A piv px = .ok s ∧ s.piv = piv ∧ s.px = px ∧ Good e F k A v s := by
  obtain ⟨M, m1, m2, m3⟩ := subMat_ok (e := e) hA hp
  obtain ⟨inv, i1, i2, i3⟩ := hpi piv px M hp hv m2 m3
  obtain ⟨B, b1, b2⟩ := qmam_value hL hA (R := inv) (b := A.ncols) hc (by rw [i2])
  obtain ⟨m, a1, a2, a3, a4, a5, a6⟩ := absmax1d_ok (e := e) ham (k := k) (B := B) ⟨b2.wf, b2.mem⟩ (by rw [b2.nrows]; exact hr)
    (by rw [b2.ncols]; exact hc)
  rw [b2.nrows] at a2
  rw [b2.ncols] at a3
  have hmax : ∀ x, F.D k x → ∀ i < A.nrows, ∀ j < A.ncols, |prodAt e A inv x i j| ≤ m.val := by
    intro x hx i hi j hj
    have := a6 x hx i (by rw [b2.nrows]; exact hi) j (by rw [b2.ncols]; exact hj)
    rwa [b2.val x hx i hi j hj] at this
  refine ⟨⟨piv, px, inv, m⟩, by rw [refresh, m1, bind_ok, i1, bind_ok, b1, bind_ok, a1, bind_ok, pure_eq_ok], rfl, rfl,
    hp, i2, by rw [← m3]; exact i3, hv, a2, a3, a4, ?_, hmax, ?_⟩
  · show m.val = _
    rw [a5, b2.val _ a4 _ a2 _ a3]; rfl
  · obtain ⟨x, h1, -, h3, -, h5⟩ := hp.at hc
    have := hmax x h3 _ h5 0 hc
    rw [prod_piv hp (by rw [← m3]; exact i3) ⟨0, hc⟩ ⟨0, hc⟩ h1, Matrix.one_apply_eq, abs_one] at this
    exact this

/-- Putting the largest entry into the pivots multiplies the volume by it. -/
theorem swap_vol {k : Nat} {A : Qma U} {v : ℝ} {s : Ms X} (h : Good e F k A v s) :
    |(sub e A (s.piv.set s.mx.col s.mx.row) (s.px.set s.mx.col s.mx.x)).det|
      = s.mx.val * |(sub e A s.piv s.px).det| := by
  have h1 := sub_set (e := e) h.piv ⟨s.mx.col, h.col⟩ s.mx.row s.mx.x
  dsimp only at h1
  rw [h1]
  have h2 : (fun j : Fin A.ncols => A.val e s.mx.x s.mx.row j)
      = Matrix.vecMul (Matrix.vecMul (rowAt e A s.mx.x s.mx.row) (mat A.ncols s.inv)) (sub e A s.piv s.px) := by
    rw [Matrix.vecMul_vecMul, h.inv, Matrix.vecMul_one]; rfl
  rw [h2, det_swap, abs_mul, ← prodAt_vecMul, h.val]

theorem swap_piv {k : Nat} {A : Qma U} {v : ℝ} {s : Ms X} (h : Good e F k A v s) :
    Piv F k A.nrows A.ncols (s.piv.set s.mx.col s.mx.row) (s.px.set s.mx.col s.mx.x) := h.piv.set h.row h.dom

theorem swap_wr {k : Nat} {A : Qma U} {v : ℝ} {s : Ms X} (h : Good e F k A v s) :
    wr s.piv s.mx.col s.mx.row = .ok (s.piv.set s.mx.col s.mx.row) ∧
      wr s.px s.mx.col s.mx.x = .ok (s.px.set s.mx.col s.mx.x) :=
  ⟨wr_ok _ (by rw [h.piv.lp]; exact h.col), wr_ok _ (by rw [h.piv.lx]; exact h.col)⟩

/-- The search: it ends after at most 32 exchanges, either because no entry exceeds 1.01 or with a volume that has grown by
the factor `1.01^32`. -/
theorem mvLoop_ok {o : MvOps U X} (hL : LinLaw e o.lin F) (ham : AmLaw e F o.am) {k : Nat} {A : Qma U} (hA : QOk F k A)
    (hr : 0 < A.nrows) (hc : 0 < A.ncols) {v : ℝ} (hv : 0 < v) (hpi : PinvOn e F k A v o.pinv) :
    ∀ (fuel iter : Nat) (s : Ms X), iter ≤ 31 → 33 ≤ fuel + iter → Good e F k A v s →
      v * (1 + 1 / 100) ^ iter ≤ |(sub e A s.piv s.px).det| →
      ∃ t n, mvLoop e o A fuel iter s = .ok (t, n) ∧ Good e F k A v t ∧
        ((t.mx.val ≤ 1 + 1 / 100 ∧ (n = iter → t = s) ∧ iter ≤ n) ∨
          v * (1 + 1 / 100) ^ 32 ≤ |(sub e A t.piv t.px).det| ∧ 0 < n ∧ s.mx.val > 1 + 1 / 100) := by
  intro fuel
  induction fuel with
  | zero => intro iter s h1 h2; omega
  | succ fuel ih =>
    intro iter s h1 h2 hs hvol
    rw [mvLoop]
    by_cases hgt : s.mx.val > 1 + 1 / 100
    · have hw := swap_wr hs
      have hsv := swap_vol hs
      have hdet : v * (1 + 1 / 100) ^ (iter + 1) ≤
          |(sub e A (s.piv.set s.mx.col s.mx.row) (s.px.set s.mx.col s.mx.x)).det| := by
        rw [hsv, pow_succ, ← mul_assoc, mul_comm s.mx.val]
        exact mul_le_mul hvol hgt.le (by norm_num) (abs_nonneg _)
      have hge : v ≤ |(sub e A (s.piv.set s.mx.col s.mx.row) (s.px.set s.mx.col s.mx.x)).det| :=
        le_trans (le_mul_of_one_le_right hv.le (one_le_pow₀ (by norm_num))) hdet
      obtain ⟨t, t1, t2, t3, t4⟩ := refresh_ok hL ham hA hr hc hpi (swap_piv hs) hge
      rw [if_pos hgt, hw.1, bind_ok, hw.2, bind_ok, t1, bind_ok]
      rw [← t2, ← t3] at hdet
      by_cases hit : iter > 30
      · rw [if_pos hit]
        obtain rfl : iter = 31 := by omega
        exact ⟨t, 31, rfl, t4, Or.inr ⟨hdet, by omega, hgt⟩⟩
      · rw [if_neg hit]
        obtain ⟨w, n, w1, w2, w3⟩ := ih (iter + 1) t (by omega) (by omega) t4 hdet
        refine ⟨w, n, w1, w2, ?_⟩
        rcases w3 with ⟨a, b, c⟩ | ⟨a, b, c⟩
        · exact Or.inl ⟨a, fun hn => by omega, by omega⟩
        · exact Or.inr ⟨a, b, hgt⟩
    · rw [if_neg hgt]
      exact ⟨s, iter, rfl, hs, Or.inl ⟨not_lt.1 hgt, fun _ => rfl, le_rfl⟩⟩

/-- What a call promises: `l` are the pivots of the LU decomposition. -/
structure MvGood (e : Ev ℝ U X) (F : Fam U X) (k : Nat) (A : Qma U) (l : LuRes X) (r : MvRes X) : Prop where
  info : r.info = l.info
  piv : Piv F k A.nrows A.ncols r.piv r.px
  len : r.inv.length = A.ncols * A.ncols
  inv : mat A.ncols r.inv * sub e A r.piv r.px = 1
  vol : |(sub e A l.piv l.px).det| ≤ |(sub e A r.piv r.px).det|
  bound : (∀ x, F.D k x → ∀ i < A.nrows, ∀ j < A.ncols, |prodAt e A r.inv x i j| ≤ 2 * (1 + 1 / 100)) ∨
    |(sub e A l.piv l.px).det| * (1 + 1 / 100) ^ 32 ≤ |(sub e A r.piv r.px).det|

/-- After one more exchange no entry exceeds twice the largest one. -/
theorem last_bound {k : Nat} {A : Qma U} {v : ℝ} {s : Ms X} (h : Good e F k A v s) {inv : List ℝ}
    (hi : mat A.ncols inv * sub e A (s.piv.set s.mx.col s.mx.row) (s.px.set s.mx.col s.mx.x) = 1) {x : X} (hx : F.D k x)
    {i : Nat} (hin : i < A.nrows) {j : Nat} (hj : j < A.ncols) : |prodAt e A inv x i j| ≤ 2 * s.mx.val := by
  obtain ⟨c, hcdef⟩ : ∃ c : Fin A.ncols, c = ⟨s.mx.col, h.col⟩ := ⟨_, rfl⟩
  have hset := sub_set (e := e) h.piv ⟨s.mx.col, h.col⟩ s.mx.row s.mx.x
  dsimp only at hset
  rw [hset, ← hcdef] at hi
  obtain ⟨S, hS⟩ : ∃ S, S = sub e A s.piv s.px := ⟨_, rfl⟩
  obtain ⟨g, hg⟩ : ∃ g, g = Matrix.vecMul (rowAt e A x i) (mat A.ncols inv) := ⟨_, rfl⟩
  obtain ⟨b, hb⟩ : ∃ b, b = Matrix.vecMul (rowAt e A s.mx.x s.mx.row) (mat A.ncols s.inv) := ⟨_, rfl⟩
  obtain ⟨w, hw⟩ : ∃ w, w = Matrix.vecMul (rowAt e A x i) (mat A.ncols s.inv) := ⟨_, rfl⟩
  have hinv := mul_eq_one_comm.1 h.inv
  have key : w = Matrix.vecMul g ((1 : Matrix (Fin A.ncols) (Fin A.ncols) ℝ).updateRow c b) := by
    have e1 : rowAt e A x i = Matrix.vecMul g ((sub e A s.piv s.px).updateRow c (rowAt e A s.mx.x s.mx.row)) := by
      rw [hg, Matrix.vecMul_vecMul]
      have : (sub e A s.piv s.px).updateRow c (rowAt e A s.mx.x s.mx.row)
          = (sub e A s.piv s.px).updateRow c (fun j => A.val e s.mx.x s.mx.row j) := rfl
      rw [this, hi, Matrix.vecMul_one]
    rw [hw, e1, Matrix.vecMul_vecMul, Matrix.updateRow_mul, hinv, ← hb]
  have hval : ∀ t : Fin A.ncols, w t = (if t = c then 0 else g t) + g c * b t := by
    intro t
    rw [key, Matrix.vecMul, dotProduct, ← Finset.add_sum_erase _ _ (mem_univ c), Matrix.updateRow_self, add_comm]
    congr 1
    have hs : ∀ p ∈ univ.erase c, g p * (1 : Matrix (Fin A.ncols) (Fin A.ncols) ℝ).updateRow c b p t
        = if p = t then g p else 0 := by
      intro p hp
      rw [Matrix.updateRow_ne (ne_of_mem_erase hp), Matrix.one_apply]
      split <;> simp
    rw [sum_congr rfl hs, Finset.sum_ite_eq']
    by_cases htc : t = c
    · simp [htc]
    · simp [htc]
  have hwb : ∀ t : Fin A.ncols, |w t| ≤ s.mx.val := by
    intro t
    rw [hw, ← prodAt_vecMul]
    exact h.max x hx i hin t t.2
  have hbb : ∀ t : Fin A.ncols, |b t| ≤ s.mx.val := by
    intro t
    rw [hb, ← prodAt_vecMul]
    exact h.max _ h.dom _ h.row t t.2
  have hbc : |b c| = s.mx.val := by rw [h.val, hb, hcdef, ← prodAt_vecMul]
  have hpos : 0 < s.mx.val := lt_of_lt_of_le one_pos h.one
  have hgc : |g c| ≤ 1 := by
    have := hval c
    rw [if_pos rfl, zero_add] at this
    have h2 := hwb c
    rw [this, abs_mul, hbc] at h2
    exact le_of_mul_le_mul_right (by linarith) hpos
  have hgb : ∀ t, |g c * b t| ≤ s.mx.val := by
    intro t
    rw [abs_mul]
    calc |g c| * |b t| ≤ 1 * s.mx.val := mul_le_mul hgc (hbb t) (abs_nonneg _) zero_le_one
      _ = s.mx.val := one_mul _
  rw [prodAt_vecMul A inv x i ⟨j, hj⟩, ← hg]
  by_cases htc : (⟨j, hj⟩ : Fin A.ncols) = c
  · rw [htc]
    have := h.one
    linarith
  · have := hval ⟨j, hj⟩
    rw [if_neg htc] at this
    have h3 : g ⟨j, hj⟩ = w ⟨j, hj⟩ - g c * b ⟨j, hj⟩ := by linarith
    rw [h3]
    have := abs_sub (w ⟨j, hj⟩) (g c * b ⟨j, hj⟩)
    have := hwb ⟨j, hj⟩
    have := hgb ⟨j, hj⟩
    linarith

/-- C106: if the LU decomposition returns pivots with a nonsingular submatrix, the search returns pivots (row indices of the
array, points of the domain) and the inverse of the submatrix at exactly these pivots; its volume is at least the one of
the LU pivots, and either no entry of the array times that inverse exceeds 2.02 or the volume has grown by `1.01^32`.
With one column this needs the LU pivot to be the largest entry (otherwise the last exchange is made without computing the
inverse again, so the inverse returned can be the one of an earlier pivot); with several columns it needs
that no two pivots are moved apart for being close to each other. Missing: the bound 1.01 of the search, which the last
exchange gives up, and rounding errors. -/
theorem maxvol_partial {o : MvOps U X} (hL : LinLaw e o.lin F) (ham : AmLaw e F o.am) {k : Nat} {A : Qma U} (hA : QOk F k A)
    (hr : 0 < A.nrows) (hc : 0 < A.ncols) (inv0 : List ℝ) {l : LuRes X} (hlu : o.lu k A = .ok l) (hinfo : l.info ≤ 0)
    (hp : Piv F k A.nrows A.ncols l.piv l.px) (hdet : (sub e A l.piv l.px).det ≠ 0)
    (hpi : PinvOn e F k A |(sub e A l.piv l.px).det| o.pinv)
    (h1 : A.ncols = 1 → ∀ x y, F.D k x → l.px[0]? = some y → ∀ i < A.nrows,
      |A.val e x i 0| ≤ |A.val e y (l.piv.getD 0 0) 0|)
    (hd : 1 < A.ncols → ∀ piv px, Piv F k A.nrows A.ncols piv px →
      |(sub e A l.piv l.px).det| ≤ |(sub e A piv px).det| → o.dedup A piv px = .ok px) :
    ∃ r, maxvol e o k A inv0 = .ok r ∧ MvGood e F k A l r := by
  have hv : 0 < |(sub e A l.piv l.px).det| := abs_pos.2 hdet
  obtain ⟨s, s1, s2, s3, s4⟩ := refresh_ok hL ham hA hr hc hpi hp le_rfl
  obtain ⟨t, n, t1, t2, t3⟩ := mvLoop_ok hL ham hA hr hc hv hpi 33 0 s (by omega) (by omega) s4
    (by rw [pow_zero, mul_one, s2, s3])
  have hrun : maxvol e o k A inv0 = (lastSwap t n >>= fun p => finish e o A t.inv p >>= fun w =>
      pure ⟨l.info, w.1, p.1, w.2⟩) := by
    rw [maxvol, hlu, bind_ok, if_neg (not_lt.2 hinfo), s1, bind_ok, t1, bind_ok]
  by_cases hn : n = 0
  · -- no exchange
    have ht : t = s ∧ t.mx.val ≤ 1 + 1 / 100 := by
      rcases t3 with ⟨a, b, -⟩ | ⟨-, b, -⟩
      · exact ⟨b hn, a⟩
      · omega
    have hbd : ∀ inv, mat A.ncols inv * sub e A l.piv l.px = 1 → inv.length = A.ncols * A.ncols →
        ∀ x, F.D k x → ∀ i < A.nrows, ∀ j < A.ncols, |prodAt e A inv x i j| ≤ 2 * (1 + 1 / 100) := by
      intro inv hi hl x hx i hin j hj
      have h5 : mat A.ncols inv = mat A.ncols s.inv := by
        have h6 := s4.inv
        rw [s2, s3] at h6
        have h7 := mul_eq_one_comm.1 h6
        calc mat A.ncols inv = mat A.ncols inv * (sub e A l.piv l.px * mat A.ncols s.inv) := by rw [h7, mul_one]
          _ = mat A.ncols s.inv := by rw [← mul_assoc, hi, one_mul]
      have h6 := s4.max x hx i hin j hj
      rw [prodAt_vecMul A _ x i ⟨j, hj⟩, ← h5, ← prodAt_vecMul A _ x i ⟨j, hj⟩] at h6
      have := ht.2
      rw [ht.1] at this
      dsimp only at h6
      linarith
    by_cases hgt : A.ncols > 1
    · obtain ⟨M, m1, m2, m3⟩ := subMat_ok (e := e) hA hp
      obtain ⟨inv, i1, i2, i3⟩ := hpi l.piv l.px M hp le_rfl m2 m3
      rw [m3] at i3
      refine ⟨⟨l.info, inv, l.piv, l.px⟩, ?_, rfl, hp, i2, i3, le_rfl, Or.inl (hbd inv i3 i2)⟩
      rw [hrun, lastSwap, if_neg (by omega), pure_eq_ok, bind_ok, finish, if_pos hgt, ht.1, s2, s3, hd hgt _ _ hp le_rfl,
        bind_ok, m1, bind_ok, i1, bind_ok, pure_eq_ok, bind_ok, pure_eq_ok]
    · have h6 := s4.inv
      rw [s2, s3] at h6
      refine ⟨⟨l.info, s.inv, l.piv, l.px⟩, ?_, rfl, hp, s4.len, h6, le_rfl, Or.inl (hbd s.inv h6 s4.len)⟩
      rw [hrun, lastSwap, if_neg (by omega), pure_eq_ok, bind_ok, finish, if_neg hgt, ht.1, s2, s3, pure_eq_ok, bind_ok,
        pure_eq_ok]
  · -- some exchange
    have hgt : 1 < A.ncols := by
      by_contra hcon
      have hone : A.ncols = 1 := by omega
      have hs1 : s.mx.val ≤ 1 := by
        obtain ⟨y, y1, -, y3, -, -⟩ := s4.piv.at hc
        rw [s3] at y1
        have hone' := prod_piv s4.piv s4.inv ⟨0, hc⟩ ⟨0, hc⟩ (by rw [s3]; exact y1)
        rw [Matrix.one_apply_eq, s2] at hone'
        have hcol : s.mx.col = 0 := by have := s4.col; omega
        rw [s4.val, hcol]
        have hp1 : ∀ x i, prodAt e A s.inv x i 0 = A.val e x i 0 * ent A.ncols s.inv 0 0 := by
          intro x i
          rw [prodAt]
          have : range A.ncols = range 1 := by rw [hone]
          rw [this, sum_range_one]
        dsimp only at hone'
        rw [hp1] at hone' ⊢
        have hle := h1 hone s.mx.x y s4.dom y1 _ s4.row
        rw [abs_mul]
        calc _ ≤ |A.val e y (l.piv.getD 0 0) 0| * |ent A.ncols s.inv 0 0| := mul_le_mul_of_nonneg_right hle (abs_nonneg _)
          _ = 1 := by rw [← abs_mul, hone', abs_one]
      have : n = 0 := by
        have hnot : ¬ s.mx.val > 1 + 1 / 100 := by linarith
        rw [mvLoop, if_neg hnot] at t1
        exact (Prod.mk.inj (Except.ok.inj t1)).2.symm
      exact hn this
    have hw := swap_wr t2
    have hvol := swap_vol t2
    have hge : |(sub e A t.piv t.px).det| ≤ |(sub e A (t.piv.set t.mx.col t.mx.row) (t.px.set t.mx.col t.mx.x)).det| := by
      rw [hvol]; exact le_mul_of_one_le_left (abs_nonneg _) t2.one
    have hp' := swap_piv t2
    have hge' := t2.vol.trans hge
    obtain ⟨M, m1, m2, m3⟩ := subMat_ok (e := e) hA hp'
    obtain ⟨inv, i1, i2, i3⟩ := hpi _ _ M hp' hge' m2 m3
    rw [m3] at i3
    refine ⟨⟨l.info, inv, t.piv.set t.mx.col t.mx.row, t.px.set t.mx.col t.mx.x⟩, ?_, rfl, hp', i2, i3, hge', ?_⟩
    · rw [hrun, lastSwap, if_pos (by omega), hw.1, bind_ok, hw.2, bind_ok, pure_eq_ok, bind_ok, finish, if_pos hgt,
        hd hgt _ _ hp' hge', bind_ok, m1, bind_ok, i1, bind_ok, pure_eq_ok, bind_ok, pure_eq_ok]
    · rcases t3 with ⟨a, -, -⟩ | ⟨a, -, -⟩
      · refine Or.inl fun x hx i hin j hj => (last_bound t2 i3 hx hin hj).trans ?_
        linarith
      · exact Or.inr (a.trans hge)

end C3.Mv
