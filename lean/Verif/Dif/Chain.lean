/- Products of matrix-valued functions, one factor replaced, and their derivatives. -/
import Verif.Ft.AlgProps
import Verif.Ft.MulLemmas
import Verif.Ft.Prefix
import Mathlib.Analysis.Calculus.Deriv.Mul
import Mathlib.Analysis.Calculus.Deriv.Add

namespace C3.Dif
open C3.Ft Finset

/-- Factor `k` is the matrix `M k` of size `s k × s (k+1)` as a function of coordinate `k`; `fchain n k r` is row `r`, first
column, of the product of factors `k, …, k+n-1` at the point `y`. -/
def fchain (s : Nat → Nat) (M : Nat → ℝ → Nat → Nat → ℝ) (y : Nat → ℝ) : Nat → Nat → Nat → ℝ
  | 0, _, r => if r = 0 then 1 else 0
  | n + 1, k, r => ∑ c ∈ range (s (k + 1)), M k (y k) r c * fchain s M y n (k + 1) c

variable {s : Nat → Nat} {M M' : Nat → ℝ → Nat → Nat → ℝ} {y y' : Nat → ℝ}

theorem fchain_congr : ∀ {n k r : Nat}, (∀ j, k ≤ j → j < k + n → y j = y' j) →
    (∀ j, k ≤ j → j < k + n → ∀ a < s j, ∀ b < s (j + 1), M j (y' j) a b = M' j (y' j) a b) → r < s k →
    fchain s M y n k r = fchain s M' y' n k r
  | 0, _, _, _, _, _ => rfl
  | n + 1, k, r, hy, hM, hr => by
    rw [fchain, fchain]
    refine sum_congr rfl fun c hc => ?_
    rw [hy k (le_refl _) (by omega), hM k (le_refl _) (by omega) r hr c (mem_range.1 hc),
      fchain_congr (fun j h1 h2 => hy j (by omega) (by omega)) (fun j h1 h2 => hM j (by omega) (by omega)) (mem_range.1 hc)]

/-- Replacing a factor that does not occur. -/
theorem fchain_update {i n k r : Nat} {B : ℝ → Nat → Nat → ℝ} (h : i < k ∨ k + n ≤ i) (hr : r < s k) :
    fchain s (Function.update M i B) y n k r = fchain s M y n k r :=
  fchain_congr (fun _ _ _ => rfl) (fun j h1 h2 a _ b _ => by rw [Function.update_of_ne (by omega)]) hr

theorem fchain_upd_succ {i n k r : Nat} {B : ℝ → Nat → Nat → ℝ} :
    fchain s (Function.update M i B) y (n + 1) k r = ∑ c ∈ range (s (k + 1)),
      (if k = i then B (y k) r c else M k (y k) r c) * fchain s (Function.update M i B) y n (k + 1) c := by
  rw [fchain]
  refine sum_congr rfl fun c _ => ?_
  by_cases h : k = i
  · subst h; rw [Function.update_self, if_pos rfl]
  · rw [Function.update_of_ne h, if_neg h]

/-- Linear in each factor. -/
theorem fchain_add {i : Nat} {B C : ℝ → Nat → Nat → ℝ} : ∀ {n k r : Nat}, i < k + n → k ≤ i → r < s k →
    fchain s (Function.update M i (fun x a b => B x a b + C x a b)) y n k r
      = fchain s (Function.update M i B) y n k r + fchain s (Function.update M i C) y n k r
  | 0, _, _, h1, h2, _ => by omega
  | n + 1, k, r, h1, h2, hr => by
    rw [fchain_upd_succ, fchain_upd_succ, fchain_upd_succ, ← sum_add_distrib]
    refine sum_congr rfl fun c hc => ?_
    by_cases h : k = i
    · rw [if_pos h, if_pos h, if_pos h, fchain_update (Or.inl (by omega)) (mem_range.1 hc),
        fchain_update (Or.inl (by omega)) (mem_range.1 hc), fchain_update (Or.inl (by omega)) (mem_range.1 hc)]
      ring
    · rw [if_neg h, if_neg h, if_neg h, fchain_add (by omega) (by omega) (mem_range.1 hc)]
      ring

/-- The derivative of the product in coordinate `i` is the product with factor `i` differentiated. -/
theorem fchain_deriv {i : Nat} {B : ℝ → Nat → Nat → ℝ} {t0 : ℝ}
    (h : ∀ a < s i, ∀ b < s (i + 1), HasDerivAt (fun t => M i t a b) (B t0 a b) t0) : ∀ {n k r : Nat}, i < k + n → k ≤ i → r < s k →
    HasDerivAt (fun t => fchain s M (Function.update y i t) n k r)
      (fchain s (Function.update M i B) (Function.update y i t0) n k r) t0
  | 0, _, _, h1, h2, _ => by omega
  | n + 1, k, r, h1, h2, hr => by
    rw [fchain_upd_succ]
    simp only [fchain]
    by_cases hk : k = i
    · subst hk
      refine HasDerivAt.fun_sum fun c hc => ?_
      have e1 : ∀ t, fchain s M (Function.update y k t) n (k + 1) c = fchain s M y n (k + 1) c := fun t =>
        fchain_congr (fun j h1 h2 => Function.update_of_ne (by omega) _ _) (fun _ _ _ _ _ _ _ => rfl) (mem_range.1 hc)
      simp only [if_true, fchain_update (Or.inl (Nat.lt_succ_self k)) (mem_range.1 hc), e1, Function.update_self]
      exact HasDerivAt.mul_const (h r hr c (mem_range.1 hc)) _
    · refine HasDerivAt.fun_sum fun c hc => ?_
      simp only [if_neg hk, Function.update_of_ne hk]
      exact HasDerivAt.const_mul _ (fchain_deriv h (by omega) (by omega) (mem_range.1 hc))

/-- Blocks: interior factors `[A 0; B A]`, last `[A; B]`. -/
def bMat (d : Nat) (s : Nat → Nat) (A B : Nat → ℝ → Nat → Nat → ℝ) (k : Nat) (x : ℝ) (i j : Nat) : ℝ :=
  if k = 0 then (if j < s 1 then B 0 x i j else A 0 x i (j - s 1))
  else if k + 1 = d then (if i < s k then A k x i j else B k x (i - s k) j)
  else if j < s (k + 1) then (if i < s k then A k x i j else B k x (i - s k) j)
  else (if i < s k then 0 else A k x (i - s k) (j - s (k + 1)))

/-- Sizes of the blocks. -/
def bSz (d : Nat) (s : Nat → Nat) (k : Nat) : Nat := if k = 0 ∨ k = d then 1 else s k + s k

theorem sum_two {n : Nat} (f : Nat → ℝ) : ∑ c ∈ range (n + n), f c = ∑ c ∈ range n, f c + ∑ c ∈ range n, f (n + c) :=
  sum_range_add f n n

/-- The lower block rows collect the products with one factor replaced. -/
theorem bchain {d : Nat} {A B : Nat → ℝ → Nat → Nat → ℝ} (hsd : s d = 1) : ∀ {n k : Nat}, k + n = d → 0 < k → 0 < n →
    (∀ r < s k, fchain (bSz d s) (bMat d s A B) y n k r = fchain s A y n k r) ∧
    ∀ r < s k, fchain (bSz d s) (bMat d s A B) y n k (s k + r)
      = ∑ i ∈ Ico k d, fchain s (Function.update A i (B i)) y n k r
  | 0, _, _, _, h => by omega
  | 1, k, hk, h0, _ => by
    have hz : bSz d s (k + 1) = 1 := by rw [bSz, if_pos (by omega)]
    have hs1 : s (k + 1) = 1 := by rw [hk]; exact hsd
    constructor
    · intro r hr
      simp only [fchain, hz, hs1, sum_range_one, bMat, if_neg (show ¬ k = 0 by omega), if_pos hk, if_pos hr]
    · intro r hr
      rw [show Ico k d = {k} by rw [← hk]; simp]
      simp only [fchain, hz, hs1, sum_range_one, sum_singleton, bMat, if_neg (show ¬ k = 0 by omega), if_pos hk,
        if_neg (show ¬ s k + r < s k by omega), Function.update_self, Nat.add_sub_cancel_left]
  | n + 2, k, hk, h0, _ => by
    obtain ⟨ih1, ih2⟩ := bchain (n := n + 1) (k := k + 1) (A := A) (B := B) hsd (by omega) (by omega) (by omega)
    have hz : bSz d s (k + 1) = s (k + 1) + s (k + 1) := by rw [bSz, if_neg (by omega)]
    have hlt : ∀ c < s (k + 1), ¬ s (k + 1) + c < s (k + 1) := by intro c _; omega
    constructor
    · intro r hr
      rw [fchain, hz, sum_two, fchain]
      have : ∑ c ∈ range (s (k + 1)), bMat d s A B k (y k) r (s (k + 1) + c) *
          fchain (bSz d s) (bMat d s A B) y (n + 1) (k + 1) (s (k + 1) + c) = 0 := by
        refine sum_eq_zero fun c hc => ?_
        rw [bMat, if_neg (by omega), if_neg (by omega), if_neg (by omega), if_pos hr, zero_mul]
      rw [this, add_zero]
      refine sum_congr rfl fun c hc => ?_
      rw [ih1 c (mem_range.1 hc), bMat, if_neg (by omega), if_neg (by omega), if_pos (mem_range.1 hc), if_pos hr]
    · intro r hr
      rw [fchain, hz, sum_two, sum_eq_sum_Ico_succ_bot (show k < d by omega)]
      congr 1
      · rw [fchain_upd_succ]
        refine sum_congr rfl fun c hc => ?_
        rw [ih1 c (mem_range.1 hc), fchain_update (Or.inl (by omega)) (mem_range.1 hc), if_pos rfl, bMat, if_neg (by omega),
          if_neg (by omega), if_pos (mem_range.1 hc), if_neg (by omega), Nat.add_sub_cancel_left]
      · have e : ∀ i ∈ Ico (k + 1) d, fchain s (Function.update A i (B i)) y (n + 2) k r
            = ∑ c ∈ range (s (k + 1)), A k (y k) r c * fchain s (Function.update A i (B i)) y (n + 1) (k + 1) c := by
          intro i hi
          rw [fchain_upd_succ]
          refine sum_congr rfl fun c _ => ?_
          rw [if_neg (by have := (mem_Ico.1 hi).1; omega)]
        rw [sum_congr rfl e, sum_comm]
        refine sum_congr rfl fun c hc => ?_
        rw [ih2 c (mem_range.1 hc), bMat, if_neg (by omega), if_neg (by omega), if_neg (by omega), if_neg (by omega),
          Nat.add_sub_cancel_left, Nat.add_sub_cancel_left, mul_sum]

/-- The whole product of the block matrices is the sum of the products with one factor replaced. -/
theorem bchain_zero {d : Nat} {A B : Nat → ℝ → Nat → Nat → ℝ} (hs0 : s 0 = 1) (hsd : s d = 1) (h2 : 2 ≤ d) :
    fchain (bSz d s) (bMat d s A B) y d 0 0 = ∑ i ∈ range d, fchain s (Function.update A i (B i)) y d 0 0 := by
  obtain ⟨n, rfl⟩ : ∃ n, d = n + 1 := ⟨d - 1, by omega⟩
  obtain ⟨ih1, ih2⟩ := bchain (y := y) (n := n) (k := 1) (A := A) (B := B) hsd (by omega) (by omega) (by omega)
  rw [fchain, bSz, if_neg (by omega), sum_two, range_eq_Ico, range_eq_Ico, sum_eq_sum_Ico_succ_bot (show 0 < n + 1 by omega)]
  simp only [Nat.zero_add]
  congr 1
  · rw [fchain_upd_succ]
    refine sum_congr (range_eq_Ico _).symm fun c hc => ?_
    have hc' : c < s 1 := by simpa using hc
    rw [ih1 c hc', fchain_update (Or.inl (by omega)) hc', if_pos rfl, bMat, if_pos rfl, if_pos hc']
  · have e : ∀ i ∈ Ico 1 (n + 1), fchain s (Function.update A i (B i)) y (n + 1) 0 0
        = ∑ c ∈ range (s 1), A 0 (y 0) 0 c * fchain s (Function.update A i (B i)) y n 1 c := by
      intro i hi
      rw [fchain_upd_succ]
      refine sum_congr rfl fun c _ => ?_
      rw [if_neg (by have := (mem_Ico.1 hi).1; omega)]
    rw [sum_congr rfl e, sum_comm, range_eq_Ico]
    refine sum_congr rfl fun c hc => ?_
    have hc' : c < s 1 := by simpa using hc
    rw [ih2 c hc', bMat, if_pos rfl, if_neg (by omega), Nat.add_sub_cancel_left, mul_sum]

/-- Kronecker products multiply. -/
theorem fchain_kron {s' : Nat → Nat} {N : Nat → ℝ → Nat → Nat → ℝ} : ∀ {n k r : Nat}, s (k + n) = 1 → s' (k + n) = 1 →
    r < s k * s' k →
    fchain (fun j => s j * s' j) (fun j => Mk (s' j) (s' (j + 1)) (M j) (N j)) y n k r
      = fchain s M y n k (r / s' k) * fchain s' N y n k (r % s' k)
  | 0, k, r, h1, h2, hr => by
    rw [Nat.add_zero] at h1 h2
    rw [h1, h2] at hr
    obtain rfl : r = 0 := by omega
    rw [h2]
    simp [fchain]
  | n + 1, k, r, h1, h2, hr => by
    obtain ⟨g1, g2, -⟩ := divmod_of_lt (by rwa [Nat.mul_comm] at hr : r < s' k * s k)
    rw [fchain, fchain, fchain, sum_mul_sum, ← sum_range_mul_divmod]
    refine sum_congr rfl fun c hc => ?_
    rw [fchain_kron (by rw [← h1]; congr 1; omega) (by rw [← h2]; congr 1; omega) (mem_range.1 hc), Mk]
    ring

/-! ### Trains -/

variable {U : Type} {e : Ev ℝ U ℝ} {F : Fam U ℝ}

/-- The coordinates of a point. -/
def crd (x : List ℝ) (k : Nat) : ℝ := x.getD k 0

theorem crd_set {x : List ℝ} {i : Nat} (hi : i < x.length) (t : ℝ) : crd (x.set i t) = Function.update (crd x) i t := by
  funext k
  by_cases hk : k = i
  · subst hk; rw [Function.update_self, crd, getD_set_self _ _ hi]
  · rw [Function.update_of_ne hk, crd, getD_set_ne _ _ (Ne.symm hk)]; rfl

theorem value_fchain {cores : List (Qma U)} (h : CoreRep e F s M cores) {x : List ℝ} (hx : InDom F cores.length x) (h0 : 0 < s 0) :
    value e cores x = fchain s M (crd x) cores.length 0 0 := by
  have : ∀ n k, k + n = cores.length → ∀ r < s k, chain ((mats e cores x).drop k) r = fchain s M (crd x) n k r := by
    intro n
    induction n with
    | zero =>
      intro k hk r _
      rw [show k = cores.length by omega, chain_end hx.len]; rfl
    | succ n ih =>
      intro k hk r hr
      have := hx.len
      rw [chain_rep h hx (k := k) (by omega) hr, fchain]
      refine sum_congr rfl fun c hc => ?_
      rw [ih (k + 1) (by omega) c (mem_range.1 hc), crd, List.getD_eq_getElem?_getD, List.getElem?_eq_getElem (by omega)]
      rfl
  have := this cores.length 0 (by omega) 0 h0
  rwa [List.drop_zero] at this

/-- The same family on the whole line. -/
def Fam.all (F : Fam U ℝ) : Fam U ℝ := ⟨F.P, fun _ _ => True⟩

theorem Ok_all {ft : FT ℝ U} (h : ft.Ok F) : ft.Ok (Fam.all F) := ⟨h.wf, h.pos, h.mem⟩

/-- The value of a train at any point, on the domain or not. -/
theorem value_all {ft : FT ℝ U} (h : ft.Ok F) {x : List ℝ} (hx : ft.dim ≤ x.length) :
    value e ft.cores x = fchain ft.rk (valAt e ft) (crd x) ft.dim 0 0 := by
  rw [value_fchain (Ok_all h).core' ⟨by rw [← h.wf.dim]; exact hx, fun _ _ _ _ => trivial⟩ (by rw [h.wf.rk_zero]; omega), h.wf.dim]

end C3.Dif
