/-
C96: sums, multiples and gradients of kernel expansions.
-/
import Verif.Kern.BuildProps
import Mathlib.Analysis.Calculus.Deriv.Add
import Mathlib.Analysis.Calculus.Deriv.Mul
import Mathlib.Analysis.Calculus.Deriv.Pow

namespace C3.Kern

open Finset

/-- A loop that changes the first `n` entries of a vector one by one. -/
theorem forN_change {n : Nat} {c : List ℝ} {body : Nat → List ℝ → C (List ℝ)} (F : Nat → ℝ → ℝ) (hl : n ≤ c.length)
    (hb : ∀ i < n, ∀ b : List ℝ, b.length = c.length → body i b = wr b i (F i (b.getD i 0))) :
    ∃ c', forN n body c = .ok c' ∧ c'.length = c.length ∧ (∀ k < n, c'.getD k 0 = F k (c.getD k 0)) ∧ ∀ k, n ≤ k → c'[k]? = c[k]? := by
  obtain ⟨b, h1, h2, h3, h4⟩ := forN_scatter (n := n) (a := c) (body := body) (fun i => i) (fun i => F i (c.getD i 0)) (fun i hi => by omega)
    (fun i _ j _ e => e)
    (by
      intro i hi b hb1 hb2 _
      rw [hb i hi b hb1, List.getD_eq_getElem?_getD, hb2 i (fun k hk => by omega), ← List.getD_eq_getElem?_getD])
  refine ⟨b, h1, h2, fun k hk => ?_, fun k hk => h4 k (fun i hi => by omega)⟩
  rw [List.getD_eq_getElem?_getD, h3 k hk]; rfl

theorem gsum_ext4 {n : Nat} {a s w c a' s' w' c' : Nat → ℝ} (ha : ∀ i < n, a i = a' i) (hs : ∀ i < n, s i = s' i) (hw : ∀ i < n, w i = w' i)
    (hc : ∀ i < n, c i = c' i) (x : ℝ) : gsum n a s w c x = gsum n a' s' w' c' x := by
  unfold gsum
  refine sum_congr rfl fun i hi => ?_
  have := mem_range.1 hi
  rw [ha i this, hs i this, hw i this, hc i this]

theorem gsum_lin (n : Nat) (a b s w c : Nat → ℝ) (r : ℝ) (x : ℝ) : gsum n (fun i => a i + r * b i) s w c x = gsum n a s w c x + r * gsum n b s w c x := by
  unfold gsum
  rw [mul_sum, ← sum_add_distrib]
  exact sum_congr rfl fun i _ => by ring

/-- C96: scaling. -/
theorem scale_ok (a : ℝ) {ke : KE} (h : Good ke) : ∃ g, scale a ke = .ok g ∧ Good g ∧ g.nk = ke.nk ∧ g.lb = ke.lb ∧ g.ub = ke.ub ∧ g.incl = ke.incl ∧
    g.kernels = ke.kernels ∧ (∀ i < ke.nk, g.a i = ke.a i * a) ∧ ∀ x, g.fn x = a * ke.fn x := by
  have h1 := h.hc
  have h2 := h.hn
  obtain ⟨c, c1, c2, c3, -⟩ := forN_change (n := ke.nk) (c := ke.coeff) (body := fun ii c => do
    let v ← rd c ii
    wr c ii (v * a)) (fun _ v => v * a) (by omega) (fun i hi b hb => by rw [rd_getD 0 (by omega), bind_ok])
  unfold scale
  rw [c1, bind_ok]
  refine ⟨{ ke with coeff := c }, rfl, ⟨h.pos, c2.trans h1, h.hk, h.hn, h.each, h.all⟩, rfl, rfl, rfl, rfl, rfl, c3, ?_⟩
  intro x
  have e := gsum_lin ke.nk (fun _ => 0) ke.a ke.s ke.w ke.c a x
  have z : gsum ke.nk (fun _ => 0) ke.s ke.w ke.c x = 0 := by simp [gsum]
  rw [z, zero_add] at e
  rw [KE.fn, KE.fn, ← e]
  exact gsum_ext4 (fun i hi => by rw [zero_add, mul_comm]; exact c3 i hi) (fun _ _ => rfl) (fun _ _ => rfl) (fun _ _ => rfl) x

/-- C96: change of sign. -/
theorem flip_ok {ke : KE} (h : Good ke) : ∃ g, flip ke = .ok g ∧ Good g ∧ g.nk = ke.nk ∧ g.lb = ke.lb ∧ g.ub = ke.ub ∧ ∀ x, g.fn x = -ke.fn x := by
  obtain ⟨g, h1, h2, h3, h4, h5, -, -, -, h9⟩ := scale_ok (-1) h
  exact ⟨g, h1, h2, h3, h4, h5, fun x => by rw [h9]; ring⟩

example : ∃ g, flip exKE = .ok g ∧ ∀ x, g.fn x = -exKE.fn x := by
  obtain ⟨g, h1, -, -, -, -, h6⟩ := flip_ok exKE_good
  exact ⟨g, h1, h6⟩

/-! ### Sums -/

/-- Specification: equal up to a tolerance. -/
def near (tol u v : ℝ) : Prop := |u - v| ≤ tol

theorem forN_all {n : Nat} {body : Nat → Bool → C Bool} (P : Nat → Prop) [∀ i, Decidable (P i)] (hf : ∀ i < n, body i false = .ok false)
    (ht : ∀ i < n, body i true = .ok (decide (P i))) : ∃ b, forN n body true = .ok b ∧ (b = true ↔ ∀ i < n, P i) := by
  obtain ⟨b, h1, h2⟩ := forN_spec (n := n) (body := body) (I := fun i b => (b = true ↔ ∀ j < i, P j)) (s := true) (by simp)
    (by
      intro i hi b hb
      cases b
      · refine ⟨false, hf i hi, ?_⟩
        constructor
        · intro h; cases h
        · intro h
          exact hb.2 fun j hj => h j (by omega)
      · refine ⟨_, ht i hi, ?_⟩
        rw [decide_eq_true_iff]
        constructor
        · intro h j hj
          rcases Nat.lt_succ_iff_lt_or_eq.1 hj with c | c
          · exact hb.1 rfl j c
          · exact c ▸ h
        · intro h
          exact h i (by omega))
  exact ⟨b, h1, h2⟩

open Classical in
/-- C96: two Gaussians are the same when scales, squared widths and centres agree up to the tolerance. -/
theorem sameKernel_ok (tol s w c s' w' c' : ℝ) : sameKernel tol ⟨.gauss, 3, [s, w, c]⟩ ⟨.gauss, 3, [s', w', c']⟩ =
    .ok (decide (near tol s s' ∧ near tol w w' ∧ near tol c c')) := by
  unfold sameKernel
  rw [if_neg (by simp), if_neg (by simp)]
  obtain ⟨b, h1, h2⟩ := forN_all (n := 3) (body := fun ii ret =>
      if ret then do
        let a ← rd (α := ℝ) [s, w, c] ii
        let b ← rd (α := ℝ) [s', w', c'] ii
        pure (decide (¬|a - b| > tol))
      else pure false) (fun i => ¬|[s, w, c].getD i 0 - [s', w', c'].getD i 0| > tol)
    (by intro i _; rfl)
    (by
      intro i hi
      simp only [if_true]
      rw [rd_getD 0 (by simpa using hi), bind_ok, rd_getD 0 (by simpa using hi), bind_ok]; rfl)
  refine Eq.trans h1 ?_
  congr 1
  rw [Bool.eq_iff_iff, h2, decide_eq_true_iff]
  unfold near
  constructor
  · intro h
    exact ⟨not_lt.1 (h 0 (by omega)), not_lt.1 (h 1 (by omega)), not_lt.1 (h 2 (by omega))⟩
  · rintro ⟨a1, a2, a3⟩ i hi
    have : i = 0 ∨ i = 1 ∨ i = 2 := by omega
    rcases this with rfl | rfl | rfl
    · exact not_lt.2 a1
    · exact not_lt.2 a2
    · exact not_lt.2 a3

/-- Specification: the same kernels up to a tolerance. -/
def sameKernels (tol : ℝ) (x y : KE) : Prop := x.nk = y.nk ∧ ∀ i < x.nk, near tol (x.s i) (y.s i) ∧ near tol (x.w i) (y.w i) ∧ near tol (x.c i) (y.c i)

theorem checkSame_ok (tol : ℝ) {x y : KE} (hx : Good x) (hy : Good y) : ∃ b, checkSame tol x y = .ok b ∧ (b = true ↔ sameKernels tol x y) := by
  classical
  unfold checkSame
  by_cases e : x.nk = y.nk
  · rw [if_neg (by simpa using e)]
    obtain ⟨b, h1, h2⟩ := forN_all (n := x.nk) (body := fun ii ret =>
        if ret then do
          let a ← kat x.kernels ii
          let b ← kat y.kernels ii
          sameKernel tol a b
        else pure false) (fun i => near tol (x.s i) (y.s i) ∧ near tol (x.w i) (y.w i) ∧ near tol (x.c i) (y.c i))
      (by intro i _; rfl)
      (by
        intro i hi
        simp only [if_true]
        rw [(hx.kat hi).2.1, bind_ok, (hy.kat (e ▸ hi)).2.1, bind_ok, sameKernel_ok])
    exact ⟨b, h1, h2.trans ⟨fun h => ⟨e, h⟩, fun h => h.2⟩⟩
  · rw [if_pos e]
    exact ⟨false, rfl, by simp [sameKernels, e]⟩

/-- C96: adding a multiple of an expansion with the same kernels (up to the tolerance): the kernels of the second stay, the coefficients are added. -/
theorem axpy_coeff {tol : ℝ} (a : ℝ) {x y : KE} (hx : Good x) (hy : Good y) (hs : sameKernels tol x y) : ∃ z, axpy tol a x y = .ok z ∧ Good z ∧
    z.nk = y.nk ∧ z.lb = y.lb ∧ z.ub = y.ub ∧ z.incl = y.incl ∧ z.kernels = y.kernels ∧ (∀ i < y.nk, z.a i = y.a i + a * x.a i) ∧
    ∀ t, z.fn t = y.fn t + a * gsum y.nk x.a y.s y.w y.c t := by
  have h1 := hy.hc
  have h2 := hy.hn
  have h3 := hx.hc
  have h4 := hx.hn
  have h5 := hs.1
  obtain ⟨b, b1, b2⟩ := checkSame_ok tol hx hy
  obtain ⟨c, c1, c2, c3, -⟩ := forN_change (n := y.nk) (c := y.coeff) (body := fun ii c => do
    let v ← rd c ii
    let u ← rd x.coeff ii
    wr c ii (v + a * u)) (fun i v => v + a * x.a i) (by omega)
    (fun i hi b hb => by rw [rd_getD 0 (by omega), bind_ok, rd_getD 0 (by omega), bind_ok]; rfl)
  unfold axpy
  rw [b1, bind_ok, if_pos (b2.2 hs), c1, bind_ok]
  refine ⟨{ y with coeff := c }, rfl, ⟨hy.pos, c2.trans h1, hy.hk, hy.hn, hy.each, hy.all⟩, rfl, rfl, rfl, rfl, rfl, c3, ?_⟩
  intro t
  rw [KE.fn, KE.fn, ← gsum_lin]
  exact gsum_ext4 c3 (fun _ _ => rfl) (fun _ _ => rfl) (fun _ _ => rfl) t

/-- C96: with the same kernels the sum is the sum of the functions. -/
theorem axpy_ok {tol : ℝ} (ht : 0 ≤ tol) (a : ℝ) {x y : KE} (hx : Good x) (hy : Good y) (hn : x.nk = y.nk)
    (hk : ∀ i < x.nk, x.s i = y.s i ∧ x.w i = y.w i ∧ x.c i = y.c i) : ∃ z, axpy tol a x y = .ok z ∧ Good z ∧
    z.nk = y.nk ∧ z.lb = y.lb ∧ z.ub = y.ub ∧ z.incl = y.incl ∧ z.kernels = y.kernels ∧ (∀ i < y.nk, z.a i = y.a i + a * x.a i) ∧
    ∀ t, z.fn t = y.fn t + a * x.fn t := by
  obtain ⟨z, z1, z2, z3, z4, z5, z6, z7, z8, z9⟩ := axpy_coeff (tol := tol) a hx hy ⟨hn, fun i hi => by
    obtain ⟨e1, e2, e3⟩ := hk i hi
    simp only [near, e1, e2, e3, sub_self, abs_zero]
    exact ⟨ht, ht, ht⟩⟩
  refine ⟨z, z1, z2, z3, z4, z5, z6, z7, z8, fun t => ?_⟩
  rw [z9, show x.fn t = gsum x.nk x.a x.s x.w x.c t from rfl, hn]
  congr 2
  exact gsum_ext4 (fun _ _ => rfl) (fun i hi => (hk i (by omega)).1.symm) (fun i hi => (hk i (by omega)).2.1.symm) (fun i hi => (hk i (by omega)).2.2.symm) t

/-- C96: expansions whose kernels differ by more than the tolerance cannot be added: the program ends. -/
theorem axpy_exit_counterexample {tol : ℝ} (a : ℝ) {x y : KE} (hx : Good x) (hy : Good y) (hs : ¬sameKernels tol x y) :
    axpy tol a x y = .error .exit := by
  obtain ⟨b, b1, b2⟩ := checkSame_ok tol hx hy
  unfold axpy
  rw [b1, bind_ok, if_neg (by rw [b2]; exact hs)]

example : ∃ z, axpy 0 3 exKE exKE = .ok z ∧ ∀ t, z.fn t = exKE.fn t + 3 * exKE.fn t := by
  obtain ⟨z, z1, -, -, -, -, -, -, -, z9⟩ := axpy_ok le_rfl 3 exKE_good exKE_good rfl (fun i _ => ⟨rfl, rfl, rfl⟩)
  exact ⟨z, z1, z9⟩

/-! ### Gradients -/

theorem gsum_upd {n j : Nat} (hj : j < n) (a s w c : Nat → ℝ) (t x : ℝ) :
    gsum n (Function.update a j t) s w c x = gsum n a s w c x + (t - a j) * gk (s j) (w j) (c j) x := by
  have e : Function.update a j t = fun i => a i + (t - a j) * (if i = j then 1 else 0) := by
    funext i
    by_cases c : i = j
    · subst c; simp
    · simp [c]
  rw [e, gsum_lin]
  congr 2
  unfold gsum
  simp only [ite_mul, one_mul, zero_mul]
  rw [sum_ite_eq' (range n) j, if_pos (mem_range.2 hj)]

/-- The derivative with respect to a coefficient. -/
theorem gsum_coeff_deriv {n j : Nat} (hj : j < n) (a s w c : Nat → ℝ) (x : ℝ) :
    HasDerivAt (fun t => gsum n (Function.update a j t) s w c x) (gk (s j) (w j) (c j) x) (a j) := by
  simp only [gsum_upd hj]
  have := (((hasDerivAt_id (a j)).sub_const (a j)).mul_const (gk (s j) (w j) (c j) x)).const_add (gsum n a s w c x)
  rw [one_mul] at this
  exact this

/-- The derivative with respect to a centre. -/
theorem gsum_center_deriv {n j : Nat} (hj : j < n) (a s w c : Nat → ℝ) (x : ℝ) {v : ℝ} (hv : HasDerivAt (fun t => gk (s j) (w j) t x) v (c j)) :
    HasDerivAt (fun t => gsum n a s w (Function.update c j t) x) (a j * v) (c j) := by
  have e : ∀ t, gsum n a s w (Function.update c j t) x = ∑ i ∈ range n, (if i = j then a j * gk (s j) (w j) t x else a i * gk (s i) (w i) (c i) x) := by
    intro t
    unfold gsum
    refine sum_congr rfl fun i _ => ?_
    by_cases h : i = j
    · subst h; simp
    · simp [h]
  simp only [e]
  have := HasDerivAt.fun_sum (u := range n) (A := fun i t => if i = j then a j * gk (s j) (w j) t x else a i * gk (s i) (w i) (c i) x)
    (A' := fun i => if i = j then a j * v else 0) (x := c j)
    (by
      intro i _
      by_cases h : i = j
      · simp only [h, if_true]
        exact hv.const_mul (a j)
      · simp only [h, if_false]
        exact hasDerivAt_const _ _)
  rw [sum_ite_eq' (range n) j, if_pos (mem_range.2 hj)] at this
  exact this

/-- Specification: number `j` of the parameters (first the coefficients, then the centres) and the value `g` of the derivative of the expansion at `x`
with respect to it. -/
def IsGrad (ke : KE) (x : ℝ) (j : Nat) (g : ℝ) : Prop :=
  if j < ke.nk then HasDerivAt (fun t => gsum ke.nk (Function.update ke.a j t) ke.s ke.w ke.c x) g (ke.a j)
  else HasDerivAt (fun t => gsum ke.nk ke.a ke.s ke.w (Function.update ke.c (j - ke.nk) t) x) g (ke.c (j - ke.nk))

/-- The number of entries of the gradient. -/
def KE.np (ke : KE) : Nat := if ke.incl = 1 then 2 * ke.nk else ke.nk

theorem center_some {ke : KE} (h : Good ke) (x : ℝ) (i : Nat) : ∃ v, i < ke.nk → gaussDeriv (ke.s i) (ke.w i) x (ke.c i) = .ok v ∧
    HasDerivAt (fun t => gk (ke.s i) (ke.w i) t x) v (ke.c i) := by
  by_cases hi : i < ke.nk
  · obtain ⟨v, h1, h2⟩ := gaussCenter_ok (h.kat hi).2.2.ne' (ke.s i) (ke.c i) x
    exact ⟨v, fun _ => ⟨h1, h2⟩⟩
  · exact ⟨0, fun h => absurd h hi⟩

/-- One row of the gradient. -/
theorem row_ok {ke : KE} (h : Good ke) (B : Nat) (xs : List ℝ) {ii : Nat} (hx : ii < xs.length) {g : List ℝ} (hg : B + ke.np ≤ g.length) :
    ∃ g', (do
      let g ← forN ke.nk (fun jj g => do
        let k ← kat ke.kernels jj
        let v ← rd xs ii
        let e ← kEval k v
        wr g (B + jj) e) g
      if ke.incl = 1 then
        forN ke.nk (fun jj g => do
          let c ← rd ke.coeff jj
          let k ← kat ke.kernels jj
          let v ← rd xs ii
          let e ← kGradCenter k v
          wr g (B + jj + ke.nk) (c * e)) g
      else pure g : C (List ℝ)) = .ok g' ∧ g'.length = g.length ∧ (∀ j < ke.np, ∃ v, g'[B + j]? = some v ∧ IsGrad ke (xs.getD ii 0) j v) ∧
      ∀ p, (p < B ∨ B + ke.np ≤ p) → g'[p]? = g[p]? := by
  have hnp : ke.nk ≤ ke.np := by unfold KE.np; split <;> omega
  obtain ⟨b, b1, b2, b3, b4⟩ := forN_scatter (n := ke.nk) (a := g) (body := fun jj g => do
        let k ← kat ke.kernels jj
        let v ← rd xs ii
        let e ← kEval k v
        wr g (B + jj) e) (fun j => B + j) (fun j => gk (ke.s j) (ke.w j) (ke.c j) (xs.getD ii 0)) (fun i hi => by omega) (fun i _ j _ e => by omega)
    (by
      intro i hi b _ _ _
      obtain ⟨-, k2, k3⟩ := h.kat hi
      rw [k2, bind_ok, rd_getD 0 hx, bind_ok, kEval, par_ok, bind_ok, gaussEval_ok k3.ne', bind_ok])
  rw [b1, bind_ok]
  by_cases e : ke.incl = 1
  · rw [if_pos e]
    have e2 : ke.np = 2 * ke.nk := by rw [KE.np, if_pos e]
    have hd := fun i => center_some h (xs.getD ii 0) i
    choose d hd using hd
    obtain ⟨b', d1, d2, d3, d4⟩ := forN_scatter (n := ke.nk) (a := b) (body := fun jj g => do
          let c ← rd ke.coeff jj
          let k ← kat ke.kernels jj
          let v ← rd xs ii
          let e ← kGradCenter k v
          wr g (B + jj + ke.nk) (c * e)) (fun j => B + j + ke.nk) (fun j => ke.a j * d j) (fun i hi => by omega) (fun i _ j _ e => by omega)
      (by
        intro i hi b _ _ _
        obtain ⟨-, k2, k3⟩ := h.kat hi
        rw [h.rdc hi, bind_ok, k2, bind_ok, rd_getD 0 hx, bind_ok, kGradCenter, par_ok, bind_ok]
        dsimp only
        rw [(hd i hi).1, bind_ok])
    refine ⟨b', d1, d2.trans b2, fun j hj => ?_, fun p hp => ?_⟩
    · by_cases c : j < ke.nk
      · refine ⟨_, (d4 (B + j) (fun i hi => by omega)).trans (b3 j c), ?_⟩
        rw [IsGrad, if_pos c]
        exact gsum_coeff_deriv c _ _ _ _ _
      · refine ⟨ke.a (j - ke.nk) * d (j - ke.nk), ?_, ?_⟩
        · have := d3 (j - ke.nk) (by omega)
          rwa [show B + (j - ke.nk) + ke.nk = B + j by omega] at this
        · rw [IsGrad, if_neg c]
          exact gsum_center_deriv (by omega) _ _ _ _ _ (hd _ (by omega)).2
    · rw [d4 p (fun i hi => by omega), b4 p (fun i hi => by omega)]
  · rw [if_neg e]
    have e2 : ke.np = ke.nk := by rw [KE.np, if_neg e]
    refine ⟨b, rfl, b2, fun j hj => ?_, fun p hp => b4 p (fun i hi => by omega)⟩
    have c : j < ke.nk := by omega
    refine ⟨_, b3 j c, ?_⟩
    rw [IsGrad, if_pos c]
    exact gsum_coeff_deriv c _ _ _ _ _

/-- C96: the gradients at all points, one row for each; nothing else is written. -/
theorem paramGrad_ok {ke : KE} (h : Good ke) {nx : Nat} {xs g : List ℝ} (hx : nx ≤ xs.length) (hg : nx * ke.np ≤ g.length) :
    ∃ g', paramGrad ke nx xs g = .ok g' ∧ g'.length = g.length ∧
      (∀ i < nx, ∀ j < ke.np, ∃ v, g'[i * ke.np + j]? = some v ∧ IsGrad ke (xs.getD i 0) j v) ∧ ∀ p, nx * ke.np ≤ p → g'[p]? = g[p]? := by
  unfold paramGrad
  dsimp only
  rw [show (if ke.incl = 1 then 2 * ke.nk else ke.nk) = ke.np from rfl]
  obtain ⟨g', h1, h2, h3, h4⟩ := forN_spec (n := nx) (body := fun ii g => do
      let g ← forN ke.nk (fun jj g => do
        let k ← kat ke.kernels jj
        let v ← rd xs ii
        let e ← kEval k v
        wr g (ii * ke.np + jj) e) g
      if ke.incl = 1 then
        forN ke.nk (fun jj g => do
          let c ← rd ke.coeff jj
          let k ← kat ke.kernels jj
          let v ← rd xs ii
          let e ← kGradCenter k v
          wr g (ii * ke.np + jj + ke.nk) (c * e)) g
      else pure g)
    (I := fun n g' => g'.length = g.length ∧ (∀ i < n, ∀ j < ke.np, ∃ v, g'[i * ke.np + j]? = some v ∧ IsGrad ke (xs.getD i 0) j v) ∧
      ∀ p, n * ke.np ≤ p → g'[p]? = g[p]?) (s := g) ⟨rfl, by omega, fun _ _ => rfl⟩
    (by
      rintro i hi g1 ⟨i1, i2, i3⟩
      have hm : (i + 1) * ke.np ≤ nx * ke.np := Nat.mul_le_mul_right _ hi
      have hs : (i + 1) * ke.np = i * ke.np + ke.np := Nat.succ_mul _ _
      obtain ⟨g2, r1, r2, r3, r4⟩ := row_ok h (i * ke.np) xs (ii := i) (by omega) (g := g1) (by omega)
      refine ⟨g2, r1, r2.trans i1, fun i' hi' j hj => ?_, fun p hp => ?_⟩
      · rcases Nat.lt_succ_iff_lt_or_eq.1 hi' with c | c
        · obtain ⟨v, v1, v2⟩ := i2 i' c j hj
          have : (i' + 1) * ke.np ≤ i * ke.np := Nat.mul_le_mul_right _ c
          have hs' : (i' + 1) * ke.np = i' * ke.np + ke.np := Nat.succ_mul _ _
          exact ⟨v, (r4 _ (Or.inl (by omega))).trans v1, v2⟩
        · rw [c]; exact r3 j hj
      · rw [r4 p (Or.inr (by omega)), i3 p (by omega)])
  exact ⟨g', h1, h2, h3, h4⟩

/-- C96: value and gradient at one point. -/
theorem paramGrad2_ok {ke : KE} (h : Good ke) (x : ℝ) {g : List ℝ} (hg : ke.np ≤ g.length) : ∃ g', paramGrad2 ke x g = .ok (ke.fn x, g') ∧
    g'.length = g.length ∧ (∀ j < ke.np, ∃ v, g'[j]? = some v ∧ IsGrad ke x j v) ∧ ∀ p, ke.np ≤ p → g'[p]? = g[p]? := by
  have hnp : ke.nk ≤ ke.np := by unfold KE.np; split <;> omega
  unfold paramGrad2
  obtain ⟨⟨v, b⟩, b1, b2, b3, b4, b5⟩ := forN_spec (n := ke.nk) (body := fun jj (s : ℝ × List ℝ) => do
      let k ← kat ke.kernels jj
      let e ← kEval k x
      let g ← wr s.2 jj e
      let v ← rd g jj
      let c ← rd ke.coeff jj
      pure (s.1 + v * c, g))
    (I := fun n s => s.2.length = g.length ∧ s.1 = ∑ i ∈ range n, ke.a i * gk (ke.s i) (ke.w i) (ke.c i) x ∧
      (∀ j < n, s.2[j]? = some (gk (ke.s j) (ke.w j) (ke.c j) x)) ∧ ∀ p, n ≤ p → s.2[p]? = g[p]?) (s := (0, g))
    ⟨rfl, by simp, by omega, fun _ _ => rfl⟩
    (by
      rintro i hi ⟨v, b⟩ ⟨i1, i2, i3, i4⟩
      dsimp only at i1 i2 i3 i4
      obtain ⟨-, k2, k3⟩ := h.kat hi
      have hib : i < b.length := by omega
      refine ⟨_, by
        rw [k2, bind_ok, kEval, par_ok, bind_ok, gaussEval_ok k3.ne', bind_ok, wr_ok _ hib, bind_ok,
          rd_of_getElem? (List.getElem?_set_self hib), bind_ok, h.rdc hi, bind_ok, pure_eq_ok], ?_, ?_, ?_, ?_⟩
      · simpa using i1
      · rw [i2, sum_range_succ, mul_comm (gk _ _ _ _)]
      · intro j hj
        rcases Nat.lt_succ_iff_lt_or_eq.1 hj with c | c
        · rw [List.getElem?_set_ne (by omega)]; exact i3 j c
        · rw [c, List.getElem?_set_self hib]
      · intro p hp
        rw [List.getElem?_set_ne (by omega)]; exact i4 p (by omega))
  dsimp only at b2 b3 b4 b5
  rw [b1, bind_ok]
  have ev : v = ke.fn x := b3
  by_cases e : ke.incl = 1
  · rw [if_pos e]
    have e2 : ke.np = 2 * ke.nk := by rw [KE.np, if_pos e]
    have hd := fun i => center_some h x i
    choose d hd using hd
    obtain ⟨b', d1, d2, d3, d4⟩ := forN_scatter (n := ke.nk) (a := b) (body := fun jj g => do
          let c ← rd ke.coeff jj
          let k ← kat ke.kernels jj
          let e ← kGradCenter k x
          wr g (jj + ke.nk) (c * e)) (fun j => j + ke.nk) (fun j => ke.a j * d j) (fun i hi => by omega) (fun i _ j _ e => by omega)
      (by
        intro i hi b _ _ _
        obtain ⟨-, k2, k3⟩ := h.kat hi
        rw [h.rdc hi, bind_ok, k2, bind_ok, kGradCenter, par_ok, bind_ok]
        dsimp only
        rw [(hd i hi).1, bind_ok])
    rw [d1, bind_ok, ev]
    refine ⟨b', rfl, d2.trans b2, fun j hj => ?_, fun p hp => ?_⟩
    · by_cases c : j < ke.nk
      · refine ⟨_, (d4 j (fun i hi => by omega)).trans (b4 j c), ?_⟩
        rw [IsGrad, if_pos c]
        exact gsum_coeff_deriv c _ _ _ _ _
      · refine ⟨ke.a (j - ke.nk) * d (j - ke.nk), ?_, ?_⟩
        · have := d3 (j - ke.nk) (by omega)
          rwa [show (j - ke.nk) + ke.nk = j by omega] at this
        · rw [IsGrad, if_neg c]
          exact gsum_center_deriv (by omega) _ _ _ _ _ (hd _ (by omega)).2
    · rw [d4 p (fun i hi => by omega), b5 p (by omega)]
  · rw [if_neg e, ev]
    have e2 : ke.np = ke.nk := by rw [KE.np, if_neg e]
    refine ⟨b, rfl, b2, fun j hj => ?_, fun p hp => b5 p (by omega)⟩
    have c : j < ke.nk := by omega
    refine ⟨_, b4 j c, ?_⟩
    rw [IsGrad, if_pos c]
    exact gsum_coeff_deriv c _ _ _ _ _

/-- The hypotheses can be met. -/
example : (∃ g, paramGrad { exKE with incl := 1 } 2 [0, 1] (List.replicate 8 0) = .ok g) ∧
    ∃ g, paramGrad2 exKE 3 [0, 0] = .ok (exKE.fn 3, g) := by
  have hg : Good { exKE with incl := 1 } := ⟨exKE_good.pos, exKE_good.hc, exKE_good.hk, exKE_good.hn, exKE_good.each, exKE_good.all⟩
  obtain ⟨g, h1, -⟩ := paramGrad_ok hg (nx := 2) (xs := [0, 1]) (g := List.replicate 8 0) (by simp) (by simp [KE.np, exKE])
  obtain ⟨g', h2, -⟩ := paramGrad2_ok exKE_good 3 (g := [0, 0]) (by simp [KE.np, exKE])
  exact ⟨⟨g, h1⟩, ⟨g', h2⟩⟩

/-- C96: when the centres are declared adaptive with a number other than one, the number of parameters counts them, but the gradient leaves their
entries as they are. -/
theorem paramGrad_flag_counterexample {ke : KE} (h : Good ke) (hi : ke.incl = 2) (x : ℝ) {g : List ℝ} (hg : g.length = 2 * ke.nk) :
    numParams ke = 2 * ke.nk ∧ ∃ g', paramGrad2 ke x g = .ok (ke.fn x, g') ∧ ∀ p, ke.nk ≤ p → g'[p]? = g[p]? := by
  have e : ke.np = ke.nk := by rw [KE.np, if_neg (by omega)]
  obtain ⟨g', h1, -, -, h4⟩ := paramGrad2_ok h x (g := g) (by omega)
  exact ⟨by rw [numParams, if_neg (by omega)], g', h1, fun p hp => h4 p (by omega)⟩

theorem sq_int {f k : ℝ → ℝ} (hf : Continuous f) (hk : Continuous k) (u lb ub : ℝ) : ∫ x in lb..ub, (f x + u * k x) ^ 2 =
    (∫ x in lb..ub, f x ^ 2) + u * (2 * ∫ x in lb..ub, f x * k x) + u ^ 2 * ∫ x in lb..ub, k x ^ 2 := by
  have e : ∀ x, (f x + u * k x) ^ 2 = f x ^ 2 + (2 * u) * (f x * k x) + u ^ 2 * k x ^ 2 := fun x => by ring
  simp only [e]
  rw [intervalIntegral.integral_add (Continuous.intervalIntegrable (by fun_prop) _ _) (Continuous.intervalIntegrable (by fun_prop) _ _),
    intervalIntegral.integral_add (Continuous.intervalIntegrable (by fun_prop) _ _) (Continuous.intervalIntegrable (by fun_prop) _ _),
    intervalIntegral.integral_const_mul, intervalIntegral.integral_const_mul]
  ring

/-- The derivative of the squared norm with respect to a coefficient. -/
theorem sqnorm_deriv {n j : Nat} (hj : j < n) (a s w c : Nat → ℝ) (lb ub : ℝ) :
    HasDerivAt (fun t => ∫ x in lb..ub, gsum n (Function.update a j t) s w c x ^ 2)
      (2 * ∫ x in lb..ub, gsum n a s w c x * gk (s j) (w j) (c j) x) (a j) := by
  simp only [gsum_upd hj, sq_int (gsum_continuous n a s w c) (gk_continuous (s j) (w j) (c j))]
  generalize (2 * ∫ x in lb..ub, gsum n a s w c x * gk (s j) (w j) (c j) x) = D
  generalize (∫ x in lb..ub, gsum n a s w c x ^ 2) = A
  generalize (∫ x in lb..ub, gk (s j) (w j) (c j) x ^ 2) = Q
  have hi : HasDerivAt (fun t : ℝ => t - a j) 1 (a j) := (hasDerivAt_id (a j)).sub_const (a j)
  have := ((hi.mul_const D).const_add A).add ((hi.pow 2).mul_const Q)
  have e : 1 * D + ((2 : ℕ) : ℝ) * (a j - a j) ^ (2 - 1) * 1 * Q = D := by simp
  rw [e] at this
  exact this

theorem gk_gsum_int (n : Nat) (a s w c : Nat → ℝ) (s0 w0 c0 lb ub : ℝ) : ∫ x in lb..ub, gsum n a s w c x * gk s0 w0 c0 x =
    ∑ j ∈ range n, a j * ∫ x in lb..ub, gk s0 w0 c0 x * gk (s j) (w j) (c j) x := by
  have e : ∀ x, gsum n a s w c x * gk s0 w0 c0 x = ∑ j ∈ range n, a j * (gk s0 w0 c0 x * gk (s j) (w j) (c j) x) := by
    intro x
    rw [gsum, sum_mul]
    exact sum_congr rfl fun j _ => by ring
  simp only [e]
  have hc : ∀ j, Continuous fun x => a j * (gk s0 w0 c0 x * gk (s j) (w j) (c j) x) := fun j =>
    ((gk_continuous _ _ _).mul (gk_continuous _ _ _)).const_mul _
  rw [intervalIntegral.integral_finsetSum fun j _ => (hc j).intervalIntegrable _ _]
  exact sum_congr rfl fun j _ => intervalIntegral.integral_const_mul _ _

/-- C96: `scale` times the gradient of the squared norm with respect to the coefficients is added. -/
theorem sqNormGrad_ok {ke : KE} (h : Good ke) (hi : ke.incl ≠ 1) (sc : ℝ) {g : List ℝ} (hg : ke.nk ≤ g.length) : ∃ g', sqNormGrad ke sc g = .ok g' ∧
    g'.length = g.length ∧ (∀ p, ke.nk ≤ p → g'[p]? = g[p]?) ∧
    ∀ j < ke.nk, ∃ d, HasDerivAt (fun t => ∫ x in ke.lb..ke.ub, gsum ke.nk (Function.update ke.a j t) ke.s ke.w ke.c x ^ 2) d (ke.a j) ∧
      g'.getD j 0 = g.getD j 0 + sc * d := by
  unfold sqNormGrad
  rw [cassert, if_pos (decide_eq_true hi), bind_ok]
  obtain ⟨g', h1, h2, h3, h4⟩ := forN_change (n := ke.nk) (c := g) (body := fun ii g => do
      let g1 ← forN ke.nk (fun jj s => do
        let c ← rd ke.coeff jj
        let k ← kat ke.kernels ii
        let l ← kat ke.kernels jj
        let v ← kInner k l ke.lb ke.ub
        pure (s + c * v)) 0
      let v ← rd g ii
      wr g ii (v + 2 * sc * g1))
    (fun i v => v + 2 * sc * ∫ x in ke.lb..ke.ub, ke.fn x * gk (ke.s i) (ke.w i) (ke.c i) x) hg
    (by
      intro i hi b hb
      rw [forN_sum (fun j => ke.a j * ∫ x in ke.lb..ke.ub, gk (ke.s i) (ke.w i) (ke.c i) x * gk (ke.s j) (ke.w j) (ke.c j) x), zero_add, bind_ok,
        rd_getD 0 (by omega), bind_ok]
      · simp only [KE.fn]
        rw [gk_gsum_int]
      · intro j hj s
        rw [h.rdc hj, bind_ok, (h.kat hi).2.1, bind_ok, (h.kat hj).2.1, bind_ok, kInner_ok h h hi hj, bind_ok]; rfl)
  refine ⟨g', h1, h2, h4, fun j hj => ⟨_, sqnorm_deriv hj _ _ _ _ _ _, ?_⟩⟩
  rw [h3 j hj]
  simp only [KE.fn]
  ring

example : ∃ g, sqNormGrad exKE 3 [1, 2] = .ok g := by
  obtain ⟨g, h1, -⟩ := sqNormGrad_ok exKE_good (by simp [exKE]) 3 (g := [1, 2]) (by simp [exKE])
  exact ⟨g, h1⟩

/-- C96: with adaptive centres the gradient of the squared norm ends with a failed assertion. -/
theorem sqNormGrad_adapt_counterexample {ke : KE} (h : ke.incl = 1) (sc : ℝ) (g : List ℝ) : sqNormGrad ke sc g = .error .assertFail := by
  unfold sqNormGrad
  rw [cassert, if_neg (by simp [h])]; rfl

end C3.Kern
