/-
C93: the orthonormal basis of Fourier expansions.
-/
import Verif.Fft.FourierAlg

namespace C3.Fourier

open Finset
open Complex (I exp)
open C3.Poly (SMap)

theorem mapM_ok {α β : Type} {f : α → C β} {g : α → β} : ∀ {l : List α}, (∀ a ∈ l, f a = .ok (g a)) → l.mapM f = .ok (l.map g)
  | [], _ => rfl
  | a :: l, h => by
    rw [List.mapM_cons, h a (by simp), bind_ok, mapM_ok (fun b hb => h b (by simp [hb])), bind_ok]; rfl

/-! ### Integrals -/

theorem cos_integral {k : ℤ} (hk : k ≠ 0) : ∫ t in (0 : ℝ)..2 * Real.pi, Real.cos (k * t) = 0 := by
  have hk0 : (k : ℝ) ≠ 0 := by exact_mod_cast hk
  rw [intervalIntegral.integral_comp_mul_left (fun t => Real.cos t) hk0, integral_cos,
    show (k : ℝ) * (2 * Real.pi) = ((2 * k : ℤ) : ℝ) * Real.pi by push_cast; ring, Real.sin_int_mul_pi]
  simp

/-- The functions the process starts with, in the variable `t`. -/
noncomputable def bs (k : Nat) (t : ℝ) : ℝ := if k = 0 then 1 else 2 * Real.cos (k * t)

theorem bs_integral (i j : Nat) : ∫ t in (0 : ℝ)..2 * Real.pi, bs i t * bs j t = if i = j then (if i = 0 then 2 * Real.pi else 4 * Real.pi) else 0 := by
  have hc : ∀ k : Nat, k ≠ 0 → ∫ t in (0 : ℝ)..2 * Real.pi, 2 * Real.cos (k * t) = 0 := by
    intro k hk
    have := cos_integral (k := k) (by exact_mod_cast hk)
    rw [intervalIntegral.integral_const_mul]
    push_cast at this
    rw [this, mul_zero]
  unfold bs
  by_cases hi : i = 0
  · by_cases hj : j = 0
    · simp [hi, hj]
    · rw [if_neg (by omega)]
      simp only [hi, hj, if_true, if_false, one_mul]
      exact hc j hj
  · by_cases hj : j = 0
    · rw [if_neg (by omega)]
      simp only [hi, hj, if_true, if_false, mul_one]
      exact hc i hi
    · simp only [hi, hj, if_false]
      have e : ∀ t : ℝ, 2 * Real.cos (i * t) * (2 * Real.cos (j * t)) = 2 * Real.cos (((i - j : ℤ) : ℝ) * t) + 2 * Real.cos (((i + j : ℤ) : ℝ) * t) := by
        intro t
        push_cast
        rw [sub_mul, add_mul, Real.cos_sub, Real.cos_add]
        ring
      simp only [e]
      rw [intervalIntegral.integral_add (Continuous.intervalIntegrable (by fun_prop) _ _) (Continuous.intervalIntegrable (by fun_prop) _ _),
        intervalIntegral.integral_const_mul, intervalIntegral.integral_const_mul, cos_integral (k := (i : ℤ) + j) (by omega), mul_zero, add_zero]
      by_cases hij : i = j
      · subst hij
        simp
        ring
      · rw [if_neg hij, cos_integral (by omega), mul_zero]

/-! ### The starting functions -/

/-- The expansion with the single coefficient 1 in place `i`. -/
def st (p : Fe) (i : Nat) : Fe := { p with cc := p.cc.set i 1 }

theorem st_co {p : Fe} {N : Nat} (hc : p.cc = List.replicate (N + 50) 0) {i : Nat} (hi : i < N) (k : Nat) : (st p i).co k = if i = k then 1 else 0 := by
  rw [Fe.co, st, List.getD_eq_getElem?_getD]
  dsimp only
  by_cases e : i = k
  · subst e; rw [List.getElem?_set_self (by rw [hc]; simp; omega), if_pos rfl]; rfl
  · rw [List.getElem?_set_ne e, if_neg e, hc, List.getElem?_replicate]; split <;> rfl

theorem st_good {p : Fe} (h : Good p) (i : Nat) : Good (st p i) := ⟨h.pos, by simpa [st] using h.le, by simpa [st] using h.na, h.kr⟩
theorem st_dom {p : Fe} (h : Dom p) (i : Nat) : Dom (st p i) := ⟨h.lo, h.hi, h.inv, h.io⟩

theorem st_fn {p : Fe} {N : Nat} (hN : p.num = N) (hc : p.cc = List.replicate (N + 50) 0) {i : Nat} (hi : i < N) (x : ℝ) :
    (st p i).fn x = bs i (p.map.slope * x + p.map.off) := by
  rw [Fe.fn, trig, bs]
  simp only [st_co hc hi]
  change (if i = 0 then (1 : ℂ) else 0).re + ∑ k ∈ Ico 1 p.num, 2 * ((if i = k then (1 : ℂ) else 0).re * Real.cos (k * (p.map.slope * x + p.map.off)) -
    (if i = k then (1 : ℂ) else 0).im * Real.sin (k * (p.map.slope * x + p.map.off))) = _
  by_cases e : i = 0
  · rw [if_pos e, if_pos e, sum_eq_zero]
    · simp
    · intro k hk
      rw [if_neg (by have := (mem_Ico.1 hk).1; omega)]; simp
  · rw [if_neg e, if_neg e, sum_eq_single i]
    · simp
    · intro k hk hne
      rw [if_neg (fun h => hne h.symm)]; simp
    · intro h
      exact absurd (mem_Ico.2 ⟨by omega, by omega⟩) h

/-- Adding a zero multiple changes nothing (the coefficients are zero or not below the threshold). -/
theorem axpy_zero {thr eps : ℝ} (he : 0 < eps) {x y : Fe} (hx : Good x) (hy : Good y) (hn : x.num = y.num) (hl : x.lb = y.lb) (hu : x.ub = y.ub)
    (hc : ∀ k < y.num, cut thr (y.co k) = y.co k) : axpy thr eps (-0) x y = .ok y := by
  have hxl := hx.le
  have hyl := hy.le
  unfold axpy
  rw [show decide (|x.lb - y.lb| < eps) = true from decide_eq_true (by rw [hl]; simpa using he), cassert, if_pos rfl, bind_ok,
    show decide (|x.ub - y.ub| < eps) = true from decide_eq_true (by rw [hu]; simpa using he), cassert, if_pos rfl, bind_ok, if_pos (by omega)]
  obtain ⟨c, c1, c2, c3, c4⟩ := forN_upd (n := x.num) (c := y.cc) (body := fun ii y => do
    let v ← rd y ii
    let u ← rd x.cc ii
    wr y ii (cut thr (v + ((-0 : ℝ) : ℂ) * u))) (fun k v => cut thr (v + ((-0 : ℝ) : ℂ) * x.co k)) (by omega)
    (fun i hi b hb => by rw [rd_getD 0 (by omega), bind_ok, rd_getD 0 (by omega), bind_ok]; rfl)
  have e : c = y.cc := by
    apply List.ext_getElem (by omega)
    intro k k1 k2
    have g1 : c.getD k 0 = c[k] := by simp [k1]
    have g2 : y.cc.getD k 0 = y.cc[k] := by simp [k2]
    rw [← g1, ← g2]
    by_cases hk : k < x.num
    · rw [c3 k hk, neg_zero, Complex.ofReal_zero, zero_mul, add_zero]
      exact hc k (by omega)
    · exact c4 k (by omega)
  unfold addLoop
  rw [c1, bind_ok, e]
  rfl

theorem cut_zero_one {thr : ℝ} (h : thr ≤ 1) {z : ℂ} (hz : z = 0 ∨ z = 1) : cut thr z = z := by
  unfold cut
  rcases hz with rfl | rfl
  · split <;> rfl
  · rw [if_neg (by rw [norm_one]; linarith)]

/-- C93: below `start_num` functions, with twice `start_num - 1` a power of two, the basis is orthonormal over the domain. -/
theorem orthBasis_partial {thr eps tiny : ℝ} (ht : thr ≤ 1) (he : 0 < eps) {lb ub : ℝ} (h : lb < ub) (hti : tiny < Real.sqrt (ub - lb))
    {n start m : Nat} (hn : n < start) (hsz : start < 2 ^ 63) (hm : 2 * (start - 1) = 2 ^ m) :
    ∃ fs, orthBasis thr eps tiny n start lb ub = .ok fs ∧ fs.length = n ∧ ∀ (i j : Nat) (fi fj : Fe), fs[i]? = some fi → fs[j]? = some fj →
      Good fi ∧ Dom fi ∧ fi.lb = lb ∧ fi.ub = ub ∧ ∫ x in lb..ub, fi.fn x * fj.fn x = if i = j then 1 else 0 := by
  obtain ⟨p, p1, p2, p3, p4, p5, p6, p7, p8, p9⟩ := init_ok start h.ne
  have hL : 0 < ub - lb := by linarith
  have hgood : Good p := p6 (by omega)
  have hstart : basisStart n start lb ub = .ok ((List.range n).map (st p)) := by
    unfold basisStart
    refine mapM_ok fun i hi => ?_
    rw [p1, bind_ok, if_pos hn, wr_ok _ (by rw [p5]; have := List.mem_range.1 hi; simp; omega), bind_ok]
    rfl
  have hslope : p.map.islope * (2 * Real.pi) = ub - lb := by
    have h1 := p7.lo; have h2 := p7.hi; have h3 := p7.ne
    rw [p3] at h1
    rw [p4] at h2
    rw [p7.inv]
    field_simp
    linarith
  set sq : Nat → ℝ := fun i => if i = 0 then ub - lb else 2 * (ub - lb) with hsq
  have hsq0 : ∀ i, 0 < sq i := by intro i; rw [hsq]; dsimp only; split <;> linarith
  -- integrals of the starting functions
  have hint : ∀ i j, i < start → j < start → ∫ x in lb..ub, (st p i).fn x * (st p j).fn x = if i = j then sq i else 0 := by
    intro i j hi hj
    have e := subst_integral p7 (fun t => bs i t * bs j t)
    rw [bs_integral, p3, p4] at e
    simp only [st_fn p2 p5 hi, st_fn p2 p5 hj]
    rw [e, hsq]
    dsimp only
    split
    · split
      · exact hslope
      · rw [← hslope]; ring
    · simp
  have hdeg : ∀ i, i < start → Deg (st p i) i := fun i hi k k1 _ => by rw [st_co p5 hi, if_neg (by omega)]
  -- normalised functions
  have hsc : ∀ i, ∃ g, scale (1 / Real.sqrt (sq i)) (st p i) = .ok g ∧ Good g ∧ g.num = start ∧ g.lb = lb ∧ g.ub = ub ∧ g.map = p.map ∧
      (∀ k < start, g.co k = (st p i).co k * ((1 / Real.sqrt (sq i) : ℝ) : ℂ)) ∧ ∀ x, g.fn x = 1 / Real.sqrt (sq i) * (st p i).fn x := by
    intro i
    obtain ⟨g, g1, g2, g3, g4, g5, g6, g7, g8⟩ := scale_ok (1 / Real.sqrt (sq i)) (st_good hgood i)
    refine ⟨g, g1, g2, by rw [g3]; exact p2, by rw [g4]; exact p3, by rw [g5]; exact p4, g6, fun k hk => g7 k (by change k < p.num; omega), g8⟩
  choose nf nf1 nf2 nf3 nf4 nf5 nf6 nf7 nf8 using hsc
  have nfd : ∀ i, Dom (nf i) := fun i =>
    ⟨by rw [nf6, nf4, ← p3]; exact p7.lo, by rw [nf6, nf5, ← p4]; exact p7.hi, by rw [nf6]; exact p7.inv, by rw [nf6]; exact p7.io⟩
  have nfdeg : ∀ i, i < start → Deg (nf i) i := fun i hi k k1 k2 => by
    rw [nf3] at k2
    rw [nf7 i k k2, st_co p5 hi, if_neg (by omega), zero_mul]
  have hstep : ∀ ii < n, ∀ fs : List Fe, fs = (List.range n).map (fun k => if k < ii then nf k else st p k) →
      gsStep thr eps tiny n ii fs = .ok ((List.range n).map (fun k => if k < ii + 1 then nf k else st p k)) := by
    rintro ii hii fs rfl
    have hnum : (st p ii).num = start := p2
    have i1 := inner_exact_partial (a := st p ii) (b := st p ii) (st_good hgood ii) (st_good hgood ii) (st_dom p7 ii) (st_dom p7 ii) he rfl rfl
      (by rw [hnum]; omega) (by rw [hnum]; exact hm) (hdeg ii (by omega)) (hdeg ii (by omega)) (by rw [hnum]; omega)
    rw [show (st p ii).lb = lb from p3, show (st p ii).ub = ub from p4, hint ii ii (by omega) (by omega), if_pos rfl] at i1
    have hgt : Real.sqrt (sq ii) > tiny := by
      refine lt_of_lt_of_le hti (Real.sqrt_le_sqrt ?_)
      rw [hsq]; dsimp only; split <;> linarith
    unfold gsStep
    have hrd : rd ((List.range n).map (fun k => if k < ii then nf k else st p k)) ii = .ok (st p ii) := by
      rw [rd_of_getElem?]
      rw [List.getElem?_map, List.getElem?_range hii]
      simp
    rw [hrd, bind_ok, i1, bind_ok, if_pos hgt, nf1 ii, bind_ok, wr_ok _ (by simpa using hii), bind_ok]
    have hset : ((List.range n).map (fun k => if k < ii then nf k else st p k)).set ii (nf ii) =
        (List.range n).map (fun k => if k < ii + 1 then nf k else st p k) := by
      apply List.ext_getElem?
      intro k
      by_cases hk : k < n
      · by_cases e : ii = k
        · subst e
          rw [List.getElem?_set_self (by simpa using hk), List.getElem?_map, List.getElem?_range hk]
          simp
        · rw [List.getElem?_set_ne e, List.getElem?_map, List.getElem?_map, List.getElem?_range hk]
          simp only [Option.map_some]
          by_cases e2 : k < ii
          · rw [if_pos e2, if_pos (by omega)]
          · rw [if_neg e2, if_neg (by omega)]
      · rw [List.getElem?_eq_none (by simpa using hk), List.getElem?_eq_none (by simpa using hk)]
    rw [hset]
    obtain ⟨r, r1, r2⟩ := forR_spec (a := ii + 1) (b := max (ii + 1) n) (s := (List.range n).map (fun k => if k < ii + 1 then nf k else st p k))
      (body := fun jj fs => do
        let g ← rd fs jj
        let p ← inner eps (nf ii) g
        let g ← axpy thr eps (-p) (nf ii) g
        wr fs jj g)
      (I := fun _ fs => fs = (List.range n).map (fun k => if k < ii + 1 then nf k else st p k)) (le_max_left _ _) rfl
      (by
        rintro jj j1 j2 fs rfl
        have hjn : jj < n := by
          rcases le_total n (ii + 1) with c | c
          · rw [max_eq_left c] at j2; omega
          · rw [max_eq_right c] at j2; omega
        have hrd2 : rd ((List.range n).map (fun k => if k < ii + 1 then nf k else st p k)) jj = .ok (st p jj) := by
          rw [rd_of_getElem?]
          rw [List.getElem?_map, List.getElem?_range hjn]
          simp only [Option.map_some]
          rw [if_neg (by omega)]
        have i2 := inner_exact_partial (a := nf ii) (b := st p jj) (nf2 ii) (st_good hgood jj) (nfd ii) (st_dom p7 jj) he
          (by rw [nf4]; exact p3.symm) (by rw [nf5]; exact p4.symm) (by rw [nf3]; omega) (by rw [nf3]; exact hm) (nfdeg ii (by omega)) (hdeg jj (by omega))
          (by rw [nf3]; omega)
        have i3 : ∫ x in lb..ub, (nf ii).fn x * (st p jj).fn x = 0 := by
          simp only [nf8, mul_assoc]
          rw [intervalIntegral.integral_const_mul, hint ii jj (by omega) (by omega), if_neg (by omega), mul_zero]
        rw [nf4, nf5, i3] at i2
        refine ⟨_, ?_, rfl⟩
        rw [hrd2, bind_ok, i2, bind_ok, axpy_zero he (nf2 ii) (st_good hgood jj) (by rw [nf3]; exact p2.symm) (by rw [nf4]; exact p3.symm)
          (by rw [nf5]; exact p4.symm) (fun k hk => cut_zero_one ht (by rw [st_co p5 (by omega)]; split <;> simp)), bind_ok, wr_ok _ (by simpa using hjn)]
        congr 1
        apply List.ext_getElem?
        intro k
        by_cases e : jj = k
        · subst e
          rw [List.getElem?_set_self (by simpa using hjn), List.getElem?_map, List.getElem?_range hjn]
          simp only [Option.map_some]
          rw [if_neg (by omega)]
        · rw [List.getElem?_set_ne e])
    rw [r1, r2]
  obtain ⟨fs, f1, f2⟩ := forN_spec (n := n) (s := (List.range n).map (st p)) (body := gsStep thr eps tiny n)
    (I := fun ii fs => fs = (List.range n).map (fun k => if k < ii then nf k else st p k)) (by simp)
    (fun i hi fs hfs => ⟨_, hstep i hi fs hfs, rfl⟩)
  refine ⟨fs, by unfold orthBasis; rw [hstart, bind_ok, f1], by rw [f2]; simp, ?_⟩
  intro i j fi fj hi hj
  have hin : i < n := by
    by_contra hc
    rw [f2, List.getElem?_eq_none (by simpa using hc)] at hi; simp at hi
  have hjn : j < n := by
    by_contra hc
    rw [f2, List.getElem?_eq_none (by simpa using hc)] at hj; simp at hj
  rw [f2, List.getElem?_map, List.getElem?_range hin, Option.map_some, if_pos hin, Option.some_inj] at hi
  rw [f2, List.getElem?_map, List.getElem?_range hjn, Option.map_some, if_pos hjn, Option.some_inj] at hj
  subst hi hj
  refine ⟨nf2 i, nfd i, nf4 i, nf5 i, ?_⟩
  have e : ∀ x, (nf i).fn x * (nf j).fn x = 1 / Real.sqrt (sq i) * (1 / Real.sqrt (sq j)) * ((st p i).fn x * (st p j).fn x) := by
    intro x; rw [nf8, nf8]; ring
  simp only [e]
  rw [intervalIntegral.integral_const_mul, hint i j (by omega) (by omega)]
  by_cases hij : i = j
  · subst hij
    rw [if_pos rfl, if_pos rfl, one_div_mul_one_div, Real.mul_self_sqrt (hsq0 i).le]
    exact one_div_mul_cancel (hsq0 i).ne'
  · rw [if_neg hij, if_neg hij, mul_zero]

/-- With as many functions as coefficients no coefficient is set: every function of the "basis" is zero. -/
theorem orthBasis_full_counterexample {lb ub : ℝ} (h : lb ≠ ub) (n : Nat) : ∃ fs, basisStart n n lb ub = .ok fs ∧ fs.length = n ∧
    ∀ f ∈ fs, ∀ x, f.fn x = 0 := by
  obtain ⟨p, p1, p2, p3, p4, p5, p6, p7, p8, p9⟩ := init_ok n h
  refine ⟨(List.range n).map fun _ => p, ?_, by simp, ?_⟩
  · unfold basisStart
    refine mapM_ok fun i hi => ?_
    rw [p1, bind_ok, if_neg (lt_irrefl n)]; rfl
  · intro f hf x
    obtain ⟨i, -, rfl⟩ := List.mem_map.1 hf
    exact init_fn p5 x

/-- The hypotheses can be met: two functions, three coefficients, domain `[0, 1]`. -/
example : (2 : Nat) < 3 ∧ (3 : Nat) < 2 ^ 63 ∧ 2 * (3 - 1) = 2 ^ 2 ∧ (1 / 2 : ℝ) < Real.sqrt (1 - 0) := by
  refine ⟨by norm_num, by norm_num, by norm_num, ?_⟩
  rw [sub_zero, Real.sqrt_one]; norm_num

end C3.Fourier
