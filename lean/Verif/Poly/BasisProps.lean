/- Orthonormal polynomials and bases made from options (property C124). -/
import Verif.Poly.MakeProps

set_option linter.unusedSectionVars false

namespace C3.Poly
open Finset Real
open C3.Lin (dv dv_ok)

/-- An expansion with a single coefficient. -/
noncomputable def single (o : Opts ℝ) (m : SMap ℝ) (n : Nat) (v : ℝ) : Ope ℝ :=
  ⟨o.fam, n + 1, o.lb, o.ub, m, n + 1 + 50, (List.replicate (n + 1 + 50) 0).set n v, o.krist⟩

theorem single_getD (n k : Nat) (v : ℝ) : ((List.replicate (n + 1 + 50) (0 : ℝ)).set n v).getD k 0 = if k = n then v else 0 := by
  rw [List.getD_eq_getElem?_getD]
  by_cases h : k = n
  · subst h
    rw [List.getElem?_set_self (by simp; omega), if_pos rfl]; rfl
  · rw [List.getElem?_set_ne (Ne.symm h), ← List.getD_eq_getElem?_getD, rep_getD, if_neg h]

theorem single_wf {o : Opts ℝ} (hv : o.Valid) (m : SMap ℝ) (n : Nat) (v : ℝ) : (single o m n v).WF := hv.wf (by omega) (by omega) (by simp)

theorem single_val {o : Opts ℝ} (m : SMap ℝ) (n : Nat) (v x : ℝ) : (single o m n v).val x = v * o.fam.p n (m.slope * x + m.off) := by
  show ∑ k ∈ range (n + 1), ((List.replicate (n + 1 + 50) (0 : ℝ)).set n v).getD k 0 * o.fam.p k (m.slope * x + m.off) = _
  simp only [single_getD, ite_mul, zero_mul]
  rw [sum_ite_eq', if_pos (by simp)]

theorem single_innerW {o : Opts ℝ} (hv : o.Valid) (m : SMap ℝ) (i j : Nat) (v w : ℝ) :
    innerW (single o m i v) (single o m j w) = .ok (if i = j then v * w * o.fam.norm i else 0) := by
  rw [innerW_ok (single_wf hv m i v) (single_wf hv m j w) rfl]
  show Except.ok (∑ k ∈ range (min (i + 1) (j + 1)), ((List.replicate (i + 1 + 50) (0 : ℝ)).set i v).getD k 0 * ((List.replicate (j + 1 + 50) (0 : ℝ)).set j w).getD k 0 *
    o.fam.norm k) = _
  simp only [single_getD]
  congr 1
  by_cases h : i = j
  · subst h
    rw [if_pos rfl, sum_eq_single_of_mem i (by simp) (fun k _ hk => by rw [if_neg hk]; ring), if_pos rfl, if_pos rfl]
  · rw [if_neg h]
    refine sum_eq_zero fun k _ => ?_
    by_cases c : k = i
    · rw [if_neg (show k ≠ j from fun e => h (c.symm.trans e))]; ring
    · rw [if_neg c]; ring

/-- The single functions as made by the library, and their values. -/
theorem genorder_ok {o : Opts ℝ} {m : SMap ℝ} (e : ∀ num, initOpts o num = .ok ⟨o.fam, num, o.lb, o.ub, m, num + 50, List.replicate (num + 50) 0, o.krist⟩)
    {n : Nat} (hn : 0 < o.fam.norm n) (hm : 0 < m.islope) :
    genorder Real.sqrt n o = .ok (single o m n (1 / √(o.fam.norm n) / (if o.fam.pt = .leg then √2 else 1) / √m.islope)) := by
  have h1 : √(o.fam.norm n) ≠ 0 := (Real.sqrt_pos.2 hn).ne'
  have h2 : √m.islope ≠ 0 := (Real.sqrt_pos.2 hm).ne'
  have h3 : √(2 : ℝ) ≠ 0 := by positivity
  have hu : unitCoeff Real.sqrt o.fam n m.islope = .ok (1 / √(o.fam.norm n) / (if o.fam.pt = .leg then √2 else 1) / √m.islope) := by
    rw [unitCoeff, dv_ok h1, bind_ok]
    cases h : o.fam.pt with
    | leg => dsimp only; rw [dv_ok h3, bind_ok, dv_ok h2, if_pos rfl]
    | cheb => dsimp only; rw [dv_ok h2, if_neg (by simp), div_one]
    | herm => dsimp only; rw [dv_ok h2, if_neg (by simp), div_one]
  rw [genorder, e, bind_ok, hu, bind_ok, wr_ok _ (by simp; omega), bind_ok]; rfl

theorem makeAll_ok {mk : Nat → C (Ope ℝ)} {F : Nat → Ope ℝ} {n : Nat} (h : ∀ i < n, mk i = .ok (F i)) : makeAll mk n = .ok ((List.range n).map F) := by
  obtain ⟨fs, e, h1⟩ := forN_spec (n := n) (body := fun ii fs => do
    let g ← mk ii
    pure (fs ++ [g])) (I := fun i fs => fs = (List.range i).map F) (s := []) rfl (fun i hi fs hf => ⟨fs ++ [F i], by rw [h i hi, bind_ok]; rfl, by
      rw [hf, List.range_succ, List.map_append]; rfl⟩)
  rw [makeAll, e, h1]

theorem leg_unit {m : ℝ} (hm : 0 < m) : (1 / √(1 : ℝ) / √2 / √m) * (1 / √(1 : ℝ) / √2 / √m) * 1 * (2 * m) = 1 := by
  have h1 : √2 * √2 = (2 : ℝ) := Real.mul_self_sqrt (by norm_num)
  have h2 : √m * √m = m := Real.mul_self_sqrt hm.le
  have h3 : √m ≠ 0 := (Real.sqrt_pos.2 hm).ne'
  have h4 : √(2 : ℝ) ≠ 0 := by positivity
  rw [Real.sqrt_one]
  field_simp
  rw [pow_two, pow_two, h1, h2]

/-- The function of degree `n`: a positive multiple of the polynomial number `n` of the family in the variable of the reference domain. -/
def IsOrder (o : Opts ℝ) (n : Nat) (f : Ope ℝ) : Prop := ∃ c, 0 < c ∧ ∀ x, f.val x = c * o.fam.p n (f.map.slope * x + f.map.off)

/-- C124: the Legendre functions of the different orders are orthonormal on the domain, and the inner product of the library says so. -/
theorem genorder_leg {o : Opts ℝ} (hv : o.Valid) (hf : o.fam = legFam) (other : Ope ℝ → Ope ℝ → C ℝ) :
    ∃ F : Nat → Ope ℝ, (∀ n, genorder Real.sqrt n o = .ok (F n) ∧ FromOpts o (n + 1) (F n) ∧ IsOrder o n (F n)) ∧
      ∀ i j, (∫ x in o.lb..o.ub, (F i).val x * (F j).val x) = (if i = j then 1 else 0) ∧ inner other (F i) (F j) = .ok (if i = j then 1 else 0) := by
  obtain ⟨m, hm, -, ho, e⟩ := initOpts_all hv
  have hpt : o.fam.pt = .leg := by rw [hf]; rfl
  obtain ⟨hlo, hhi, hs, hlu⟩ := ho (by rw [hpt]; simp)
  have hi0 : 0 < m.islope := by
    have := hm.mul
    by_contra c
    nlinarith [mul_nonneg hs.le (neg_nonneg.2 (not_lt.1 c))]
  have hn : ∀ n, o.fam.norm n = 1 := fun n => by rw [hf]; rfl
  set v := 1 / √(1 : ℝ) / √2 / √m.islope with hvv
  have vpos : 0 < v := by rw [hvv]; have := Real.sqrt_pos.2 hi0; positivity
  have onint : ∀ n, OnInt (single o m n v) := fun n => ⟨hlu, by show m.slope * o.lb + m.off = -1; rw [hlo, hf]; rfl, by show m.slope * o.ub + m.off = 1; rw [hhi, hf]; rfl,
    by show m.islope * m.slope = 1; rw [mul_comm]; exact hm.mul⟩
  have hin : ∀ i j, inner other (single o m i v) (single o m j v) = .ok (if i = j then 1 else 0) := fun i j => by
    have hp : ∀ n, (single o m n v).fam.pt = .leg := fun n => hpt
    rw [inner, if_neg (by rw [hp]; simp), if_neg (by rw [hp, hp]; simp), if_neg (by rw [hp, hp]; simp), single_innerW hv, bind_ok]
    have hu := leg_unit hi0
    have h2 : 2 * m.islope = o.ub - o.lb := by have := (onint i).islope; show _ = (single o m i v).ub - (single o m i v).lb; rw [← show (single o m i v).map.islope = m.islope from rfl]; linarith
    rw [h2] at hu
    show Except.ok ((if i = j then v * v * o.fam.norm i else 0) * (o.ub - o.lb)) = _
    by_cases c : i = j
    · rw [if_pos c, if_pos c, hn, hvv, hu]
    · rw [if_neg c, if_neg c, zero_mul]
  refine ⟨fun n => single o m n v, fun n => ⟨?_, ⟨single_wf hv m n v, rfl, rfl, rfl, rfl, rfl, hm⟩, v, vpos, single_val m n v⟩, fun i j => ⟨?_, hin i j⟩⟩
  · rw [genorder_ok e (by rw [hn]; norm_num) hi0, if_pos hpt, hn]
  · have := inner_leg other (single_wf hv m i v) (single_wf hv m j v) hf hf (onint i) rfl
    rw [hin] at this
    exact (Except.ok.inj this).symm

/-- C124: the orthonormal basis of Legendre polynomials. -/
theorem orthBasis_leg {o : Opts ℝ} (hv : o.Valid) (hf : o.fam = legFam) (thr eps tiny : ℝ) (Q : PT → Nat → Rule ℝ) (legTab hermTab : List ℝ) (n : Nat) :
    ∃ fs, orthBasis thr eps tiny Real.sqrt Q legTab hermTab n o = .ok fs ∧ ∃ h : fs.length = n,
      (∀ i (hi : i < n), FromOpts o (i + 1) fs[i] ∧ IsOrder o i fs[i]) ∧
      ∀ i (hi : i < n) j (hj : j < n), ∫ x in o.lb..o.ub, fs[i].val x * fs[j].val x = if i = j then 1 else 0 := by
  obtain ⟨F, h1, h2⟩ := genorder_leg hv hf (fun _ _ => .error .ub)
  refine ⟨(List.range n).map F, ?_, by simp, fun i hi => ?_, fun i hi j hj => ?_⟩
  · rw [orthBasis, if_neg (by rw [hf]; simp [legFam]), makeAll_ok fun i _ => (h1 i).1]
  · simpa using ⟨(h1 i).2.1, (h1 i).2.2⟩
  · simpa using (h2 i j).1

/-- C124: the Chebyshev functions of the different orders are orthonormal with respect to the Chebyshev weight in the mapped variable. -/
theorem genorder_cheb {o : Opts ℝ} (hv : o.Valid) (hf : o.fam = chebFam π) :
    ∃ F : Nat → Ope ℝ, (∀ n, genorder Real.sqrt n o = .ok (F n) ∧ FromOpts o (n + 1) (F n) ∧ IsOrder o n (F n)) ∧
      ∀ i j, ∫ x in o.lb..o.ub, (F i).val x * (F j).val x * √(1 - ((F i).map.slope * x + (F i).map.off) ^ 2)⁻¹ = if i = j then 1 else 0 := by
  obtain ⟨m, hm, -, ho, e⟩ := initOpts_all hv
  have hpt : o.fam.pt = .cheb := by rw [hf]; rfl
  obtain ⟨hlo, hhi, hs, hlu⟩ := ho (by rw [hpt]; simp)
  have hi0 : 0 < m.islope := by
    have := hm.mul
    by_contra c
    nlinarith [mul_nonneg hs.le (neg_nonneg.2 (not_lt.1 c))]
  have hn : ∀ n, 0 < o.fam.norm n := fun n => by
    rw [hf]; simp only [chebFam]; split
    · exact Real.pi_pos
    · exact div_pos Real.pi_pos two_pos
  set v := fun n => 1 / √(o.fam.norm n) / 1 / √m.islope with hvv
  have vpos : ∀ n, 0 < v n := fun n => by
    have := Real.sqrt_pos.2 hi0
    have := Real.sqrt_pos.2 (hn n)
    simp only [hvv]; positivity
  have onint : ∀ n, OnInt (single o m n (v n)) := fun n => ⟨hlu, by show m.slope * o.lb + m.off = -1; rw [hlo, hf]; rfl, by show m.slope * o.ub + m.off = 1; rw [hhi, hf]; rfl,
    by show m.islope * m.slope = 1; rw [mul_comm]; exact hm.mul⟩
  refine ⟨fun n => single o m n (v n), fun n => ⟨?_, ⟨single_wf hv m n _, rfl, rfl, rfl, rfl, rfl, hm⟩, v n, vpos n, single_val m n _⟩, fun i j => ?_⟩
  · rw [genorder_ok e (hn n) hi0, if_neg (by rw [hpt]; simp)]
  · have h1 := innerW_cheb (single_wf hv m i (v i)) (single_wf hv m j (v j)) hf hf (onint i) rfl
    rw [single_innerW hv] at h1
    have h1 := Except.ok.inj h1
    change (if i = j then v i * v j * o.fam.norm i else 0) = m.slope * ∫ x in o.lb..o.ub, (single o m i (v i)).val x * (single o m j (v j)).val x * √(1 - (m.slope * x + m.off) ^ 2)⁻¹ at h1
    change ∫ x in o.lb..o.ub, (single o m i (v i)).val x * (single o m j (v j)).val x * √(1 - (m.slope * x + m.off) ^ 2)⁻¹ = _
    refine mul_left_cancel₀ hs.ne' (h1.symm.trans ?_)
    by_cases c : i = j
    · subst c
      rw [if_pos rfl, if_pos rfl, mul_one]
      have h2 : √(o.fam.norm i) * √(o.fam.norm i) = o.fam.norm i := Real.mul_self_sqrt (hn i).le
      have h3 : √m.islope * √m.islope = m.islope := Real.mul_self_sqrt hi0.le
      have h4 := (Real.sqrt_pos.2 (hn i)).ne'
      have h5 := (Real.sqrt_pos.2 hi0).ne'
      simp only [hvv]
      have : 1 / √(o.fam.norm i) / 1 / √m.islope * (1 / √(o.fam.norm i) / 1 / √m.islope) * o.fam.norm i = 1 / (√m.islope * √m.islope) * (o.fam.norm i / (√(o.fam.norm i) * √(o.fam.norm i))) := by
        field_simp
      rw [this, h3, h2, div_self (hn i).ne', mul_one, div_eq_iff hi0.ne']
      exact hm.mul.symm
    · rw [if_neg c, if_neg c, mul_zero]

/-- The Hermite functions are scaled by the square root of the inverse of the standard deviation `std` of the options, so that their norm in the inner
product of the library (the normal density of the options as weight) is `1/√std` instead of 1. -/
theorem genorder_herm_actual {big : ℝ} {o : Opts ℝ} (hv : o.Valid) (hf : o.fam = hermFam big) (hs : 0 < o.std) (other : Ope ℝ → Ope ℝ → C ℝ) :
    ∃ F : Nat → Ope ℝ, (∀ n, genorder Real.sqrt n o = .ok (F n) ∧ FromOpts o (n + 1) (F n) ∧ IsOrder o n (F n)) ∧
      ∀ i j, (∫ x, (F i).val x * (F j).val x * dens (F i).map x) = (if i = j then 1 / o.std else 0) ∧
        inner other (F i) (F j) = .ok (if i = j then 1 / o.std else 0) := by
  obtain ⟨m, hm, hh, -, e⟩ := initOpts_all hv
  have hpt : o.fam.pt = .herm := by rw [hf]; rfl
  have hmm := hh hpt
  have hi0 : 0 < m.islope := by rw [hmm]; exact hs
  have hi1 : m.islope = o.std := by rw [hmm]
  have hsl : 0 < m.slope := by rw [hmm]; exact one_div_pos.2 hs
  have hn : ∀ n, o.fam.norm n = 1 := fun n => by rw [hf]; rfl
  set v := 1 / √(1 : ℝ) / 1 / √m.islope with hvv
  have vpos : 0 < v := by rw [hvv]; have := Real.sqrt_pos.2 hi0; positivity
  have v2 : v * v * 1 = 1 / o.std := by
    have h3 : √o.std * √o.std = o.std := Real.mul_self_sqrt hs.le
    rw [hvv, hi1, Real.sqrt_one, div_one, div_one, mul_one, div_mul_div_comm, h3, mul_one]
  have hin : ∀ i j, inner other (single o m i v) (single o m j v) = .ok (if i = j then 1 / o.std else 0) := fun i j => by
    rw [inner, if_pos ⟨hpt, hpt⟩, single_innerW hv, hn, v2]
  refine ⟨fun n => single o m n v, fun n => ⟨?_, ⟨single_wf hv m n v, rfl, rfl, rfl, rfl, rfl, hm⟩, v, vpos, single_val m n v⟩, fun i j => ⟨?_, hin i j⟩⟩
  · rw [genorder_ok e (by rw [hn]; norm_num) hi0, if_neg (by rw [hpt]; simp), hn]
  · have := inner_herm other (single_wf hv m i v) (single_wf hv m j v) hf hf hsl rfl
    rw [hin] at this
    exact (Except.ok.inj this).symm

/-- C124: the basis of Hermite polynomials is orthogonal, and orthonormal for standard deviation 1. -/
theorem orthBasis_herm_partial {big : ℝ} {o : Opts ℝ} (hv : o.Valid) (hf : o.fam = hermFam big) (hs : o.std = 1) (thr eps tiny : ℝ) (Q : PT → Nat → Rule ℝ)
    (legTab hermTab : List ℝ) (n : Nat) :
    ∃ fs, orthBasis thr eps tiny Real.sqrt Q legTab hermTab n o = .ok fs ∧ ∃ h : fs.length = n,
      (∀ i (hi : i < n), FromOpts o (i + 1) fs[i] ∧ IsOrder o i fs[i]) ∧
      ∀ i (hi : i < n) j (hj : j < n), ∫ x, fs[i].val x * fs[j].val x * dens fs[i].map x = if i = j then 1 else 0 := by
  obtain ⟨F, h1, h2⟩ := genorder_herm_actual hv hf (by rw [hs]; norm_num) (fun _ _ => .error .ub)
  refine ⟨(List.range n).map F, ?_, by simp, fun i hi => ?_, fun i hi j hj => ?_⟩
  · rw [orthBasis, if_neg (by rw [hf]; simp [hermFam]), makeAll_ok fun i _ => (h1 i).1]
  · simpa using ⟨(h1 i).2.1, (h1 i).2.2⟩
  · have := (h2 i j).1
    rw [hs, div_one] at this
    simpa using this

end C3.Poly
