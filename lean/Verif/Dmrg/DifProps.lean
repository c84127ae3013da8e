/-
The diffusion operator by alternating sweeps (C133).
-/
import Verif.Dmrg.DifModel
import Verif.Core.FillV

set_option linter.unusedSectionVars false

namespace C3.Dmrg
open Finset C3.Ft C3.Round C3.Dif
variable {U : Type} {e : Ev ℝ U ℝ} {F : Fam U ℝ} {I : Integ ℝ ℝ}

/-! Products of arrays with matrices, in terms of the entries. -/

theorem matKron_rep {o : DmOps U} (hL : LinLaw e o.lin F) (hS : SpLaw e o.lin F) {k r na nb ma mb : Nat} {M : List ℝ} {a b : Qma U}
    {A B : ℝ → Nat → Nat → ℝ} (ha : Rep e F k na ma A a) (hb : Rep e F k nb mb B b) (hna : 0 < na) (hnb : 0 < nb)
    (hM : r * (na * nb) ≤ M.length) :
    ∃ Q, matKron o.lin r M a b = .ok Q ∧
      Rep e F k r (ma * mb) (fun x i j => ∑ t ∈ range (na * nb), ent r M i t * Mk nb mb A B x t j) Q := by
  obtain ⟨Q, h1, h2⟩ := matKron_value (k := k) (r := r) (a := M) hL hS ha.qok hb.qok (by rw [ha.nrows]; exact hna)
    (by rw [hb.nrows]; exact hnb) (by rw [ha.nrows, hb.nrows]; exact hM)
  refine ⟨Q, h1, h2.to rfl (by rw [ha.ncols, hb.ncols]) fun x hx i hi j hj => ?_⟩
  rw [ha.ncols, hb.ncols, Nat.mul_comm] at hj
  obtain ⟨j1, j2, -⟩ := divmod_of_lt hj
  rw [← sum_range_mul_divmod (f := fun s t => ent r M i (s * b.nrows + t) * (a.val e x s (j / b.ncols) * b.val e x t (j % b.ncols))),
    ha.nrows, hb.nrows, hb.ncols]
  refine sum_congr rfl fun t ht => ?_
  have ht := mem_range.1 ht
  rw [Nat.mul_comm] at ht
  obtain ⟨t1, t2, -⟩ := divmod_of_lt ht
  rw [Mk, Nat.div_add_mod', ha.val x hx _ t2 _ j2, hb.val x hx _ t1 _ j1]

theorem kronMat_rep {o : DmOps U} (hL : LinLaw e o.lin F) (hS : SpLaw e o.lin F) {k r na nb ma mb : Nat} {M : List ℝ} {a b : Qma U}
    {A B : ℝ → Nat → Nat → ℝ} (ha : Rep e F k na ma A a) (hb : Rep e F k nb mb B b) (hma : 0 < ma) (hmb : 0 < mb)
    (hM : ma * mb * r ≤ M.length) :
    ∃ Q, kronMat o.lin r M a b = .ok Q ∧
      Rep e F k (na * nb) r (fun x i j => ∑ t ∈ range (ma * mb), Mk nb mb A B x i t * ent (ma * mb) M t j) Q := by
  obtain ⟨Q, h1, h2⟩ := kronMat_value (k := k) (r := r) (a := M) hL hS ha.qok hb.qok (by rw [ha.ncols]; exact hma)
    (by rw [hb.ncols]; exact hmb) (by rw [ha.ncols, hb.ncols]; exact hM)
  refine ⟨Q, h1, h2.to (by rw [ha.nrows, hb.nrows]) rfl fun x hx i hi j hj => ?_⟩
  rw [ha.nrows, hb.nrows, Nat.mul_comm] at hi
  obtain ⟨i1, i2, -⟩ := divmod_of_lt hi
  rw [← sum_range_mul_divmod (f := fun s t =>
        (a.val e x (i / b.nrows) s * b.val e x (i % b.nrows) t) * ent (a.ncols * b.ncols) M (s * b.ncols + t) j),
    ha.ncols, hb.ncols, hb.nrows]
  refine sum_congr rfl fun t ht => ?_
  have ht := mem_range.1 ht
  rw [Nat.mul_comm] at ht
  obtain ⟨t1, t2, -⟩ := divmod_of_lt ht
  rw [Mk, Nat.div_add_mod', ha.val x hx _ i2 _ t2, hb.val x hx _ i1 _ t1]

theorem ent_drop {r n : Nat} {M : List ℝ} {i t : Nat} : ent r (M.drop (r * n)) i t = ent r M i (n + t) := by
  rw [ent, ent, List.getD_eq_getElem?_getD, List.getD_eq_getElem?_getD, List.getElem?_drop]
  congr 2
  ring

theorem halfMat_ok {r ac fc h : Nat} {mat : List ℝ} (hm : (ac * fc + ac * fc) * r ≤ mat.length) (hh : h ≤ 1) :
    halfMat r ac fc (h * ac) mat = .ok (cm (ac * fc) r fun i j => ent (ac * fc + ac * fc) mat (h * (ac * fc) + i) j) := by
  have hN : r * ac * fc = ac * fc * r := by ring
  have hf : FillsV (fun p => ent (ac * fc + ac * fc) mat (h * (ac * fc) + p % (ac * fc)) (p / (ac * fc))) (ac * fc * r)
      (C3.forN r (fun ii => C3.forN ac (fun jj => C3.forN fc (fun kk m => do
        let v ← rd mat (kk + (jj + h * ac) * fc + ii * (2 * ac * fc))
        wr m (kk + jj * fc + ii * ac * fc) v))))
      (fun p => ∃ ii < r, ∃ jj < ac, ∃ kk < fc, p = kk + jj * fc + ii * ac * fc) := by
    refine FillsV.forN fun ii hii => FillsV.forN fun jj hjj => FillsV.forN fun kk hkk => ?_
    have h1 : jj * fc + kk < fc * ac := cm_idx_lt hkk hjj
    rw [Nat.mul_comm fc ac] at h1
    have h2 : ii * (ac * fc) + (jj * fc + kk) < ac * fc * r := cm_idx_lt h1 hii
    have e1 : kk + jj * fc + ii * ac * fc = ii * (ac * fc) + (jj * fc + kk) := by ring
    have e2 : kk + (jj + h * ac) * fc + ii * (2 * ac * fc) = ii * (ac * fc + ac * fc) + (h * (ac * fc) + (jj * fc + kk)) := by ring
    have h3 : h * (ac * fc) ≤ 1 * (ac * fc) := Nat.mul_le_mul_right _ hh
    have h4 : ii * (ac * fc + ac * fc) + (h * (ac * fc) + (jj * fc + kk)) < (ac * fc + ac * fc) * r := cm_idx_lt (by omega) hii
    refine FillsV.bind (rd_ok (show kk + (jj + h * ac) * fc + ii * (2 * ac * fc) < mat.length by rw [e2]; omega)) ?_
    refine FillsV.wr (by rw [e1]; exact h2) ?_
    rw [e1, cm_mod h1, cm_div h1, ent, List.getD_eq_getElem?_getD, List.getElem?_eq_getElem (by omega), Option.getD_some]
    simp only [e2]
  rw [halfMat, hN, hf.finish (fun p hp => ?_) (by simp), cm]
  obtain ⟨q1, q2, q3⟩ := divmod_of_lt hp
  have hp2 : p % (ac * fc) < fc * ac := by rw [Nat.mul_comm fc ac]; exact q1
  obtain ⟨s1, s2, s3⟩ := divmod_of_lt hp2
  refine ⟨_, q2, _, s2, _, s1, ?_⟩
  calc p = p / (ac * fc) * (ac * fc) + p % (ac * fc) := q3.symm
    _ = p / (ac * fc) * (ac * fc) + (p % (ac * fc) / fc * fc + p % (ac * fc) % fc) := by rw [s3]
    _ = _ := by ring

/-- The derivative of the function in one variable and the function, as blocks. -/
noncomputable def dA' (e : Ev ℝ U ℝ) (a f : FT ℝ U) (k : Nat) : ℝ → Nat → Nat → ℝ :=
  Mk (f.rk k) (f.rk (k + 1)) (valAt e a k) (valAt e f k)

noncomputable def dB' (e : Ev ℝ U ℝ) (dd : DmDiff U) (k : Nat) : ℝ → Nat → Nat → ℝ := fun x i j =>
  Mk (dd.F.rk k) (dd.F.rk (k + 1)) (valAt e dd.A k) (lv e dd.ddF k) x i j
    + Mk (dd.F.rk k) (dd.F.rk (k + 1)) (lv e dd.dA k) (lv e dd.dF k) x i j

/-- The arrays of derivatives have the sizes of the cores. -/
structure DdOk (F : Fam U ℝ) (dd : DmDiff U) : Prop where
  a : dd.A.Ok F
  f : dd.F.Ok F
  dim : dd.F.dim = dd.A.dim
  da : Lst F dd.A.rk dd.A.dim dd.dA
  df : Lst F dd.F.rk dd.A.dim dd.dF
  ddf : Lst F dd.F.rk dd.A.dim dd.ddF

theorem DdOk.lf {dd : DmDiff U} (h : DdOk F dd) : Lst F dd.F.rk dd.A.dim dd.F.cores := by
  have := Lst.of h.f
  rwa [h.dim] at this

theorem endBlocks_ok {o : DmOps U} {ax : U → U → C U} (hS : SpLaw e o.lin F) (hax : AxLaw e F ax) {dd : DmDiff U} (h : DdOk F dd)
    {k : Nat} (hk : k < dd.A.dim) : ∃ b, endBlocks o ax dd k = .ok b ∧
      Rep e F k (dd.A.rk k * dd.F.rk k) (dd.A.rk (k + 1) * dd.F.rk (k + 1)) (dA' e dd.A dd.F k) b.1 ∧
      Rep e F k (dd.A.rk k * dd.F.rk k) (dd.A.rk (k + 1) * dd.F.rk (k + 1)) (dB' e dd k) b.2 := by
  obtain ⟨A, a1, a2⟩ := (Lst.of h.a).rep (e := e) hk
  obtain ⟨Fc, f1, f2⟩ := h.lf.rep (e := e) hk
  obtain ⟨dA, b1, b2⟩ := h.da.rep (e := e) hk
  obtain ⟨dF, c1, c2⟩ := h.df.rep (e := e) hk
  obtain ⟨ddF, d1, d2⟩ := h.ddf.rep (e := e) hk
  obtain ⟨t1, p1, p2⟩ := kron_rep hS.prod a2 f2
  obtain ⟨t2, q1, q2⟩ := kron_rep hS.prod b2 c2
  obtain ⟨t3, r1, r2⟩ := kron_rep hS.prod a2 d2
  obtain ⟨t4, s1, s2⟩ := axpyQ_rep hax r2 q2
  exact ⟨(t1, t4), by rw [endBlocks, a1, bind_ok, f1, bind_ok, b1, bind_ok, c1, bind_ok, d1, bind_ok, p1, bind_ok, q1, bind_ok,
    r1, bind_ok, s1, bind_ok, pure_eq_ok], p2, s2⟩

theorem midLeft_ok {o : DmOps U} {ax : U → U → C U} (hL : LinLaw e o.lin F) (hS : SpLaw e o.lin F) (hax : AxLaw e F ax) {k r na nb ma mb : Nat}
    {M : List ℝ} {dA A ddF dF Fc : Qma U} {VdA VA VddF VdF VF : ℝ → Nat → Nat → ℝ} (h1 : Rep e F k na ma VdA dA) (h2 : Rep e F k na ma VA A)
    (h3 : Rep e F k nb mb VddF ddF) (h4 : Rep e F k nb mb VdF dF) (h5 : Rep e F k nb mb VF Fc) (hna : 0 < na) (hnb : 0 < nb)
    (hM : M.length = r * (na * nb + na * nb)) :
    ∃ Q, midLeft o ax dA A ddF dF Fc M r = .ok Q ∧ Rep e F k r (ma * mb + ma * mb) (fun x i j =>
      ∑ t ∈ range (na * nb + na * nb), ent r M i t *
        (if j < ma * mb then (if t < na * nb then Mk nb mb VA VF x t j
            else Mk nb mb VA VddF x (t - na * nb) j + Mk nb mb VdA VdF x (t - na * nb) j)
          else (if t < na * nb then 0 else Mk nb mb VA VF x (t - na * nb) (j - ma * mb)))) Q := by
  rw [Nat.mul_add] at hM
  have hM2 : r * (na * nb) ≤ (M.drop (r * (na * nb))).length := by rw [List.length_drop]; omega
  obtain ⟨q1, p1, p2⟩ := matKron_rep hL hS (r := r) (M := M) h2 h5 hna hnb (by omega)
  obtain ⟨q2, p3, p4⟩ := matKron_rep hL hS (r := r) h1 h4 hna hnb hM2
  obtain ⟨q3, p5, p6⟩ := matKron_rep hL hS (r := r) h2 h3 hna hnb hM2
  obtain ⟨q4, p7, p8⟩ := matKron_rep hL hS (r := r) h2 h5 hna hnb hM2
  obtain ⟨q5, p9, p10⟩ := axpyQ_rep hax p4 p2
  obtain ⟨q6, p11, p12⟩ := axpyQ_rep hax p6 p10
  obtain ⟨q7, p13, p14⟩ := stackh_rep p12 p8
  refine ⟨q7, ?_, p14.to rfl rfl fun x hx i hi j hj => ?_⟩
  · have ho : r * A.nrows * Fc.nrows = r * (na * nb) := by rw [h2.nrows, h5.nrows, Nat.mul_assoc]
    rw [midLeft, ho]
    rw [p1, bind_ok, p3, bind_ok, p5, bind_ok, p7, bind_ok, p9, bind_ok, p11, bind_ok, p13]
  · rw [sum_two, Mh]
    simp only [ent_drop]
    by_cases hj : j < ma * mb
    · simp only [if_pos hj]
      rw [← add_assoc, ← sum_add_distrib, add_comm]
      congr 1
      · exact sum_congr rfl fun t ht => by rw [if_pos (mem_range.1 ht)]
      · refine sum_congr rfl fun t ht => ?_
        rw [if_neg (by omega), Nat.add_sub_cancel_left]
        ring
    · simp only [if_neg hj]
      rw [sum_eq_zero (s := range (na * nb)) (f := fun t => ent r M i t * if t < na * nb then 0 else _)
        (fun t ht => by rw [if_pos (mem_range.1 ht), mul_zero]), zero_add]
      refine sum_congr rfl fun t ht => ?_
      rw [if_neg (by omega), Nat.add_sub_cancel_left]

theorem midRight_ok {o : DmOps U} {ax : U → U → C U} (hL : LinLaw e o.lin F) (hS : SpLaw e o.lin F) (hax : AxLaw e F ax) {k r na nb ma mb : Nat}
    {M : List ℝ} {dA A ddF dF Fc : Qma U} {VdA VA VddF VdF VF : ℝ → Nat → Nat → ℝ} (h1 : Rep e F k na ma VdA dA) (h2 : Rep e F k na ma VA A)
    (h3 : Rep e F k nb mb VddF ddF) (h4 : Rep e F k nb mb VdF dF) (h5 : Rep e F k nb mb VF Fc) (hma : 0 < ma) (hmb : 0 < mb)
    (hM : M.length = (ma * mb + ma * mb) * r) :
    ∃ Q, midRight o ax dA A ddF dF Fc M r = .ok Q ∧ Rep e F k (na * nb + na * nb) r (fun x i j =>
      ∑ t ∈ range (ma * mb + ma * mb),
        (if t < ma * mb then (if i < na * nb then Mk nb mb VA VF x i t
            else Mk nb mb VA VddF x (i - na * nb) t + Mk nb mb VdA VdF x (i - na * nb) t)
          else (if i < na * nb then 0 else Mk nb mb VA VF x (i - na * nb) (t - ma * mb))) * ent (ma * mb + ma * mb) M t j) Q := by
  have m1 := halfMat_ok (r := r) (ac := ma) (fc := mb) (h := 0) (mat := M) (by omega) (by omega)
  have m2 := halfMat_ok (r := r) (ac := ma) (fc := mb) (h := 1) (mat := M) (by omega) (by omega)
  rw [Nat.zero_mul] at m1
  rw [Nat.one_mul] at m2
  obtain ⟨q1, p1, p2⟩ := kronMat_rep hL hS (r := r) (M := cm (ma * mb) r fun i j => ent (ma * mb + ma * mb) M (0 * (ma * mb) + i) j)
    h2 h5 hma hmb (by rw [cm_length])
  obtain ⟨q2, p3, p4⟩ := kronMat_rep hL hS (r := r) (M := cm (ma * mb) r fun i j => ent (ma * mb + ma * mb) M (0 * (ma * mb) + i) j)
    h1 h4 hma hmb (by rw [cm_length])
  obtain ⟨q3, p5, p6⟩ := kronMat_rep hL hS (r := r) (M := cm (ma * mb) r fun i j => ent (ma * mb + ma * mb) M (0 * (ma * mb) + i) j)
    h2 h3 hma hmb (by rw [cm_length])
  obtain ⟨q4, p7, p8⟩ := kronMat_rep hL hS (r := r) (M := cm (ma * mb) r fun i j => ent (ma * mb + ma * mb) M (1 * (ma * mb) + i) j)
    h2 h5 hma hmb (by rw [cm_length])
  obtain ⟨q5, p9, p10⟩ := axpyQ_rep hax p6 p4
  obtain ⟨q6, p11, p12⟩ := axpyQ_rep hax p8 p10
  obtain ⟨q7, p13, p14⟩ := stackv_rep p2 p12
  refine ⟨q7, ?_, p14.to rfl rfl fun x hx i hi j hj => ?_⟩
  · rw [midRight, h2.ncols, h5.ncols, m1, bind_ok, m2, bind_ok, p1, bind_ok, p3, bind_ok, p5, bind_ok, p7, bind_ok, p9, bind_ok, p11,
      bind_ok, p13]
  · rw [sum_two, Mv]
    by_cases hi' : i < na * nb
    · simp only [if_pos hi']
      rw [sum_eq_zero (s := range (ma * mb)) (f := fun t => (if ma * mb + t < ma * mb then _ else 0) * _)
        (fun t ht => by rw [if_neg (by omega), zero_mul]), add_zero]
      refine sum_congr rfl fun t ht => ?_
      rw [if_pos (mem_range.1 ht), ent_cm _ (mem_range.1 ht) hj, Nat.zero_mul, Nat.zero_add]
    · simp only [if_neg hi']
      rw [← sum_add_distrib, add_comm]
      congr 1
      · refine sum_congr rfl fun t ht => ?_
        rw [if_pos (mem_range.1 ht), ent_cm _ (mem_range.1 ht) hj, Nat.zero_mul, Nat.zero_add]
        ring
      · refine sum_congr rfl fun t ht => ?_
        rw [if_neg (by omega), Nat.add_sub_cancel_left, ent_cm _ (mem_range.1 ht) hj, Nat.one_mul]

/-- C133: the routine for the last core in a left sweep, which the sweeps never call, multiplies `[A; B]` from the left. -/
theorem lastLeft_value {o : DmOps U} {ax : U → U → C U} (hL : LinLaw e o.lin F) (hS : SpLaw e o.lin F) (hax : AxLaw e F ax) {k r na nb m : Nat}
    {M : List ℝ} {dA A ddF dF Fc : Qma U} {VdA VA VddF VdF VF : ℝ → Nat → Nat → ℝ} (h1 : Rep e F k na m VdA dA) (h2 : Rep e F k na m VA A)
    (h3 : Rep e F k nb m VddF ddF) (h4 : Rep e F k nb m VdF dF) (h5 : Rep e F k nb m VF Fc) (hna : 0 < na) (hnb : 0 < nb)
    (hM : M.length = r * (na * nb + na * nb)) :
    ∃ Q, lastLeft o ax dA A ddF dF Fc M r = .ok Q ∧ Rep e F k r (m * m) (fun x i j =>
      ∑ t ∈ range (na * nb), ent r M i t * Mk nb m VA VF x t j
        + ∑ t ∈ range (na * nb), ent r M i (na * nb + t) * (Mk nb m VA VddF x t j + Mk nb m VdA VdF x t j)) Q := by
  rw [Nat.mul_add] at hM
  have hM2 : r * (na * nb) ≤ (M.drop (r * (na * nb))).length := by rw [List.length_drop]; omega
  obtain ⟨q1, p1, p2⟩ := matKron_rep hL hS (r := r) (M := M) h2 h5 hna hnb (by omega)
  obtain ⟨q2, p3, p4⟩ := matKron_rep hL hS (r := r) h1 h4 hna hnb hM2
  obtain ⟨q3, p5, p6⟩ := matKron_rep hL hS (r := r) h2 h3 hna hnb hM2
  obtain ⟨q5, p9, p10⟩ := axpyQ_rep hax p4 p2
  obtain ⟨q6, p11, p12⟩ := axpyQ_rep hax p6 p10
  refine ⟨q6, ?_, p12.to rfl rfl fun x hx i hi j hj => ?_⟩
  · have ho : r * A.nrows * Fc.nrows = r * (na * nb) := by rw [h2.nrows, h5.nrows, Nat.mul_assoc]
    rw [lastLeft, cassert_of (by rw [h2.ncols, h5.ncols, decide_eq_true rfl]), bind_ok, ho, p1, bind_ok, p3, bind_ok, p5, bind_ok, p9, bind_ok, p11]
  · simp only [ent_drop]
    rw [← add_assoc, ← sum_add_distrib, add_comm]
    congr 1
    exact sum_congr rfl fun t ht => by ring

/-- C133: the routine for the first core in a right sweep, which the sweeps never call, multiplies `[B A]` from the right. -/
theorem firstRight_value {o : DmOps U} {ax : U → U → C U} (hL : LinLaw e o.lin F) (hS : SpLaw e o.lin F) (hax : AxLaw e F ax) {k r n ma mb : Nat}
    {M : List ℝ} {dA A ddF dF Fc : Qma U} {VdA VA VddF VdF VF : ℝ → Nat → Nat → ℝ} (h1 : Rep e F k n ma VdA dA) (h2 : Rep e F k n ma VA A)
    (h3 : Rep e F k n mb VddF ddF) (h4 : Rep e F k n mb VdF dF) (h5 : Rep e F k n mb VF Fc) (hma : 0 < ma) (hmb : 0 < mb)
    (hM : M.length = (ma * mb + ma * mb) * r) :
    ∃ Q, firstRight o ax dA A ddF dF Fc M r = .ok Q ∧ Rep e F k (n * n) r (fun x i j =>
      ∑ t ∈ range (ma * mb), (Mk n mb VA VddF x i t + Mk n mb VdA VdF x i t) * ent (ma * mb + ma * mb) M t j
        + ∑ t ∈ range (ma * mb), Mk n mb VA VF x i t * ent (ma * mb + ma * mb) M (ma * mb + t) j) Q := by
  have m1 := halfMat_ok (r := r) (ac := ma) (fc := mb) (h := 0) (mat := M) (by omega) (by omega)
  have m2 := halfMat_ok (r := r) (ac := ma) (fc := mb) (h := 1) (mat := M) (by omega) (by omega)
  rw [Nat.zero_mul] at m1
  rw [Nat.one_mul] at m2
  obtain ⟨q1, p1, p2⟩ := kronMat_rep hL hS (r := r) (M := cm (ma * mb) r fun i j => ent (ma * mb + ma * mb) M (1 * (ma * mb) + i) j)
    h2 h5 hma hmb (by rw [cm_length])
  obtain ⟨q2, p3, p4⟩ := kronMat_rep hL hS (r := r) (M := cm (ma * mb) r fun i j => ent (ma * mb + ma * mb) M (0 * (ma * mb) + i) j)
    h1 h4 hma hmb (by rw [cm_length])
  obtain ⟨q3, p5, p6⟩ := kronMat_rep hL hS (r := r) (M := cm (ma * mb) r fun i j => ent (ma * mb + ma * mb) M (0 * (ma * mb) + i) j)
    h2 h3 hma hmb (by rw [cm_length])
  obtain ⟨q5, p9, p10⟩ := axpyQ_rep hax p4 p2
  obtain ⟨q6, p11, p12⟩ := axpyQ_rep hax p6 p10
  refine ⟨q6, ?_, p12.to rfl rfl fun x hx i hi j hj => ?_⟩
  · rw [firstRight, cassert_of (by rw [h2.nrows, h5.nrows, decide_eq_true rfl]), bind_ok, h2.ncols, h5.ncols, m1, bind_ok, m2, bind_ok,
      p1, bind_ok, p3, bind_ok, p5, bind_ok, p9, bind_ok, p11]
  · rw [← add_assoc, ← sum_add_distrib]
    congr 1
    · refine sum_congr rfl fun t ht => ?_
      rw [ent_cm _ (mem_range.1 ht) hj, Nat.zero_mul, Nat.zero_add]
      ring
    · refine sum_congr rfl fun t ht => ?_
      rw [ent_cm _ (mem_range.1 ht) hj, Nat.one_mul]

theorem difSup_target {o : DmOps U} {ax : U → U → C U} (hL : LinLaw e o.lin F) (hS : SpLaw e o.lin F) (hax : AxLaw e F ax)
    {dd : DmDiff U} (h : DdOk F dd) (h2 : 2 ≤ dd.A.dim) :
    Target e F dd.A.dim (bSz dd.A.dim fun k => dd.A.rk k * dd.F.rk k)
      (bMat dd.A.dim (fun k => dd.A.rk k * dd.F.rk k) (dA' e dd.A dd.F) (dB' e dd)) (difSup o ax dd) := by
  have hdim := h.dim
  have pa : ∀ k ≤ dd.A.dim, 0 < dd.A.rk k := fun k hk => h.a.pos k _ (h.a.wf.rk_get hk)
  have pf : ∀ k ≤ dd.A.dim, 0 < dd.F.rk k := fun k hk => h.f.pos k _ (h.f.wf.rk_get (by omega))
  have a0 := h.a.wf.rk_zero
  have f0 := h.f.wf.rk_zero
  have al := h.a.wf.rk_last
  have fl := h.f.wf.rk_last
  rw [hdim] at fl
  have sz : ∀ k, 0 < k → k < dd.A.dim → bSz dd.A.dim (fun k => dd.A.rk k * dd.F.rk k) k
      = dd.A.rk k * dd.F.rk k + dd.A.rk k * dd.F.rk k := fun k k0 k1 => by rw [bSz, if_neg (by omega)]
  refine ⟨h2, fun k hk => ?_, by rw [bSz, if_pos (Or.inl rfl)], by rw [bSz, if_pos (Or.inr rfl)], ?_, ?_, ?_, ?_⟩
  · rw [bSz]
    split
    · exact Nat.one_pos
    · have := Nat.mul_pos (pa k hk) (pf k hk); omega
  · obtain ⟨b, b1, b2, b3⟩ := endBlocks_ok hS hax h (k := 0) (by omega)
    obtain ⟨Q, q1, q2⟩ := stackh_rep b3 b2
    refine ⟨Q, ?_, q2.to (by rw [a0, f0]) (by rw [sz 1 (by omega) (by omega)]) fun x hx i hi j hj => ?_⟩
    · simp only [difSup]
      rw [if_pos trivial, if_pos trivial, b1, bind_ok, q1]
    · rw [Mh, bMat, if_pos rfl]
  · intro k r M k0 k1 hr hM
    rw [sz k k0 (by omega)] at hM
    obtain ⟨A, a1, a2⟩ := (Lst.of h.a).rep (e := e) (show k < dd.A.dim by omega)
    obtain ⟨Fc, f1, f2⟩ := h.lf.rep (e := e) (show k < dd.A.dim by omega)
    obtain ⟨dA, b1, b2⟩ := h.da.rep (e := e) (show k < dd.A.dim by omega)
    obtain ⟨dF, c1, c2⟩ := h.df.rep (e := e) (show k < dd.A.dim by omega)
    obtain ⟨ddF, d1, d2⟩ := h.ddf.rep (e := e) (show k < dd.A.dim by omega)
    obtain ⟨Q, q1, q2⟩ := midLeft_ok hL hS hax b2 a2 d2 c2 f2 (pa k (by omega)) (pf k (by omega)) hM
    refine ⟨Q, ?_, q2.to rfl (by rw [sz (k + 1) (by omega) (by omega)]) fun x hx i hi j hj => ?_⟩
    · simp only [difSup]
      rw [if_pos trivial, if_neg (by omega), if_pos (by omega), a1, bind_ok, f1, bind_ok, b1, bind_ok, c1, bind_ok, d1, bind_ok, q1]
    · rw [sz k k0 (by omega)]
      refine sum_congr rfl fun t ht => ?_
      rw [bMat, if_neg (show ¬ k = 0 by omega), if_neg (show ¬ k + 1 = dd.A.dim by omega)]
      rfl
  · obtain ⟨b, b1, b2, b3⟩ := endBlocks_ok hS hax h (k := dd.A.dim - 1) (by omega)
    obtain ⟨Q, q1, q2⟩ := stackv_rep b2 b3
    refine ⟨Q, ?_, q2.to (by rw [sz _ (by omega) (by omega)])
      (by rw [show dd.A.dim - 1 + 1 = dd.A.dim by omega, al, fl]) fun x hx i hi j hj => ?_⟩
    · simp only [difSup]
      rw [if_neg (by simp), if_pos trivial, b1, bind_ok, q1]
    · rw [Mv, bMat, if_neg (show ¬ dd.A.dim - 1 = 0 by omega), if_pos (show dd.A.dim - 1 + 1 = dd.A.dim by omega)]
  · intro k r M k0 k1 hr hM
    rw [sz (k + 1) (by omega) (by omega)] at hM
    obtain ⟨A, a1, a2⟩ := (Lst.of h.a).rep (e := e) (show k < dd.A.dim by omega)
    obtain ⟨Fc, f1, f2⟩ := h.lf.rep (e := e) (show k < dd.A.dim by omega)
    obtain ⟨dA, b1, b2⟩ := h.da.rep (e := e) (show k < dd.A.dim by omega)
    obtain ⟨dF, c1, c2⟩ := h.df.rep (e := e) (show k < dd.A.dim by omega)
    obtain ⟨ddF, d1, d2⟩ := h.ddf.rep (e := e) (show k < dd.A.dim by omega)
    obtain ⟨Q, q1, q2⟩ := midRight_ok hL hS hax b2 a2 d2 c2 f2 (pa (k + 1) (by omega)) (pf (k + 1) (by omega)) hM
    refine ⟨Q, ?_, q2.to (by rw [sz k k0 (by omega)]) rfl fun x hx i hi j hj => ?_⟩
    · simp only [difSup]
      rw [if_neg (by simp), if_neg (by omega), if_pos (by omega), a1, bind_ok, f1, bind_ok, b1, bind_ok, c1, bind_ok, d1, bind_ok, q1]
    · rw [sz (k + 1) (by omega) (by omega)]
      refine sum_congr rfl fun t ht => ?_
      rw [bMat, if_neg (show ¬ k = 0 by omega), if_neg (show ¬ k + 1 = dd.A.dim by omega)]
      rfl

theorem tval_fchain {s : Nat → Nat} {Y : Nat → ℝ → Nat → Nat → ℝ} {d : Nat} {xs : List ℝ} (hx : d ≤ xs.length) :
    tval s Y d xs = fchain s Y (crd xs) d 0 0 := by
  have key : ∀ n k r, k + n = d → chain (ym s Y k ((xs.take d).drop k)) r = fchain s Y (crd xs) n k r := by
    intro n
    induction n with
    | zero =>
      intro k r hk
      rw [List.drop_eq_nil_of_le (by simp; omega), ym, chain, fchain]
    | succ n ih =>
      intro k r hk
      have hkl : k < (xs.take d).length := by simp; omega
      rw [List.drop_eq_getElem_cons hkl, ym, chain, fchain]
      refine sum_congr rfl fun c hc => ?_
      rw [ih (k + 1) c (by omega), List.getElem_take, crd, List.getD_eq_getElem?_getD, List.getElem?_eq_getElem (by omega), Option.getD_some]
  have := key d 0 0 (by omega)
  rwa [List.drop_zero] at this

/-- What is known of the iteration. -/
theorem dmrgDiffusion_ok {o : DmOps U} (h : DLaws e F I o) (hS : SpLaw e o.lin F) {der : U → C U} (hd : DerLaw e F fun _ => der)
    {ax : U → U → C U} (hax : AxLaw e F ax) {a f : FT ℝ U} (ha : a.Ok F) (hf : f.Ok F) (hdim : f.dim = a.dim) (h2 : 2 ≤ a.dim)
    (thr delta : ℝ) (n : Nat) (eps : ℝ) :
    ∃ Y w, dmrgDiffusion o der ax a f thr delta n eps = .ok w.na ∧
      DI o e F a.dim (bSz a.dim fun k => a.rk k * f.rk k) Y f thr delta eps n w ∧
      ∀ x, InDom F a.dim x → ∃ v : Nat → ℝ,
        (∀ i < a.dim, ∃ G : ℝ → ℝ, (∀ t, HasDerivAt (fun t => value e f.cores (x.set i t)) (G t) t) ∧
          HasDerivAt (fun t => value e a.cores (x.set i t) * G t) (v i) (x.getD i 0)) ∧
        tval (bSz a.dim fun k => a.rk k * f.rk k) Y a.dim x = ∑ i ∈ range a.dim, v i := by
  have hLa := Lst.of ha
  have hLf := Lst.of hf
  rw [hdim] at hLf
  obtain ⟨da, a1, a2, a3, a4⟩ := mapL_ok (e := e) (R := fun f f' => ∀ x, HasDerivAt (e.ev f) (e.ev f' x) x) hd hLa
  obtain ⟨df, f1, f2, f3, f4⟩ := mapL_ok (e := e) (R := fun f f' => ∀ x, HasDerivAt (e.ev f) (e.ev f' x) x) hd hLf
  obtain ⟨ddf, k1, k2, k3, k4⟩ := mapL_ok (e := e) (R := fun f f' => ∀ x, HasDerivAt (e.ev f) (e.ev f' x) x) hd f3
  have hT := difSup_target (dd := ⟨a, f, da, df, ddf⟩) h.lin hS hax ⟨ha, hf, hdim, a3, f3, k3⟩ h2
  have hf' : ({ f with sp1 := none, sp2 := none, sp3 := none } : FT ℝ U).Ok F :=
    ⟨⟨hf.wf.dim, hf.wf.pos, hf.wf.ranks, hf.wf.fits⟩, hf.pos, hf.mem⟩
  obtain ⟨w, w1, w2⟩ := dmrgApprox_ok h hT hf' hdim thr delta n eps
  have sa0 := ha.wf.rk_zero
  have sad := ha.wf.rk_last
  have sf0 := hf.wf.rk_zero
  have sfd := hf.wf.rk_last
  rw [hdim] at sfd
  refine ⟨_, w, ?_, ⟨w2.ok, w2.dim, w2.phi, w2.psi, w2.zero, w2.pos, w2.go, w2.fin⟩, fun x hx => ?_⟩
  · rw [dmrgDiffusion, hdim, a1, bind_ok, f1, bind_ok, k1, bind_ok, copy_ok hf.wf, bind_ok, w1, bind_ok, pure_eq_ok]
  · obtain ⟨v, v1, v2⟩ := div_spec ha hf hdim a4 f4 k4 hx
    refine ⟨v, v1, ?_⟩
    rw [tval_fchain hx.len]
    dsimp only
    rw [bchain_zero (by simp only [sa0, sf0]) (by simp only [sad, sfd]) h2, ← v2]
    rfl

/-- C133 (partial): the diffusion operator by sweeps succeeds for every two trains of the same dimension, at least two, every
threshold, number of sweeps and tolerance; after a sweep the ranks are at most twice the products of the ranks, and with a
tolerance that cuts nothing off the value is the divergence of `a` times the gradient of `f` at every point. Missing: the error
for a positive tolerance. -/
theorem dmrg_diffusion_partial {o : DmOps U} (h : DLaws e F I o) (hS : SpLaw e o.lin F) {der : U → C U} (hd : DerLaw e F fun _ => der)
    {ax : U → U → C U} (hax : AxLaw e F ax) {a f : FT ℝ U} (ha : a.Ok F) (hf : f.Ok F) (hdim : f.dim = a.dim) (h2 : 2 ≤ a.dim)
    (thr delta : ℝ) (n : Nat) (eps : ℝ) :
    ∃ c, dmrgDiffusion o der ax a f thr delta n eps = .ok c ∧ c.Ok F ∧ c.dim = a.dim ∧
      (1 ≤ n → ∀ k ≤ a.dim, c.rk k ≤ 2 * (a.rk k * f.rk k)) ∧
      (1 ≤ n → eps ≤ 0 → ∀ x, InDom F a.dim x → ∃ v : Nat → ℝ,
        (∀ i < a.dim, ∃ G : ℝ → ℝ, (∀ t, HasDerivAt (fun t => value e f.cores (x.set i t)) (G t) t) ∧
          HasDerivAt (fun t => value e a.cores (x.set i t) * G t) (v i) (x.getD i 0)) ∧
        value e c.cores x = ∑ i ∈ range a.dim, v i) := by
  obtain ⟨Y, w, w1, w2, w3⟩ := dmrgDiffusion_ok h hS hd hax ha hf hdim h2 thr delta n eps
  have hc : 1 ≤ n → 1 ≤ w.cnt := fun hn => by
    cases hs : w.stop with
    | true => exact (w2.fin hs).1
    | false => rw [w2.go hs]; exact hn
  refine ⟨w.na, w1, w2.ok, w2.dim, fun hn k hk => ?_, fun hn he x hx => ?_⟩
  · refine ((w2.pos (hc hn)).ranks k hk).trans ?_
    have := Nat.mul_pos (ha.pos k _ (ha.wf.rk_get hk)) (hf.pos k _ (hf.wf.rk_get (by omega)))
    rw [bSz]
    split <;> omega
  · rw [(w2.pos (hc hn)).val he x hx]
    exact w3 x hx

/-- C133, disagreement: with no sweeps allowed the argument `f` itself is returned, not its image. -/
theorem dmrg_diffusion_nosweep_actual {o : DmOps U} (h : DLaws e F I o) (hS : SpLaw e o.lin F) {der : U → C U}
    (hd : DerLaw e F fun _ => der) {ax : U → U → C U} (hax : AxLaw e F ax) {a f : FT ℝ U} (ha : a.Ok F) (hf : f.Ok F)
    (hdim : f.dim = a.dim) (h2 : 2 ≤ a.dim) (thr delta eps : ℝ) :
    ∃ c, dmrgDiffusion o der ax a f thr delta 0 eps = .ok c ∧ c.ranks = f.ranks ∧
      ∀ x, InDom F a.dim x → value e c.cores x = value e f.cores x := by
  obtain ⟨Y, w, w1, w2, -⟩ := dmrgDiffusion_ok h hS hd hax ha hf hdim h2 thr delta 0 eps
  have hc : w.cnt = 0 := by
    cases hs : w.stop with
    | true => have := w2.fin hs; omega
    | false => exact w2.go hs
  exact ⟨w.na, w1, (w2.zero hc).1, (w2.zero hc).2⟩

end C3.Dmrg
