/-
C19, C20: integrals and inner products of trains. The specification is the iterated integral `iint` of the represented
function (or of the product of two represented functions) for any linear univariate integral.
-/
import Verif.Ft.MulProps
import Verif.Core.FillV

set_option linter.unusedSectionVars false

namespace C3.Ft
open Finset
variable {K U X : Type} [Field K]
variable {e : Ev K U X} {F : Fam U X} {I : Integ K X} {o : LOps K U} {int : U → C K} {inner : U → U → C K}

theorem FT.Ok.qok {ft : FT K U} (h : ft.Ok F) {k : Nat} {Q : Qma U} (hQ : ft.cores[k]? = some Q) : QOk F k Q := by
  have hk := (List.getElem?_eq_some_iff.1 hQ).1
  have := (h.wf.fits.get hk).1
  rw [(List.getElem?_eq_some_iff.1 hQ).2] at this
  exact ⟨this, h.mem k Q hQ⟩

theorem drop_get {cores : List (Qma U)} {k : Nat} {Q : Qma U} (hQ : cores[k]? = some Q) :
    cores.drop k = Q :: cores.drop (k + 1) := by
  obtain ⟨hk, rfl⟩ := List.getElem?_eq_some_iff.1 hQ
  exact List.drop_eq_getElem_cons hk

theorem getD_cm0 {n m p : Nat} (g : Nat → Nat → K) {i j : Nat} (hi : i < n) (hj : j < m) (hp : p = j * n + i) :
    (cm n m g).getD p 0 = g i j := by subst hp; exact getD_cm g 0 hi hj

/-- C19: the integral of a train is the iterated integral of the function it represents, for any dimension, ranks, and
linear univariate integral. -/
theorem integrate_value (hI : IntLaw F.D I) (hm : MemLaw e F I) (hq : QuadLaw e F I int) {ft : FT K U} (hft : ft.Ok F) :
    ftInt int ft = .ok (iint I 0 ft.dim (value e ft.cores)) := by
  have hd : 0 < ft.dim := by rw [hft.wf.dim]; exact hft.wf.len_pos
  have hspec := (iint_chain (F := F) (k := 0) (i := 0) hI hm hft.wf.fits
    (fun j Q hQ => by rw [Nat.zero_add]; exact hft.mem j Q hQ) (by decide)).2
  have : iint I 0 ft.dim (value e ft.cores) = ichain e I 0 ft.cores 0 := by rw [hft.wf.dim]; exact hspec
  rw [this]
  obtain ⟨Q, hQ1, hQ2, -, hQn, hQc, -⟩ := hft.get hd
  rw [ftInt, hQ1, bind_ok, qmaInt_value hq (hft.qok hQ2), bind_ok]
  rw [hft.wf.rk_zero] at hQn
  obtain ⟨t, h1, h2⟩ := forR_spec
    (I := fun ii (t : List K) => t.length = ft.rk ii ∧
      ∑ c ∈ range (ft.rk ii), t.getD c 0 * ichain e I ii (ft.cores.drop ii) c = ichain e I 0 ft.cores 0)
    (a := 1) (b := ft.dim) hd (s := cm Q.nrows Q.ncols fun i j => I.J 0 (fun x => Q.val e x i j))
    (body := fun ii t1 => do
      let Q ← rd ft.cores ii
      let t2 ← qmaInt int Q
      let r1 ← rd ft.ranks (ii + 1)
      let r0 ← rd ft.ranks ii
      dgemmNN 1 r1 r0 t1 1 t2 r0 (List.replicate r1 0) 1)
    (by
      refine ⟨by rw [cm_length, hQn, hQc, Nat.one_mul], ?_⟩
      have hd0 := drop_get hQ2
      rw [List.drop_zero] at hd0
      conv_rhs => rw [hd0, ichain]
      rw [hQc]
      refine sum_congr rfl fun c hc => ?_
      rw [getD_cm0 _ (i := 0) (j := c) (by omega) (mem_range.1 hc) (by rw [hQn]; omega)])
    (by
      rintro ii hi1 hi2 t ⟨ht1, ht2⟩
      obtain ⟨Q, hQ1, hQ2, -, hQn, hQc, -⟩ := hft.get hi2
      have hr1 : rd ft.ranks (ii + 1) = .ok (ft.rk (ii + 1)) := rd_of_getElem? (hft.wf.rk_get (by omega))
      have hr0 : rd ft.ranks ii = .ok (ft.rk ii) := rd_of_getElem? (hft.wf.rk_get (by omega))
      simp only [hQ1, bind_ok, qmaInt_value hq (hft.qok hQ2), hr1, hr0, hQn, hQc]
      rw [dgemmNN_ok (by omega) (by simp) (by simp)]
      refine ⟨_, rfl, by simp, ?_⟩
      rw [← ht2, drop_get hQ2]
      simp only [ichain, hQc, mul_sum]
      rw [sum_comm]
      refine sum_congr rfl fun c hc => ?_
      rw [getD_cm0 _ (i := 0) (j := c) (by omega) (mem_range.1 hc) (by omega), sum_mul]
      refine sum_congr rfl fun s hs => ?_
      rw [getD_cm0 _ (mem_range.1 hs) (mem_range.1 hc) rfl, Nat.mul_one, Nat.add_zero, mul_assoc])
  rw [h1, bind_ok]
  obtain ⟨h3, h4⟩ := h2
  rw [hft.wf.rk_last] at h3 h4
  rw [sum_range_one, List.drop_of_length_le (by rw [hft.wf.dim]), ichain, if_pos rfl, mul_one] at h4
  rw [rd_getD 0 (by omega), h4]

/-! ### Inner products -/

theorem kronInt_value (hin : InnerLaw e F I inner) {k : Nat} {a b : Qma U} (ha : QOk F k a) (hb : QOk F k b) :
    kronInt inner a b = .ok (cm (a.nrows * b.nrows) (a.ncols * b.ncols) fun i j =>
      I.J k (fun x => a.val e x (i / b.nrows) (j / b.ncols) * b.val e x (i % b.nrows) (j % b.ncols))) := by
  rw [kronInt, cm]
  refine FillsV.finish (T := fun p => ∃ ii < a.ncols, ∃ jj < a.nrows, ∃ kk < b.ncols, ∃ ll < b.nrows,
        p = (ii * b.ncols + kk) * (a.nrows * b.nrows) + (jj * b.nrows + ll)) ?_ ?_ (by simp; ring)
  · refine FillsV.forN fun ii hii => FillsV.forN fun jj hjj => FillsV.forN fun kk hkk => FillsV.forN fun ll hll => ?_
    obtain ⟨f, g, h1, h2, h3⟩ := ha.inner_get hin hb hjj hii hll hkk rfl rfl
    have hrow : jj * b.nrows + ll < a.nrows * b.nrows := by rw [Nat.mul_comm a.nrows]; exact cm_idx_lt hll hjj
    have hcol : ii * b.ncols + kk < a.ncols * b.ncols := by rw [Nat.mul_comm a.ncols]; exact cm_idx_lt hkk hii
    refine FillsV.bind h1 (FillsV.bind h2 (FillsV.bind h3 (FillsV.wr (cm_idx_lt hrow hcol) ?_)))
    rw [cm_mod hrow, cm_div hrow, cm_div hll, cm_mod hll, cm_div hkk, cm_mod hkk]
  · intro p hp
    obtain ⟨g1, g2, g3⟩ := divmod_of_lt hp
    obtain ⟨r1, r2, r3⟩ := divmod_of_lt (by rwa [Nat.mul_comm a.nrows] at g1 : _ < b.nrows * a.nrows)
    obtain ⟨c1, c2, c3⟩ := divmod_of_lt (by rwa [Nat.mul_comm a.ncols] at g2 : _ < b.ncols * a.ncols)
    refine ⟨_, c2, _, r2, _, c1, _, r1, ?_⟩
    rw [c3, r3, Nat.mul_comm b.nrows a.nrows, g3]

theorem copyK_ok {n : Nat} {t : List K} (h : t.length = n) : copyK n t = .ok t := by
  rw [copyK, if_neg (by omega), List.take_of_length_le (by omega)]

/-- Reordering of the four sums of one contraction step. -/
theorem swap4 {p q m n : Nat} (T : Nat → Nat → K) (G : Nat → Nat → Nat → Nat → K) (H : Nat → Nat → K) :
    ∑ ja ∈ range m, ∑ jb ∈ range n, (∑ ib ∈ range q, ∑ ia ∈ range p, T ia ib * G ia ib ja jb) * H ja jb
      = ∑ ia ∈ range p, ∑ ib ∈ range q, T ia ib * ∑ ja ∈ range m, ∑ jb ∈ range n, G ia ib ja jb * H ja jb := by
  simp only [sum_mul, mul_sum]
  calc _ = ∑ ja ∈ range m, ∑ ia ∈ range p, ∑ ib ∈ range q, ∑ jb ∈ range n, T ia ib * G ia ib ja jb * H ja jb := by
        refine sum_congr rfl fun ja _ => ?_
        rw [sum_comm]
        rw [sum_congr rfl fun ib _ => sum_comm]
        rw [sum_comm]
    _ = _ := by
        rw [sum_comm]
        refine sum_congr rfl fun ia _ => ?_
        rw [sum_comm]
        exact sum_congr rfl fun ib _ => sum_congr rfl fun ja _ => sum_congr rfl fun jb _ => by ring

/-- Integral of `(Σ_s w_s f_s) g` over the domain. -/
theorem J_lin_left (hI : IntLaw F.D I) {k n : Nat} {w : Nat → K} {v : Nat → X → K} {g u : X → K}
    (hv : ∀ s < n, I.V k (fun x => v s x * g x)) (hu : ∀ x, F.D k x → u x = (∑ s ∈ range n, w s * v s x) * g x) :
    I.V k u ∧ I.J k u = ∑ s ∈ range n, w s * I.J k (fun x => v s x * g x) := by
  obtain ⟨j1, j2⟩ := J_sum hI (k := k) n (w := w) (g := fun s x => v s x * g x) hv
  obtain ⟨c1, c2⟩ := hI.congr k _ u (fun x hx => by
    rw [hu x hx, sum_mul]; exact sum_congr rfl fun s _ => by ring) j1
  exact ⟨c1, by rw [← c2, j2]⟩

theorem getD_div {n m : Nat} {t : List K} (ht : t = cm n m (fun i j => t.getD (j * n + i) 0)) : t.length = n * m := by
  rw [ht]; simp

structure Pair (F : Fam U X) (a b : FT K U) : Prop where
  oka : a.Ok F
  okb : b.Ok F
  dim : a.dim = b.dim

/-- The specification of the inner product in terms of integrated chains. -/
theorem inner_spec (hI : IntLaw F.D I) (hm : MemLaw2 e F I) {a b : FT K U} (h : Pair F a b) :
    iint I 0 a.dim (fun x => value e a.cores x * value e b.cores x) = ichain2 e I 0 a.cores b.cores 0 0 := by
  have hlen : a.cores.length = b.cores.length := by rw [← h.oka.wf.dim, ← h.okb.wf.dim, h.dim]
  have := (iint_chain2 (F := F) (k := 0) (i := 0) (i' := 0) hI hm hlen h.oka.wf.fits h.okb.wf.fits
    (fun j Q hQ => by rw [Nat.zero_add]; exact h.oka.mem j Q hQ)
    (fun j Q hQ => by rw [Nat.zero_add]; exact h.okb.mem j Q hQ) (by decide) (by decide)).2
  rw [h.oka.wf.dim]; exact this

theorem ichain2_step {As Bs : List (Qma U)} {k i j : Nat} {A B : Qma U} (hA : As[k]? = some A) (hB : Bs[k]? = some B) :
    ichain2 e I k (As.drop k) (Bs.drop k) i j = ∑ c ∈ range A.ncols, ∑ d ∈ range B.ncols,
      I.J k (fun x => A.val e x i c * B.val e x j d) * ichain2 e I (k + 1) (As.drop (k + 1)) (Bs.drop (k + 1)) c d := by
  rw [drop_get hA, drop_get hB, ichain2]

theorem ichain2_end {As Bs : List (Qma U)} {k i j : Nat} (hA : As.length ≤ k) :
    ichain2 e I k (As.drop k) (Bs.drop k) i j = (if i = 0 then 1 else 0) * (if j = 0 then 1 else 0) := by
  rw [List.drop_of_length_le hA, ichain2]
  rintro A As B Bs ⟨⟩

/-- One step of `function_train_inner`. -/
theorem vecKronInt_value (hI : IntLaw F.D I) (hL : LinLaw e o F) (hm : MemLaw2 e F I) (hin : InnerLaw e F I inner) {k : Nat}
    {A B : Qma U} (hA : QOk F k A) (hB : QOk F k B) (hAn : 0 < A.nrows) {t : List K}
    (ht : A.nrows * B.nrows ≤ t.length) :
    vecKronInt o inner t A B = .ok (cm A.ncols B.ncols fun ja jb =>
      ∑ ib ∈ range B.nrows, ∑ ia ∈ range A.nrows,
        ent A.nrows t ia ib * I.J k (fun x => A.val e x ia ja * B.val e x ib jb)) := by
  obtain ⟨Q, q1, q2⟩ := qmatm_value (e := e) hL hA hAn ht
  rw [vecKronInt, q1, bind_ok, qmatqmatInt_actual hin hB q2.qok q2.ncols.symm, q2.nrows]
  congr 1
  refine cm_congr fun ja hja jb hjb => sum_congr rfl fun ib hib => ?_
  have hib := mem_range.1 hib
  refine (J_lin_left (v := fun ia x => A.val e x ia ja) (w := fun ia => ent A.nrows t ia ib) (g := fun x => B.val e x ib jb)
    hI (fun s hs => val_mem2 hm hA.wf hA.mem hB.wf hB.mem hs hja hib hjb) ?_).2
  intro x hx
  rw [q2.val x hx _ hja _ hib, mul_comm]
  exact congrArg (· * _) (sum_congr rfl fun s _ => mul_comm _ _)

/-- C20: `function_train_inner` is the iterated integral of the product, for all dimensions and ranks. -/
theorem inner_value (hI : IntLaw F.D I) (hL : LinLaw e o F) (hm : MemLaw2 e F I) (hin : InnerLaw e F I inner)
    {a b : FT K U} (ha : a.Ok F) (hb : b.Ok F) (hab : a.dim = b.dim) :
    ftInner o inner a b = .ok (iint I 0 a.dim (fun x => value e a.cores x * value e b.cores x)) := by
  have hp : Pair F a b := ⟨ha, hb, hab⟩
  have hd : 0 < a.dim := by rw [ha.wf.dim]; exact ha.wf.len_pos
  rw [inner_spec hI hm hp]
  obtain ⟨A, hA1, hA2, -, hAn, hAc, -⟩ := ha.get hd
  obtain ⟨B, hB1, hB2, -, hBn, hBc, -⟩ := hb.get (hab ▸ hd)
  rw [ha.wf.rk_zero] at hAn
  rw [hb.wf.rk_zero] at hBn
  rw [ftInner, cassert_of (decide_eq_true hab), bind_ok, hB1, bind_ok, hA1, bind_ok,
    kronInt_value hin (hb.qok hB2) (ha.qok hA2), bind_ok]
  obtain ⟨t, h1, h2, h3⟩ := forR_spec
    (I := fun ii (t : List K) => t.length = a.rk ii * b.rk ii ∧
      ∑ i ∈ range (a.rk ii), ∑ j ∈ range (b.rk ii), ent (a.rk ii) t i j *
        ichain2 e I ii (a.cores.drop ii) (b.cores.drop ii) i j = ichain2 e I 0 a.cores b.cores 0 0)
    (a := 1) (b := a.dim) hd
    (s := cm (B.nrows * A.nrows) (B.ncols * A.ncols) fun i j =>
      I.J 0 (fun x => B.val e x (i / A.nrows) (j / A.ncols) * A.val e x (i % A.nrows) (j % A.ncols)))
    (body := fun ii t => do
      let A ← rd a.cores ii
      let B ← rd b.cores ii
      let t2 ← vecKronInt o inner t A B
      copyK (A.ncols * B.ncols) t2)
    (by
      refine ⟨by rw [cm_length, hAn, hBn, hAc, hBc]; ring, ?_⟩
      have h0 := ichain2_step (e := e) (I := I) (i := 0) (j := 0) hA2 hB2
      rw [List.drop_zero, List.drop_zero] at h0
      rw [h0, hAc, hBc]
      refine sum_congr rfl fun i hi => sum_congr rfl fun j hj => ?_
      have hi := mem_range.1 hi
      have hj := mem_range.1 hj
      rw [ent, getD_cm0 _ (i := 0) (j := j * a.rk 1 + i) (by rw [hAn, hBn]; decide)
        (by rw [Nat.mul_comm (b.rk _)]; exact cm_idx_lt hi hj) (by rw [hAn, hBn]; omega)]
      rw [hAn, Nat.zero_div, Nat.zero_mod, cm_div hi, cm_mod hi]
      simp only [mul_comm])
    (by
      rintro ii hi1 hi2 t ⟨ht1, ht2⟩
      obtain ⟨A, hA1, hA2, -, hAn, hAc, -, hApos, -⟩ := ha.get hi2
      obtain ⟨B, hB1, hB2, -, hBn, hBc, -⟩ := hb.get (hab ▸ hi2)
      simp only [hA1, hB1, bind_ok]
      rw [vecKronInt_value hI hL hm hin (ha.qok hA2) (hb.qok hB2) hApos (by rw [hAn, hBn, ht1]), bind_ok,
        copyK_ok (by simp)]
      refine ⟨_, rfl, ?_, ?_⟩
      · rw [cm_length, hAc, hBc]
      · rw [← ht2]
        simp only [ichain2_step hA2 hB2, hAc, hBc, hAn, hBn]
        rw [← swap4 (T := fun i j => ent (a.rk ii) t i j)]
        refine sum_congr rfl fun ja hja => sum_congr rfl fun jb hjb => ?_
        rw [ent, getD_cm0 _ (mem_range.1 hja) (mem_range.1 hjb) rfl])
  rw [h1, bind_ok]
  rw [ha.wf.rk_last, hab, hb.wf.rk_last] at h2 h3
  rw [sum_range_one, sum_range_one, ichain2_end (by rw [← ha.wf.dim, hab]), if_pos rfl, mul_one, mul_one] at h3
  rw [rd_getD 0 (by omega), ← h3]; rfl

/-- C20: `function_train_inner2`. -/
theorem inner2_value (hI : IntLaw F.D I) (hL : LinLaw e o F) (hm : MemLaw2 e F I) (hin : InnerLaw e F I inner)
    {a b : FT K U} (ha : a.Ok F) (hb : b.Ok F) (hab : a.dim = b.dim) :
    ftInner2 o inner a b = .ok (iint I 0 a.dim (fun x => value e a.cores x * value e b.cores x)) := by
  have hp : Pair F a b := ⟨ha, hb, hab⟩
  have hd : 0 < a.dim := by rw [ha.wf.dim]; exact ha.wf.len_pos
  rw [inner_spec hI hm hp]
  obtain ⟨A, hA1, hA2, -, hAn, hAc, -⟩ := ha.get hd
  obtain ⟨B, hB1, hB2, -, hBn, hBc, -⟩ := hb.get (hab ▸ hd)
  rw [ha.wf.rk_zero] at hAn
  rw [hb.wf.rk_zero] at hBn
  rw [ftInner2, cassert_of (decide_eq_true hab), bind_ok, hA1, bind_ok, hB1, bind_ok,
    kronInt_value hin (ha.qok hA2) (hb.qok hB2), bind_ok]
  obtain ⟨t, h1, h2, h3⟩ := forR_spec
    (I := fun ii (t : List K) => t.length = b.rk ii * a.rk ii ∧
      ∑ i ∈ range (a.rk ii), ∑ j ∈ range (b.rk ii), ent (b.rk ii) t j i *
        ichain2 e I ii (a.cores.drop ii) (b.cores.drop ii) i j = ichain2 e I 0 a.cores b.cores 0 0)
    (a := 1) (b := a.dim) hd
    (s := cm (A.nrows * B.nrows) (A.ncols * B.ncols) fun i j =>
      I.J 0 (fun x => A.val e x (i / B.nrows) (j / B.ncols) * B.val e x (i % B.nrows) (j % B.ncols)))
    (body := fun ii t => do
      let A ← rd a.cores ii
      let B ← rd b.cores ii
      let At ← qmatm o B t A.nrows
      let t2 ← qmaqmaInt inner At A
      copyK (A.ncols * B.ncols) t2)
    (by
      refine ⟨by rw [cm_length, hAn, hBn, hAc, hBc]; ring, ?_⟩
      have h0 := ichain2_step (e := e) (I := I) (i := 0) (j := 0) hA2 hB2
      rw [List.drop_zero, List.drop_zero] at h0
      rw [h0, hAc, hBc]
      refine sum_congr rfl fun i hi => sum_congr rfl fun j hj => ?_
      have hi := mem_range.1 hi
      have hj := mem_range.1 hj
      rw [ent, getD_cm0 _ (i := 0) (j := i * b.rk 1 + j) (by rw [hAn, hBn]; decide)
        (by rw [Nat.mul_comm (a.rk _)]; exact cm_idx_lt hj hi) (by rw [hAn, hBn]; omega)]
      rw [hBn, Nat.zero_div, Nat.zero_mod, cm_div hj, cm_mod hj])
    (by
      rintro ii hi1 hi2 t ⟨ht1, ht2⟩
      obtain ⟨A, hA1, hA2, -, hAn, hAc, -, hApos, -⟩ := ha.get hi2
      obtain ⟨B, hB1, hB2, -, hBn, hBc, -, hBpos, -⟩ := hb.get (hab ▸ hi2)
      have qA := ha.qok hA2
      have qB := hb.qok hB2
      obtain ⟨Q, q1, q2⟩ := qmatm_value (e := e) hL qB hBpos (R := t) (b := A.nrows) (by rw [hAn, hBn, ht1])
      simp only [hA1, hB1, bind_ok]
      rw [q1, bind_ok, qmaqmaInt_value hin q2.qok qA q2.ncols, bind_ok, q2.nrows, q2.ncols,
        copyK_ok (by rw [cm_length, Nat.mul_comm])]
      refine ⟨_, rfl, ?_, ?_⟩
      · rw [cm_length, hAc, hBc]
      · rw [← ht2]
        simp only [ichain2_step hA2 hB2, hAc, hBc]
        rw [← swap4 (T := fun i j => ent (b.rk ii) t j i)]
        refine sum_congr rfl fun ja hja => sum_congr rfl fun jb hjb => ?_
        have hja := mem_range.1 hja
        have hjb := mem_range.1 hjb
        rw [ent, getD_cm0 _ hjb hja rfl, sum_comm, hAn]
        congr 1
        refine sum_congr rfl fun ia hia => ?_
        have hia := mem_range.1 hia
        have := (J_lin_left (v := fun ib x => B.val e x ib jb) (w := fun ib => ent B.nrows t ib ia)
          (g := fun x => A.val e x ia ja) (n := B.nrows) (u := fun x => Q.val e x jb ia * A.val e x ia ja) hI
          (fun s hs => val_mem2 hm qB.wf qB.mem qA.wf qA.mem hs (by omega) (by omega) (by omega)) (fun x hx => by
            rw [q2.val x hx _ (by omega) _ (by omega)]
            exact congrArg (· * _) (sum_congr rfl fun s _ => mul_comm _ _))).2
        rw [this, hBn]
        refine sum_congr rfl fun s _ => ?_
        simp only [mul_comm])
  rw [h1, bind_ok]
  rw [ha.wf.rk_last, hab, hb.wf.rk_last] at h2 h3
  rw [sum_range_one, sum_range_one, ichain2_end (by rw [← ha.wf.dim, hab]), if_pos rfl, mul_one, mul_one] at h3
  rw [rd_getD 0 (by omega), ← h3]; rfl

/-- C20: `function_train_inner_rl`. -/
theorem innerRl_value (hI : IntLaw F.D I) (hL : LinLaw e o F) (hm : MemLaw2 e F I) (hin : InnerLaw e F I inner)
    {a b : FT K U} (ha : a.Ok F) (hb : b.Ok F) (hab : a.dim = b.dim) :
    ftInnerRl o inner a b = .ok (iint I 0 a.dim (fun x => value e a.cores x * value e b.cores x)) := by
  have hp : Pair F a b := ⟨ha, hb, hab⟩
  have hd : 0 < a.dim := by rw [ha.wf.dim]; exact ha.wf.len_pos
  rw [inner_spec hI hm hp]
  obtain ⟨A, hA1, hA2, -, hAn, hAc, -⟩ := ha.get (show a.dim - 1 < a.dim by omega)
  obtain ⟨B, hB1, hB2, -, hBn, hBc, -⟩ := hb.get (show a.dim - 1 < b.dim by omega)
  rw [show a.dim - 1 + 1 = a.dim by omega, ha.wf.rk_last] at hAc
  rw [show a.dim - 1 + 1 = a.dim by omega, hab, hb.wf.rk_last] at hBc
  rw [ftInnerRl, cassert_of (decide_eq_true hab), bind_ok, ftInnerRl.cassert', if_neg (by omega), bind_ok, hA1, bind_ok,
    hB1, bind_ok, kronInt_value hin (ha.qok hA2) (hb.qok hB2), bind_ok]
  obtain ⟨t, h1, h2, h3⟩ := forR_spec
    (I := fun ii (t : List K) => t.length = b.rk (a.dim - ii) * a.rk (a.dim - ii) ∧
      ∀ i < a.rk (a.dim - ii), ∀ j < b.rk (a.dim - ii), ent (b.rk (a.dim - ii)) t j i =
        ichain2 e I (a.dim - ii) (a.cores.drop (a.dim - ii)) (b.cores.drop (a.dim - ii)) i j)
    (a := 1) (b := a.dim) hd
    (s := cm (A.nrows * B.nrows) (A.ncols * B.ncols) fun i j =>
      I.J (a.dim - 1) (fun x => A.val e x (i / B.nrows) (j / B.ncols) * B.val e x (i % B.nrows) (j % B.ncols)))
    (body := fun ii t => do
      let A ← rd a.cores (a.dim - 1 - ii)
      let B ← rd b.cores (a.dim - 1 - ii)
      let A' ← qmam o B t A.ncols
      let t2 ← qmaqmatInt inner A' A
      copyK (A.nrows * B.nrows) t2)
    (by
      refine ⟨by rw [cm_length, hAn, hBn, hAc, hBc]; ring, ?_⟩
      intro i hi j hj
      rw [ichain2_step hA2 hB2, hAc, hBc, sum_range_one, sum_range_one, show a.dim - 1 + 1 = a.dim by omega,
        ichain2_end (by rw [← ha.wf.dim]), if_pos rfl, mul_one, mul_one]
      rw [ent, getD_cm0 _ (i := i * b.rk (a.dim - 1) + j) (j := 0)
        (by rw [hAn, hBn, Nat.mul_comm (a.rk _)]; exact cm_idx_lt hj hi) (by omega) (by omega)]
      rw [hBn, cm_div hj, cm_mod hj, Nat.zero_div, Nat.zero_mod, mul_one])
    (by
      rintro ii hi1 hi2 t ⟨ht1, ht2⟩
      rw [show a.dim - ii = a.dim - 1 - ii + 1 by omega] at ht1 ht2
      rw [show a.dim - (ii + 1) = a.dim - 1 - ii by omega]
      obtain ⟨A, hA1, hA2, -, hAn, hAc, -, -, hApos⟩ := ha.get (show a.dim - 1 - ii < a.dim by omega)
      obtain ⟨B, hB1, hB2, -, hBn, hBc, -, -, hBpos⟩ := hb.get (show a.dim - 1 - ii < b.dim by omega)
      have qA := ha.qok hA2
      have qB := hb.qok hB2
      obtain ⟨Q, q1, q2⟩ := qmam_value (e := e) hL qB hBpos (R := t) (b := A.ncols) (by rw [hAc, hBc, ht1])
      simp only [hA1, hB1, bind_ok]
      rw [q1, bind_ok, qmaqmatInt_value hin q2.qok qA q2.ncols, bind_ok, q2.nrows, q2.ncols,
        copyK_ok (by rw [cm_length, Nat.mul_comm])]
      refine ⟨_, rfl, ?_, ?_⟩
      · rw [cm_length, hAn, hBn]
      · intro i hi j hj
        rw [ichain2_step hA2 hB2, ent, hBn, getD_cm0 _ hj (by omega) rfl]
        refine sum_congr rfl fun ja hja => ?_
        have hja := mem_range.1 hja
        have := (J_lin_left (v := fun jb x => B.val e x j jb) (w := fun jb => ent B.ncols t jb ja)
          (g := fun x => A.val e x i ja) (n := B.ncols) (u := fun x => Q.val e x j ja * A.val e x i ja) hI
          (fun s hs => val_mem2 hm qB.wf qB.mem qA.wf qA.mem (by omega) hs (by omega) (by omega)) (fun x hx => by
            rw [q2.val x hx _ (by omega) _ (by omega)]
            exact congrArg (· * _) (sum_congr rfl fun s _ => mul_comm _ _))).2
        rw [this]
        refine sum_congr rfl fun jb hjb => ?_
        have hjb := mem_range.1 hjb
        rw [hBc, ht2 ja (by omega) jb (by omega)]
        simp only [mul_comm])
  rw [h1, bind_ok]
  rw [Nat.sub_self, ha.wf.rk_zero, hb.wf.rk_zero] at h2 h3
  have h4 := h3 0 (by decide) 0 (by decide)
  rw [List.drop_zero, List.drop_zero] at h4
  rw [rd_getD 0 (by omega), ← h4]; rfl

end C3.Ft
