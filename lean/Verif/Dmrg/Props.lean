/-
Alternating sweeps for a function given by its cores, and the product of two function trains (C132).
-/
import Verif.Dmrg.Right
import Verif.Round.Main

set_option linter.unusedSectionVars false

namespace C3.Dmrg
open Finset C3.Ft C3.Round
variable {U X : Type} {e : Ev ℝ U X} {F : Fam U X} {I : Integ ℝ X}

/-- The contracts of the univariate routines and decompositions. -/
structure DLaws (e : Ev ℝ U X) (F : Fam U X) (I : Integ ℝ X) (o : DmOps U) : Prop extends Laws e F I o.toRdOps where
  qrF : QrLaw e F I o.qrF
  lqF : LqLaw e F I o.lqF

theorem superAll_ok {o : DmOps U} (h : DLaws e F I o) {d : Nat} {s : Nat → Nat} {Y : Nat → X → Nat → Nat → ℝ} {f : Sup U}
    (hT : Target e F d s Y f) {z : FT ℝ U} (hz : z.Ok F) (hd : z.dim = d) :
    ∃ psir, superAll o f z = .ok psir ∧ PsiOk e F d s Y psir := by
  have h2 := hT.two
  obtain ⟨A, a1, a2⟩ := hT.last
  obtain ⟨q, q1, q2, q3, q4⟩ := qrLeft_ok h.lqF a2 (hT.pos _ (by omega)) Nat.one_pos
  have hlast : LastOk e F d s Y q := ⟨q2, q3, fun x hx i hi => q4 x hx i hi 0 Nat.one_pos⟩
  have w1 : wr (List.replicate (d - 1) (none : Option (QRs U))) (d - 2) (some q) = .ok ((List.replicate (d - 1) none).set (d - 2) (some q)) :=
    wr_ok _ (by simp; omega)
  have hzl : z.rk d = 1 := by rw [← hd]; exact hz.wf.rk_last
  obtain ⟨psir, p1, p2, p3, p4⟩ := forN_spec (n := d - 2) (body := superStep o f z)
    (s := (List.replicate (d - 1) (none : Option (QRs U))).set (d - 2) (some q))
    (I := fun jj (r : List (Option (QRs U))) => r.length = d - 1 ∧ r[d - 2]? = some (some q) ∧
      ∀ k, d - 2 - jj ≤ k → k < d - 1 → ∃ p, r[k]? = some (some p) ∧ ROk F (k + 1) (s (k + 1)) p ∧ p.Q.ncols = z.rk (k + 2))
    (by
      refine ⟨by simp, List.getElem?_set_self (by simp; omega), fun k h1 h3 => ?_⟩
      have : k = d - 2 := by omega
      subst this
      refine ⟨q, List.getElem?_set_self (by simp; omega), ?_, ?_⟩
      · rw [show d - 2 + 1 = d - 1 by omega]; exact q2
      · rw [show d - 2 + 2 = d by omega, hzl]; exact q3)
    (by
      intro jj hj r ⟨r1, r2, r3⟩
      obtain ⟨ii, hii⟩ : ∃ ii, ii = d - 3 - jj := ⟨_, rfl⟩
      obtain ⟨p, p1, p2, p3⟩ := r3 (ii + 1) (by omega) (by omega)
      obtain ⟨Z, z1, z2, z3, z4, z5, z6, z7, z8⟩ := hz.get (k := ii + 2) (by omega)
      have v1 := qmaqmatInt_value (I := I) h.inner (a := p.Q) (b := Z) (k := ii + 2) p2.ok ⟨z3, z6⟩ (by rw [p3, z5])
      obtain ⟨A, b1, b2⟩ := hT.right (ii + 1) Z.nrows (cm p.Q.nrows Z.nrows fun i j =>
        ∑ t ∈ range p.Q.ncols, I.J (ii + 2) (fun x => p.Q.val e x i t * Z.val e x j t)) (by omega) (by omega) z7
        (by rw [p2.rows]; simp)
      obtain ⟨q', c1, c2, c3, -⟩ := qrLeft_ok h.lqF b2 (hT.pos _ (by omega)) z7
      refine ⟨r.set ii (some q'), ?_, by simp [r1], ?_, fun k k1 k2 => ?_⟩
      · rw [superStep, hd, ← hii, rdp_ok p1, bind_ok, z1, bind_ok, superR, v1, bind_ok, b1, bind_ok, c1, bind_ok,
          wr_ok _ (by omega)]
      · rw [List.getElem?_set_ne (by omega)]; exact r2
      · by_cases hk : k = ii
        · subst hk
          exact ⟨q', List.getElem?_set_self (by omega), c2, by rw [c3, z4]⟩
        · rw [List.getElem?_set_ne (Ne.symm hk)]
          exact r3 k (by omega) k2)
  refine ⟨psir, ?_, p2, fun k hk => ?_, q, p3, hlast⟩
  · rw [superAll, hd, a1, bind_ok, q1, bind_ok, w1, bind_ok, p1]
  · obtain ⟨p, b1, b2, -⟩ := p4 k (by omega) hk
    exact ⟨p, b1, b2⟩

/-- What is known after some sweeps. -/
structure DI (o : DmOps U) (e : Ev ℝ U X) (F : Fam U X) (d : Nat) (s : Nat → Nat) (Y : Nat → X → Nat → Nat → ℝ) (z : FT ℝ U)
    (thr delta eps : ℝ) (n : Nat) (w : Dst U) : Prop where
  ok : w.na.Ok F
  dim : w.na.dim = d
  phi : PhiIn e F d s Y w.phil
  psi : PsiOk e F d s Y w.psir
  zero : w.cnt = 0 → w.na.ranks = z.ranks ∧ ∀ xs, InDom F d xs → value e w.na.cores xs = value e z.cores xs
  pos : 1 ≤ w.cnt → Swept e F d s Y eps w.na
  go : w.stop = false → w.cnt = n
  fin : w.stop = true → 1 ≤ w.cnt ∧ w.cnt ≤ n ∧
    ∃ prev diff, prev.Ok F ∧ prev.dim = d ∧ relnorm2diff o.lin o.inner thr w.na prev = .ok diff ∧ diff < delta ∧
      (2 ≤ w.cnt → Swept e F d s Y eps prev)

theorem Swept.copy {d : Nat} {s : Nat → Nat} {Y : Nat → X → Nat → Nat → ℝ} {eps : ℝ} {na : FT ℝ U} (h : Swept e F d s Y eps na) :
    Swept e F d s Y eps { na with sp1 := none, sp2 := none, sp3 := none } :=
  ⟨⟨⟨h.ok.wf.dim, h.ok.wf.pos, h.ok.wf.ranks, h.ok.wf.fits⟩, h.ok.pos, h.ok.mem⟩, h.dim, h.ranks, h.val⟩

theorem relnorm_copy {o : LOps ℝ U} {inner : U → U → C ℝ} {thr : ℝ} (a b : FT ℝ U) :
    relnorm2diff o inner thr { a with sp1 := none, sp2 := none, sp3 := none } b = relnorm2diff o inner thr a b := rfl

theorem dmrgStep_ok {o : DmOps U} (h : DLaws e F I o) {d : Nat} {s : Nat → Nat} {Y : Nat → X → Nat → Nat → ℝ} {f : Sup U}
    (hT : Target e F d s Y f) {z : FT ℝ U} {thr delta eps : ℝ} {n : Nat} {w : Dst U} (hw : DI o e F d s Y z thr delta eps n w) :
    ∃ w', dmrgStep o f thr delta eps n w = .ok w' ∧ DI o e F d s Y z thr delta eps (n + 1) w' := by
  rw [dmrgStep]
  by_cases hs : w.stop = true
  · refine ⟨w, by rw [if_pos hs, pure_eq_ok], hw.ok, hw.dim, hw.phi, hw.psi, hw.zero, hw.pos, fun h => ?_, fun h => ?_⟩
    · rw [hs] at h; cases h
    · obtain ⟨h1, h2, h3⟩ := hw.fin h
      exact ⟨h1, by omega, h3⟩
  · obtain ⟨a, ph, a1, a2, a3⟩ := sweepLR_ok h.lin h.qrF h.svd hT hw.phi hw.psi eps
    obtain ⟨b, ps, b1, b2, b3⟩ := sweepRL_ok h.lin h.lqF h.svd hT a3 hw.psi eps
    have h2 := hT.two
    obtain ⟨c, g, c1, c2, -, -, c3, c4, -⟩ := diff_train h.int h.lin h.mem h.inner b2.ok hw.ok (b2.dim.trans hw.dim.symm)
      (by rw [b2.dim]; exact h2)
    obtain ⟨diff, hdiff⟩ : ∃ diff, relnorm2diff o.lin o.inner thr b w.na = .ok diff := by
      rw [relnorm2diff, bind_of_bind c1, c3, bind_ok, c2, bind_ok, c4, bind_ok, pure_eq_ok]
      exact ⟨_, rfl⟩
    have hs' : w.stop = false := by simpa using hs
    refine ⟨⟨{ b with sp1 := none, sp2 := none, sp3 := none }, ph, ps, decide (diff < delta), w.cnt + 1⟩, ?_, b2.copy.ok, b2.dim,
      a3.toIn, b3, fun h => by simp at h, fun _ => b2.copy, fun _ => by rw [hw.go hs'], fun hst => ?_⟩
    · rw [if_neg hs, hw.dim, a1, bind_ok]
      dsimp only
      rw [a2.dim, b1, bind_ok]
      dsimp only
      rw [hdiff, bind_ok, copy_ok b2.ok.wf, bind_ok, pure_eq_ok]
    · refine ⟨by dsimp only; omega, by dsimp only; rw [hw.go hs'], w.na, diff, hw.ok, hw.dim, ?_, by simpa using hst, fun hc => hw.pos ?_⟩
      · rw [relnorm_copy]; exact hdiff
      · dsimp only at hc; omega

/-- The whole iteration for any target given by its cores. -/
theorem dmrgApprox_ok {o : DmOps U} (h : DLaws e F I o) {d : Nat} {s : Nat → Nat} {Y : Nat → X → Nat → Nat → ℝ} {f : Sup U}
    (hT : Target e F d s Y f) {z : FT ℝ U} (hz : z.Ok F) (hd : z.dim = d) (thr delta : ℝ) (n : Nat) (eps : ℝ) :
    ∃ w, dmrgApprox o f z thr delta n eps = .ok w ∧ DI o e F d s Y z thr delta eps n w := by
  have h2 := hT.two
  obtain ⟨y, y1, y2, y3, y4, y5, -⟩ := orthor_ok (I := I) h.lin h.lq hz (by omega)
  obtain ⟨ps, p1, p2⟩ := superAll_ok h hT y2 (by rw [y3, hd])
  obtain ⟨w, w1, w2⟩ := forN_spec (n := n) (body := dmrgStep o f thr delta eps)
    (s := ⟨y, List.replicate (z.dim - 1) none, ps, false, 0⟩) (I := fun k w => DI o e F d s Y z thr delta eps k w)
    ⟨y2, y3.trans hd, ⟨by simp [hd], fun p hp => by
        rw [List.getElem?_replicate] at hp
        split at hp <;> simp at hp⟩, p2, fun _ => ⟨y4, fun xs hxs => y5 xs (by rw [hd]; exact hxs)⟩, fun h => by simp at h,
      fun _ => rfl, fun h => by cases h⟩
    (fun k _ w hw => dmrgStep_ok h hT hw)
  exact ⟨w, by rw [dmrgApprox, y1, bind_ok, p1, bind_ok, w1], w2⟩

/-! The product of two trains as a target. -/

/-- The cores of the product. -/
noncomputable def pcore (e : Ev ℝ U X) (a b : FT ℝ U) (k : Nat) : X → Nat → Nat → ℝ :=
  Mk (b.rk k) (b.rk (k + 1)) (valAt e a k) (valAt e b k)

theorem prodSup_target {o : DmOps U} (hL : LinLaw e o.lin F) (hS : SpLaw e o.lin F) {a b : FT ℝ U} (ha : a.Ok F) (hb : b.Ok F)
    (hab : a.dim = b.dim) (h2 : 2 ≤ a.dim) :
    Target e F a.dim (fun k => a.rk k * b.rk k) (pcore e a b) (prodSup o a b) := by
  have hk : ∀ k < a.dim, ∃ A, (rd a.cores k >>= fun A => rd b.cores k >>= fun B => kron o.lin.toOps A B) = .ok A ∧
      Rep e F k (a.rk k * b.rk k) (a.rk (k + 1) * b.rk (k + 1)) (pcore e a b k) A := by
    intro k hk
    obtain ⟨A, hA, gA, wA, nA, mA, pA, zA, zA'⟩ := ha.get (k := k) hk
    obtain ⟨B, hB, gB, wB, nB, mB, pB, -⟩ := hb.get (k := k) (by omega)
    obtain ⟨Q, hQ, rQ⟩ := kron_ok hS.prod (k := k) wA wB pA pB
    refine ⟨Q, by rw [hA, bind_ok, hB, bind_ok, hQ], ?_⟩
    rw [pcore, valAt_eq gA, valAt_eq gB, ← nA, ← nB, ← mA, ← mB]
    exact rQ
  refine ⟨h2, fun k hk => Nat.mul_pos (ha.pos k _ (ha.wf.rk_get hk)) (hb.pos k _ (hb.wf.rk_get (by omega))), ?_, ?_, ?_, ?_, ?_, ?_⟩
  · rw [ha.wf.rk_zero, hb.wf.rk_zero]
  · rw [ha.wf.rk_last, hab, hb.wf.rk_last]
  · obtain ⟨A, h1, h3⟩ := hk 0 (by omega)
    refine ⟨A, ?_, ?_⟩
    · rw [prodSup, if_pos rfl, if_pos rfl]; exact h1
    · exact h3.congr (by rw [ha.wf.rk_zero, hb.wf.rk_zero]) rfl
  · intro k r M k0 k1 hr hM
    obtain ⟨A, hA, gA, wA, nA, mA, pA, zA, zA'⟩ := ha.get (k := k) (by omega)
    obtain ⟨B, hB, gB, wB, nB, mB, pB, zB, zB'⟩ := hb.get (k := k) (by omega)
    obtain ⟨Q, hQ, rQ⟩ := matKron_value (k := k) (r := r) (a := M) hL hS ⟨wA, pA⟩ ⟨wB, pB⟩ zA zB (by rw [hM, nA, nB])
    refine ⟨Q, ?_, ?_⟩
    · rw [prodSup, if_pos rfl, if_neg (by omega), hA, bind_ok, hB, bind_ok]; exact hQ
    · refine ⟨rQ.nrows, by rw [rQ.ncols, mA, mB], rQ.wf, rQ.mem, fun x hx i hi j hj => ?_⟩
      rw [rQ.val x hx i hi j (by rw [mA, mB]; exact hj), ← sum_range_mul_divmod (f := fun s t =>
        ent r M i (s * B.nrows + t) * (A.val e x s (j / B.ncols) * B.val e x t (j % B.ncols)))]
      rw [nA, nB, mB]
      refine sum_congr rfl fun t ht => ?_
      rw [pcore, Mk, valAt_eq gA, valAt_eq gB, Nat.div_add_mod']
  · obtain ⟨A, h1, h3⟩ := hk (a.dim - 1) (by omega)
    refine ⟨A, ?_, ?_⟩
    · rw [prodSup, if_neg (by simp), if_pos rfl]; exact h1
    · exact h3.congr rfl (by rw [show a.dim - 1 + 1 = a.dim by omega, ha.wf.rk_last, hab, hb.wf.rk_last])
  · intro k r M k0 k1 hr hM
    obtain ⟨A, hA, gA, wA, nA, mA, pA, zA, zA'⟩ := ha.get (k := k) (by omega)
    obtain ⟨B, hB, gB, wB, nB, mB, pB, zB, zB'⟩ := hb.get (k := k) (by omega)
    obtain ⟨Q, hQ, rQ⟩ := kronMat_value (k := k) (r := r) (a := M) hL hS ⟨wA, pA⟩ ⟨wB, pB⟩ zA' zB' (by rw [hM, mA, mB])
    refine ⟨Q, ?_, ?_⟩
    · rw [prodSup, if_neg (by simp), if_neg (by omega), hA, bind_ok, hB, bind_ok]; exact hQ
    · refine ⟨by rw [rQ.nrows, nA, nB], rQ.ncols, rQ.wf, rQ.mem, fun x hx i hi j hj => ?_⟩
      rw [rQ.val x hx i (by rw [nA, nB]; exact hi) j hj, ← sum_range_mul_divmod (f := fun s t =>
        (A.val e x (i / B.nrows) s * B.val e x (i % B.nrows) t) * ent (A.ncols * B.ncols) M (s * B.ncols + t) j)]
      rw [mA, mB, nB]
      refine sum_congr rfl fun t ht => ?_
      rw [pcore, Mk, valAt_eq gA, valAt_eq gB, Nat.div_add_mod']

theorem chain_ym_prod {a b : FT ℝ U} (ha : a.Ok F) (hb : b.Ok F) (hab : a.dim = b.dim) {xs : List X}
    (hx : InDom F a.dim xs) : tval (fun k => a.rk k * b.rk k) (pcore e a b) a.dim xs = value e a.cores xs * value e b.cores xs := by
  obtain ⟨d, hdd⟩ : ∃ d, d = a.dim := ⟨_, rfl⟩
  have la : a.cores.length = d := by rw [← ha.wf.dim, hdd]
  have lb : b.cores.length = d := by rw [← hb.wf.dim, hdd, hab]
  have hxa : InDom F a.cores.length xs := by rw [la, hdd]; exact hx
  have hxb : InDom F b.cores.length xs := by rw [lb, hdd]; exact hx
  have hxl : d ≤ xs.length := by rw [hdd]; exact hx.len
  have ral : a.rk d = 1 := by rw [hdd]; exact ha.wf.rk_last
  have rbl : b.rk d = 1 := by rw [hdd, hab]; exact hb.wf.rk_last
  have tail : ∀ n k, k + n = d → ∀ i < a.rk k * b.rk k,
      chain (ym (fun k => a.rk k * b.rk k) (pcore e a b) k ((xs.take d).drop k)) i
        = chain ((mats e a.cores xs).drop k) (i / b.rk k) * chain ((mats e b.cores xs).drop k) (i % b.rk k) := by
    intro n
    induction n with
    | zero =>
      intro k hk i hi
      have hk : k = d := by omega
      subst hk
      rw [ral, rbl] at hi
      have : i = 0 := by omega
      subst this
      rw [rbl]
      have e2 := chain_end (e := e) hxa.len (i := 0)
      have e3 := chain_end (e := e) hxb.len (i := 0)
      rw [la] at e2; rw [lb] at e3
      rw [List.drop_eq_nil_of_le (by simp)]
      simp [e2, e3, ym, chain]
    | succ n ih =>
      intro k hk i hi
      have ih' := ih (k + 1) (by omega)
      obtain ⟨g1, g2, -⟩ := divmod_of_lt (by rwa [Nat.mul_comm] at hi : i < b.rk k * a.rk k)
      have hkl : k < (xs.take d).length := by simp; omega
      rw [List.drop_eq_getElem_cons hkl, ym, chain, chain_rep ha.core' hxa (k := k) (by omega) g2,
        chain_rep hb.core' hxb (k := k) (by omega) g1, sum_mul_sum, ← sum_range_mul_divmod]
      refine sum_congr rfl fun c hc => ?_
      rw [ih' c (mem_range.1 hc), List.getElem_take]
      show Mk _ _ _ _ _ _ _ * _ = _
      rw [Mk]
      ring
  have ra0 := ha.wf.rk_zero
  have rb0 := hb.wf.rk_zero
  have := tail d 0 (by omega) 0 (by rw [ra0, rb0]; omega)
  rw [tval, ← hdd]
  simpa [value, rb0] using this

/-- C132 (partial): the alternating product of two trains succeeds for every starting train, threshold, number of sweeps and
tolerance; after a sweep the ranks are at most the products of the ranks, and with a tolerance that cuts nothing off the result is
the product at every point. Missing: the error for a positive tolerance. -/
theorem dmrg_product_partial {o : DmOps U} (h : DLaws e F I o) (hS : SpLaw e o.lin F) {a b : FT ℝ U} (ha : a.Ok F) (hb : b.Ok F)
    (hab : a.dim = b.dim) (h2 : 2 ≤ a.dim) {z : Option (FT ℝ U)} (hz : ∀ g, z = some g → g.Ok F ∧ g.dim = a.dim)
    (thr delta : ℝ) (n : Nat) (eps : ℝ) :
    ∃ c, dmrgProduct o z a b thr delta n eps = .ok c ∧ c.Ok F ∧ c.dim = a.dim ∧
      (1 ≤ n → ∀ k ≤ a.dim, c.rk k ≤ a.rk k * b.rk k) ∧
      (1 ≤ n → eps ≤ 0 → ∀ xs, InDom F a.dim xs → value e c.cores xs = value e a.cores xs * value e b.cores xs) := by
  have hT := prodSup_target h.lin hS ha hb hab h2
  have key : ∀ g : FT ℝ U, g.Ok F → g.dim = a.dim → ∃ w, dmrgApprox o (prodSup o a b) g thr delta n eps = .ok w ∧ w.na.Ok F ∧
      w.na.dim = a.dim ∧ (1 ≤ n → ∀ k ≤ a.dim, w.na.rk k ≤ a.rk k * b.rk k) ∧
      (1 ≤ n → eps ≤ 0 → ∀ xs, InDom F a.dim xs → value e w.na.cores xs = value e a.cores xs * value e b.cores xs) := by
    intro g hg hgd
    obtain ⟨w, w1, w2⟩ := dmrgApprox_ok h hT hg hgd thr delta n eps
    have hc : 1 ≤ n → 1 ≤ w.cnt := fun hn => by
      cases hs : w.stop with
      | true => exact (w2.fin hs).1
      | false => rw [w2.go hs]; exact hn
    refine ⟨w, w1, w2.ok, w2.dim, fun hn => (w2.pos (hc hn)).ranks, fun hn he xs hxs => ?_⟩
    rw [(w2.pos (hc hn)).val he xs hxs, chain_ym_prod ha hb hab hxs]
  cases z with
  | some g =>
    obtain ⟨hg, hgd⟩ := hz g rfl
    obtain ⟨w, w1, w2⟩ := key g hg hgd
    exact ⟨w.na, by rw [dmrgProduct, pure_eq_ok, bind_ok]; dsimp only; rw [w1, bind_ok, pure_eq_ok], w2⟩
  | none =>
    have ha' : ({ a with sp1 := none, sp2 := none, sp3 := none } : FT ℝ U).Ok F :=
      ⟨⟨ha.wf.dim, ha.wf.pos, ha.wf.ranks, ha.wf.fits⟩, ha.pos, ha.mem⟩
    obtain ⟨w, w1, w2⟩ := key _ ha' rfl
    exact ⟨w.na, by rw [dmrgProduct, copy_ok ha.wf, bind_ok]; dsimp only; rw [w1, bind_ok, pure_eq_ok], w2⟩

/-- C132: the sweeps stop early only when the last one changed the function, relatively, by less than `delta`. -/
theorem dmrg_stop {o : DmOps U} (h : DLaws e F I o) (hS : SpLaw e o.lin F) {a b g : FT ℝ U} (ha : a.Ok F) (hb : b.Ok F)
    (hab : a.dim = b.dim) (h2 : 2 ≤ a.dim) (hg : g.Ok F) (hgd : g.dim = a.dim) (thr delta : ℝ) (n : Nat) (eps : ℝ) :
    ∃ w, dmrgApprox o (prodSup o a b) g thr delta n eps = .ok w ∧ w.cnt ≤ n ∧
      (w.cnt < n → 1 ≤ w.cnt ∧ ∃ prev diff, prev.Ok F ∧ prev.dim = a.dim ∧
        relnorm2diff o.lin o.inner thr w.na prev = .ok diff ∧ diff < delta) := by
  have hT := prodSup_target h.lin hS ha hb hab h2
  obtain ⟨w, w1, w2⟩ := dmrgApprox_ok h hT hg hgd thr delta n eps
  cases hs : w.stop with
  | true =>
    obtain ⟨s1, s2, prev, diff, s3, s4, s5, s6, -⟩ := w2.fin hs
    exact ⟨w, w1, s2, fun _ => ⟨s1, prev, diff, s3, s4, s5, s6⟩⟩
  | false => exact ⟨w, w1, (w2.go hs).le, fun hlt => absurd (w2.go hs) (by omega)⟩

/-- C132, disagreement: with `max_sweeps = 0` the routine returns the guess (the first factor when there is none), not an
approximation of the product. -/
theorem dmrg_nosweep_actual {o : DmOps U} (h : DLaws e F I o) (hS : SpLaw e o.lin F) {a b : FT ℝ U} (ha : a.Ok F) (hb : b.Ok F)
    (hab : a.dim = b.dim) (h2 : 2 ≤ a.dim) (thr delta eps : ℝ) :
    ∃ c, dmrgProduct o none a b thr delta 0 eps = .ok c ∧ c.ranks = a.ranks ∧
      ∀ xs, InDom F a.dim xs → value e c.cores xs = value e a.cores xs := by
  have hT := prodSup_target h.lin hS ha hb hab h2
  have ha' : ({ a with sp1 := none, sp2 := none, sp3 := none } : FT ℝ U).Ok F :=
    ⟨⟨ha.wf.dim, ha.wf.pos, ha.wf.ranks, ha.wf.fits⟩, ha.pos, ha.mem⟩
  obtain ⟨w, w1, w2⟩ := dmrgApprox_ok h hT ha' rfl thr delta 0 eps
  have hc : w.cnt = 0 := by
    cases hs : w.stop with
    | true => have := w2.fin hs; omega
    | false => exact w2.go hs
  exact ⟨w.na, by rw [dmrgProduct, copy_ok ha.wf, bind_ok]; dsimp only; rw [w1, bind_ok, pure_eq_ok], (w2.zero hc).1, (w2.zero hc).2⟩

/-- C132, disagreement: trains of dimension 1 cannot be multiplied this way, the array of right multipliers is empty and
its element `dim-2` is written. -/
theorem dmrg_dim1_actual {o : DmOps U} (h : DLaws e F I o) (hS : SpLaw e o.lin F) {a b : FT ℝ U} (ha : a.Ok F) (hb : b.Ok F)
    (hab : a.dim = b.dim) (h1 : a.dim = 1) (thr delta : ℝ) (n : Nat) (eps : ℝ) :
    dmrgProduct o none a b thr delta n eps = .error .oob := by
  obtain ⟨a', ha'def⟩ : ∃ a' : FT ℝ U, a' = { a with sp1 := none, sp2 := none, sp3 := none } := ⟨_, rfl⟩
  have ha' : a'.Ok F := by
    subst ha'def
    exact ⟨⟨ha.wf.dim, ha.wf.pos, ha.wf.ranks, ha.wf.fits⟩, ha.pos, ha.mem⟩
  have hcopy : ftCopy a = .ok a' := by rw [ha'def]; exact copy_ok ha.wf
  have hd' : a'.dim = 1 := by rw [ha'def]; exact h1
  obtain ⟨f, c, l, f1, f2, f3, f4, f5, f6, -⟩ := orthor_dim1_actual h.toLaws ha' hd'
  obtain ⟨A, hA, gA, wA, nA, mA, pA, zA, zA'⟩ := ha.get (k := 0) (by omega)
  obtain ⟨B, hB, gB, wB, nB, mB, pB, zB, zB'⟩ := hb.get (k := 0) (by omega)
  obtain ⟨Q, hQ, rQ⟩ := kron_ok hS.prod (k := 0) wA wB pA pB
  obtain ⟨q, q1, -⟩ := qrLeft_ok h.lqF rQ (Nat.mul_pos zA zB) (Nat.mul_pos zA' zB')
  have hs : prodSup o a b false 0 1 none = .ok Q := by
    rw [prodSup, if_neg (by simp), if_pos (by omega), hA, bind_ok, hB, bind_ok, hQ]
  have hfd : f.dim = 1 := f6.trans hd'
  rw [dmrgProduct, hcopy, bind_ok]
  dsimp only
  rw [dmrgApprox, f1, bind_ok, superAll, hfd, hs, bind_ok, q1, bind_ok]
  rfl

/-- C132, disagreement: the routine that prepares the right multipliers from the guess uses only the orthogonal factor of the
previous multiplier; its triangular factor, part of the function to be approximated, has no influence. -/
theorem superR_actual (o : DmOps U) (f : Sup U) (k : Nat) (prev : QRs U) (M : List ℝ) (z : Qma U) :
    superR o f k { prev with mat := M } z = superR o f k prev z := rfl

/-! The contracts are satisfiable: square-summable sequences with pointwise products. -/

theorem mul_mem (f g : L2) : Memℓp (fun n => f n * g n) 2 := by
  refine memℓp_gen ?_
  have hf : Summable fun n => ‖f n‖ ^ (2 : ENNReal).toReal := (lp.memℓp f).summable (by norm_num)
  refine Summable.of_nonneg_of_le (fun n => by positivity) (fun n => ?_) (hf.mul_left (‖g‖ ^ (2 : ENNReal).toReal))
  rw [norm_mul, mul_comm, Real.mul_rpow (norm_nonneg _) (norm_nonneg _)]
  exact mul_le_mul_of_nonneg_right (Real.rpow_le_rpow (norm_nonneg _) (lp.norm_apply_le_norm (by norm_num) g n) (by norm_num))
    (by positivity)

noncomputable def pOps : LOps ℝ L2 := { sOps with prod := fun f g => .ok ⟨fun n => f n * g n, mul_mem f g⟩ }
noncomputable def pDm : DmOps L2 := { sRd with lin := pOps, qrF := sQr, lqF := sLq }

theorem p_lin : LinLaw sEv pOps sFam where
  scale := s_lin.scale
  daxpby := s_lin.daxpby
  lcPoly := s_lin.lcPoly

theorem p_sp : SpLaw sEv pOps sFam where
  prod := fun _ f g _ _ => ⟨_, rfl, trivial, fun x _ => rfl⟩
  spPoly := fun k fs gs _ hne h => by
    obtain ⟨f, l, rfl⟩ := List.exists_cons_of_ne_nil hne
    exact absurd (h f (by simp)).2 (by simp [pOps, sOps])

theorem p_laws : DLaws sEv sFam sInteg pDm :=
  ⟨⟨s_int, s_mem2, p_lin, s_innerLaw, s_qr, s_lq, svdAny_law⟩, s_qr, s_lq⟩

example : ∃ c, dmrgProduct pDm none (sFt 1) (sFt 3) 0 (1 / 10) 5 0 = .ok c ∧
    value sEv c.cores [0, 0] = value sEv (sFt 1).cores [0, 0] * value sEv (sFt 3).cores [0, 0] := by
  obtain ⟨c, c1, -, -, -, c2⟩ := dmrg_product_partial (o := pDm) p_laws p_sp (sFt_ok 1) (sFt_ok 3) rfl (le_refl 2) (z := none)
    (fun g hg => by cases hg) 0 (1 / 10) 5 0
  exact ⟨c, c1, c2 (by norm_num) le_rfl _ ⟨by simp [sFt], fun _ _ _ _ => trivial⟩⟩

example : ∃ w, dmrgApprox pDm (prodSup pDm (sFt 1) (sFt 3)) (sFt 2) 0 (1 / 10) 5 0 = .ok w ∧ w.cnt ≤ 5 := by
  obtain ⟨w, w1, w2, -⟩ := dmrg_stop (o := pDm) p_laws p_sp (sFt_ok 1) (sFt_ok 3) rfl (le_refl 2) (sFt_ok 2) rfl 0 (1 / 10) 5 0
  exact ⟨w, w1, w2⟩

end C3.Dmrg
