/- C16 (sum), C17 (product), C18 (scaling and axpy), C48 (BLAS-like routines) of function trains. -/
import Verif.Ft.AlgLemmas
import Verif.Ft.Props

set_option linter.unusedSectionVars false

namespace C3.Ft
open Finset
variable {K U X : Type} [Field K]

/-- Values of core `k`. -/
def valAt (e : Ev K U X) (ft : FT K U) (k : Nat) (x : X) (i j : Nat) : K :=
  ((ft.cores[k]?).map (fun Q => Q.val e x i j)).getD 0

theorem valAt_eq {e : Ev K U X} {ft : FT K U} {k : Nat} {Q : Qma U} (h : ft.cores[k]? = some Q) :
    valAt e ft k = fun x => Q.val e x := by
  funext x i j; rw [valAt, h]; rfl

theorem FT.Ok.core' {e : Ev K U X} {F : Fam U X} {ft : FT K U} (h : ft.Ok F) :
    CoreRep e F ft.rk (valAt e ft) ft.cores := h.core

theorem Rep.congr {e : Ev K U X} {F : Fam U X} {k n m n' m' : Nat} {M : X → Nat → Nat → K} {Q : Qma U}
    (h : Rep e F k n m M Q) (hn : n = n') (hm : m = m') : Rep e F k n' m' M Q := by subst hn; subst hm; exact h

/-- **C16** The sum of two function trains of the same dimension ≥ 2 represents the sum of the functions, for all ranks;
its interior ranks are the sums of the ranks, and it can be evaluated and used again in further operations. -/
theorem sum_value_partial {e : Ev K U X} {o : Ops K U} {F : Fam U X} (hs : ScaleLaw e o F) {a b : FT K U} (ha : a.Ok F)
    (hb : b.Ok F) (hd : a.dim = b.dim) (h2 : 2 ≤ a.dim) :
    ∃ c, ftSum o a b = .ok c ∧ c.Ok F ∧ c.Scratch ∧ c.dim = a.dim ∧
      (∀ k, 0 < k → k < a.dim → c.rk k = a.rk k + b.rk k) ∧
      ∀ x, InDom F a.dim x → value e c.cores x = value e a.cores x + value e b.cores x := by
  obtain ⟨d, hdd⟩ : ∃ d, d = a.dim := ⟨_, rfl⟩
  have hdb : b.dim = d := by omega
  -- sizes and matrices of the result
  let s : Nat → Nat := fun k => if k = 0 ∨ k = d then 1 else a.rk k + b.rk k
  let M : Nat → X → Nat → Nat → K := fun k =>
    if k = 0 then Mh (a.rk 1) (valAt e a k) (valAt e b k)
    else if k = d - 1 then Mv (a.rk k) (valAt e a k) (valAt e b k)
    else Mb (a.rk k) (a.rk (k + 1)) (valAt e a k) (valAt e b k)
  have hs0 : s 0 = 1 := by simp [s]
  have hsd : s d = 1 := by simp [s]
  have hsm : ∀ k, 0 < k → k < d → s k = a.rk k + b.rk k := by
    intro k h1 h2
    simp only [s]; rw [if_neg (by omega)]
  have ral : a.rk d = 1 := by rw [hdd]; exact ha.wf.rk_last
  have rbl : b.rk d = 1 := by rw [← hdb]; exact hb.wf.rk_last
  have ra0 := ha.wf.rk_zero
  have rb0 := hb.wf.rk_zero
  -- first core
  obtain ⟨A0, hA0, gA0, wA0, nA0, mA0, pA0, -⟩ := ha.get (k := 0) (by omega)
  obtain ⟨B0, hB0, gB0, wB0, nB0, mB0, pB0, -⟩ := hb.get (k := 0) (by omega)
  rw [Nat.zero_add] at mA0 mB0
  obtain ⟨Q0, hQ0, rQ0⟩ := stackh_ok (e := e) (F := F) (k := 0) wA0 wB0 pA0 pB0 (by omega)
  have rQ0' : Rep e F 0 (s 0) (s 1) (M 0) Q0 := by
    have : M 0 = Mh A0.ncols (fun x => A0.val e x) (fun x => B0.val e x) := by
      simp only [M, if_true]; rw [valAt_eq gA0, valAt_eq gB0, mA0]
    rw [this]
    exact rQ0.congr (by omega) (by rw [hsm 1 (by omega) (by omega)]; omega)
  -- last core
  obtain ⟨Al, hAl, gAl, wAl, nAl, mAl, pAl, -⟩ := ha.get (k := d - 1) (by omega)
  obtain ⟨Bl, hBl, gBl, wBl, nBl, mBl, pBl, -⟩ := hb.get (k := d - 1) (by omega)
  rw [Nat.sub_add_cancel (by omega)] at mAl mBl
  obtain ⟨Ql, hQl, rQl⟩ := stackv_ok (e := e) (F := F) (k := d - 1) wAl wBl pAl pBl (by omega)
  have rQl' : Rep e F (d - 1) (s (d - 1)) (s (d - 1 + 1)) (M (d - 1)) Ql := by
    have : M (d - 1) = Mv Al.nrows (fun x => Al.val e x) (fun x => Bl.val e x) := by
      simp only [M, if_true]; rw [if_neg (by omega), valAt_eq gAl, valAt_eq gBl, nAl]
    rw [this, Nat.sub_add_cancel (by omega), hsd]
    exact rQl.congr (by rw [hsm _ (by omega) (by omega)]; omega) (by omega)
  -- the core array
  have f1 : Fills (fun k Q => Rep e F k (s k) (s (k + 1)) (M k) Q) d
      (fun cs => wr cs 0 (some Q0)) (· = 0) := Fills.wr (by omega) rQ0'
  have f2 : Fills (fun k Q => Rep e F k (s k) (s (k + 1)) (M k) Q) d
      (forR 1 (a.dim - 1) (fun ii cs => do
        let A ← rd a.cores ii
        let B ← rd b.cores ii
        let Q ← blockdiag o A B
        wr cs ii (some Q))) (fun p => ∃ i, 1 ≤ i ∧ i < a.dim - 1 ∧ p = i) := by
    refine Fills.forR fun i hi1 hi2 => ?_
    obtain ⟨A, hA, gA, wA, nA, mA, pA, zA, zA'⟩ := ha.get (k := i) (by omega)
    obtain ⟨B, hB, gB, wB, nB, mB, pB, -⟩ := hb.get (k := i) (by omega)
    obtain ⟨Q, hQ, rQ⟩ := blockdiag_ok hs (k := i) wA wB pA pB zA zA'
    refine Fills.bind hA (Fills.bind hB (Fills.bind hQ (Fills.wr (by omega) ?_)))
    have : M i = Mb A.nrows A.ncols (fun x => A.val e x) (fun x => B.val e x) := by
      simp only [M]; rw [if_neg (by omega), if_neg (by omega), valAt_eq gA, valAt_eq gB, nA, mA]
    rw [this]
    exact rQ.congr (by rw [hsm _ (by omega) (by omega)]; omega) (by rw [hsm _ (by omega) (by omega)]; omega)
  have f3 : Fills (fun k Q => Rep e F k (s k) (s (k + 1)) (M k) Q) d
      (fun cs => wr cs (d - 1) (some Ql)) (· = d - 1) := Fills.wr (by omega) rQl'
  obtain ⟨cs, l, hcs, hl, hll, hlM⟩ := ((f1.seq f2).seq f3).finish (by
    intro p hp
    by_cases h : p = 0
    · exact .inl (.inl h)
    · by_cases h' : p = d - 1
      · exact .inr h'
      · exact .inl (.inr ⟨p, by omega, by omega, rfl⟩))
  have hM : CoreRep e F s M l := fun k hk => hlM k (by omega)
  -- split the run on the core array
  rcases hc1 : wr (List.replicate d none) 0 (some Q0) with er | cs1
  · simp only [hc1] at hcs; cases hcs
  simp only [hc1, bind_ok] at hcs
  rcases hc2 : forR 1 (a.dim - 1) (fun ii cs => do
        let A ← rd a.cores ii
        let B ← rd b.cores ii
        let Q ← blockdiag o A B
        wr cs ii (some Q)) cs1 with er | cs2
  · simp only [hc2] at hcs; cases hcs
  simp only [hc2, bind_ok] at hcs
  -- the rank array
  have hrk1 : wr (List.replicate (d + 1) 0) 0 1 = .ok ((List.replicate (d + 1) 0).set 0 1) := wr_ok _ (by simp)
  obtain ⟨rk2, hrk2, lrk2, vrk2⟩ := forR_set (a0 := 1) (n := a.dim - 1) (a := (List.replicate (d + 1) 0).set 0 1)
    (body := fun ii rk => do
      let ra ← rd a.ranks ii
      let rb ← rd b.ranks ii
      wr rk ii (ra + rb)) (fun i => a.rk i + b.rk i) (by simp; omega)
    (by
      intro i h1 h2 b' hb'
      rw [rd_of_getElem? (ha.wf.rk_get (by omega)), bind_ok, rd_of_getElem? (hb.wf.rk_get (by omega)), bind_ok])
  have lrk2' : rk2.length = d + 1 := by rw [lrk2]; simp
  have hrk3 : wr rk2 (d - 1) (a.rk (d - 1) + b.rk (d - 1)) = .ok (rk2.set (d - 1) (a.rk (d - 1) + b.rk (d - 1))) :=
    wr_ok _ (by omega)
  have hrk4 : wr (rk2.set (d - 1) (a.rk (d - 1) + b.rk (d - 1))) d 1
      = .ok ((rk2.set (d - 1) (a.rk (d - 1) + b.rk (d - 1))).set d 1) := wr_ok _ (by rw [List.length_set]; omega)
  have hrv : ∀ k ≤ d, ((rk2.set (d - 1) (a.rk (d - 1) + b.rk (d - 1))).set d 1)[k]? = some (s k) := by
    intro k hk
    rw [List.getElem?_set, List.getElem?_set, List.length_set, vrk2, List.getElem?_set]
    by_cases h1 : d = k
    · subst h1; rw [if_pos rfl, if_pos (by omega), hsd]
    rw [if_neg h1]
    by_cases h3 : d - 1 = k
    · subst h3; rw [if_pos rfl, if_pos (by omega), hsm _ (by omega) (by omega)]
    rw [if_neg h3]
    by_cases h4 : k = 0
    · subst h4; rw [if_neg (by omega), if_pos rfl, if_pos (by simp), hs0]
    rw [if_pos (by omega), hsm k (by omega) (by omega)]
  have hOk : (⟨d, (rk2.set (d - 1) (a.rk (d - 1) + b.rk (d - 1))).set d 1, l, none, none, none⟩ : FT K U).Ok F := by
    refine ok_mk hll (by omega) hs0 hsd ?_ hM (by simp; omega) hrv
    intro k hk
    simp only [s]
    split
    · omega
    · have := ha.pos k _ (ha.wf.rk_get (by omega)); omega
  refine ⟨_, ?_, hOk, scratch_none, hdd, ?_, ?_⟩
  · rw [ftSum, ← hdd] at *
    rw [hA0, bind_ok, hB0, bind_ok, hQ0, bind_ok, hc1, bind_ok, rd_of_getElem? ha.wf.rank_zero, bind_ok, hrk1, bind_ok,
      hc2, bind_ok, hrk2, bind_ok, rd_of_getElem? (ha.wf.rk_get (by omega)), bind_ok, hdb,
      rd_of_getElem? (hb.wf.rk_get (by omega)), bind_ok, hrk3, bind_ok, hAl, bind_ok, hBl, bind_ok, hQl, bind_ok, hcs,
      bind_ok, rd_of_getElem? (ha.wf.rk_get (by omega)), bind_ok, ral, hrk4, bind_ok, ftDone, hl, bind_ok, pure_eq_ok]
  · intro k h1 h2
    rw [FT.rk, List.getD_eq_getElem?_getD, hrv k (by omega), Option.getD_some, hsm k h1 (by omega)]
  · intro x hx
    have hxl := hx.len
    have la : a.cores.length = d := by rw [← ha.wf.dim, hdd]
    have lb : b.cores.length = d := by rw [← hb.wf.dim, hdb]
    have hxa : InDom F a.cores.length x := by rw [la, hdd]; exact hx
    have hxb : InDom F b.cores.length x := by rw [lb, hdd]; exact hx
    have hxc : InDom F l.length x := by rw [hll, hdd]; exact hx
    -- tails
    have tail : ∀ n k, k + n = d - 1 → 0 < k → ∀ i < a.rk k + b.rk k, chain ((mats e l x).drop k) i
        = if i < a.rk k then chain ((mats e a.cores x).drop k) i
          else chain ((mats e b.cores x).drop k) (i - a.rk k) := by
      intro n
      induction n with
      | zero =>
        intro k hk hk0 i hi
        have hkd : k = d - 1 := by omega
        have hk1 : k + 1 = d := by omega
        rw [chain_rep hM hxc (k := k) (by omega) (by rw [hsm k hk0 (by omega)]; exact hi), hk1, hsd]
        simp only [M, if_neg (show ¬ k = 0 by omega), if_pos hkd, Mv]
        have ec : chain ((mats e l x).drop d) 0 = 1 := by
          have := chain_end (e := e) hxc.len (i := 0); rw [hll] at this; simpa using this
        have ea : chain ((mats e a.cores x).drop d) 0 = 1 := by
          have := chain_end (e := e) hxa.len (i := 0); rw [la] at this; simpa using this
        have eb : chain ((mats e b.cores x).drop d) 0 = 1 := by
          have := chain_end (e := e) hxb.len (i := 0); rw [lb] at this; simpa using this
        simp only [sum_range_one, ec, mul_one]
        split
        · rename_i hlt
          rw [chain_rep ha.core' hxa (k := k) (by omega) hlt, hk1, ral]
          simp only [sum_range_one, ea, mul_one]
        · rw [chain_rep hb.core' hxb (k := k) (by omega) (show i - a.rk k < b.rk k by omega), hk1, rbl]
          simp only [sum_range_one, eb, mul_one]
      | succ n ih =>
        intro k hk hk0 i hi
        rw [chain_rep hM hxc (k := k) (by omega) (by rw [hsm k hk0 (by omega)]; exact hi), hsm (k + 1) (by omega) (by omega)]
        simp only [M, if_neg (show ¬ k = 0 by omega), if_neg (show ¬ k = d - 1 by omega), Mb]
        have ih' := ih (k + 1) (by omega) (by omega)
        rw [sum_range_add]
        split
        · rename_i hlt
          rw [chain_rep ha.core' hxa (k := k) (by omega) hlt]
          rw [sum_eq_zero (s := range (b.rk (k + 1))), add_zero]
          · refine sum_congr rfl fun c hc => ?_
            have hc := mem_range.1 hc
            rw [if_pos hc, ih' c (by omega), if_pos hc]
          · intro c _
            rw [if_neg (by omega), zero_mul]
        · rw [chain_rep hb.core' hxb (k := k) (by omega) (show i - a.rk k < b.rk k by omega)]
          rw [sum_eq_zero (s := range (a.rk (k + 1))), zero_add]
          · refine sum_congr rfl fun c hc => ?_
            have hc := mem_range.1 hc
            rw [if_neg (by omega), ih' _ (by omega), if_neg (by omega), Nat.add_sub_cancel_left]
          · intro c hc
            rw [if_pos (mem_range.1 hc), zero_mul]
    have t1 := tail (d - 2) 1 (by omega) (by omega)
    have hc0 := chain_rep hM hxc (k := 0) (by omega) (i := 0) (by rw [hs0]; omega)
    have ha0 := chain_rep (ha.core' (e := e)) hxa (k := 0) (by omega) (i := 0) (by rw [ra0]; omega)
    have hb0 := chain_rep (hb.core' (e := e)) hxb (k := 0) (by omega) (i := 0) (by rw [rb0]; omega)
    rw [List.drop_zero] at hc0 ha0 hb0
    change value e l x = _
    rw [value, value, value, hc0, ha0, hb0, Nat.zero_add, hsm 1 (by omega) (by omega), sum_range_add]
    simp only [M, if_true, Mh]
    congr 1
    · refine sum_congr rfl fun c hc => ?_
      have hc := mem_range.1 hc
      rw [if_pos hc, t1 c (by omega), if_pos hc]
    · refine sum_congr rfl fun c hc => ?_
      have hc := mem_range.1 hc
      rw [if_neg (by omega), t1 _ (by omega), if_neg (by omega), Nat.add_sub_cancel_left]

/-- The restriction to dimension ≥ 2 is needed: the sum of two one-dimensional trains has first rank 2 and its evaluation
fails an assertion (ft.c:2863 overwrites `ranks[0]`). -/
theorem sum_dim1_counterexample {e : Ev K U X} {o : Ops K U} {F : Fam U X} {a b : FT K U} (ha : a.Ok F)
    (hb : b.Ok F) (h1 : a.dim = 1) (h2 : b.dim = 1) :
    ∃ c : FT K U, ftSum o a b = .ok c ∧ ∀ x, eval e c x = .error .assertFail := by
  obtain ⟨A0, hA0, gA0, wA0, nA0, mA0, pA0, -⟩ := ha.get (k := 0) (by omega)
  obtain ⟨B0, hB0, gB0, wB0, nB0, mB0, pB0, -⟩ := hb.get (k := 0) (by omega)
  have ra0 := ha.wf.rk_zero
  have rb0 := hb.wf.rk_zero
  have ral : a.rk 1 = 1 := by have := ha.wf.rk_last; rwa [h1] at this
  have rbl : b.rk 1 = 1 := by have := hb.wf.rk_last; rwa [h2] at this
  rw [Nat.zero_add] at mA0 mB0
  obtain ⟨Q0, hQ0, rQ0⟩ := stackh_ok (e := e) (F := F) (k := 0) wA0 wB0 pA0 pB0 (by omega)
  obtain ⟨Ql, hQl, rQl⟩ := stackv_ok (e := e) (F := F) (k := 0) wA0 wB0 pA0 pB0 (by omega)
  refine ⟨⟨1, [2, 1], [Ql], none, none, none⟩, ?_, fun x => rfl⟩
  have e1 : a.ranks[0]? = some 1 := ha.wf.rank_zero
  have e2 : b.ranks[0]? = some 1 := hb.wf.rank_zero
  have e3 : a.ranks[1]? = some 1 := by rw [ha.wf.rk_get (by omega), ral]
  rw [ftSum, h1, h2]
  simp only [Nat.sub_self]
  rw [hA0, bind_ok, hB0, bind_ok, hQ0, bind_ok, rd_of_getElem? e1, rd_of_getElem? e2, rd_of_getElem? e3]
  simp only [bind_ok, hQl]
  rfl

theorem sum_range_mul_divmod (p q : Nat) (f : Nat → Nat → K) :
    ∑ c ∈ range (p * q), f (c / q) (c % q) = ∑ i ∈ range p, ∑ j ∈ range q, f i j := by
  induction p with
  | zero => simp
  | succ p ih =>
    rw [Nat.succ_mul, sum_range_add, ih, sum_range_succ]
    congr 1
    refine sum_congr rfl fun j hj => ?_
    rw [cm_div (mem_range.1 hj), cm_mod (mem_range.1 hj)]

/-- **C17** The product of two function trains of the same dimension represents the pointwise product; its ranks are the
products of the ranks. -/
theorem prod_value {e : Ev K U X} {o : Ops K U} {F : Fam U X} (hp : ProdLaw e o F) {a b : FT K U} (ha : a.Ok F)
    (hb : b.Ok F) (hd : a.dim = b.dim) :
    ∃ c, ftProd o a b = .ok c ∧ c.Ok F ∧ c.Scratch ∧ c.dim = a.dim ∧
      (∀ k ≤ a.dim, c.rk k = a.rk k * b.rk k) ∧
      ∀ x, InDom F a.dim x → value e c.cores x = value e a.cores x * value e b.cores x := by
  obtain ⟨d, hdd⟩ : ∃ d, d = a.dim := ⟨_, rfl⟩
  have hdb : b.dim = d := by omega
  have ral : a.rk d = 1 := by rw [hdd]; exact ha.wf.rk_last
  have rbl : b.rk d = 1 := by rw [← hdb]; exact hb.wf.rk_last
  have ra0 := ha.wf.rk_zero
  have rb0 := hb.wf.rk_zero
  have hdpos : 0 < d := by rw [hdd, ha.wf.dim]; exact ha.wf.len_pos
  have f1 : Fills (fun k Q => Rep e F k (a.rk k * b.rk k) (a.rk (k + 1) * b.rk (k + 1))
        (Mk (b.rk k) (b.rk (k + 1)) (valAt e a k) (valAt e b k)) Q) d
      (forN d (fun ii cs => do
        let A ← rd a.cores ii
        let B ← rd b.cores ii
        let Q ← kron o A B
        wr cs ii (some Q))) (fun p => ∃ i < d, p = i) := by
    refine Fills.forN fun i hi => ?_
    obtain ⟨A, hA, gA, wA, nA, mA, pA, zA, zA'⟩ := ha.get (k := i) (by omega)
    obtain ⟨B, hB, gB, wB, nB, mB, pB, -⟩ := hb.get (k := i) (by omega)
    obtain ⟨Q, hQ, rQ⟩ := kron_ok hp (k := i) wA wB pA pB
    refine Fills.bind hA (Fills.bind hB (Fills.bind hQ (Fills.wr (by omega) ?_)))
    rw [valAt_eq gA, valAt_eq gB, ← nA, ← nB, ← mA, ← mB]
    exact rQ
  obtain ⟨cs, l, hcs, hl, hll, hlM⟩ := f1.finish (fun p hp => ⟨p, hp, rfl⟩)
  have hM : CoreRep e F (fun k => a.rk k * b.rk k)
      (fun k => Mk (b.rk k) (b.rk (k + 1)) (valAt e a k) (valAt e b k)) l := fun k hk => hlM k (by omega)
  obtain ⟨rk1, hrk1, lrk1, vrk1⟩ := forR_set (a0 := 0) (n := d) (a := List.replicate (d + 1) 0)
    (body := fun ii rk => do
      let ra ← rd a.ranks ii
      let rb ← rd b.ranks ii
      wr rk ii (ra * rb)) (fun i => a.rk i * b.rk i) (by simp)
    (by
      intro i h1 h2 b' hb'
      rw [rd_of_getElem? (ha.wf.rk_get (by omega)), bind_ok, rd_of_getElem? (hb.wf.rk_get (by omega)), bind_ok])
  have lrk1' : rk1.length = d + 1 := by rw [lrk1]; simp
  have hrk1' : forN d (fun ii rk => do
      let ra ← rd a.ranks ii
      let rb ← rd b.ranks ii
      wr rk ii (ra * rb)) (List.replicate (d + 1) 0) = .ok rk1 := by
    rw [← hrk1, forR]; simp only [Nat.zero_add, Nat.sub_zero]
  have hrk2 : wr rk1 d (a.rk d * b.rk d) = .ok (rk1.set d (a.rk d * b.rk d)) := wr_ok _ (by omega)
  have hrv : ∀ k ≤ d, (rk1.set d (a.rk d * b.rk d))[k]? = some (a.rk k * b.rk k) := by
    intro k hk
    rw [List.getElem?_set, vrk1]
    by_cases h1 : d = k
    · subst h1; rw [if_pos rfl, if_pos (by omega)]
    · rw [if_neg h1, if_pos (by omega)]
  have hOk : (⟨d, rk1.set d (a.rk d * b.rk d), l, none, none, none⟩ : FT K U).Ok F := by
    refine ok_mk hll hdpos (by rw [ra0, rb0]) (by rw [ral, rbl]) ?_ hM (by simp; omega) hrv
    intro k hk
    exact Nat.mul_pos (ha.pos k _ (ha.wf.rk_get (by omega))) (hb.pos k _ (hb.wf.rk_get (by omega)))
  refine ⟨_, ?_, hOk, scratch_none, hdd, ?_, ?_⟩
  · rw [ftProd, ← hdd, hrk1', bind_ok, hcs, bind_ok, rd_of_getElem? (ha.wf.rk_get (by omega)), bind_ok,
      rd_of_getElem? (hb.wf.rk_get (by omega)), bind_ok, hrk2, bind_ok, ftDone, hl, bind_ok, pure_eq_ok]
  · intro k hk
    rw [FT.rk, List.getD_eq_getElem?_getD, hrv k (by omega), Option.getD_some]
  · intro x hx
    have la : a.cores.length = d := by rw [← ha.wf.dim, hdd]
    have lb : b.cores.length = d := by rw [← hb.wf.dim, hdb]
    have hxa : InDom F a.cores.length x := by rw [la, hdd]; exact hx
    have hxb : InDom F b.cores.length x := by rw [lb, hdd]; exact hx
    have hxc : InDom F l.length x := by rw [hll, hdd]; exact hx
    have tail : ∀ n k, k + n = d → ∀ i < a.rk k * b.rk k, chain ((mats e l x).drop k) i
        = chain ((mats e a.cores x).drop k) (i / b.rk k) * chain ((mats e b.cores x).drop k) (i % b.rk k) := by
      intro n
      induction n with
      | zero =>
        intro k hk i hi
        have hk : k = d := by omega
        subst hk
        rw [ral, rbl] at hi
        have : i = 0 := by omega
        subst this
        rw [rbl]
        have e1 := chain_end (e := e) hxc.len (i := 0)
        have e2 := chain_end (e := e) hxa.len (i := 0)
        have e3 := chain_end (e := e) hxb.len (i := 0)
        rw [hll] at e1; rw [la] at e2; rw [lb] at e3
        simp [e1, e2, e3]
      | succ n ih =>
        intro k hk i hi
        have ih' := ih (k + 1) (by omega)
        obtain ⟨g1, g2, -⟩ := divmod_of_lt (by rwa [Nat.mul_comm] at hi : i < b.rk k * a.rk k)
        rw [chain_rep hM hxc (k := k) (by omega) hi, chain_rep ha.core' hxa (k := k) (by omega) g2,
          chain_rep hb.core' hxb (k := k) (by omega) g1, sum_mul_sum, ← sum_range_mul_divmod]
        refine sum_congr rfl fun c hc => ?_
        rw [ih' c (mem_range.1 hc), Mk]
        ring
    have := tail d 0 (by omega) 0 (by rw [ra0, rb0]; omega)
    simpa [value, rb0] using this

theorem copy_ok {a : FT K U} (h : a.WF) : ftCopy a = .ok { a with sp1 := none, sp2 := none, sp3 := none } := by
  obtain ⟨d, hd⟩ : ∃ d, d = a.dim := ⟨_, rfl⟩
  obtain ⟨rk1, hrk1, lrk1, vrk1⟩ := forR_set (a0 := 0) (n := d) (a := List.replicate (d + 1) 0)
    (body := fun ii rk => do
      let r ← rd a.ranks ii
      wr rk ii r) a.rk (by simp)
    (fun i h1 h2 b' hb' => by rw [rd_of_getElem? (h.rk_get (by omega)), bind_ok])
  have lrk1' : rk1.length = d + 1 := by rw [lrk1]; simp
  have hrk1' : forN d (fun ii rk => do
      let r ← rd a.ranks ii
      wr rk ii r) (List.replicate (d + 1) 0) = .ok rk1 := by
    rw [← hrk1, forR]; simp only [Nat.zero_add, Nat.sub_zero]
  have f1 : Fills (fun k Q => a.cores[k]? = some Q) d (forN d (fun ii cs => do
      let Q ← rd a.cores ii
      wr cs ii (some Q))) (fun p => ∃ i < d, p = i) := by
    refine Fills.forN fun i hi => ?_
    have hi' : i < a.cores.length := by rw [← h.dim]; omega
    exact Fills.bind (rd_ok hi') (Fills.wr hi (List.getElem?_eq_getElem hi'))
  obtain ⟨cs, l, hcs, hl, hll, hlM⟩ := f1.finish (fun p hp => ⟨p, hp, rfl⟩)
  have hlc : l = a.cores := by
    apply List.ext_getElem?
    intro k
    by_cases hk : k < d
    · obtain ⟨Q, h1, h2⟩ := hlM k hk
      rw [h1, h2]
    · rw [List.getElem?_eq_none (by omega), List.getElem?_eq_none (by rw [← h.dim]; omega)]
  have hrk2 : wr rk1 d (a.rk d) = .ok (rk1.set d (a.rk d)) := wr_ok _ (by omega)
  have hrr : rk1.set d (a.rk d) = a.ranks := by
    apply List.ext_getElem?
    intro k
    rw [List.getElem?_set, vrk1]
    by_cases hk : k ≤ d
    · rw [h.rk_get (by omega)]
      by_cases h1 : d = k
      · subst h1; rw [if_pos rfl, if_pos (by omega)]
      · rw [if_neg h1, if_pos (by omega)]
    · rw [if_neg (by omega), if_neg (by omega), List.getElem?_eq_none (by simp; omega),
        List.getElem?_eq_none (by rw [h.ranks_len]; omega)]
  rw [ftCopy, ← hd, hrk1', bind_ok, hcs, bind_ok, rd_of_getElem? (h.rk_get (by omega)), bind_ok, hrk2, bind_ok, ftDone, hl,
    bind_ok, pure_eq_ok, hrr, hlc]

/-- **C18** Scaling multiplies the represented function by the constant, for all ranks and dimensions. -/
theorem scale_value {e : Ev K U X} {o : Ops K U} {F : Fam U X} (hs : ScaleLaw e o F) {a : FT K U} (ha : a.Ok F)
    (c : K) :
    ∃ a', ftScale o a c = .ok a' ∧ a'.Ok F ∧ a'.dim = a.dim ∧ a'.ranks = a.ranks ∧ (a.Scratch → a'.Scratch) ∧
      ∀ x, InDom F a.dim x → value e a'.cores x = c * value e a.cores x := by
  have hpos : 0 < a.dim := by rw [ha.wf.dim]; exact ha.wf.len_pos
  obtain ⟨Q, hQ, gQ, wQ, nQ, mQ, pQ, -⟩ := ha.get hpos
  have f1 : Fills (EntryR e F 0 Q.nrows (fun x i j => c * Q.val e x i j)) (Q.nrows * Q.ncols)
      (forN (Q.nrows * Q.ncols) (fun ii b => do
        let f ← rd Q.funcs ii
        let g ← o.scale c f
        wr b ii (some g))) (fun p => ∃ i < Q.nrows * Q.ncols, p = i) := by
    refine Fills.forN fun p hp => ?_
    obtain ⟨h1, h2, h3⟩ := divmod_of_lt hp
    obtain ⟨f, hf, hm, hv⟩ := wQ.get (e := e) h1 h2
    rw [h3] at hf
    obtain ⟨g, hg, hPg, hvg⟩ := hs 0 c f (pQ f hm)
    exact Fills.bind hf (Fills.bind hg (Fills.wr hp ⟨hPg, fun x hx => by rw [hvg x hx, hv]⟩))
  obtain ⟨b, l, h1, h2, h3, h4⟩ := f1.finish (fun p hp => ⟨p, hp, rfl⟩)
  have hR := rep_of_fill (e := e) (F := F) h3 h4
  have hlen : 0 < a.cores.length := ha.wf.len_pos
  let M : Nat → X → Nat → Nat → K := fun k x i j => if k = 0 then c * valAt e a k x i j else valAt e a k x i j
  have hM : CoreRep e F a.rk M (a.cores.set 0 ⟨Q.nrows, Q.ncols, l⟩) := by
    intro k hk
    rw [List.length_set] at hk
    by_cases hk0 : k = 0
    · subst hk0
      refine ⟨_, by rw [List.getElem?_set, if_pos rfl, if_pos hlen], ?_⟩
      have : M 0 = fun x i j => c * Q.val e x i j := by
        funext x i j; simp only [M, if_true]; rw [valAt_eq gQ]
      rw [this]
      exact hR.congr nQ mQ
    · obtain ⟨Q', hQ', hR'⟩ := ha.core' (e := e) k hk
      refine ⟨Q', by rw [List.getElem?_set, if_neg (by omega), hQ'], ?_⟩
      have : M k = valAt e a k := by funext x i j; simp only [M]; rw [if_neg hk0]
      rw [this]; exact hR'
  have hOk : ({ a with cores := a.cores.set 0 ⟨Q.nrows, Q.ncols, l⟩ } : FT K U).Ok F := by
    refine ok_mk (d := a.dim) (by rw [List.length_set, ha.wf.dim]) hpos ha.wf.rk_zero ha.wf.rk_last ?_ hM
      ha.wf.ranks_len (fun k hk => ha.wf.rk_get hk)
    exact fun k hk => ha.pos k _ (ha.wf.rk_get hk)
  refine ⟨_, by rw [ftScale, hQ, bind_ok, h1, bind_ok, h2, bind_ok, wr_ok _ hlen, bind_ok, pure_eq_ok], hOk, rfl, rfl,
    fun h => ⟨h.s1, h.s2, h.s3⟩, ?_⟩
  intro x hx
  have hxa : InDom F a.cores.length x := by rw [← ha.wf.dim]; exact hx
  have hxc : InDom F (a.cores.set 0 ⟨Q.nrows, Q.ncols, l⟩).length x := by rw [List.length_set]; exact hxa
  have tail : ∀ k, 0 < k → (mats e (a.cores.set 0 ⟨Q.nrows, Q.ncols, l⟩) x).drop k = (mats e a.cores x).drop k := by
    intro k hk
    apply List.ext_getElem?
    intro i
    rw [List.getElem?_drop, List.getElem?_drop, mats, mats, List.getElem?_zipWith, List.getElem?_zipWith,
      List.getElem?_set, if_neg (by omega)]
  have e1 := chain_rep hM hxc (k := 0) (by rw [List.length_set]; exact hlen) (i := 0) (by rw [ha.wf.rk_zero]; omega)
  have e2 := chain_rep (ha.core' (e := e)) hxa (k := 0) hlen (i := 0) (by rw [ha.wf.rk_zero]; omega)
  rw [List.drop_zero] at e1 e2
  change value e (a.cores.set 0 ⟨Q.nrows, Q.ncols, l⟩) x = _
  rw [value, value, e1, e2, tail _ (by omega), mul_sum]
  refine sum_congr rfl fun i _ => ?_
  simp only [M, if_true]; ring

/-- **C18** `c3axpy(a,x,&y,0)`: `y ← a x + y`. -/
theorem axpy_value_partial {e : Ev K U X} {o : Ops K U} {F : Fam U X} (hs : ScaleLaw e o F) {x y : FT K U} (hx : x.Ok F)
    (hy : y.Ok F) (hd : x.dim = y.dim) (h2 : 2 ≤ x.dim) (a : K) :
    ∃ z, c3axpy o a x y = .ok z ∧ z.Ok F ∧ z.Scratch ∧ z.dim = x.dim ∧
      (∀ k, 0 < k → k < x.dim → z.rk k = x.rk k + y.rk k) ∧
      ∀ p, InDom F x.dim p → value e z.cores p = a * value e x.cores p + value e y.cores p := by
  have hx' : ({ x with sp1 := none, sp2 := none, sp3 := none } : FT K U).Ok F :=
    ⟨⟨hx.wf.dim, hx.wf.pos, hx.wf.ranks, hx.wf.fits⟩, hx.pos, hx.mem⟩
  obtain ⟨t, ht, okt, dt, rt, -, vt⟩ := scale_value hs hx' a
  obtain ⟨z, hz, okz, sz, dz, rz, vz⟩ := sum_value_partial hs okt hy (by rw [dt]; exact hd) (by rw [dt]; exact h2)
  refine ⟨z, by rw [c3axpy, copy_ok hx.wf, bind_ok, ht, bind_ok, hz], okz, sz, by rw [dz, dt], ?_, ?_⟩
  · intro k h1 h2
    rw [rz k h1 (by rw [dt]; exact h2)]
    simp only [FT.rk, rt]
  · intro p hp
    rw [vz p (by rw [dt]; exact hp), vt p hp]

/-! ### BLAS-like routines (C48) -/

/-- Value of the train stored at position `p` of an array (0 if there is none). -/
def valueAt (e : Ev K U X) (l : List (Option (FT K U))) (p : Nat) (x : List X) : K :=
  match l[p]? with
  | some (some f) => value e f.cores x
  | _ => 0

/-- Positions `0, inc, 2 inc, .., (n-1) inc` of the array hold good trains of dimension `d`. -/
def Arr (F : Fam U X) (d : Nat) (l : List (Option (FT K U))) (n inc : Nat) : Prop :=
  ∀ i < n, ∃ f, l[i * inc]? = some (some f) ∧ f.Ok F ∧ f.dim = d

theorem ftAt_ok {l : List (Option (FT K U))} {i : Nat} {f : FT K U} (h : l[i]? = some (some f)) : ftAt l i = .ok f := by
  rw [ftAt, rd_of_getElem? h]; rfl

theorem valueAt_eq {e : Ev K U X} {l : List (Option (FT K U))} {i : Nat} {f : FT K U} (h : l[i]? = some (some f)) :
    valueAt e l i = value e f.cores := by funext x; simp only [valueAt, h]

/-- In-place update of every `inc`-th entry. -/
theorem forN_strided {α : Type} {n inc : Nat} {body : Nat → List α → C (List α)} {y : List α} (R : Nat → α → Prop)
    (hinc : 0 < inc) (hlen : ∀ i < n, i * inc < y.length)
    (hb : ∀ i < n, ∀ b : List α, b.length = y.length → b[i * inc]? = y[i * inc]? →
      ∃ v, body i b = wr b (i * inc) v ∧ R i v) :
    ∃ y', forN n body y = .ok y' ∧ y'.length = y.length ∧ (∀ j : Nat, (∀ i < n, j ≠ i * inc) → y'[j]? = y[j]?) ∧
      ∀ i < n, ∃ v, y'[i * inc]? = some v ∧ R i v := by
  obtain ⟨y', h1, h2, h3, h4⟩ := forN_spec
    (I := fun k (b : List α) => b.length = y.length ∧ (∀ j : Nat, (∀ i < k, j ≠ i * inc) → b[j]? = y[j]?) ∧
      ∀ i < k, ∃ v, b[i * inc]? = some v ∧ R i v) (n := n) (body := body) (s := y)
    ⟨rfl, fun _ _ => rfl, fun i hi => absurd hi (Nat.not_lt_zero _)⟩
    (by
      rintro k hk b ⟨h1, h2, h3⟩
      obtain ⟨v, hv, hR⟩ := hb k hk b h1 (h2 _ (fun i hi h => by
        have := Nat.eq_of_mul_eq_mul_right hinc h; omega))
      refine ⟨_, by rw [hv, wr_ok _ (by rw [h1]; exact hlen k hk)], by rw [List.length_set, h1], ?_, ?_⟩
      · intro j hj
        rw [List.getElem?_set, if_neg (fun h => hj k (by omega) h.symm)]
        exact h2 j (fun i hi => hj i (by omega))
      · intro i hi
        rw [List.getElem?_set]
        by_cases hik : k = i
        · subst hik
          exact ⟨v, by rw [if_pos rfl, if_pos (by rw [h1]; exact hlen k hk)], hR⟩
        · rw [if_neg (fun h => hik (Nat.eq_of_mul_eq_mul_right hinc h))]
          exact h3 i (by omega))
  exact ⟨y', h1, h2, h3, h4⟩

theorem Arr.lt {F : Fam U X} {d : Nat} {l : List (Option (FT K U))} {n inc : Nat} (h : Arr F d l n inc) :
    ∀ i < n, i * inc < l.length := by
  intro i hi
  obtain ⟨f, hf, -⟩ := h i hi
  exact (List.getElem?_eq_some_iff.1 hf).1

/-- **C48** `c3vaxpy`: every addressed entry becomes `a x[i incx] + y[i incy]`, the others are untouched. -/
theorem vaxpy_value_partial {e : Ev K U X} {o : Ops K U} {F : Fam U X} (hs : ScaleLaw e o F) {d n incx incy : Nat}
    {x y : List (Option (FT K U))} (hx : Arr F d x n incx) (hy : Arr F d y n incy) (h2 : 2 ≤ d) (hinc : 0 < incy) (a : K) :
    ∃ y', c3vaxpy o n a x incx y incy = .ok y' ∧ y'.length = y.length ∧ Arr F d y' n incy ∧
      (∀ j : Nat, (∀ i < n, j ≠ i * incy) → y'[j]? = y[j]?) ∧
      ∀ i < n, ∀ p, InDom F d p → valueAt e y' (i * incy) p = a * valueAt e x (i * incx) p + valueAt e y (i * incy) p := by
  obtain ⟨y', h1, hl, h3, h4⟩ := forN_strided (n := n) (inc := incy) (y := y) (body := fun ii y => do
      let xf ← ftAt x (ii * incx)
      let yf ← ftAt y (ii * incy)
      let z ← c3axpy o a xf yf
      wr y (ii * incy) (some z))
    (fun i v => ∃ f, v = some f ∧ f.Ok F ∧ f.dim = d ∧ ∀ p, InDom F d p →
      value e f.cores p = a * valueAt e x (i * incx) p + valueAt e y (i * incy) p) hinc hy.lt
    (by
      intro i hi b _ hbe
      obtain ⟨xf, hxf, okx, dx⟩ := hx i hi
      obtain ⟨yf, hyf, oky, dy⟩ := hy i hi
      obtain ⟨z, hz, okz, -, dz, -, vz⟩ := axpy_value_partial hs okx oky (by omega) (by omega) a
      refine ⟨some z, ?_, z, rfl, okz, by omega, fun p hp => ?_⟩
      · rw [ftAt_ok hxf, bind_ok, ftAt_ok (hbe.trans hyf), bind_ok, hz, bind_ok]
      · rw [vz p (by rw [dx]; exact hp), valueAt_eq hxf, valueAt_eq hyf])
  refine ⟨y', h1, hl, ?_, h3, ?_⟩
  · intro i hi
    obtain ⟨v, hv, f, rfl, okf, df, -⟩ := h4 i hi
    exact ⟨f, hv, okf, df⟩
  · intro i hi p hp
    obtain ⟨v, hv, f, rfl, okf, df, vf⟩ := h4 i hi
    rw [valueAt_eq hv, vf p hp]

/-- **C48** `c3vaxpy_arr`: `z ← beta z + alpha Σ_{i<n} y[incy i] x[i incx]`. -/
theorem vaxpyArr_value_partial {e : Ev K U X} {o : Ops K U} {F : Fam U X} (hs : ScaleLaw e o F) {d n incx incy : Nat}
    {x : List (Option (FT K U))} {y : List K} (hx : Arr F d x n incx) (hy : ∀ i < n, incy * i < y.length) {z : FT K U}
    (hz : z.Ok F) (hdz : z.dim = d) (h2 : 2 ≤ d) (alpha beta : K) :
    ∃ z', c3vaxpyArr o n alpha x incx y incy beta (some z) = .ok z' ∧ z'.Ok F ∧ z'.dim = d ∧
      ∀ p, InDom F d p → value e z'.cores p
        = beta * value e z.cores p + alpha * ∑ i ∈ range n, y.getD (incy * i) 0 * valueAt e x (i * incx) p := by
  obtain ⟨z0, hz0, ok0, d0, -, -, v0⟩ := scale_value hs hz beta
  obtain ⟨z', h1, h3, h4, h5⟩ := forN_spec
    (I := fun k (w : FT K U) => w.Ok F ∧ w.dim = d ∧ ∀ p, InDom F d p → value e w.cores p
      = beta * value e z.cores p + alpha * ∑ i ∈ range k, y.getD (incy * i) 0 * valueAt e x (i * incx) p)
    (n := n) (s := z0) (body := fun ii z => do
      let c ← rd y (incy * ii)
      let xf ← ftAt x (ii * incx)
      c3axpy o (alpha * c) xf z)
    ⟨ok0, by omega, fun p hp => by rw [v0 p (by rw [hdz]; exact hp)]; simp⟩
    (by
      rintro i hi w ⟨okw, dw, vw⟩
      obtain ⟨xf, hxf, okx, dx⟩ := hx i hi
      obtain ⟨w', hw', okw', -, dw', -, vw'⟩ := axpy_value_partial hs okx okw (by omega) (by omega) (alpha * y.getD (incy * i) 0)
      refine ⟨w', by rw [rd_getD 0 (hy i hi), bind_ok, ftAt_ok hxf, bind_ok, hw'], okw', by omega, fun p hp => ?_⟩
      rw [vw' p (by rw [dx]; exact hp), vw p hp, sum_range_succ, valueAt_eq hxf]; ring)
  exact ⟨z', by rw [c3vaxpyArr]; simp only [Option.isSome_some, cassert_true, bind_ok, deref, hz0, h1], h3, h4, h5⟩

/-- **C48** `c3vprodsum` for at least one term: `z ← beta z + a Σ_{i<n} x[i incx] y[i incy]`. For `n = 0` the code still
adds the product of the first entries, see `vprodsum_zero`. -/
theorem vprodsum_value_partial {e : Ev K U X} {o : Ops K U} {F : Fam U X} (hs : ScaleLaw e o F) (hp : ProdLaw e o F)
    {d n incx incy : Nat} {x y : List (Option (FT K U))} (hx : Arr F d x n incx) (hy : Arr F d y n incy) (hn : 1 ≤ n)
    {z : FT K U} (hz : z.Ok F) (hdz : z.dim = d) (h2 : 2 ≤ d) (a beta : K) :
    ∃ z', c3vprodsum o n a x incx y incy beta (some z) = .ok z' ∧ z'.Ok F ∧ z'.dim = d ∧
      ∀ p, InDom F d p → value e z'.cores p
        = beta * value e z.cores p + a * ∑ i ∈ range n, valueAt e x (i * incx) p * valueAt e y (i * incy) p := by
  obtain ⟨z0, hz0, ok0, d0, -, -, v0⟩ := scale_value hs hz beta
  obtain ⟨x0, hx0, okx0, dx0⟩ := hx 0 (by omega)
  obtain ⟨y0, hy0, oky0, dy0⟩ := hy 0 (by omega)
  obtain ⟨r0, hr0, okr0, -, dr0, -, vr0⟩ := prod_value hp okx0 oky0 (by omega)
  obtain ⟨r, hr, okr, dr, vr⟩ := forR_spec
    (I := fun k (w : FT K U) => w.Ok F ∧ w.dim = d ∧ ∀ p, InDom F d p → value e w.cores p
      = ∑ i ∈ range k, valueAt e x (i * incx) p * valueAt e y (i * incy) p)
    (a := 1) (b := n) (s := r0) (body := fun ii run => do
      let xf ← ftAt x (ii * incx)
      let yf ← ftAt y (ii * incy)
      let t ← ftProd o xf yf
      c3axpy o 1 t run) hn
    ⟨okr0, by omega, fun p hp => by
      rw [vr0 p (by rw [dx0]; exact hp), sum_range_one, valueAt_eq hx0, valueAt_eq hy0]⟩
    (by
      rintro i h1 hi w ⟨okw, dw, vw⟩
      obtain ⟨xf, hxf, okx, dx⟩ := hx i hi
      obtain ⟨yf, hyf, oky, dy⟩ := hy i hi
      obtain ⟨t, ht, okt, -, dt, -, vt⟩ := prod_value hp okx oky (by omega)
      obtain ⟨w', hw', okw', -, dw', -, vw'⟩ := axpy_value_partial hs okt okw (by omega) (by omega) 1
      refine ⟨w', by rw [ftAt_ok hxf, bind_ok, ftAt_ok hyf, bind_ok, ht, bind_ok, hw'], okw', by omega, fun p hp => ?_⟩
      rw [vw' p (by rw [dt, dx]; exact hp), vt p (by rw [dx]; exact hp), vw p hp, sum_range_succ, valueAt_eq hxf,
        valueAt_eq hyf]; ring)
  obtain ⟨z', hz', okz', -, dz', -, vz'⟩ := axpy_value_partial hs okr ok0 (by omega) (by omega) a
  rw [Nat.zero_mul] at hx0 hy0
  refine ⟨z', ?_, okz', by omega, fun p hp => ?_⟩
  · rw [c3vprodsum]
    simp only [Option.isSome_some, cassert_true, bind_ok, deref, hz0, ftAt_ok hx0, ftAt_ok hy0, hr0]
    rw [hr, bind_ok, hz']
  · rw [vz' p (by rw [dr]; exact hp), vr p hp, v0 p (by rw [hdz]; exact hp)]; ring

/-- With `n = 0` terms the first product is added all the same. -/
theorem vprodsum_zero_counterexample {e : Ev K U X} {o : Ops K U} {F : Fam U X} (hs : ScaleLaw e o F)
    (hp : ProdLaw e o F) {d incx incy : Nat} {x y : List (Option (FT K U))} (hx : Arr F d x 1 incx)
    (hy : Arr F d y 1 incy) {z : FT K U} (hz : z.Ok F) (hdz : z.dim = d) (h2 : 2 ≤ d) (a beta : K) :
    ∃ z', c3vprodsum o 0 a x incx y incy beta (some z) = .ok z' ∧
      ∀ p, InDom F d p → value e z'.cores p
        = beta * value e z.cores p + a * (valueAt e x 0 p * valueAt e y 0 p) := by
  obtain ⟨z', h1, -, -, h4⟩ := vprodsum_value_partial hs hp hx hy (Nat.le_refl 1) hz hdz h2 a beta
  refine ⟨z', ?_, fun p hp => by rw [h4 p hp]; simp⟩
  rw [← h1, c3vprodsum, c3vprodsum]
  rfl

/-- `ft1d_array_scale`. -/
theorem ft1dScale_value {e : Ev K U X} {o : Ops K U} {F : Fam U X} (hs : ScaleLaw e o F) {d n inc : Nat}
    {y : List (Option (FT K U))} (hy : Arr F d y n inc) (hinc : 0 < inc) (a : K) :
    ∃ y', ft1dScale o y n inc a = .ok y' ∧ y'.length = y.length ∧ Arr F d y' n inc ∧
      (∀ j : Nat, (∀ i < n, j ≠ i * inc) → y'[j]? = y[j]?) ∧
      ∀ i < n, ∀ p, InDom F d p → valueAt e y' (i * inc) p = a * valueAt e y (i * inc) p := by
  obtain ⟨y', h1, hl, h3, h4⟩ := forN_strided (n := n) (inc := inc) (y := y) (body := fun ii y => do
      let f ← ftAt y (ii * inc)
      let g ← ftScale o f a
      wr y (ii * inc) (some g))
    (fun i v => ∃ f, v = some f ∧ f.Ok F ∧ f.dim = d ∧ ∀ p, InDom F d p →
      value e f.cores p = a * valueAt e y (i * inc) p) hinc hy.lt
    (by
      intro i hi b _ hbe
      obtain ⟨yf, hyf, oky, dy⟩ := hy i hi
      obtain ⟨z, hz, okz, dz, -, -, vz⟩ := scale_value hs oky a
      refine ⟨some z, ?_, z, rfl, okz, by omega, fun p hp => ?_⟩
      · rw [ftAt_ok (hbe.trans hyf), bind_ok, hz, bind_ok]
      · rw [vz p (by rw [dy]; exact hp), valueAt_eq hyf])
  refine ⟨y', h1, hl, ?_, h3, ?_⟩
  · intro i hi
    obtain ⟨v, hv, f, rfl, okf, df, -⟩ := h4 i hi
    exact ⟨f, hv, okf, df⟩
  · intro i hi p hp
    obtain ⟨v, hv, f, rfl, okf, df, vf⟩ := h4 i hi
    rw [valueAt_eq hv, vf p hp]

/-- `c3vgemv` with at least one row fails an assertion: its running sums start as NULL pointers. -/
theorem vgemv_counterexample {e : Ev K U X} {o : Ops K U} {F : Fam U X} (hs : ScaleLaw e o F) {d m n lda incx incy : Nat}
    {A x y : List (Option (FT K U))} (hy : Arr F d y m incy) (hinc : 0 < incy) (hm : 1 ≤ m) (alpha beta : K) :
    c3vgemv o m n alpha A lda x incx beta y incy = .error .assertFail := by
  obtain ⟨y', h1, -⟩ := ft1dScale_value (e := e) hs hy hinc beta
  obtain ⟨m', rfl⟩ : ∃ m', m = m' + 1 := ⟨m - 1, by omega⟩
  have hbody : forN (m' + 1) (fun ii run => do
      let z ← rd run (ii * incy)
      let r ← c3vprodsum o n 1 (A.drop ii) lda x incx 0 z
      wr run (ii * incy) (some r)) (List.replicate (m' + 1) none) = (.error .assertFail : C (List (Option (FT K U)))) := by
    have h0 : ∀ k : Nat, forN (k + 1) (fun ii run => do
      let z ← rd run (ii * incy)
      let r ← c3vprodsum o n 1 (A.drop ii) lda x incx 0 z
      wr run (ii * incy) (some r)) (List.replicate (m' + 1) none) = (.error .assertFail : C (List (Option (FT K U)))) := by
      intro k
      induction k with
      | zero =>
        rw [forN_succ, forN, ebind_ok, Nat.zero_mul, List.replicate_succ]
        rfl
      | succ k ih => rw [forN_succ, ih, ebind_error]
    exact h0 m'
  rw [c3vgemv, h1, bind_ok, hbody, bind_error]

/-- What `c3vgemv_arr` computes: `beta` is applied twice. -/
theorem vgemvArr_actual {e : Ev K U X} {o : Ops K U} {F : Fam U X} (hs : ScaleLaw e o F) {d m n lda incb incy : Nat}
    {A : List K} {B y : List (Option (FT K U))} (hB : Arr F d B n incb) (hy : Arr F d y m incy) (hinc : 0 < incy)
    (h2 : 2 ≤ d) (alpha beta : K) (trans : Int) (ht : trans = 0 ∨ trans = 1)
    (hA : ∀ i < m, ∀ j < n, (if trans = 0 then i + lda * j else i * lda + j) < A.length) :
    ∃ y', c3vgemvArr o trans m n alpha A lda B incb beta y incy = .ok y' ∧ Arr F d y' m incy ∧
      (∀ j : Nat, (∀ i < m, j ≠ i * incy) → y'[j]? = y[j]?) ∧
      ∀ i < m, ∀ p, InDom F d p → valueAt e y' (i * incy) p = beta * beta * valueAt e y (i * incy) p
        + alpha * ∑ j ∈ range n, A.getD (if trans = 0 then i + lda * j else i * lda + j) 0 * valueAt e B (j * incb) p := by
  obtain ⟨y1, g1, g2, g3, g4, g5⟩ := ft1dScale_value (e := e) hs hy hinc beta
  have key : ∀ (off st : Nat → Nat), (∀ i < m, ∀ j < n, off i + st i * j < A.length) →
      ∃ y', forN m (fun ii y => do
        let z ← rd y (ii * incy)
        let r ← c3vaxpyArr o n alpha B incb (A.drop (off ii)) (st ii) beta z
        wr y (ii * incy) (some r)) y1 = .ok y' ∧ Arr F d y' m incy ∧
      (∀ j : Nat, (∀ i < m, j ≠ i * incy) → y'[j]? = y1[j]?) ∧
      ∀ i < m, ∀ p, InDom F d p → valueAt e y' (i * incy) p = beta * valueAt e y1 (i * incy) p
        + alpha * ∑ j ∈ range n, A.getD (off i + st i * j) 0 * valueAt e B (j * incb) p := by
    intro off st hos
    obtain ⟨y', h1, hl, h3, h4⟩ := forN_strided (n := m) (inc := incy) (y := y1) (body := fun ii y => do
        let z ← rd y (ii * incy)
        let r ← c3vaxpyArr o n alpha B incb (A.drop (off ii)) (st ii) beta z
        wr y (ii * incy) (some r))
      (fun i v => ∃ f, v = some f ∧ f.Ok F ∧ f.dim = d ∧ ∀ p, InDom F d p →
        value e f.cores p = beta * valueAt e y1 (i * incy) p
          + alpha * ∑ j ∈ range n, A.getD (off i + st i * j) 0 * valueAt e B (j * incb) p) hinc g3.lt
      (by
        intro i hi b _ hbe
        obtain ⟨yf, hyf, oky, dy⟩ := g3 i hi
        obtain ⟨z, hz, okz, dz, vz⟩ := vaxpyArr_value_partial (e := e) hs hB (y := A.drop (off i)) (incy := st i)
          (fun j hj => by have := hos i hi j hj; rw [List.length_drop]; omega) oky dy h2 alpha beta
        refine ⟨some z, ?_, z, rfl, okz, dz, fun p hp => ?_⟩
        · rw [rd_of_getElem? (hbe.trans hyf), bind_ok, hz, bind_ok]
        · rw [vz p hp, valueAt_eq hyf]
          congr 2
          refine sum_congr rfl fun j _ => ?_
          rw [List.getD_eq_getElem?_getD, List.getElem?_drop, ← List.getD_eq_getElem?_getD])
    refine ⟨y', h1, ?_, h3, ?_⟩
    · intro i hi
      obtain ⟨v, hv, f, rfl, okf, df, -⟩ := h4 i hi
      exact ⟨f, hv, okf, df⟩
    · intro i hi p hp
      obtain ⟨v, hv, f, rfl, okf, df, vf⟩ := h4 i hi
      rw [valueAt_eq hv, vf p hp]
  rcases ht with rfl | rfl
  · obtain ⟨y', k1, k2, k3, k4⟩ := key (fun i => i) (fun _ => lda) (fun i hi j hj => by simpa using hA i hi j hj)
    refine ⟨y', by rw [c3vgemvArr, g1, bind_ok, if_pos rfl, k1], k2, fun j hj => (k3 j hj).trans (g4 j hj), ?_⟩
    intro i hi p hp
    rw [k4 i hi p hp, g5 i hi p hp]; simp [mul_assoc]
  · obtain ⟨y', k1, k2, k3, k4⟩ := key (fun i => i * lda) (fun _ => 1) (fun i hi j hj => by simpa using hA i hi j hj)
    refine ⟨y', by rw [c3vgemvArr, g1, bind_ok, if_neg (by decide), if_pos rfl, k1], k2,
      fun j hj => (k3 j hj).trans (g4 j hj), ?_⟩
    intro i hi p hp
    rw [k4 i hi p hp, g5 i hi p hp]; simp [mul_assoc]

/-- **C48** `c3vgemv_arr` computes the documented `beta y + alpha A B` when `beta` is 0 or 1 (more precisely idempotent);
missing: other values of `beta`, for which the result is different (`vgemvArr_actual`). -/
theorem vgemvArr_value_partial {e : Ev K U X} {o : Ops K U} {F : Fam U X} (hs : ScaleLaw e o F)
    {d m n lda incb incy : Nat} {A : List K} {B y : List (Option (FT K U))} (hB : Arr F d B n incb) (hy : Arr F d y m incy)
    (hinc : 0 < incy) (h2 : 2 ≤ d) (alpha beta : K) (hbeta : beta = 0 ∨ beta = 1) (trans : Int)
    (ht : trans = 0 ∨ trans = 1)
    (hA : ∀ i < m, ∀ j < n, (if trans = 0 then i + lda * j else i * lda + j) < A.length) :
    ∃ y', c3vgemvArr o trans m n alpha A lda B incb beta y incy = .ok y' ∧ Arr F d y' m incy ∧
      (∀ j : Nat, (∀ i < m, j ≠ i * incy) → y'[j]? = y[j]?) ∧
      ∀ i < m, ∀ p, InDom F d p → valueAt e y' (i * incy) p = beta * valueAt e y (i * incy) p
        + alpha * ∑ j ∈ range n, A.getD (if trans = 0 then i + lda * j else i * lda + j) 0 * valueAt e B (j * incb) p := by
  obtain ⟨y', h1, h3, h4, h5⟩ := vgemvArr_actual (e := e) hs hB hy hinc h2 alpha beta trans ht hA
  refine ⟨y', h1, h3, h4, fun i hi p hp => ?_⟩
  rw [h5 i hi p hp]
  rcases hbeta with rfl | rfl <;> simp

/-! ### Non-vacuity -/

/-- Functions of one rational variable with pointwise operations. -/
def fnEv : Ev ℚ (ℚ → ℚ) ℚ := ⟨fun f x => f x, fun _ => false⟩
def fnOps : Ops ℚ (ℚ → ℚ) := ⟨fun a f => .ok (fun x => a * f x), fun f g => .ok (fun x => f x * g x)⟩
def fnFam : Fam (ℚ → ℚ) ℚ := ⟨fun _ _ => True, fun _ _ => True⟩

theorem fn_scale : ScaleLaw fnEv fnOps fnFam := fun _ _ _ _ => ⟨_, rfl, trivial, fun _ _ => rfl⟩
theorem fn_prod : ProdLaw fnEv fnOps fnFam := fun _ _ _ _ _ => ⟨_, rfl, trivial, fun _ _ => rfl⟩

/-- `x + y` with rank 2. -/
def fnFt : FT ℚ (ℚ → ℚ) :=
  ⟨2, [1, 2, 1], [⟨1, 2, [fun x => x, fun _ => 1]⟩, ⟨2, 1, [fun _ => 1, fun x => x]⟩], none, none, none⟩

theorem fnFt_ok : fnFt.Ok fnFam := by
  refine ⟨⟨rfl, List.cons_ne_nil _ _, rfl, ?_⟩, ?_, fun _ _ _ _ _ => trivial⟩
  · refine Fits.cons (⟨1, 2, [fun x => x, fun _ => 1]⟩ : Qma (ℚ → ℚ)) _ rfl ?_
    exact Fits.cons (⟨2, 1, [fun _ => 1, fun x => x]⟩ : Qma (ℚ → ℚ)) _ rfl (.nil _)
  · intro k r h
    change [1, 2, 1][k]? = some r at h
    rcases k with _ | _ | _ | k <;> simp at h <;> omega

theorem fnFt_value (a b : ℚ) : value fnEv fnFt.cores [a, b] = a + b := by
  simp [value, mats, chain, fnFt, fnEv, Qma.val, Finset.sum_range_succ]

theorem fn_dom (a b : ℚ) : InDom fnFam 2 [a, b] := ⟨Nat.le_refl _, fun _ _ _ _ => trivial⟩

example : ∃ c, ftSum fnOps fnFt fnFt = .ok c ∧ c.rk 1 = 4 ∧ value fnEv c.cores [3, 4] = 14 := by
  obtain ⟨c, h1, -, -, -, h2, h3⟩ := sum_value_partial fn_scale fnFt_ok fnFt_ok rfl (Nat.le_refl 2)
  refine ⟨c, h1, h2 1 (by decide) (by decide), ?_⟩
  rw [h3 _ (fn_dom _ _), fnFt_value]; norm_num

example : ∃ c, ftProd fnOps fnFt fnFt = .ok c ∧ c.rk 1 = 4 ∧ value fnEv c.cores [3, 4] = 49 := by
  obtain ⟨c, h1, -, -, -, h2, h3⟩ := prod_value fn_prod fnFt_ok fnFt_ok rfl
  refine ⟨c, h1, h2 1 (by decide), ?_⟩
  rw [h3 _ (fn_dom _ _), fnFt_value]; norm_num

example : ∃ c, c3axpy fnOps 3 fnFt fnFt = .ok c ∧ value fnEv c.cores [3, 4] = 28 := by
  obtain ⟨c, h1, -, -, -, -, h3⟩ := axpy_value_partial fn_scale fnFt_ok fnFt_ok rfl (Nat.le_refl 2) (3 : ℚ)
  exact ⟨c, h1, by rw [h3 _ (fn_dom _ _), fnFt_value]; norm_num⟩

theorem fn_arr : Arr fnFam 2 [some fnFt, none, some fnFt] 2 2 := by
  intro i hi
  have : i = 0 ∨ i = 1 := by omega
  rcases this with rfl | rfl <;> exact ⟨fnFt, rfl, fnFt_ok, rfl⟩

example : ∃ z, c3vprodsum fnOps 2 1 [some fnFt, none, some fnFt] 2 [some fnFt, none, some fnFt] 2 5 (some fnFt) = .ok z ∧
    value fnEv z.cores [3, 4] = 133 := by
  obtain ⟨z, h1, -, -, h4⟩ := vprodsum_value_partial fn_scale fn_prod fn_arr fn_arr (by decide) fnFt_ok rfl
    (Nat.le_refl 2) (1 : ℚ) 5
  refine ⟨z, h1, ?_⟩
  rw [h4 _ (fn_dom _ _), fnFt_value]
  simp [valueAt, Finset.sum_range_succ, fnFt_value]; norm_num

/-- `c3vgemv_arr` with `beta = 2` and no terms returns `4 y` instead of `2 y`. -/
theorem vgemvArr_counterexample : ∃ y', c3vgemvArr fnOps 0 1 0 1 [] 1 [] 1 2 [some fnFt] 1 = .ok y' ∧
    valueAt fnEv y' 0 [3, 4] = 28 ∧ 2 * valueAt fnEv [some fnFt] 0 [3, 4] = 14 := by
  obtain ⟨y', h1, -, -, h4⟩ := vgemvArr_actual (e := fnEv) (F := fnFam) fn_scale (d := 2) (m := 1) (n := 0) (lda := 1)
    (incb := 1) (incy := 1) (A := []) (B := []) (y := [some fnFt]) (fun i hi => absurd hi (Nat.not_lt_zero _))
    (fun i hi => by
      have : i = 0 := by omega
      subst this; exact ⟨fnFt, rfl, fnFt_ok, rfl⟩) (by decide) (Nat.le_refl 2) 1 2 0 (.inl rfl)
    (fun i _ j hj => absurd hj (Nat.not_lt_zero _))
  refine ⟨y', h1, ?_, ?_⟩
  · have := h4 0 (by decide) [3, 4] (fn_dom _ _)
    rw [Nat.zero_mul] at this
    rw [this]
    simp [valueAt, fnFt_value]; norm_num
  · simp [valueAt, fnFt_value]; norm_num

end C3.Ft
