/- C24: structured constructors of function trains represent the documented functions. -/
import Verif.Ft.QuadLemmas
import Mathlib.Analysis.SpecialFunctions.Pow.Real

set_option linter.unusedSectionVars false

namespace C3.Ft
open Finset
variable {K U O : Type} [Field K]

/-- **C24** The sum constructor, dimension ≥ 2: the train has value `Σ_k f_k(x_k)`. Partial: dimension 1 is excluded (see
`initsum_dim1_counterexample`). -/
theorem initsum_value_partial {e : Ev K U K} {cn : Con K U O} {F : Fam U K} {opts : List O} (hc : ConLaw e cn F opts)
    {G : Nat → K → K} (hg : Makes e F opts cn.approx G) (h2 : 2 ≤ opts.length) :
    ∃ ft : FT K U, initsum cn opts = .ok ft ∧ ft.Ok F ∧ ft.Scratch ∧ ft.dim = opts.length ∧
      ∀ x, InDom F opts.length x → value e ft.cores x = ∑ k ∈ range opts.length, G k (x.getD k 0) := by
  obtain ⟨ft, h1, h3, h4, h5, h6⟩ := sumTrain_core hc hg rfl h2 (lastOpt := opts.length - 1) rfl
  exact ⟨ft, by rw [initsum, if_neg (by omega)]; exact h1, h3, h4, h5,
    fun x hx => sum_of_core h2 (by rw [← h3.wf.dim, h5]) h6 hx⟩

/-- In one dimension the sum constructor writes outside the array of its only core (ft.c:1623-1632). -/
theorem initsum_dim1_counterexample {e : Ev K U K} {cn : Con K U O} {F : Fam U K} {o : O} (hc : ConLaw e cn F [o])
    {G : Nat → K → K} (hg : Makes e F [o] cn.approx G) : initsum cn [o] = (.error .oob : C (FT K U)) := by
  obtain ⟨f, hf, -⟩ := hg 0 o rfl
  obtain ⟨c, hcc, -⟩ := hc.const 0 o rfl 1
  simp only [initsum, List.length_singleton, if_true]
  rw [show rd [o] 0 = .ok o from rfl, bind_ok, hf, bind_ok, hcc, bind_ok]
  rfl

theorem makes_lin {e : Ev K U K} {cn : Con K U O} {F : Fam U K} {opts : List O} (hl : ConLaw e cn F opts) {c a : List K}
    {ldc lda : Nat} (hcl : ∀ k < opts.length, k * ldc < c.length) (hal : ∀ k < opts.length, k * lda < a.length) :
    Makes e F opts (fun k o => do
      let ck ← rd c (k * ldc)
      let ak ← rd a (k * lda)
      cn.lin ck ak o) (fun k x => c.getD (k * ldc) 0 * x + a.getD (k * lda) 0) := by
  intro k o ho
  have hk : k < opts.length := (List.getElem?_eq_some_iff.1 ho).1
  obtain ⟨f, hf, pf, vf⟩ := hl.lin k o ho (c.getD (k * ldc) 0) (a.getD (k * lda) 0)
  refine ⟨f, ?_, pf, vf⟩
  show rd c (k * ldc) >>= _ = _
  rw [rd_getD 0 (hcl k hk), bind_ok, rd_getD 0 (hal k hk), bind_ok, hf]

/-- **C24** The linear constructor, dimension ≥ 2: the train has value `Σ_k (c_k x_k + a_k)`, for all strides. Partial:
dimension 1 is excluded (see `linear_dim1_counterexample`). -/
theorem linear_value_partial {e : Ev K U K} {cn : Con K U O} {F : Fam U K} {opts : List O} (hl : ConLaw e cn F opts)
    (h2 : 2 ≤ opts.length) {c a : List K} {ldc lda : Nat} (hcl : ∀ k < opts.length, k * ldc < c.length)
    (hal : ∀ k < opts.length, k * lda < a.length) :
    ∃ ft : FT K U, linear cn c ldc a lda opts = .ok ft ∧ ft.Ok F ∧ ft.Scratch ∧ ft.dim = opts.length ∧
      ∀ x, InDom F opts.length x →
        value e ft.cores x = ∑ k ∈ range opts.length, (c.getD (k * ldc) 0 * x.getD k 0 + a.getD (k * lda) 0) := by
  obtain ⟨ft, h1, h3, h4, h5, h6⟩ := sumTrain_core hl (makes_lin hl hcl hal) rfl h2 (lastOpt := opts.length - 1) rfl
  exact ⟨ft, by rw [linear, if_neg (by omega)]; exact h1, h3, h4, h5,
    fun x hx => sum_of_core h2 (by rw [← h3.wf.dim, h5]) h6 hx⟩

/-- In one dimension the linear constructor succeeds but leaves the last rank 0: every evaluation fails an assertion. -/
theorem linear_dim1_counterexample {e : Ev K U K} {cn : Con K U O} {F : Fam U K} {o : O} (hl : ConLaw e cn F [o])
    {c a : List K} {ldc lda : Nat} (hcl : c ≠ []) (hal : a ≠ []) :
    ∃ ft : FT K U, linear cn c ldc a lda [o] = .ok ft ∧ ∀ x, eval e ft x = .error .assertFail := by
  obtain ⟨c0, c', rfl⟩ := List.exists_cons_of_ne_nil hcl
  obtain ⟨a0, a', rfl⟩ := List.exists_cons_of_ne_nil hal
  obtain ⟨f, hf, -⟩ := hl.lin 0 o rfl c0 a0
  refine ⟨⟨1, [1, 0], [⟨1, 1, [f]⟩], none, none, none⟩, ?_, fun x => rfl⟩
  simp only [linear, List.length_singleton, if_true, Nat.zero_mul]
  rw [show rd [o] 0 = .ok o from rfl, bind_ok, show rd (c0 :: c') 0 = .ok c0 from rfl, bind_ok,
    show rd (a0 :: a') 0 = .ok a0 from rfl, bind_ok, oneTrain, hf]
  rfl

/-- **C24** The aligned quadratic constructor, dimension ≥ 2: the train has value `Σ_k c_k (x_k - m_k)²`, provided the last
two dimensions have the same options. Partial: the options of the last dimension are ignored by the code (see
`quadraticAligned_counterexample`), and dimension 1 is excluded. -/
theorem quadraticAligned_value_partial {e : Ev K U K} {cn : Con K U O} {F : Fam U K} {opts : List O}
    (hl : ConLaw e cn F opts) (h2 : 2 ≤ opts.length) (hsame : opts[opts.length - 2]? = opts[opts.length - 1]?)
    {c m : List K} (hcl : opts.length ≤ c.length) (hml : opts.length ≤ m.length) :
    ∃ ft : FT K U, quadraticAligned cn c m opts = .ok ft ∧ ft.Ok F ∧ ft.Scratch ∧ ft.dim = opts.length ∧
      ∀ x, InDom F opts.length x →
        value e ft.cores x = ∑ k ∈ range opts.length, c.getD k 0 * (x.getD k 0 - m.getD k 0) ^ 2 := by
  have hg : Makes e F opts (fun k o => do
      let ck ← rd c k
      let mk ← rd m k
      cn.quad ck mk o) (fun k x => c.getD k 0 * (x - m.getD k 0) ^ 2) := by
    intro k o ho
    have hk : k < opts.length := (List.getElem?_eq_some_iff.1 ho).1
    obtain ⟨f, hf, pf, vf⟩ := hl.quad k o ho (c.getD k 0) (m.getD k 0)
    refine ⟨f, ?_, pf, vf⟩
    show rd c k >>= _ = _
    rw [rd_getD 0 (show k < _ by omega), bind_ok, rd_getD 0 (show k < _ by omega), bind_ok, hf]
  obtain ⟨ft, h1, h3, h4, h5, h6⟩ := sumTrain_core hl hg rfl h2 hsame
  exact ⟨ft, by rw [quadraticAligned, if_neg (by omega)]; exact h1, h3, h4, h5,
    fun x hx => sum_of_core h2 (by rw [← h3.wf.dim, h5]) h6 hx⟩

/-- In one dimension the aligned quadratic cannot be evaluated (last rank 0). -/
theorem quadraticAligned_dim1_counterexample {e : Ev K U K} {cn : Con K U O} {F : Fam U K} {o : O}
    (hl : ConLaw e cn F [o]) {c m : List K} (hcl : c ≠ []) (hml : m ≠ []) :
    ∃ ft : FT K U, quadraticAligned cn c m [o] = .ok ft ∧ ∀ x, eval e ft x = .error .assertFail := by
  obtain ⟨c0, c', rfl⟩ := List.exists_cons_of_ne_nil hcl
  obtain ⟨a0, a', rfl⟩ := List.exists_cons_of_ne_nil hml
  obtain ⟨f, hf, -⟩ := hl.quad 0 o rfl c0 a0
  refine ⟨⟨1, [1, 0], [⟨1, 1, [f]⟩], none, none, none⟩, ?_, fun x => rfl⟩
  simp only [quadraticAligned, List.length_singleton, if_true]
  rw [show rd [o] 0 = .ok o from rfl, bind_ok, show rd (c0 :: c') 0 = .ok c0 from rfl, bind_ok,
    show rd (a0 :: a') 0 = .ok a0 from rfl, bind_ok, oneTrain, hf]
  rfl

/-- **C24** The quadratic constructor: for every dimension it accepts (≥ 2), any matrix `Q` (not necessarily symmetric)
and any offset, the train has value `(x-m)ᵀ Q (x-m)`. -/
theorem quadratic_value {e : Ev K U K} {cn : Con K U O} {F : Fam U K} {opts : List O} (hl : ConLaw e cn F opts)
    (h2 : 2 ≤ opts.length) {Q m : List K} (hQ : opts.length * opts.length ≤ Q.length) (hm : opts.length ≤ m.length) :
    ∃ ft : FT K U, quadratic cn Q m opts = .ok ft ∧ ft.Ok F ∧ ft.Scratch ∧ ft.dim = opts.length ∧
      ∀ x, InDom F opts.length x → value e ft.cores x = ∑ p ∈ range opts.length, ∑ q ∈ range opts.length,
        Q.getD (p * opts.length + q) 0 * (x.getD p 0 - m.getD p 0) * (x.getD q 0 - m.getD q 0) := by
  obtain ⟨ft, h1, h3, h4, h5, h6⟩ := quadratic_core hl rfl h2 hQ hm
  refine ⟨ft, h1, h3, h4, h5, fun x hx => ?_⟩
  rw [quadratic_of_core h2 (Q := fun p q => Q.getD (p * opts.length + q) 0) (m := fun k => m.getD k 0)
    (by rw [← h3.wf.dim, h5]) h6 hx, qform]
  simp only [Nat.zero_add]

/-- The quadratic constructor refuses dimension 0 or 1 by an assertion. -/
theorem quadratic_refuses {cn : Con K U O} {opts : List O} (h : opts.length < 2) (Q m : List K) :
    quadratic cn Q m opts = (.error .assertFail : C (FT K U)) := by
  simp only [quadratic]
  rw [decide_eq_false (by omega), cassert_false, bind_error]

/-- **C24** The rank-one product constructor: value `Π_k (c_k x_k)` in every dimension ≥ 2. -/
theorem rankoneProd_value {e : Ev K U K} {cn : Con K U O} {F : Fam U K} {opts : List O} (hl : ConLaw e cn F opts)
    (h2 : 2 ≤ opts.length) {c : List K} (hcl : opts.length ≤ c.length) :
    ∃ ft : FT K U, rankoneProd cn c opts = .ok ft ∧ ft.Ok F ∧ ft.Scratch ∧ ft.dim = opts.length ∧
      ∀ x, InDom F opts.length x → value e ft.cores x = ∏ k ∈ range opts.length, (c.getD k 0 * x.getD k 0) := by
  have hg : Makes e F opts (fun k o => do
      let c ← rd c k
      cn.lin c 0 o) (fun k x => c.getD k 0 * x) := by
    intro k o ho
    have hk : k < opts.length := (List.getElem?_eq_some_iff.1 ho).1
    obtain ⟨f, hf, pf, vf⟩ := hl.lin k o ho (c.getD k 0) 0
    refine ⟨f, ?_, pf, fun x hx => by rw [vf x hx, add_zero]⟩
    show rd c k >>= _ = _
    rw [rd_getD 0 (show k < _ by omega), bind_ok, hf]
  obtain ⟨ft, h1, h3, h4, h5, h6⟩ := rankOne_core (K := K) hg rfl (by omega)
  have hlen : ft.cores.length = opts.length := by rw [← h3.wf.dim, h5]
  refine ⟨ft, ?_, h3, h4, h5, fun x hx => ?_⟩
  · rw [rankoneProd, cassert_of (decide_eq_true (by omega)), bind_ok, h1]
  · rw [prod_of_core h6 (by rw [hlen]; exact hx), hlen]

/-- **C24** The constant constructor: value `a` in every dimension ≥ 1, when the `d`-th root is exact. -/
theorem constant_value [LinearOrder K] [IsStrictOrderedRing K] {e : Ev K U K} {cn : Con K U O} {F : Fam U K}
    {opts : List O} (hl : ConLaw e cn F opts) (h1 : opts ≠ []) {root : K → Nat → K} {a : K}
    (hroot : root a opts.length ^ opts.length = |a|) :
    ∃ ft : FT K U, constant cn root a opts = .ok ft ∧ ft.Ok F ∧ ft.Scratch ∧ ft.dim = opts.length ∧
      ∀ x, InDom F opts.length x → value e ft.cores x = a := by
  have hg : Makes e F opts (fun k o => if k = 0 then cn.const ((if a < 0 then -1 else 1) * root a opts.length) o
      else cn.const (root a opts.length) o)
      (fun k _ => if k = 0 then (if a < 0 then -1 else 1) * root a opts.length else root a opts.length) := by
    intro k o ho
    by_cases hk : k = 0
    · obtain ⟨f, hf, pf, vf⟩ := hl.const k o ho ((if a < 0 then -1 else 1) * root a opts.length)
      exact ⟨f, by simp only [if_pos hk]; exact hf, pf, fun x hx => by simp only [if_pos hk]; exact vf x hx⟩
    · obtain ⟨f, hf, pf, vf⟩ := hl.const k o ho (root a opts.length)
      exact ⟨f, by simp only [if_neg hk]; exact hf, pf, fun x hx => by simp only [if_neg hk]; exact vf x hx⟩
  have hp : 0 < opts.length := List.length_pos_iff.2 h1
  obtain ⟨ft, h1, h3, h4, h5, h6⟩ := rankOne_core (K := K) hg rfl hp
  have hlen : ft.cores.length = opts.length := by rw [← h3.wf.dim, h5]
  refine ⟨ft, h1, h3, h4, h5, fun x hx => ?_⟩
  rw [prod_of_core h6 (by rw [hlen]; exact hx), hlen]
  obtain ⟨n, hn⟩ : ∃ n, opts.length = n + 1 := ⟨opts.length - 1, by omega⟩
  rw [hn] at hroot ⊢
  rw [Finset.prod_range_succ']
  simp only [Nat.add_eq_zero_iff, Nat.one_ne_zero, and_false, if_false, if_true, prod_const, card_range]
  rw [mul_comm, mul_assoc, ← pow_succ', hroot]
  split
  · rename_i h; rw [abs_of_neg h]; ring
  · rename_i h; rw [abs_of_nonneg (not_lt.1 h), one_mul]

/-- The root used by the code, `pow(fabs(a), 1.0/dim)` in exact arithmetic, satisfies the hypothesis of
`constant_value`. -/
theorem constant_root_ok (a : ℝ) {d : Nat} (hd : d ≠ 0) : (|a| ^ ((1 : ℝ) / d)) ^ d = |a| := by
  rw [one_div]
  exact Real.rpow_inv_natCast_pow (abs_nonneg a) hd

/-- **C24** The zero train has value 0 at every point, for every rank vector with boundary ranks 1. -/
theorem zeros_value {e : Ev K U K} {cn : Con K U O} {F : Fam U K} {opts : List O} (hl : ConLaw e cn F opts)
    (h1 : opts ≠ []) {ranks : List Nat} (hr : ranks.length = opts.length + 1) (hpos : ∀ r ∈ ranks, 0 < r)
    (hr0 : ranks[0]? = some 1) (hrd : ranks[opts.length]? = some 1) :
    ∃ ft : FT K U, zeros cn opts ranks = .ok ft ∧ ft.Ok F ∧ ft.Scratch ∧ ft.dim = opts.length ∧ ft.ranks = ranks ∧
      ∀ x, InDom F opts.length x → value e ft.cores x = 0 := by
  obtain ⟨d, hd⟩ : ∃ d, d = opts.length := ⟨_, rfl⟩
  have hp : 0 < d := by rw [hd]; exact List.length_pos_iff.2 h1
  rw [← hd] at hr hrd ⊢
  have hrk : ∀ k, k ≤ d → ranks[k]? = some (ranks.getD k 0) := by
    intro k hk
    have : k < ranks.length := by omega
    simp [List.getD_eq_getElem?_getD, List.getElem?_eq_getElem this]
  have f1 : Fills (fun k Q => Rep e F k (ranks.getD k 0) (ranks.getD (k + 1) 0) (fun _ _ _ => 0) Q) d
      (forN d (fun k cs => do
        let o ← rd opts k
        let r ← rd ranks k
        let r' ← rd ranks (k + 1)
        let c ← forN (r * r') (fun jj c => do
          let f ← cn.zero o
          wr c jj (some f)) (List.replicate (r * r') none)
        let fs ← allSome c
        wr cs k (some ⟨r, r', fs⟩))) (fun p => ∃ i < d, p = i) := by
    refine Fills.forN fun k hk => ?_
    have ho : opts[k]? = some opts[k] := List.getElem?_eq_getElem (by omega)
    obtain ⟨f, hf, pf, vf⟩ := hl.zero k _ ho
    have ff : Fills (EntryR e F k (ranks.getD k 0) (fun _ _ _ => 0)) (ranks.getD k 0 * ranks.getD (k + 1) 0)
        (forN (ranks.getD k 0 * ranks.getD (k + 1) 0) (fun jj c => do
          let f ← cn.zero opts[k]
          wr c jj (some f))) (fun p => ∃ i < ranks.getD k 0 * ranks.getD (k + 1) 0, p = i) :=
      Fills.forN fun i hi => Fills.bind hf (Fills.wr hi ⟨pf, vf⟩)
    obtain ⟨b, fs, hb, hfs, lfs, vfs⟩ := ff.finish (fun p hp => ⟨p, hp, rfl⟩)
    exact Fills.bind (rd_of_getElem? ho) (Fills.bind (rd_of_getElem? (hrk k (by omega)))
      (Fills.bind (rd_of_getElem? (hrk (k + 1) (by omega))) (Fills.bind hb (Fills.bind hfs (Fills.wr hk
        (rep_of_fill lfs vfs))))))
  obtain ⟨cs, l, hcs, hl', hll, hlM⟩ := f1.finish (fun p hp => ⟨p, hp, rfl⟩)
  have hM : CoreRep e F (fun k => ranks.getD k 0) (fun _ _ _ _ => 0) l := fun k hk => hlM k (by omega)
  obtain ⟨rk, hrk1, lrk, vrk⟩ := forR_set (a0 := 0) (n := d + 1) (a := List.replicate (d + 1) 0)
    (body := fun k rk => do
      let r ← rd ranks k
      wr rk k r) (fun k => ranks.getD k 0) (by simp)
    (by intro i h1 h2 b' hb'; rw [rd_of_getElem? (hrk i (by omega)), bind_ok])
  have hrk1' : forN (d + 1) (fun k rk => do
      let r ← rd ranks k
      wr rk k r) (List.replicate (d + 1) 0) = .ok rk := by
    rw [← hrk1, forR]; simp only [Nat.zero_add, Nat.sub_zero]
  have erk : rk = ranks := by
    apply List.ext_getElem?
    intro k
    rw [vrk]
    by_cases hk : k ≤ d
    · rw [if_pos (by omega), hrk k hk]
    · rw [if_neg (by omega), List.getElem?_eq_none (by simp; omega), List.getElem?_eq_none (by omega)]
  subst erk
  have e0 : rk.getD 0 0 = 1 := by rw [List.getD_eq_getElem?_getD, hr0]; rfl
  have ed : rk.getD d 0 = 1 := by rw [List.getD_eq_getElem?_getD, hrd]; rfl
  refine ⟨⟨d, rk, l, none, none, none⟩, ?_, ok_mk (s := fun k => rk.getD k 0) hll hp e0 ed ?_ hM hr hrk, scratch_none, rfl, rfl, fun x hx => ?_⟩
  · rw [zeros, ← hd, hrk1', bind_ok, hcs, bind_ok, ftDone, hl', bind_ok, pure_eq_ok]
  · intro k hk
    exact hpos _ (List.mem_of_getElem? (hrk k hk))
  · have := chain_rep hM (by rw [hll]; exact hx) (k := 0) (by omega) (i := 0) (by show 0 < rk.getD 0 0; rw [e0]; exact Nat.one_pos)
    rw [List.drop_zero] at this
    show value e l x = 0
    rw [value, this]
    simp

/-- Updating a linear function: `generic_function_linear_update` turns a linear function into the one with the new slope
and offset. -/
def LinUpdLaw (e : Ev K U K) (cn : Con K U O) (F : Fam U K) : Prop :=
  ∀ k f c0 a0 c a, F.P k f → (∀ x, F.D k x → e.ev f x = c0 * x + a0) → ∃ h, cn.linUpd f c a = .ok h ∧ F.P k h ∧
    ∀ x, F.D k x → e.ev h x = c * x + a

theorem Rep.entry {e : Ev K U K} {F : Fam U K} {k n m : Nat} {M : K → Nat → Nat → K} {Q : Qma U} (h : Rep e F k n m M Q)
    {p : Nat} (hp : p < n * m) : ∃ v, Q.funcs[p]? = some v ∧ EntryR e F k n M p v := by
  obtain ⟨h1, h2, h3⟩ := divmod_of_lt hp
  obtain ⟨f, hf, hm, hv⟩ := h.wf.get (e := e) (i := p % n) (j := p / n) (by rw [h.nrows]; exact h1)
    (by rw [h.ncols]; exact h2)
  rw [h.nrows, h3] at hf
  have hlt : p < Q.funcs.length := by rw [h.wf, h.nrows, h.ncols]; exact hp
  rw [rd_ok hlt, Except.ok.injEq] at hf
  refine ⟨f, by rw [List.getElem?_eq_getElem hlt, hf], h.mem f hm, fun x hx => ?_⟩
  rw [hv, h.val x hx _ h1 _ h2]

theorem Msum_congr {d : Nat} {G G' : Nat → K → K} {k : Nat} {x : K} {i l : Nat} (h : G k x = G' k x) :
    Msum d G k x i l = Msum d G' k x i l := by
  by_cases h0 : k = 0
  · subst h0; rw [Msum, Msum, h]
  · rw [Msum, Msum, h, if_neg h0, if_neg h0]

theorem linUpdAt_ok {e : Ev K U K} {cn : Con K U O} {F : Fam U K} (hu : LinUpdLaw e cn F) {d : Nat} (h2 : 2 ≤ d)
    {G : Nat → K → K} (hG : ∀ k, ∃ c0 a0, ∀ x, G k x = c0 * x + a0) {c a : List K} {ldc lda : Nat}
    (hcl : ∀ k < d, k * ldc < c.length) (hal : ∀ k < d, k * lda < a.length) {k : Nat} (hk : k < d) {cs : List (Qma U)}
    (hlen : cs.length = d)
    (hI : CoreRep e F (sSum d) (Msum d (fun j x => if j < k then c.getD (j * ldc) 0 * x + a.getD (j * lda) 0 else G j x)) cs) :
    ∃ cs', linUpdAt cn c ldc a lda k (if k = 0 then 0 else 1) cs = .ok cs' ∧ cs'.length = d ∧
      CoreRep e F (sSum d)
        (Msum d (fun j x => if j < k + 1 then c.getD (j * ldc) 0 * x + a.getD (j * lda) 0 else G j x)) cs' := by
  obtain ⟨Q, hQ, rQ⟩ := hI k (by omega)
  have hsz : sSum d k * sSum d (k + 1) = if k = 0 ∨ k = d - 1 then 2 else 4 := by
    by_cases h0 : k = 0
    · subst h0; simp [sSum]; omega
    · by_cases h1 : k = d - 1
      · rw [if_pos (.inr h1)]
        rw [sSum, sSum, if_neg (by omega), if_pos (by omega)]
      · rw [if_neg (by omega)]
        rw [sSum, sSum, if_neg (by omega), if_neg (by omega)]
  have hn : sSum d k = if k = 0 then 1 else 2 := by
    rw [sSum]
    by_cases h0 : k = 0
    · rw [if_pos (.inl h0), if_pos h0]
    · rw [if_neg (by omega), if_neg h0]
  obtain ⟨p, hp⟩ : ∃ p, p = if k = 0 then 0 else 1 := ⟨_, rfl⟩
  rw [← hp]
  have hplt : p < sSum d k * sSum d (k + 1) := by
    rw [hsz, hp]
    split <;> split <;> omega
  obtain ⟨f, hf, pf, vf⟩ := rQ.entry hplt
  obtain ⟨c0, a0, hca⟩ := hG k
  have hval : ∀ x, Msum d (fun j x => if j < k then c.getD (j * ldc) 0 * x + a.getD (j * lda) 0 else G j x) k x
      (p % sSum d k) (p / sSum d k) = G k x := by
    intro x
    rw [hn, hp]
    by_cases h0 : k = 0
    · subst h0; simp [Msum]
    · simp only [if_neg h0, Msum]
      split <;> simp
  obtain ⟨h, hh, ph, vh⟩ := hu k f c0 a0 (c.getD (k * ldc) 0) (a.getD (k * lda) 0) pf
    (fun x hx => by rw [vf x hx, hval, hca])
  have hflen : Q.funcs.length = sSum d k * sSum d (k + 1) := by rw [rQ.wf, rQ.nrows, rQ.ncols]
  refine ⟨cs.set k { Q with funcs := Q.funcs.set p h }, ?_, by simp [hlen], ?_⟩
  · rw [linUpdAt, rd_of_getElem? hQ, bind_ok, rd_of_getElem? hf, bind_ok, rd_getD 0 (hcl k hk), bind_ok,
      rd_getD 0 (hal k hk), bind_ok, hh, bind_ok, wr_ok _ (by omega), bind_ok, wr_ok _ (by omega)]
  · intro j hj
    simp only [List.length_set] at hj
    by_cases hjk : j = k
    · subst hjk
      refine ⟨_, by rw [List.getElem?_set, if_pos rfl, if_pos hj], ?_⟩
      have e1 : ({ Q with funcs := Q.funcs.set p h } : Qma U) = ⟨sSum d j, sSum d (j + 1), Q.funcs.set p h⟩ := by
        rw [← rQ.nrows, ← rQ.ncols]
      rw [e1]
      refine rep_of_fill (by simp [hflen]) fun q hq => ?_
      by_cases hqp : p = q
      · subst hqp
        refine ⟨h, by rw [List.getElem?_set, if_pos rfl, if_pos (by omega)], ph, fun x hx => ?_⟩
        rw [vh x hx, hn, hp]
        by_cases h0 : j = 0
        · subst h0; simp [Msum]
        · simp only [if_neg h0, Msum]
          split <;> simp
      · obtain ⟨v, hv, pv, vv⟩ := rQ.entry hq
        refine ⟨v, by rw [List.getElem?_set, if_neg hqp]; exact hv, pv, fun x hx => ?_⟩
        rw [vv x hx, hn]
        rw [hsz] at hq
        rw [hp] at hqp
        by_cases h0 : j = 0
        · subst h0
          rw [if_pos rfl] at hqp
          rw [if_pos (.inl rfl)] at hq
          simp [Msum, show ¬ q = 0 by omega]
        · rw [if_neg h0] at hqp
          simp only [if_neg h0, Msum]
          by_cases h1 : j = d - 1
          · rw [if_pos (.inr h1)] at hq
            simp only [if_pos h1]
            rw [if_pos (by omega), if_pos (by omega)]
          · rw [if_neg (by omega)] at hq
            simp only [if_neg h1]
            have : q = 0 ∨ q = 2 ∨ q = 3 := by omega
            rcases this with rfl | rfl | rfl <;> simp
    · obtain ⟨Q', hQ', rQ'⟩ := hI j (by omega)
      refine ⟨Q', by rw [List.getElem?_set, if_neg (by omega), hQ'], ?_⟩
      have : ∀ x i l, Msum d (fun j x => if j < k + 1 then c.getD (j * ldc) 0 * x + a.getD (j * lda) 0 else G j x) j x i l
          = Msum d (fun j x => if j < k then c.getD (j * ldc) 0 * x + a.getD (j * lda) 0 else G j x) j x i l := by
        intro x i l
        refine Msum_congr ?_
        by_cases hlt : j < k
        · rw [if_pos hlt, if_pos (by omega)]
        · rw [if_neg hlt, if_neg (by omega)]
      exact ⟨rQ'.nrows, rQ'.ncols, rQ'.wf, rQ'.mem, fun x hx i hi l hl => by rw [rQ'.val x hx i hi l hl, this]⟩

/-- **C24** Updating a train made by the linear constructor (dimension ≥ 2) gives the linear function with the new slopes
and offsets. -/
theorem linearUpdate_value_partial {e : Ev K U K} {cn : Con K U O} {F : Fam U K} {opts : List O} (hl : ConLaw e cn F opts)
    (hu : LinUpdLaw e cn F) (h2 : 2 ≤ opts.length) {c a c' a' : List K} {ldc lda ldc' lda' : Nat}
    (hcl : ∀ k < opts.length, k * ldc < c.length) (hal : ∀ k < opts.length, k * lda < a.length)
    (hcl' : ∀ k < opts.length, k * ldc' < c'.length) (hal' : ∀ k < opts.length, k * lda' < a'.length) {ft : FT K U}
    (hft : linear cn c ldc a lda opts = .ok ft) :
    ∃ ft', linearUpdate cn ft c' ldc' a' lda' = .ok ft' ∧ ft'.Ok F ∧ ft'.Scratch ∧ ft'.dim = opts.length ∧
      ∀ x, InDom F opts.length x →
        value e ft'.cores x = ∑ k ∈ range opts.length, (c'.getD (k * ldc') 0 * x.getD k 0 + a'.getD (k * lda') 0) := by
  obtain ⟨ft0, g1, g3, g4, g5, g6⟩ := sumTrain_core hl (makes_lin hl hcl hal) rfl h2 (lastOpt := opts.length - 1) rfl
  have : ft = ft0 := by
    have e1 : linear cn c ldc a lda opts = .ok ft0 := by rw [linear, if_neg (by omega)]; exact g1
    rw [hft, Except.ok.injEq] at e1; exact e1
  subst this
  obtain ⟨d, hd⟩ : ∃ d, d = opts.length := ⟨_, rfl⟩
  rw [← hd] at h2 hcl hal hcl' hal' g5 g6 ⊢
  have hG : ∀ k, ∃ c0 a0 : K, ∀ x, (fun k x => c.getD (k * ldc) 0 * x + a.getD (k * lda) 0) k x = c0 * x + a0 :=
    fun k => ⟨_, _, fun _ => rfl⟩
  have hlen : ft.cores.length = d := by rw [← g3.wf.dim, g5]
  obtain ⟨cs1, u1, l1, r1⟩ := linUpdAt_ok hu h2 hG hcl' hal' (k := 0) (by omega) hlen (by simpa using g6)
  rw [if_pos rfl] at u1
  obtain ⟨cs2, u2, l2, r2⟩ := forR_spec (a := 1) (b := d - 1) (by omega)
    (I := fun k cs => cs.length = d ∧ CoreRep e F (sSum d) (Msum d (fun j x =>
      if j < k then c'.getD (j * ldc') 0 * x + a'.getD (j * lda') 0 else c.getD (j * ldc) 0 * x + a.getD (j * lda) 0)) cs)
    (body := fun k cs => linUpdAt cn c' ldc' a' lda' k 1 cs) (s := cs1) ⟨l1, r1⟩ (by
      rintro k h1 h3 cs ⟨hl1, hr1⟩
      obtain ⟨cs', w1, w2, w3⟩ := linUpdAt_ok hu h2 hG hcl' hal' (k := k) (by omega) hl1 hr1
      rw [if_neg (by omega)] at w1
      exact ⟨cs', w1, w2, w3⟩)
  obtain ⟨cs3, u3, l3, r3⟩ := linUpdAt_ok hu h2 hG hcl' hal' (k := d - 1) (by omega) l2 r2
  rw [if_neg (by omega)] at u3
  rw [Nat.sub_add_cancel (by omega)] at r3
  have hM : CoreRep e F (sSum d) (Msum d (fun j x => if j < d then c'.getD (j * ldc') 0 * x + a'.getD (j * lda') 0
      else c.getD (j * ldc) 0 * x + a.getD (j * lda) 0)) cs3 := r3
  refine ⟨{ ft with cores := cs3 }, ?_, ?_, ⟨g4.s1, g4.s2, g4.s3⟩, g5, fun x hx => ?_⟩
  · rw [linearUpdate, u1, bind_ok, if_pos (by omega), g5, u2, bind_ok, u3, bind_ok, pure_eq_ok]
  · have hr : ∀ k ≤ d, ft.ranks[k]? = some (sSum d k) := by
      intro k hk
      rw [g3.wf.rk_get (by omega)]
      by_cases hkd : k = d
      · rw [hkd, ← g5, g3.wf.rk_last]; simp [sSum]
      · obtain ⟨Q, q1, q2, q3, q4, q5, -⟩ := g3.get (k := k) (by omega)
        obtain ⟨Q', q1', q2'⟩ := g6 k (by omega)
        rw [q2, Option.some.injEq] at q1'
        subst q1'
        rw [← q4, q2'.nrows]
    have := ok_mk (d := d) (x1 := ft.sp1) (x2 := ft.sp2) (x3 := ft.sp3) l3 (by omega) (by simp [sSum]) (by simp [sSum])
      (fun k _ => by rw [sSum]; split <;> omega) hM (by rw [g3.wf.ranks_len, g5]) hr
    rw [← g5] at this
    exact this
  · show value e cs3 x = _
    rw [sum_of_core h2 l3 hM hx]
    exact sum_congr rfl fun k hk => by rw [if_pos (mem_range.1 hk)]

/-! ### Examples -/

/-- Ordinary functions as univariate functions, options ignored. -/
def fnCon : Con ℚ (ℚ → ℚ) Unit :=
  ⟨fun a _ => .ok fun _ => a, fun c a _ => .ok fun x => c * x + a, fun c m _ => .ok fun x => c * (x - m) ^ 2,
    fun _ => .ok fun _ => 0, fun k _ => .ok fun x => x ^ k, fun _ c a => .ok fun x => c * x + a⟩

theorem fn_con (opts : List Unit) : ConLaw fnEv fnCon fnFam opts :=
  ⟨fun _ _ _ _ => ⟨_, rfl, trivial, fun _ _ => rfl⟩, fun _ _ _ _ _ => ⟨_, rfl, trivial, fun _ _ => rfl⟩,
    fun _ _ _ _ _ => ⟨_, rfl, trivial, fun _ _ => rfl⟩, fun _ _ _ => ⟨_, rfl, trivial, fun _ _ => rfl⟩⟩

theorem fn_dom' (n : Nat) (x : List ℚ) (h : n ≤ x.length) : InDom fnFam n x := ⟨h, fun _ _ _ _ => trivial⟩

example : ∃ ft : FT ℚ (ℚ → ℚ), initsum fnCon [(), (), ()] = .ok ft ∧ value fnEv ft.cores [7, 2, 3] = 1 + 2 + 9 := by
  obtain ⟨ft, h1, -, -, -, h2⟩ := initsum_value_partial (fn_con [(), (), ()]) (G := fun k x => x ^ k)
    (fun _ _ _ => ⟨_, rfl, trivial, fun _ _ => rfl⟩) (by simp)
  exact ⟨ft, h1, by rw [h2 _ (fn_dom' _ _ (by simp))]; simp [Finset.sum_range_succ]; norm_num⟩

example : ∃ ft : FT ℚ (ℚ → ℚ), linear fnCon [1, 0, 2, 0, 3] 2 [5] 0 [(), (), ()] = .ok ft ∧
    value fnEv ft.cores [7, 2, 3] = 7 + 4 + 9 + 15 := by
  obtain ⟨ft, h1, -, -, -, h2⟩ := linear_value_partial (fn_con [(), (), ()]) (by simp) (c := [1, 0, 2, 0, 3]) (ldc := 2)
    (a := [5]) (lda := 0) (fun k hk => by simp at *; omega) (fun k hk => by simp)
  exact ⟨ft, h1, by rw [h2 _ (fn_dom' _ _ (by simp))]; simp [Finset.sum_range_succ]; norm_num⟩

example : ∃ ft : FT ℚ (ℚ → ℚ), quadratic fnCon [1, 2, 3, 4] [0, 1] [(), ()] = .ok ft ∧
    value fnEv ft.cores [2, 3] = 1 * 4 + 2 * 4 + 3 * 4 + 4 * 4 := by
  obtain ⟨ft, h1, -, -, -, h2⟩ := quadratic_value (fn_con [(), ()]) (by simp) (Q := [1, 2, 3, 4]) (m := [0, 1]) (by simp)
    (by simp)
  exact ⟨ft, h1, by rw [h2 _ (fn_dom' _ _ (by simp))]; simp [Finset.sum_range_succ]; norm_num⟩

example : ∃ ft : FT ℚ (ℚ → ℚ), rankoneProd fnCon [1, 2, 3] [(), (), ()] = .ok ft ∧
    value fnEv ft.cores [2, 3, 5] = 2 * 6 * 15 := by
  obtain ⟨ft, h1, -, -, -, h2⟩ := rankoneProd_value (fn_con [(), (), ()]) (by simp) (c := [1, 2, 3]) (by simp)
  exact ⟨ft, h1, by rw [h2 _ (fn_dom' _ _ (by simp))]; simp [Finset.prod_range_succ]; norm_num⟩

example : ∃ ft : FT ℚ (ℚ → ℚ), zeros fnCon [(), ()] [1, 3, 1] = .ok ft ∧ value fnEv ft.cores [2, 3] = 0 := by
  obtain ⟨ft, h1, -, -, -, -, h2⟩ := zeros_value (fn_con [(), ()]) (by simp) (ranks := [1, 3, 1]) rfl (by simp) rfl rfl
  exact ⟨ft, h1, by rw [h2 _ (fn_dom' _ _ (by simp))]⟩

/-- A constant train over the real numbers with the root used by the code. -/
example : ∃ ft : FT ℝ (ℝ → ℝ), constant (⟨fun a _ => .ok fun _ => a, fun c a _ => .ok fun x => c * x + a,
    fun c m _ => .ok fun x => c * (x - m) ^ 2, fun _ => .ok fun _ => 0, fun _ _ => .error .null,
    fun _ _ _ => .error .null⟩ : Con ℝ (ℝ → ℝ) Unit) (fun a d => |a| ^ ((1 : ℝ) / d)) (-2) [(), ()] = .ok ft ∧
    value ⟨fun f x => f x, fun _ => false⟩ ft.cores [3, 4] = -2 := by
  obtain ⟨ft, h1, -, -, -, h2⟩ := constant_value (K := ℝ) (U := ℝ → ℝ) (O := Unit) (e := ⟨fun f x => f x, fun _ => false⟩)
    (cn := ⟨fun a _ => .ok fun _ => a, fun c a _ => .ok fun x => c * x + a,
    fun c m _ => .ok fun x => c * (x - m) ^ 2, fun _ => .ok fun _ => 0, fun _ _ => .error .null,
    fun _ _ _ => .error .null⟩) (F := ⟨fun _ _ => True, fun _ _ => True⟩) (opts := [(), ()])
    ⟨fun _ _ _ _ => ⟨_, rfl, trivial, fun _ _ => rfl⟩, fun _ _ _ _ _ => ⟨_, rfl, trivial, fun _ _ => rfl⟩,
    fun _ _ _ _ _ => ⟨_, rfl, trivial, fun _ _ => rfl⟩, fun _ _ _ => ⟨_, rfl, trivial, fun _ _ => rfl⟩⟩ (by simp)
    (root := fun a d => |a| ^ ((1 : ℝ) / d)) (a := -2) (constant_root_ok (-2) (by simp))
  exact ⟨ft, h1, h2 [3, 4] ⟨by simp, fun _ _ _ _ => trivial⟩⟩

theorem fn_linUpd : LinUpdLaw fnEv fnCon fnFam := fun _ _ _ _ _ _ _ _ => ⟨_, rfl, trivial, fun _ _ => rfl⟩

example : ∃ ft ft' : FT ℚ (ℚ → ℚ), linear fnCon [1, 2, 3] 1 [5] 0 [(), (), ()] = .ok ft ∧
    linearUpdate fnCon ft [4, 5, 6] 1 [0, 0, 1] 1 = .ok ft' ∧ value fnEv ft'.cores [1, 2, 3] = 4 + 10 + 18 + 1 := by
  obtain ⟨ft, h1, -⟩ := linear_value_partial (fn_con [(), (), ()]) (by simp) (c := [1, 2, 3]) (ldc := 1)
    (a := [5]) (lda := 0) (fun k hk => by simp at *; omega) (fun k hk => by simp)
  obtain ⟨ft', h2, -, -, -, h3⟩ := linearUpdate_value_partial (fn_con [(), (), ()]) fn_linUpd (by simp) (c' := [4, 5, 6])
    (ldc' := 1) (a' := [0, 0, 1]) (lda' := 1) (fun k hk => by simp at *; omega) (fun k hk => by simp)
    (fun k hk => by simp at *; omega) (fun k hk => by simp at *; omega) h1
  exact ⟨ft, ft', h1, h2, by rw [h3 _ (fn_dom' _ _ (by simp))]; simp [Finset.sum_range_succ]; norm_num⟩

example : ∃ ft : FT ℚ (ℚ → ℚ), quadraticAligned fnCon [1, 2, 3] [0, 1, 1] [(), (), ()] = .ok ft ∧
    value fnEv ft.cores [2, 3, 5] = 4 + 8 + 48 := by
  obtain ⟨ft, h1, -, -, -, h2⟩ := quadraticAligned_value_partial (fn_con [(), (), ()]) (by simp) rfl (c := [1, 2, 3])
    (m := [0, 1, 1]) (by simp) (by simp)
  exact ⟨ft, h1, by rw [h2 _ (fn_dom' _ _ (by simp))]; simp [Finset.sum_range_succ]; norm_num⟩

/-- Functions on an interval, zero outside (as piecewise linear elements are evaluated). -/
def boxEv : Ev ℚ (ℚ × ℚ × (ℚ → ℚ)) ℚ := ⟨fun f x => if f.1 ≤ x ∧ x ≤ f.2.1 then f.2.2 x else 0, fun _ => false⟩
def boxCon : Con ℚ (ℚ × ℚ × (ℚ → ℚ)) (ℚ × ℚ) :=
  ⟨fun a o => .ok (o.1, o.2, fun _ => a), fun c a o => .ok (o.1, o.2, fun x => c * x + a),
    fun c m o => .ok (o.1, o.2, fun x => c * (x - m) ^ 2), fun o => .ok (o.1, o.2, fun _ => 0),
    fun _ _ => .error .null, fun _ _ _ => .error .null⟩

/-- The domains of the two dimensions are `[0,1]` and `[5,6]`. -/
def boxOpts : List (ℚ × ℚ) := [(0, 1), (5, 6)]
def boxFam : Fam (ℚ × ℚ × (ℚ → ℚ)) ℚ :=
  ⟨fun _ _ => True, fun k x => ∀ o, boxOpts[k]? = some o → o.1 ≤ x ∧ x ≤ o.2⟩

theorem box_con : ConLaw boxEv boxCon boxFam boxOpts := by
  refine ⟨fun k o ho a => ⟨_, rfl, trivial, fun x hx => ?_⟩, fun k o ho c a => ⟨_, rfl, trivial, fun x hx => ?_⟩,
    fun k o ho c m => ⟨_, rfl, trivial, fun x hx => ?_⟩, fun k o ho => ⟨_, rfl, trivial, fun x hx => ?_⟩⟩ <;>
    exact if_pos (hx o ho)

/-- The options of the last dimension are ignored by the aligned quadratic constructor (ft.c:2086: `o` is not advanced):
with domains `[0,1]` and `[5,6]` the train for `x² + y²` is wrong at `(1,5)`. -/
theorem quadraticAligned_counterexample : ∃ ft : FT ℚ (ℚ × ℚ × (ℚ → ℚ)), quadraticAligned boxCon [1, 1] [0, 0] boxOpts = .ok ft ∧
    InDom boxFam 2 [1, 5] ∧ value boxEv ft.cores [1, 5] = 0 := by
  refine ⟨_, rfl, ⟨by simp, ?_⟩, ?_⟩
  · intro k hk xk hx o ho
    have : k = 0 ∨ k = 1 := by omega
    rcases this with rfl | rfl
    · simp [boxOpts] at hx ho; subst hx; subst ho; norm_num
    · simp [boxOpts] at hx ho; subst hx; subst ho; norm_num
  · simp [value, mats, chain, boxEv, Qma.val, Finset.sum_range_succ]
    try norm_num

end C3.Ft
