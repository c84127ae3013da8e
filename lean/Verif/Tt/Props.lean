/- C40, C41: element lookup, sums, products, inner products and quadrature of tensor trains. -/
import Verif.Tt.Lemmas
import Mathlib.Tactic.NormNum

set_option linter.unusedSectionVars false

namespace C3.Tt
open Finset
variable {K : Type} [CommRing K]

/-! ### Facts about well-formed trains -/

theorem TT.WF.rk_get {t : TT K} (h : t.WF) {k : Nat} (hk : k ≤ t.dim) : rd t.ranks k = .ok (t.rk k) :=
  rd_getD 0 (by rw [h.nranks]; omega)

theorem TT.WF.nv_get {t : TT K} (h : t.WF) {k : Nat} (hk : k < t.dim) : rd t.nvals k = .ok (t.nv k) :=
  rd_getD 0 (by rw [h.nnvals]; omega)

theorem TT.G_eq {t : TT K} {k : Nat} {Q : T3 K} (h : t.cores[k]? = some Q) : t.G k = Q.get := by
  funext i e j; rw [TT.G, h]; rfl

theorem TT.WF.core_get {t : TT K} (h : t.WF) {k : Nat} (hk : k < t.dim) :
    ∃ Q, rd t.cores k = .ok Q ∧ t.cores[k]? = some Q ∧ Q.Is (t.rk k) (t.nv k) (t.rk (k + 1)) (t.G k) := by
  have hk' : k < t.cores.length := by rw [h.ncores]; exact hk
  obtain ⟨h1, h2, h3, h4⟩ := h.core k _ (List.getElem?_eq_getElem hk')
  refine ⟨_, rd_ok hk', List.getElem?_eq_getElem hk', ?_⟩
  rw [TT.G_eq (List.getElem?_eq_getElem hk'), ← h2, ← h3, ← h4]
  exact h1.is

/-- A train described by sizes and entries. -/
structure Rep (d : Nat) (n s : Nat → Nat) (G : Nat → Nat → Nat → Nat → K) (t : TT K) : Prop where
  dim : t.dim = d
  wf : t.WF
  nv : ∀ k < d, t.nv k = n k
  rk : ∀ k ≤ d, t.rk k = s k
  val : ∀ k < d, ∀ i < s k, ∀ e < n k, ∀ j < s (k + 1), t.G k i e j = G k i e j

theorem mk_rep {d : Nat} {n s : Nat → Nat} {G : Nat → Nat → Nat → Nat → K} {nv rk : List Nat} {cs : List (T3 K)}
    (hd : 0 < d) (hnl : nv.length = d) (hrl : rk.length = d + 1) (hcl : cs.length = d)
    (hn : ∀ k < d, nv[k]? = some (n k)) (hr : ∀ k ≤ d, rk[k]? = some (s k))
    (hc : ∀ k < d, ∃ Q, cs[k]? = some Q ∧ Q.Is (n := n k) (r := s k) (s := s (k + 1)) (g := G k))
    (hs0 : s 0 = 1) (hsd : s d = 1) (hsp : ∀ k ≤ d, 0 < s k) : Rep d n s G ⟨d, nv, rk, cs⟩ := by
  have hnv : ∀ k < d, (⟨d, nv, rk, cs⟩ : TT K).nv k = n k := fun k hk => by
    rw [TT.nv, List.getD_eq_getElem?_getD, hn k hk]; rfl
  have hrk : ∀ k ≤ d, (⟨d, nv, rk, cs⟩ : TT K).rk k = s k := fun k hk => by
    rw [TT.rk, List.getD_eq_getElem?_getD, hr k hk]; rfl
  refine ⟨rfl, ⟨hd, hcl, hrl, hnl, ?_, ?_, ?_, ?_⟩, hnv, hrk, ?_⟩
  · rw [hrk 0 (by omega), hs0]
  · show TT.rk _ d = 1; rw [hrk d (by omega), hsd]
  · intro k hk; rw [hrk k hk]; exact hsp k hk
  · intro k Q hQ
    have hkd : k < d := by have := (List.getElem?_eq_some_iff.1 hQ).1; change k < cs.length at this; omega
    obtain ⟨Q', h1, h2⟩ := hc k hkd
    change cs[k]? = some Q at hQ
    rw [hQ, Option.some.injEq] at h1
    subst h1
    exact ⟨h2.wf, by rw [h2.n0, hrk k (by omega)], by rw [h2.n1, hnv k hkd], by rw [h2.n2, hrk (k + 1) (by omega)]⟩
  · intro k hk i hi e he j hj
    obtain ⟨Q, h1, h2⟩ := hc k hk
    rw [TT.G_eq (show (⟨d, nv, rk, cs⟩ : TT K).cores[k]? = some Q from h1), h2.get hi he hj]

/-- The tail products only depend on the entries in range. -/
theorem tail_congr {n s : Nat → Nat} {G H : Nat → Nat → Nat → Nat → K} {s' : Nat → Nat} {d : Nat}
    (hs : ∀ k ≤ d, s k = s' k)
    (h : ∀ k < d, ∀ i < s k, ∀ e < n k, ∀ j < s (k + 1), G k i e j = H k i e j) :
    ∀ (es : List Nat) (k i : Nat), k + es.length = d → i < s k → (∀ m < es.length, es.getD m 0 < n (k + m)) →
      tail s G k es i = tail s' H k es i := by
  intro es
  induction es with
  | nil => intros; rfl
  | cons e es ih =>
    intro k i hk hi he
    simp only [List.length_cons] at hk he
    rw [tail, tail, ← hs (k + 1) (by omega)]
    refine sum_congr rfl fun c hc => ?_
    have h0 := he 0 (by omega)
    simp only [List.getD_cons_zero, Nat.add_zero] at h0
    rw [h k (by omega) i hi e h0 c (mem_range.1 hc), ih (k + 1) c (by omega) (mem_range.1 hc) (fun m hm => by
      have := he (m + 1) (by omega)
      rwa [List.getD_cons_succ, show k + (m + 1) = k + 1 + m by ring] at this)]

theorem Rep.elem {d : Nat} {n s : Nat → Nat} {G : Nat → Nat → Nat → Nat → K} {t : TT K} (h : Rep d n s G t)
    {es : List Nat} (hes : t.Ix es) : t.elem es = tail s G 0 es 0 := by
  rw [TT.elem, tail_congr (n := n) (d := d) (fun k hk => h.rk k hk) (G := t.G) (H := G)]
  · intro k hk i hi e he j hj
    exact h.val k hk i (by rwa [← h.rk k (by omega)]) e he j (by rwa [← h.rk (k + 1) (by omega)])
  · rw [hes.len, h.dim]; omega
  · rw [h.wf.first]; omega
  · intro m hm
    rw [Nat.zero_add, ← h.nv m (by rw [← h.dim, ← hes.len]; exact hm)]
    exact hes.lt m (by rw [← hes.len]; exact hm)

/-! ### Element lookup -/

theorem drop_cons {es : List Nat} {k : Nat} (h : k < es.length) : es.drop k = es.getD k 0 :: es.drop (k + 1) := by
  rw [List.drop_eq_getElem_cons h]; congr 1
  simp [List.getElem?_eq_getElem h]

theorem getD_rangeMap {n i : Nat} (g : Nat → K) (h : i < n) : ((List.range n).map g).getD i 0 = g i := by
  rw [List.getD_eq_getElem?_getD, List.getElem?_map, List.getElem?_range h]; rfl

theorem T3.Is.getD {t : T3 K} {r n s : Nat} {g : Nat → Nat → Nat → K} (h : t.Is r n s g) {i e j p : Nat} (hi : i < r)
    (he : e < n) (hj : j < s) (hp : p = i + e * r + j * r * n) : t.vals.getD p 0 = g i e j := by
  rw [hp, List.getD_eq_getElem?_getD, h.val i hi e he j hj]; rfl

/-- One contraction of the left vector with a core. -/
theorem contract {s : Nat → Nat} {G : Nat → Nat → Nat → Nat → K} (k e : Nat) (es : List Nat) (r : Nat) (L : Nat → K) :
    ∑ c ∈ range (s (k + 1)), (∑ i ∈ range r, G k i e c * L i) * tail s G (k + 1) es c
      = ∑ i ∈ range r, L i * tail s G k (e :: es) i := by
  simp only [tail, sum_mul, mul_sum]
  rw [sum_comm]
  refine sum_congr rfl fun i _ => sum_congr rfl fun c _ => by ring

theorem lda_ok {n n1 s e r i j : Nat} {l : Nat} (hl : l = r * n * s) (h : n = n1 ∨ s = 1) (hi : i < r) (he : e < n)
    (hj : j < s) : e * r + (j * (r * n1) + i) = i + e * r + j * r * n ∧ e * r + (j * (r * n1) + i) < l := by
  have e1 : e * r + (j * (r * n1) + i) = i + e * r + j * r * n := by
    rcases h with h | h
    · subst h; ring
    · have : j = 0 := by omega
      subst this; ring
  exact ⟨e1, by rw [e1, hl]; exact idx3_lt hi he hj⟩

/-- **C40** Element lookup returns the matrix chain product, for every train of dimension ≥ 2, all ranks and indices,
provided each core from the third on has the mode size of the second one or a single column (the code uses the size of the
second mode as stride for all later cores). Missing: other mode sizes (`ttelem_counterexample`) and dimension 1
(`ttelem_dim1_counterexample`). -/
theorem ttelem_value_partial {t : TT K} (h : t.WF) (h2 : 2 ≤ t.dim)
    (hst : ∀ k, 2 ≤ k → k < t.dim → t.nv k = t.nv 1 ∨ t.rk (k + 1) = 1) {es : List Nat} (hes : t.Ix es) :
    ttelem t es = .ok (t.elem es) := by
  obtain ⟨Q0, hQ0, -, i0⟩ := h.core_get (k := 0) (by omega)
  obtain ⟨Q1, hQ1, -, i1⟩ := h.core_get (k := 1) (by omega)
  have hr0 := h.first
  have he0 := hes.lt 0 (by omega)
  have he1 := hes.lt 1 (by omega)
  have hrd : ∀ k < t.dim, rd es k = .ok (es.getD k 0) := fun k hk => rd_getD 0 (by rw [hes.len]; exact hk)
  have hrp : ∀ k ≤ t.dim, 0 < t.rk k := h.rpos
  have first : gemvT (t.rk 1) (t.rk 2) Q1.vals (es.getD 1 0 * t.rk 1) (t.rk 1 * t.nv 1) Q0.vals (es.getD 0 0 * t.rk 0)
      (t.rk 0 * t.nv 0) (List.replicate (t.rk 2) 0) = .ok ((List.range (t.rk 2)).map (fun c =>
        ∑ i ∈ range (t.rk 1), t.G 1 i (es.getD 1 0) c * t.G 0 0 (es.getD 0 0) i)) := by
    rw [gemvT_ok]
    · congr 1
      refine List.map_congr_left fun c hc => sum_congr rfl fun i hi => ?_
      have hc := List.mem_range.1 hc
      have hi := mem_range.1 hi
      rw [i1.getD hi he1 hc (by ring), i0.getD (i := 0) (e := es.getD 0 0) (j := i) (by omega) he0 hi (by rw [hr0]; ring)]
    · have := hrp 1 (by omega)
      have hn1 : 1 ≤ t.nv 1 := by omega
      have := Nat.le_mul_of_pos_right (t.rk 1) hn1
      omega
    · rw [hr0]; omega
    · intro i hi j hj
      exact (lda_ok i1.len (.inl rfl) hi he1 hj).2
    · intro i hi
      rw [i0.len]
      have := idx3_lt (r := t.rk 0) (i := 0) (e := es.getD 0 0) (j := i) (n := t.nv 0) (s := t.rk 1) (by omega) he0 hi
      have e : es.getD 0 0 * t.rk 0 + i * (t.rk 0 * t.nv 0) = 0 + es.getD 0 0 * t.rk 0 + i * t.rk 0 * t.nv 0 := by ring
      rw [e]; exact this
    · simp
  have inv0 : ∑ c ∈ range (t.rk 2), ((List.range (t.rk 2)).map (fun c =>
        ∑ i ∈ range (t.rk 1), t.G 1 i (es.getD 1 0) c * t.G 0 0 (es.getD 0 0) i)).getD c 0 * tail t.rk t.G 2 (es.drop 2) c
      = t.elem es := by
    rw [sum_congr rfl fun c hc => by rw [getD_rangeMap _ (mem_range.1 hc)]]
    rw [contract 1 (es.getD 1 0) (es.drop 2) (t.rk 1) (fun i => t.G 0 0 (es.getD 0 0) i), ← drop_cons (by rw [hes.len]; omega)]
    have e0 : es = es.getD 0 0 :: es.drop 1 := by
      have := drop_cons (es := es) (k := 0) (by rw [hes.len]; omega)
      rwa [List.drop_zero] at this
    rw [TT.elem]
    conv_rhs => rw [e0]
    rw [tail]
  obtain ⟨v, hv, hvl, hvs⟩ := forR_spec (a := 1) (b := t.dim - 1) (body := ttelemStep t es)
    (I := fun ii (v : List K) => v.length = t.rk (ii + 1) ∧
      ∑ c ∈ range (t.rk (ii + 1)), v.getD c 0 * tail t.rk t.G (ii + 1) (es.drop (ii + 1)) c = t.elem es)
    (s := (List.range (t.rk 2)).map (fun c =>
        ∑ i ∈ range (t.rk 1), t.G 1 i (es.getD 1 0) c * t.G 0 0 (es.getD 0 0) i))
    (by omega) ⟨by simp, inv0⟩
    (by
      rintro ii h1 hlt v ⟨hvl, hvs⟩
      obtain ⟨Q, hQ, -, iQ⟩ := h.core_get (k := ii + 1) (by omega)
      have hek := hes.lt (ii + 1) (by omega)
      have hld := hst (ii + 1) (by omega) (by omega)
      refine ⟨(List.range (t.rk (ii + 2))).map (fun c =>
        ∑ i ∈ range (t.rk (ii + 1)), t.G (ii + 1) i (es.getD (ii + 1) 0) c * v.getD i 0), ?_, by simp, ?_⟩
      · rw [ttelemStep, h.rk_get (by omega), bind_ok, h.rk_get (by omega), bind_ok, h.nv_get (by omega), bind_ok,
          hrd _ (by omega), bind_ok, hQ, bind_ok, gemvT_ok]
        · congr 1
          refine List.map_congr_left fun c hc => sum_congr rfl fun i hi => ?_
          have hc := List.mem_range.1 hc
          have hi := mem_range.1 hi
          rw [iQ.getD hi hek hc (lda_ok iQ.len hld hi hek hc).1, Nat.zero_add, Nat.mul_one]
        · have := Nat.le_mul_of_pos_right (t.rk (ii + 1)) (show 0 < t.nv 1 by omega)
          have := hrp (ii + 1) (by omega)
          omega
        · omega
        · intro i hi j hj
          exact (lda_ok iQ.len hld hi hek hj).2
        · intro i hi; omega
        · simp
      · rw [← hvs, drop_cons (k := ii + 1) (by rw [hes.len]; omega),
          ← contract (ii + 1) (es.getD (ii + 1) 0) (es.drop (ii + 1 + 1)) (t.rk (ii + 1)) (fun i => v.getD i 0)]
        refine sum_congr rfl fun c hc => ?_
        rw [getD_rangeMap _ (mem_range.1 hc)])
  rw [ttelem, h.rk_get (by omega), bind_ok, h.rk_get (by omega), bind_ok, h.rk_get (by omega), bind_ok, hQ1, bind_ok,
    hQ0, bind_ok, hrd 1 (by omega), bind_ok, hrd 0 (by omega), bind_ok, h.nv_get (by omega), bind_ok, h.nv_get (by omega),
    bind_ok, first, bind_ok, hv, bind_ok]
  rw [Nat.sub_add_cancel (by omega), h.last] at hvl hvs
  rw [rd_getD 0 (by omega), ← hvs, sum_range_one, List.drop_of_length_le (by rw [hes.len]), tail, if_pos rfl, mul_one]

/-! ### Array bookkeeping -/

theorem initRanks_ok (d : Nat) : initRanks d = .ok ((List.replicate (d + 1) 0).set 0 1) := wr_ok _ (by simp)

theorem initNvals_ok {d : Nat} {nv : List Nat} (h : d ≤ nv.length) : initNvals d nv = .ok (nv.take d) := by
  rw [initNvals, blit_ok (by simp) (by omega)]
  simp

theorem wr_all {d : Nat} {rk : List Nat} {body : Nat → List Nat → C (List Nat)} (g : Nat → Nat) (hl : rk.length = d + 1)
    (hb : ∀ i < d, ∀ b : List Nat, b.length = d + 1 → body i b = wr b i (g i)) (v : Nat) :
    ∃ rk', forN d body rk = .ok rk' ∧ wr rk' d v = .ok (rk'.set d v) ∧ (rk'.set d v).length = d + 1 ∧
      ∀ k ≤ d, (rk'.set d v)[k]? = some (if k = d then v else g k) := by
  refine ⟨_, forN_fill (off := 0) g (by omega) (fun i hi b hbl => by rw [Nat.zero_add]; exact hb i hi b (by omega)), ?_, ?_, ?_⟩
  · apply wr_ok; simp; omega
  · simp; omega
  · intro k hk
    rw [List.take_zero, List.nil_append, List.getElem?_set]
    by_cases h : k = d
    · subst h; simp; omega
    · rw [if_neg (by omega), if_neg h, List.getElem?_append_left (by simp; omega), List.getElem?_map,
        List.getElem?_range (by omega)]; rfl

/-! ### Sum -/

theorem TT.Ix.of {t u : TT K} {es : List Nat} (h : t.Ix es) (hd : u.dim = t.dim) (hn : ∀ k < t.dim, u.nv k = t.nv k) :
    u.Ix es := ⟨by rw [h.len, hd], fun k hk => by rw [hn k (by omega)]; exact h.lt k (by omega)⟩

/-- Specification of the entries of a sum. -/
def addG (a b : TT K) (d k i e j : Nat) : K :=
  if k = 0 then (if j < a.rk 1 then a.G 0 i e j else b.G 0 i e (j - a.rk 1))
  else if k = d - 1 then (if i < a.rk k then a.G k i e j else b.G k (i - a.rk k) e j)
  else if i < a.rk k then (if j < a.rk (k + 1) then a.G k i e j else 0)
    else (if j < a.rk (k + 1) then 0 else b.G k (i - a.rk k) e (j - a.rk (k + 1)))

def addS (a b : TT K) (d k : Nat) : Nat := if k = 0 ∨ k = d then 1 else a.rk k + b.rk k

theorem addS_mid {a b : TT K} {d k : Nat} (h1 : 0 < k) (h2 : k < d) : addS a b d k = a.rk k + b.rk k := by
  rw [addS, if_neg (by omega)]

theorem tail_add {a b : TT K} (ha : a.WF) (hb : b.WF) (hd : a.dim = b.dim) (h2 : 2 ≤ a.dim) :
    ∀ (es : List Nat) (k i : Nat), k + es.length = a.dim → 0 < k → k < a.dim → i < a.rk k + b.rk k →
      tail (addS a b a.dim) (addG a b a.dim) k es i
        = if i < a.rk k then tail a.rk a.G k es i else tail b.rk b.G k es (i - a.rk k) := by
  intro es
  induction es with
  | nil => intro k i hk h0 hlt; simp only [List.length_nil] at hk; omega
  | cons e es ih =>
    intro k i hk h0 hkd hi
    simp only [List.length_cons] at hk
    by_cases hl : k = a.dim - 1
    · have hes : es = [] := List.length_eq_zero_iff.1 (by omega)
      have hk1 : k + 1 = a.dim := by omega
      subst hes
      have hbl := hb.last
      rw [← hd] at hbl
      simp only [tail, hk1, ha.last, hbl, addS, or_true, if_true, sum_range_one, mul_one]
      rw [addG, if_neg (by omega), if_pos hl]
    · have hs1 := addS_mid (a := a) (b := b) (d := a.dim) (k := k + 1) (by omega) (by omega)
      rw [tail, hs1, sum_range_add]
      have hG : ∀ c, addG a b a.dim k i e c = if i < a.rk k then (if c < a.rk (k + 1) then a.G k i e c else 0)
          else (if c < a.rk (k + 1) then 0 else b.G k (i - a.rk k) e (c - a.rk (k + 1))) := by
        intro c; rw [addG, if_neg (by omega), if_neg hl]
      by_cases hia : i < a.rk k
      · rw [if_pos hia, tail, sum_eq_zero (s := range (b.rk (k + 1))), add_zero]
        · refine sum_congr rfl fun c hc => ?_
          have hc := mem_range.1 hc
          rw [hG, if_pos hia, if_pos hc, ih (k + 1) c (by omega) (by omega) (by omega) (by omega), if_pos hc]
        · intro c _
          rw [hG, if_pos hia, if_neg (by omega), zero_mul]
      · rw [if_neg hia, tail, sum_eq_zero (s := range (a.rk (k + 1))), zero_add]
        · refine sum_congr rfl fun c hc => ?_
          have hc := mem_range.1 hc
          rw [hG, if_neg hia, if_neg (by omega), ih (k + 1) _ (by omega) (by omega) (by omega) (by omega), if_neg (by omega),
            Nat.add_sub_cancel_left]
        · intro c hc
          rw [hG, if_neg hia, if_pos (mem_range.1 hc), zero_mul]

/-- **C40** The sum of two trains of the same shape and dimension ≥ 2 is the elementwise sum; its inner ranks are the sums
of the ranks and it is again a well-formed train. Missing: dimension 1 (`ttadd_dim1_counterexample`). -/
theorem ttadd_value_partial {a b : TT K} (ha : a.WF) (hb : b.WF) (hd : a.dim = b.dim) (hn : ∀ k < a.dim, b.nv k = a.nv k)
    (h2 : 2 ≤ a.dim) :
    ∃ c, ttadd a b = .ok c ∧ c.WF ∧ c.dim = a.dim ∧ (∀ k < a.dim, c.nv k = a.nv k) ∧
      (∀ k, 0 < k → k < a.dim → c.rk k = a.rk k + b.rk k) ∧ ∀ es, a.Ix es → c.elem es = a.elem es + b.elem es := by
  have hdb : b.dim = a.dim := hd.symm
  have hal := ha.last
  have hbl := hb.last
  rw [hdb] at hbl
  -- cores
  obtain ⟨A0, hA0, -, iA0⟩ := ha.core_get (k := 0) (by omega)
  obtain ⟨B0, hB0, -, iB0⟩ := hb.core_get (k := 0) (by omega)
  rw [hn 0 (by omega), show b.rk 0 = a.rk 0 by rw [hb.first, ha.first]] at iB0
  obtain ⟨Q0, hQ0, iQ0⟩ := stack2h_ok iA0 iB0
  obtain ⟨Al, hAl, -, iAl⟩ := ha.core_get (k := a.dim - 1) (by omega)
  obtain ⟨Bl, hBl, -, iBl⟩ := hb.core_get (k := a.dim - 1) (by omega)
  rw [Nat.sub_add_cancel (by omega), hal] at iAl
  rw [Nat.sub_add_cancel (by omega), hbl, hn (a.dim - 1) (by omega)] at iBl
  obtain ⟨Ql, hQl, iQl⟩ := stack2v_ok iAl iBl
  have hs0 : addS a b a.dim 0 = 1 := by simp [addS]
  have hsd : addS a b a.dim a.dim = 1 := by simp [addS]
  have f1 : Fills (fun k (Q : T3 K) => Q.Is (addS a b a.dim k) (a.nv k) (addS a b a.dim (k + 1)) (addG a b a.dim k)) a.dim
      (fun cs => wr cs 0 (some Q0)) (· = 0) := by
    refine Fills.wr (by omega) ?_
    rw [hs0, addS_mid (by omega) (by omega)]
    rw [ha.first] at iQ0
    exact iQ0.congr fun i _ e _ j _ => by rw [addG, if_pos rfl]
  have f2 : Fills (fun k (Q : T3 K) => Q.Is (addS a b a.dim k) (a.nv k) (addS a b a.dim (k + 1)) (addG a b a.dim k)) a.dim
      (forR 1 (a.dim - 1) (fun ii cs => do
        let A ← rd a.cores ii
        let B ← rd b.cores ii
        let Q ← blockdiag A B
        wr cs ii (some Q))) (fun p => ∃ i, 1 ≤ i ∧ i < a.dim - 1 ∧ p = i) := by
    refine Fills.forR fun i hi1 hi2 => ?_
    obtain ⟨A, hA, -, iA⟩ := ha.core_get (k := i) (by omega)
    obtain ⟨B, hB, -, iB⟩ := hb.core_get (k := i) (by omega)
    rw [hn i (by omega)] at iB
    obtain ⟨Q, hQ, iQ⟩ := blockdiag_ok iA iB
    refine Fills.bind hA (Fills.bind hB (Fills.bind hQ (Fills.wr (by omega) ?_)))
    rw [addS_mid (by omega) (by omega), addS_mid (by omega) (by omega)]
    exact iQ.congr fun i' _ e _ j _ => by conv_rhs => rw [addG, if_neg (by omega), if_neg (by omega)]
  have f3 : Fills (fun k (Q : T3 K) => Q.Is (addS a b a.dim k) (a.nv k) (addS a b a.dim (k + 1)) (addG a b a.dim k)) a.dim
      (fun cs => wr cs (a.dim - 1) (some Ql)) (· = a.dim - 1) := by
    refine Fills.wr (by omega) ?_
    rw [Nat.sub_add_cancel (by omega), hsd, addS_mid (by omega) (by omega)]
    exact iQl.congr fun i _ e _ j _ => by conv_rhs => rw [addG, if_neg (by omega), if_pos rfl]
  obtain ⟨cs, l, hcs, hl, hll, hlM⟩ := ((f1.seq f2).seq f3).finish (by
    intro p hp
    by_cases h : p = 0
    · exact .inl (.inl h)
    · by_cases h' : p = a.dim - 1
      · exact .inr h'
      · exact .inl (.inr ⟨p, by omega, by omega, rfl⟩))
  rcases hc1 : wr (List.replicate a.dim none) 0 (some Q0) with er | cs1
  · simp only [hc1] at hcs; cases hcs
  simp only [hc1, bind_ok] at hcs
  rcases hc2 : forR 1 (a.dim - 1) (fun ii cs => do
        let A ← rd a.cores ii
        let B ← rd b.cores ii
        let Q ← blockdiag A B
        wr cs ii (some Q)) cs1 with er | cs2
  · simp only [hc2] at hcs; cases hcs
  simp only [hc2, bind_ok] at hcs
  -- ranks
  have hw0 : wr ((List.replicate (a.dim + 1) 0).set 0 1) 0 1 = .ok ((List.replicate (a.dim + 1) 0).set 0 1) := by
    rw [wr_ok _ (by simp), List.set_set]
  obtain ⟨rk2, hrk2, lrk2, vrk2⟩ := forR_spec (a := 1) (b := a.dim - 1) (s := (List.replicate (a.dim + 1) 0).set 0 1)
    (body := fun ii rk => do
      let ra ← rd a.ranks ii
      let rb ← rd b.ranks ii
      wr rk ii (ra + rb))
    (I := fun ii (rk : List Nat) => rk.length = a.dim + 1 ∧ rk[0]? = some 1 ∧
      ∀ k, 1 ≤ k → k < ii → rk[k]? = some (a.rk k + b.rk k))
    (by omega) ⟨by simp, by simp, by intro k h1 h2; omega⟩
    (by
      rintro ii h1 h2 rk ⟨hl, h0, hv⟩
      refine ⟨rk.set ii (a.rk ii + b.rk ii), ?_, by simpa using hl, ?_, ?_⟩
      · rw [ha.rk_get (by omega), bind_ok, hb.rk_get (by omega), bind_ok, wr_ok _ (by omega)]
      · rw [List.getElem?_set_ne (by omega)]; exact h0
      · intro k hk1 hk2
        by_cases hk : ii = k
        · subst hk; rw [List.getElem?_set_self (by omega)]
        · rw [List.getElem?_set_ne hk]; exact hv k hk1 (by omega))
  have hrk3 : wr rk2 (a.dim - 1) (a.rk (a.dim - 1) + b.rk (a.dim - 1)) = .ok (rk2.set (a.dim - 1) (a.rk (a.dim - 1) + b.rk (a.dim - 1))) :=
    wr_ok _ (by omega)
  have hrk4 : wr (rk2.set (a.dim - 1) (a.rk (a.dim - 1) + b.rk (a.dim - 1))) a.dim 1
      = .ok ((rk2.set (a.dim - 1) (a.rk (a.dim - 1) + b.rk (a.dim - 1))).set a.dim 1) := wr_ok _ (by rw [List.length_set]; omega)
  have hrv : ∀ k ≤ a.dim, ((rk2.set (a.dim - 1) (a.rk (a.dim - 1) + b.rk (a.dim - 1))).set a.dim 1)[k]? = some (addS a b a.dim k) := by
    intro k hk
    by_cases h1 : a.dim = k
    · rw [← h1, hsd, List.getElem?_set_self (by rw [List.length_set]; omega)]
    rw [List.getElem?_set_ne h1]
    by_cases h3 : a.dim - 1 = k
    · rw [← h3, addS_mid (by omega) (by omega), List.getElem?_set_self (by omega)]
    rw [List.getElem?_set_ne h3]
    by_cases h4 : k = 0
    · subst h4; rw [vrk2.1, hs0]
    rw [vrk2.2 k (by omega) (by omega), addS_mid (by omega) (by omega)]
  have hrep : Rep a.dim a.nv (addS a b a.dim) (addG a b a.dim) ⟨a.dim, a.nvals.take a.dim, (rk2.set (a.dim - 1) (a.rk (a.dim - 1) + b.rk (a.dim - 1))).set a.dim 1, l⟩ := by
    refine mk_rep (by omega) (by simp [ha.nnvals]) (by simp; omega) hll ?_ hrv (fun k hk => hlM k hk) hs0 hsd ?_
    · intro k hk
      rw [List.getElem?_take, if_pos hk, TT.nv, List.getElem?_eq_getElem (by rw [ha.nnvals]; omega)]
      simp [List.getElem?_eq_getElem (show k < a.nvals.length by rw [ha.nnvals]; omega)]
    · intro k hk
      rw [addS]; split
      · omega
      · have := ha.rpos k (by omega); omega
  refine ⟨_, ?_, hrep.wf, rfl, ?_, ?_, ?_⟩
  · rw [ttadd, hdb, initRanks_ok, bind_ok, initNvals_ok (by rw [ha.nnvals]), bind_ok, hA0, bind_ok, hB0,
      bind_ok, hQ0, bind_ok, hc1, bind_ok, ha.rk_get (by omega), bind_ok, ha.first, hw0, bind_ok, hc2, bind_ok, hrk2,
      bind_ok, ha.rk_get (by omega), bind_ok, hb.rk_get (by omega), bind_ok, hrk3, bind_ok, hAl, bind_ok, hBl,
      bind_ok, hQl, bind_ok, hcs, bind_ok, ha.rk_get (by omega), bind_ok, hal, hrk4, bind_ok, hl, bind_ok, pure_eq_ok]
  · intro k hk; exact hrep.nv k (by omega)
  · intro k h1 h2'; rw [hrep.rk k (by omega), addS_mid h1 (by omega)]
  · intro es hes
    rw [hrep.elem (hes.of rfl fun k hk => hrep.nv k (by omega))]
    have e0 : es = es.getD 0 0 :: es.drop 1 := by
      have := drop_cons (es := es) (k := 0) (by rw [hes.len]; omega)
      rwa [List.drop_zero] at this
    rw [TT.elem, TT.elem, e0, tail, tail, tail, Nat.zero_add, addS_mid (by omega) (by omega), sum_range_add]
    have tl := fun i hi => tail_add ha hb hd h2 (es.drop 1) 1 i (by rw [List.length_drop, hes.len]; omega) (by omega)
      (by omega) hi
    congr 1
    · refine sum_congr rfl fun c hc => ?_
      have hc := mem_range.1 hc
      rw [tl c (by omega), if_pos hc, addG, if_pos rfl, if_pos hc]
    · refine sum_congr rfl fun c hc => ?_
      have hc := mem_range.1 hc
      rw [tl _ (by omega), if_neg (by omega), addG, if_pos rfl, if_neg (by omega), Nat.add_sub_cancel_left]

/-! ### Product -/

theorem sum_range_mul_divmod (p q : Nat) (f : Nat → Nat → K) :
    ∑ c ∈ range (p * q), f (c / q) (c % q) = ∑ i ∈ range p, ∑ j ∈ range q, f i j := by
  induction p with
  | zero => simp
  | succ p ih =>
    rw [Nat.succ_mul, sum_range_add, ih, sum_range_succ]
    congr 1
    refine sum_congr rfl fun j hj => ?_
    rw [cm_div (mem_range.1 hj), cm_mod (mem_range.1 hj)]

theorem tail_mul {a b : TT K} (ha : a.WF) (hb : b.WF) (hd : a.dim = b.dim) :
    ∀ (es : List Nat) (k i : Nat), k + es.length = a.dim → i < a.rk k * b.rk k →
      tail (fun k => a.rk k * b.rk k)
        (fun k i e j => a.G k (i / b.rk k) e (j / b.rk (k + 1)) * b.G k (i % b.rk k) e (j % b.rk (k + 1))) k es i
        = tail a.rk a.G k es (i / b.rk k) * tail b.rk b.G k es (i % b.rk k) := by
  intro es
  induction es with
  | nil =>
    intro k i hk hi
    simp only [List.length_nil, Nat.add_zero] at hk
    have hbl := hb.last
    rw [← hd] at hbl
    rw [hk, ha.last, hbl] at hi
    have : i = 0 := by omega
    subst this
    simp [tail]
  | cons e es ih =>
    intro k i hk hi
    simp only [List.length_cons] at hk
    rw [tail, tail, tail, sum_mul_sum, ← sum_range_mul_divmod]
    refine sum_congr rfl fun c hc => ?_
    rw [ih (k + 1) c (by omega) (mem_range.1 hc)]; ring

/-- **C40** The product of two trains of the same shape is the elementwise product; ranks multiply. -/
theorem ttmult_value {a b : TT K} (ha : a.WF) (hb : b.WF) (hd : a.dim = b.dim) (hn : ∀ k < a.dim, b.nv k = a.nv k) :
    ∃ c, ttmult a b = .ok c ∧ c.WF ∧ c.dim = a.dim ∧ (∀ k < a.dim, c.nv k = a.nv k) ∧
      (∀ k ≤ a.dim, c.rk k = a.rk k * b.rk k) ∧ ∀ es, a.Ix es → c.elem es = a.elem es * b.elem es := by
  have hbl := hb.last
  rw [← hd] at hbl
  have f1 : Fills (fun k (Q : T3 K) => Q.Is (a.rk k * b.rk k) (a.nv k) (a.rk (k + 1) * b.rk (k + 1))
      (fun i e j => a.G k (i / b.rk k) e (j / b.rk (k + 1)) * b.G k (i % b.rk k) e (j % b.rk (k + 1)))) a.dim
      (forN a.dim (fun ii cs => do
        let A ← rd a.cores ii
        let B ← rd b.cores ii
        let Q ← kron3 A B
        wr cs ii (some Q))) (fun p => ∃ i < a.dim, p = i) := by
    refine Fills.forN fun i hi => ?_
    obtain ⟨A, hA, -, iA⟩ := ha.core_get (k := i) (by omega)
    obtain ⟨B, hB, -, iB⟩ := hb.core_get (k := i) (by omega)
    rw [hn i (by omega)] at iB
    obtain ⟨Q, hQ, iQ⟩ := kron3_ok iA iB
    exact Fills.bind hA (Fills.bind hB (Fills.bind hQ (Fills.wr (by omega) iQ)))
  obtain ⟨cs, l, hcs, hl, hll, hlM⟩ := f1.finish (fun p hp => ⟨p, hp, rfl⟩)
  obtain ⟨rk', hrk', hw, hlw, hvw⟩ := wr_all (d := a.dim) (rk := (List.replicate (a.dim + 1) 0).set 0 1)
    (body := fun ii rk => do
      let ra ← rd a.ranks ii
      let rb ← rd b.ranks ii
      wr rk ii (ra * rb)) (fun i => a.rk i * b.rk i) (by simp)
    (by
      intro i hi b' _
      rw [ha.rk_get (by omega), bind_ok, hb.rk_get (by omega), bind_ok]) (a.rk a.dim * b.rk a.dim)
  have hrep : Rep a.dim a.nv (fun k => a.rk k * b.rk k)
      (fun k i e j => a.G k (i / b.rk k) e (j / b.rk (k + 1)) * b.G k (i % b.rk k) e (j % b.rk (k + 1)))
      ⟨a.dim, a.nvals.take a.dim, rk'.set a.dim (a.rk a.dim * b.rk a.dim), l⟩ := by
    refine mk_rep ha.pos (by simp [ha.nnvals]) hlw hll ?_ ?_ (fun k hk => hlM k hk) ?_ ?_ ?_
    · intro k hk
      rw [List.getElem?_take, if_pos hk, TT.nv]
      simp [List.getElem?_eq_getElem (show k < a.nvals.length by rw [ha.nnvals]; omega)]
    · intro k hk
      rw [hvw k hk]
      split
      · rename_i h; rw [h]
      · rfl
    · show a.rk 0 * b.rk 0 = 1; rw [ha.first, hb.first]
    · show a.rk a.dim * b.rk a.dim = 1; rw [ha.last, hbl]
    · intro k hk; exact Nat.mul_pos (ha.rpos k hk) (hb.rpos k (by omega))
  refine ⟨_, ?_, hrep.wf, rfl, fun k hk => hrep.nv k hk, fun k hk => hrep.rk k hk, ?_⟩
  · rw [ttmult, initRanks_ok, bind_ok, initNvals_ok (by rw [ha.nnvals]), bind_ok, hrk', bind_ok, hcs, bind_ok,
      ha.rk_get (by omega), bind_ok, hb.rk_get (by omega), bind_ok, hw, bind_ok, hl, bind_ok, pure_eq_ok]
  · intro es hes
    rw [hrep.elem (hes.of rfl fun k hk => hrep.nv k hk), tail_mul ha hb hd es 0 0 (by rw [hes.len]; omega)
      (by rw [ha.first, hb.first]; omega), Nat.zero_div, Nat.zero_mod]
    rfl

/-! ### Scaling, copies, constants -/

/-- Tail products from the second core on do not see the first core. -/
theorem tail_shift {s : Nat → Nat} {G H : Nat → Nat → Nat → Nat → K} :
    ∀ (es : List Nat) (k i : Nat), 0 < k →
      tail s (fun k i e j => if k = 0 then H k i e j else G k i e j) k es i = tail s G k es i := by
  intro es
  induction es with
  | nil => intros; rfl
  | cons e es ih =>
    intro k i hk
    rw [tail, tail]
    refine sum_congr rfl fun c _ => ?_
    rw [ih (k + 1) c (by omega), if_neg (by omega)]

/-- **C40** Scaling multiplies every element. -/
theorem ttscal_value {t : TT K} (h : t.WF) (x : K) :
    ∃ c, ttscal t x = .ok c ∧ c.WF ∧ c.dim = t.dim ∧ c.nvals = t.nvals ∧ c.ranks = t.ranks ∧
      ∀ es, t.Ix es → c.elem es = x * t.elem es := by
  obtain ⟨Q, hQ, gQ, iQ⟩ := h.core_get (k := 0) h.pos
  have hsc : forN (Q.n0 * Q.n1 * Q.n2) (fun i v => do
      let y ← rd v i
      wr v i (x * y)) Q.vals = .ok (Q.vals.map (x * ·)) := by
    obtain ⟨b, h1, h2, h3, -⟩ := forN_scatter (n := Q.n0 * Q.n1 * Q.n2) (a := Q.vals) (body := fun i v => do
      let y ← rd v i
      wr v i (x * y)) (fun i => i) (fun i => x * Q.vals.getD i 0)
      (fun i hi => by rw [iQ.wf]; exact hi) (fun i _ j _ e => e)
      (fun i hi b hb hu _ => by
        have hb1 : b[i]? = Q.vals[i]? := hu i (fun k hk => by omega)
        rw [rd_getD 0 (show i < b.length by rw [hb, iQ.wf]; exact hi), bind_ok, List.getD_eq_getElem?_getD, hb1,
          ← List.getD_eq_getElem?_getD])
    rw [h1]; congr 1
    apply List.ext_getElem?
    intro i
    by_cases hi : i < Q.n0 * Q.n1 * Q.n2
    · have : i < Q.vals.length := by rw [iQ.wf]; exact hi
      rw [h3 i hi, List.getElem?_map, List.getElem?_eq_getElem this]
      simp [List.getElem?_eq_getElem this]
    · have hw := iQ.wf
      rw [List.getElem?_eq_none (by rw [h2, hw]; omega), List.getElem?_eq_none (by rw [List.length_map, hw]; omega)]
  have iQ' : (⟨Q.n0, Q.n1, Q.n2, Q.vals.map (x * ·)⟩ : T3 K).Is (t.rk 0) (t.nv 0) (t.rk 1) (fun i e j => x * t.G 0 i e j) := by
    refine ⟨iQ.n0, iQ.n1, iQ.n2, by rw [List.length_map]; exact iQ.len, fun i hi e he j hj => ?_⟩
    show (Q.vals.map (x * ·))[_]? = _
    rw [List.getElem?_map, iQ.val i hi e he j hj]; rfl
  have hlt : 0 < t.cores.length := by rw [h.ncores]; exact h.pos
  have hrep : Rep t.dim t.nv t.rk (fun k i e j => if k = 0 then x * t.G k i e j else t.G k i e j)
      ⟨t.dim, t.nvals, t.ranks, t.cores.set 0 ⟨Q.n0, Q.n1, Q.n2, Q.vals.map (x * ·)⟩⟩ := by
    refine mk_rep h.pos h.nnvals h.nranks (by rw [List.length_set, h.ncores]) ?_ ?_ ?_ h.first h.last h.rpos
    · intro k hk
      rw [TT.nv]; simp [List.getElem?_eq_getElem (show k < t.nvals.length by rw [h.nnvals]; omega)]
    · intro k hk
      rw [TT.rk]; simp [List.getElem?_eq_getElem (show k < t.ranks.length by rw [h.nranks]; omega)]
    · intro k hk
      by_cases hk0 : k = 0
      · subst hk0
        refine ⟨_, List.getElem?_set_self hlt, ?_⟩
        simpa using iQ'
      · obtain ⟨R, -, gR, iR⟩ := h.core_get hk
        refine ⟨R, by rw [List.getElem?_set_ne (by omega)]; exact gR, ?_⟩
        simpa [hk0] using iR
  refine ⟨_, ?_, hrep.wf, rfl, rfl, rfl, ?_⟩
  · rw [ttscal, hQ, bind_ok, hsc, bind_ok, wr_ok _ hlt, bind_ok, pure_eq_ok]
  · intro es hes
    rw [hrep.elem (hes.of rfl fun k _ => rfl)]
    have e0 : es = es.getD 0 0 :: es.drop 1 := by
      have := drop_cons (es := es) (k := 0) (by rw [hes.len]; exact h.pos)
      rwa [List.drop_zero] at this
    rw [TT.elem, e0, tail, tail, mul_sum]
    refine sum_congr rfl fun c hc => ?_
    rw [if_pos rfl, mul_assoc, tail_shift (H := fun k i e j => x * t.G k i e j) _ _ _ (by omega)]

/-- **C40** A copy is the same train. -/
theorem copyTt_value {t : TT K} (h : t.WF) : copyTt t = .ok t := by
  have f1 : Fills (fun k (Q : T3 K) => t.cores[k]? = some Q) t.dim
      (forN t.dim (fun ii cs => do
        let Q ← rd t.cores ii
        let Q' ← copy3 Q false
        wr cs ii (some Q'))) (fun p => ∃ i < t.dim, p = i) := by
    refine Fills.forN fun i hi => ?_
    obtain ⟨A, hA, gA, iA⟩ := h.core_get (k := i) (by omega)
    exact Fills.bind hA (Fills.bind (copy3_ok iA.wf) (Fills.wr (by omega) gA))
  obtain ⟨cs, l, hcs, hl, hll, hlM⟩ := f1.finish (fun p hp => ⟨p, hp, rfl⟩)
  have hlc : l = t.cores := by
    apply List.ext_getElem?
    intro k
    by_cases hk : k < t.dim
    · obtain ⟨Q, h1, h2⟩ := hlM k hk
      rw [h1, h2]
    · rw [List.getElem?_eq_none (by omega), List.getElem?_eq_none (by rw [h.ncores]; omega)]
  have hrk : blit (t.dim + 1) ((List.replicate (t.dim + 1) 0).set 0 1) 0 t.ranks 0 = .ok t.ranks := by
    rw [blit_ok (by simp) (by rw [h.nranks]; omega)]
    simp [← h.nranks]
  rw [copyTt, initRanks_ok, bind_ok, initNvals_ok (by rw [h.nnvals]), bind_ok, hrk, bind_ok, hcs, bind_ok, hl, bind_ok,
    pure_eq_ok, hlc, List.take_of_length_le (by rw [h.nnvals])]

theorem tail_ones (d : Nat) : ∀ (es : List Nat) (k : Nat),
    tail (fun _ => 1) (fun _ _ _ _ => (1 : K)) k es 0 = 1 := by
  intro es
  induction es with
  | nil => intros; rfl
  | cons e es ih => intro k; rw [tail, sum_range_one, ih, mul_one]

/-- **C40** The constant-one train has element 1 everywhere. -/
theorem ttOnes_value {d : Nat} {nvals : List Nat} (hd : 0 < d) (hl : nvals.length = d) :
    ∃ c : TT K, ttOnes d nvals = .ok c ∧ c.WF ∧ c.dim = d ∧ c.nvals = nvals ∧ ∀ es, c.Ix es → c.elem es = 1 := by
  have f1 : Fills (fun k (Q : T3 K) => Q.Is 1 (nvals.getD k 0) 1 (fun _ _ _ => 1)) d
      (forN d (fun ii cs => do
        let n ← rd nvals ii
        let Q ← ones3 (K := K) 1 n 1
        wr cs ii (some Q))) (fun p => ∃ i < d, p = i) := by
    refine Fills.forN fun i hi => ?_
    obtain ⟨Q, hQ, iQ⟩ := ones3_ok (K := K) 1 (nvals.getD i 0) 1
    exact Fills.bind (rd_getD 0 (by omega)) (Fills.bind hQ (Fills.wr (by omega) iQ))
  obtain ⟨cs, l, hcs, hll, hlen, hlM⟩ := f1.finish (fun p hp => ⟨p, hp, rfl⟩)
  obtain ⟨rk', hrk', hw, hlw, hvw⟩ := wr_all (d := d) (rk := (List.replicate (d + 1) 0).set 0 1)
    (body := fun ii rk => wr rk ii 1) (fun _ => 1) (by simp) (fun _ _ _ _ => rfl) 1
  have hrep : Rep d (fun k => nvals.getD k 0) (fun _ => 1) (fun _ _ _ _ => (1 : K)) ⟨d, nvals, rk'.set d 1, l⟩ := by
    refine mk_rep hd hl hlw hlen ?_ ?_ (fun k hk => hlM k hk) rfl rfl (fun _ _ => by omega)
    · intro k hk
      simp [List.getElem?_eq_getElem (show k < nvals.length by omega)]
    · intro k hk
      rw [hvw k hk]; split <;> rfl
  refine ⟨_, ?_, hrep.wf, rfl, rfl, ?_⟩
  · rw [ttOnes, initRanks_ok, bind_ok, initNvals_ok (by omega), bind_ok, hrk', bind_ok, hcs, bind_ok, hw, bind_ok, hll,
      bind_ok, pure_eq_ok, List.take_of_length_le (by omega)]
  · intro es hes
    rw [hrep.elem hes, tail_ones d]

/-! ### Concrete trains -/

/-- Dimension 4, sizes 1,1,2,1, ranks 1,1,1,2,1. The third core stores `(e,c) ↦ 10e+c+1`. -/
def cexT : TT Int := ⟨4, [1, 1, 2, 1], [1, 1, 1, 2, 1],
  [⟨1, 1, 1, [1]⟩, ⟨1, 1, 1, [1]⟩, ⟨1, 2, 2, [1, 11, 2, 12]⟩, ⟨2, 1, 1, [1, 100]⟩]⟩

theorem cexT_wf : cexT.WF := by
  refine ⟨by decide, rfl, rfl, rfl, rfl, rfl, by decide, ?_⟩
  rintro (_ | _ | _ | _ | k) Q hQ <;> simp [cexT] at hQ <;> subst hQ <;> exact ⟨rfl, rfl, rfl, rfl⟩

/-- **C40** Element lookup of a well-formed train with different mode sizes returns a wrong value: here 1101 instead
of 201. -/
theorem ttelem_counterexample : cexT.WF ∧ cexT.Ix [0, 0, 0, 0] ∧ cexT.elem [0, 0, 0, 0] = 201 ∧
    ttelem cexT [0, 0, 0, 0] = .ok 1101 :=
  ⟨cexT_wf, ⟨rfl, by decide⟩, by decide, by decide⟩

/-- A train of dimension 1. -/
def oneT : TT Int := ⟨1, [2], [1, 1], [⟨1, 2, 1, [5, 7]⟩]⟩

theorem oneT_wf : oneT.WF := by
  refine ⟨by decide, rfl, rfl, rfl, rfl, rfl, by decide, ?_⟩
  rintro (_ | k) Q hQ <;> simp [oneT] at hQ <;> subst hQ <;> exact ⟨rfl, rfl, rfl, rfl⟩

/-- **C40** Element lookup of a train of dimension 1 reads out of bounds. -/
theorem ttelem_dim1_counterexample : oneT.WF ∧ oneT.Ix [1] ∧ oneT.elem [1] = 7 ∧ ttelem oneT [1] = .error .oob :=
  ⟨oneT_wf, ⟨rfl, by decide⟩, by decide, by decide⟩

/-- **C40** The sum of trains of dimension 1 has a first rank of 2 and a core that is not the sum. -/
theorem ttadd_dim1_counterexample : oneT.WF ∧
    ttadd oneT oneT = .ok ⟨1, [2], [2, 1], [⟨2, 2, 1, [5, 5, 7, 7]⟩]⟩ := ⟨oneT_wf, by decide⟩

/-- A train of dimension 2 with rank 2. -/
def exT : TT Int := ⟨2, [2, 3], [1, 2, 1], [⟨1, 2, 2, [1, 2, 3, 4]⟩, ⟨2, 3, 1, [1, 2, 3, 4, 5, 6]⟩]⟩

theorem exT_wf : exT.WF := by
  refine ⟨by decide, rfl, rfl, rfl, rfl, rfl, by decide, ?_⟩
  rintro (_ | _ | k) Q hQ <;> simp [exT] at hQ <;> subst hQ <;> exact ⟨rfl, rfl, rfl, rfl⟩

example : ttelem exT [1, 2] = .ok 34 := by decide
example := ttelem_value_partial exT_wf (by decide) (fun k h1 h2 => absurd h2 (by change ¬ k < 2; omega))
  (es := [1, 2]) ⟨rfl, by decide⟩
example := ttadd_value_partial exT_wf exT_wf rfl (fun _ _ => rfl) (by decide)
example := ttmult_value exT_wf exT_wf rfl (fun _ _ => rfl)
example := ttscal_value exT_wf 5
example : copyTt exT = .ok exT := copyTt_value exT_wf
example := ttOnes_value (K := Int) (d := 2) (nvals := [2, 3]) (by decide) rfl

/-- **C40** The coordinate train: the stored cores of the constant factors have size 1 in the middle instead of last, so
the result does not have the shape it declares, although it was built without error. -/
theorem ttX_counterexample : ttX [5, 7] 0 2 [2, 3] =
    .ok (⟨2, [2, 3], [1, 1, 1], [⟨1, 2, 1, [5, 7]⟩, ⟨1, 1, 3, [1, 1, 1]⟩]⟩ : TT Int) := by decide

end C3.Tt
