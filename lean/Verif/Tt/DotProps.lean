/- C41: inner products and quadrature of tensor trains. -/
import Verif.Tt.Props

set_option linter.unusedSectionVars false

namespace C3.Tt
open Finset
variable {K : Type} [CommRing K]

/-! ### Sums over all multi-indices -/

theorem msum_congr {ns : List Nat} {f g : List Nat → K}
    (h : ∀ es : List Nat, es.length = ns.length → (∀ m < ns.length, es.getD m 0 < ns.getD m 0) → f es = g es) :
    msum ns f = msum ns g := by
  induction ns generalizing f g with
  | nil => exact h [] rfl (by simp)
  | cons n ns ih =>
    rw [msum, msum]
    refine sum_congr rfl fun e he => ih fun es hl hlt => h (e :: es) (by simp [hl]) ?_
    rintro (_ | m) hm
    · simpa using mem_range.1 he
    · simpa using hlt m (by simpa using hm)

theorem msum_mul_left (ns : List Nat) (x : K) (f : List Nat → K) : msum ns (fun es => x * f es) = x * msum ns f := by
  induction ns generalizing f with
  | nil => rfl
  | cons n ns ih => rw [msum, msum, mul_sum]; exact sum_congr rfl fun e _ => ih _

theorem msum_sum (ns : List Nat) (r : Nat) (f : Nat → List Nat → K) :
    msum ns (fun es => ∑ c ∈ range r, f c es) = ∑ c ∈ range r, msum ns (f c) := by
  induction ns generalizing f with
  | nil => rfl
  | cons n ns ih => simp only [msum]; rw [sum_comm]; exact sum_congr rfl fun e _ => ih _

/-- Weighted sum of the tail products. -/
def wtail (w : List (List K)) (s : Nat → Nat) (G : Nat → Nat → Nat → Nat → K) (k : Nat) (ns : List Nat) (i : Nat) : K :=
  msum ns (fun es => wprod w k es * tail s G k es i)

theorem wtail_cons (w : List (List K)) (s : Nat → Nat) (G : Nat → Nat → Nat → Nat → K) (k n : Nat) (ns : List Nat) (i : Nat) :
    wtail w s G k (n :: ns) i =
      ∑ c ∈ range (s (k + 1)), (∑ e ∈ range n, (w.getD k []).getD e 0 * G k i e c) * wtail w s G (k + 1) ns c := by
  simp only [wtail, msum, wprod, tail]
  simp only [mul_sum, sum_mul]
  rw [sum_comm]
  refine sum_congr rfl fun e _ => ?_
  rw [msum_sum]
  refine sum_congr rfl fun c _ => ?_
  rw [← msum_mul_left]
  refine congrArg _ (funext fun es => by ring)

theorem drop_cons_nv {t : TT K} (h : t.WF) {k : Nat} (hk : k < t.dim) :
    t.nvals.drop k = t.nv k :: t.nvals.drop (k + 1) := drop_cons (by rw [h.nnvals]; exact hk)

/-- **C41** Quadrature returns the weighted sum of all elements: for every train, every list of weight vectors with a
weight for each index, `Σ_{e_1..e_d} w_1[e_1] ... w_d[e_d] t[e_1,..,e_d]`. -/
theorem ttIntegrate_value {t : TT K} (h : t.WF) {w : List (List K)} (hwl : t.dim ≤ w.length)
    (hw : ∀ k < t.dim, t.nv k ≤ (w.getD k []).length) :
    ttIntegrate t w = .ok (msum t.nvals (fun es => wprod w 0 es * t.elem es)) := by
  have hwr : ∀ k < t.dim, rd w k = .ok (w.getD k []) := fun k hk => rd_getD [] (by omega)
  have hsum : ∀ k < t.dim, ∀ i, wtail w t.rk t.G k (t.nvals.drop k) i = ∑ c ∈ range (t.rk (k + 1)),
      (∑ e ∈ range (t.nv k), (w.getD k []).getD e 0 * t.G k i e c) * wtail w t.rk t.G (k + 1) (t.nvals.drop (k + 1)) c :=
    fun k hk i => by rw [drop_cons_nv h hk, wtail_cons]
  obtain ⟨Q0, hQ0, -, i0⟩ := h.core_get (k := 0) h.pos
  obtain ⟨v, hv, hvl, hvs⟩ := forR_spec (a := 1) (b := t.dim)
    (body := fun ii v => do
      let Q ← rd t.cores ii
      let w ← rd w ii
      let vals ← sum2 Q w
      let r ← rd t.ranks ii
      let r' ← rd t.ranks (ii + 1)
      gemvT r r' vals 0 r v 0 1 (List.replicate r' 0))
    (I := fun k (v : List K) => v.length = t.rk k ∧
      ∑ c ∈ range (t.rk k), v.getD c 0 * wtail w t.rk t.G k (t.nvals.drop k) c = wtail w t.rk t.G 0 t.nvals 0)
    (s := cm (t.rk 0) (t.rk 1) (fun i j => ∑ e ∈ range (t.nv 0), (w.getD 0 []).getD e 0 * t.G 0 i e j))
    h.pos ⟨by rw [cm_length, h.first, Nat.one_mul], by
      have := hsum 0 h.pos 0
      rw [List.drop_zero, Nat.zero_add] at this
      rw [this]
      refine sum_congr rfl fun c hc => ?_
      have := getD_cm (n := t.rk 0) (m := t.rk 1) (i := 0) (j := c)
        (fun i j => ∑ e ∈ range (t.nv 0), (w.getD 0 []).getD e 0 * t.G 0 i e j) 0 (by rw [h.first]; omega) (mem_range.1 hc)
      rw [← this]
      congr 2
      rw [h.first]; ring⟩
    (by
      rintro k h1 hk v ⟨hvl, hvs⟩
      obtain ⟨Q, hQ, -, iQ⟩ := h.core_get hk
      have hp := h.rpos k (by omega)
      refine ⟨(List.range (t.rk (k + 1))).map (fun j => ∑ i ∈ range (t.rk k),
        (∑ e ∈ range (t.nv k), (w.getD k []).getD e 0 * t.G k i e j) * v.getD i 0), ?_, by simp, ?_⟩
      · rw [hQ, bind_ok, hwr k hk, bind_ok, sum2_ok iQ (hw k hk), bind_ok, h.rk_get (by omega), bind_ok, h.rk_get (by omega),
          bind_ok, gemvT_ok]
        · congr 1
          refine List.map_congr_left fun c hc => sum_congr rfl fun i hi => ?_
          rw [Nat.zero_add, getD_cm _ _ (mem_range.1 hi) (List.mem_range.1 hc), Nat.zero_add, Nat.mul_one]
        · omega
        · omega
        · intro i hi j hj
          rw [cm_length, Nat.zero_add]; exact cm_idx_lt hi hj
        · intro i hi; omega
        · simp
      · rw [← hvs]
        rw [sum_congr rfl fun c hc => by rw [getD_rangeMap _ (mem_range.1 hc)]]
        simp only [sum_mul]
        rw [sum_comm]
        refine sum_congr rfl fun i _ => ?_
        rw [hsum k hk i, mul_sum]
        refine sum_congr rfl fun c _ => ?_
        rw [sum_mul, mul_sum]
        refine sum_congr rfl fun e _ => by ring)
  rw [h.last] at hvl hvs
  rw [ttIntegrate, hQ0, bind_ok, hwr 0 h.pos, bind_ok, sum2_ok i0 (hw 0 h.pos), bind_ok, hv, bind_ok, rd_getD 0 (by omega)]
  rw [sum_range_one, List.drop_of_length_le (by rw [h.nnvals])] at hvs
  have e1 : wtail w t.rk t.G t.dim [] 0 = 1 := by simp [wtail, msum, wprod, tail]
  rw [e1, mul_one] at hvs
  rw [hvs]; rfl

/-! ### Inner product -/

theorem rot3 {p q n : Nat} (f : Nat → Nat → Nat → K) :
    ∑ i ∈ range p, ∑ j ∈ range q, ∑ e ∈ range n, f i j e = ∑ e ∈ range n, ∑ i ∈ range p, ∑ j ∈ range q, f i j e := by
  rw [sum_congr rfl (fun i _ => sum_comm), sum_comm]

theorem swap4 {p q r s : Nat} (f : Nat → Nat → Nat → Nat → K) :
    ∑ i ∈ range p, ∑ j ∈ range q, ∑ t ∈ range r, ∑ u ∈ range s, f i j t u =
      ∑ t ∈ range r, ∑ u ∈ range s, ∑ i ∈ range p, ∑ j ∈ range q, f i j t u := by
  rw [rot3]; exact sum_congr rfl fun t _ => rot3 _


/-- Sum over the remaining modes of the products of the two tails. -/
def dtail (a b : TT K) (k : Nat) (ns : List Nat) (p q : Nat) : K :=
  msum ns (fun es => tail a.rk a.G k es p * tail b.rk b.G k es q)

theorem dtail_cons (a b : TT K) (k n : Nat) (ns : List Nat) (p q : Nat) :
    dtail a b k (n :: ns) p q = ∑ e ∈ range n, ∑ c ∈ range (a.rk (k + 1)), ∑ c' ∈ range (b.rk (k + 1)),
      a.G k p e c * b.G k q e c' * dtail a b (k + 1) ns c c' := by
  simp only [dtail, msum, tail]
  refine sum_congr rfl fun e _ => ?_
  simp only [sum_mul_sum]
  rw [msum_sum]
  refine sum_congr rfl fun c _ => ?_
  rw [msum_sum]
  refine sum_congr rfl fun c' _ => ?_
  rw [← msum_mul_left]
  refine congrArg _ (funext fun es => by ring)

theorem vecKron_ok {m n k l ao lda bo ldb : Nat} {a b : List K} {g o : Nat → Nat → K} (hnl : n = l) (hm : 0 < m) (hl : 0 < l)
    (hk : 0 < k) (hla : max 1 m ≤ lda) (hlb : max 1 k ≤ ldb) (hA : ∀ i < n, ∀ t < m, ao + (i * lda + t) < a.length)
    (hB : ∀ i < l, ∀ t < k, bo + (i * ldb + t) < b.length) :
    vecKron m n a ao lda k l b bo ldb (cm k m g) 1 (cm l n o) =
      .ok (cm l n (fun j i => o j i + ∑ t ∈ range m, ∑ u ∈ range k,
        a.getD (ao + (i * lda + t)) 0 * b.getD (bo + (j * ldb + u)) 0 * g u t)) := by
  subst hnl
  have h0 : List.replicate (m * n) (0 : K) = cm m n (fun _ _ => 0) := by
    apply ext_cm (n := m) (m := n) (by simp) (by simp)
    intro i hi j hj
    rw [cm_getElem? _ hi hj]
    simp [cm_idx_lt hi hj]
  rw [vecKron, h0, gemmRowNT_ok hm hlb (by omega) hB (fun t ht j hj => by rw [Nat.zero_add, cm_length]; exact cm_idx_lt ht hj),
    bind_ok, gemmRowNT_ok hl hla (by omega) hA (fun t ht j hj => by rw [Nat.zero_add, cm_length]; exact cm_idx_lt ht hj)]
  congr 1
  apply cm_congr
  intro j hj i hi
  rw [one_mul]
  congr 1
  refine sum_congr rfl fun t ht => ?_
  have ht := mem_range.1 ht
  rw [Nat.zero_add, getD_cm _ _ ht hj, zero_mul, zero_add, mul_sum]
  refine sum_congr rfl fun u hu => ?_
  rw [Nat.zero_add, getD_cm _ _ (mem_range.1 hu) ht]; ring

/-- **C41** The inner product is the sum over all multi-indices of the products of the elements, for any two trains of the
same shape whose ranks agree from the third one on. Missing: trains whose later ranks differ, for which the code reads and
writes with the wrong stride (`ttDot_counterexample`, `ttDot_exit_counterexample`). -/
theorem ttDot_value_partial {a b : TT K} (ha : a.WF) (hb : b.WF) (hd : b.dim = a.dim) (hn : ∀ k < a.dim, b.nv k = a.nv k)
    (hr : ∀ k, 2 ≤ k → k < a.dim → a.rk k = b.rk k) :
    ttDot a b = .ok (msum a.nvals (fun es => a.elem es * b.elem es)) := by
  obtain ⟨A0, hA0, -, iA0⟩ := ha.core_get (k := 0) ha.pos
  obtain ⟨B0, hB0, -, iB0⟩ := hb.core_get (k := 0) (by rw [hd]; exact ha.pos)
  have hp := ha.pos
  have hbl := hb.last
  rw [hd] at hbl
  rw [hn 0 hp, hb.first, Nat.zero_add] at iB0
  rw [ha.first, Nat.zero_add] at iA0
  have z2 : ∀ r s : Nat, List.replicate (s * r) (0 : K) = cm r s (fun _ _ => 0) := by
    intro r s
    apply ext_cm (n := r) (m := s) (by simp [Nat.mul_comm]) (by simp)
    intro i hi j hj
    rw [cm_getElem? _ hi hj]
    have := cm_idx_lt hi hj
    rw [Nat.mul_comm r s] at this
    rw [List.getElem?_replicate, if_pos this]
  -- first core
  obtain ⟨v1, hv1, ev1⟩ := forN_spec (n := a.nv 0) (s := List.replicate (a.rk 1 * b.rk 1) 0)
    (body := fun ii v => gemmColTN (b.rk 1) (a.rk 1) 1 B0.vals ii (b.nv 0) A0.vals ii (a.nv 0) 1 v (b.rk 1))
    (I := fun n (v : List K) => v = cm (b.rk 1) (a.rk 1) (fun q p => ∑ e ∈ range n, b.G 0 0 e q * a.G 0 0 e p))
    (by simp only [range_zero, sum_empty]; exact z2 _ _)
    (by
      rintro e he v rfl
      refine ⟨_, gemmColTN_ok (hb.rpos 1 (by omega)) (by rw [hn 0 hp]; omega) (by omega) ?_ ?_, ?_⟩
      · intro q hq t ht
        have := idx3_lt (r := 1) (i := t) (e := e) (j := q) (n := a.nv 0) (s := b.rk 1) ht he hq
        rw [iB0.len, hn 0 hp]
        have e1 : e + (q * a.nv 0 + t) = t + e * 1 + q * 1 * a.nv 0 := by ring
        rw [e1]; exact this
      · intro t ht p hp'
        have := idx3_lt (r := 1) (i := t) (e := e) (j := p) (n := a.nv 0) (s := a.rk 1) ht he hp'
        rw [iA0.len]
        have e1 : e + (p * a.nv 0 + t) = t + e * 1 + p * 1 * a.nv 0 := by ring
        rw [e1]; exact this
      · apply cm_congr
        intro q hq p hp'
        rw [sum_range_one, sum_range_succ, one_mul, hn 0 hp,
          iB0.getD (i := 0) (e := e) (j := q) (by omega) he hq (by ring),
          iA0.getD (i := 0) (e := e) (j := p) (by omega) he hp' (by ring)])
  obtain ⟨v, hv, g, hvg, hvs⟩ := forR_spec (a := 1) (b := a.dim) (s := v1)
    (body := fun ii v => do
      let ra ← rd a.ranks ii
      let ra' ← rd a.ranks (ii + 1)
      let rb ← rd b.ranks ii
      let rb' ← rd b.ranks (ii + 1)
      let na ← rd a.nvals ii
      let A ← rd a.cores ii
      let B ← rd b.cores ii
      let nb ← rd b.nvals ii
      forN na (fun jj out =>
        vecKron ra ra' A.vals (jj * ra) (ra * na) rb rb' B.vals (jj * rb) (rb * nb) v 1 out)
        (List.replicate (ra' * rb') 0))
    (I := fun k (v : List K) => ∃ g : Nat → Nat → K, v = cm (b.rk k) (a.rk k) g ∧
      ∑ p ∈ range (a.rk k), ∑ q ∈ range (b.rk k), g q p * dtail a b k (a.nvals.drop k) p q = dtail a b 0 a.nvals 0 0)
    hp ⟨_, ev1, by
      have := drop_cons_nv ha hp
      rw [List.drop_zero, Nat.zero_add] at this
      conv_rhs => rw [this, dtail_cons]
      simp only [Nat.zero_add, sum_mul]
      rw [sum_comm (s := range (a.nv 0))]
      refine sum_congr rfl fun p _ => ?_
      rw [sum_comm (s := range (a.nv 0))]
      refine sum_congr rfl fun q _ => sum_congr rfl fun e _ => by ring⟩
    (by
      rintro k h1 hk v ⟨g, rfl, hg⟩
      obtain ⟨A, hA, -, iA⟩ := ha.core_get hk
      obtain ⟨B, hB, -, iB⟩ := hb.core_get (k := k) (by omega)
      rw [hn k hk] at iB
      have hrk : a.rk (k + 1) = b.rk (k + 1) := by
        by_cases hl : k + 1 = a.dim
        · rw [hl, ha.last, hbl]
        · exact hr (k + 1) (by omega) (by omega)
      have pa := ha.rpos k (by omega)
      have pb := hb.rpos k (by omega)
      have pb' := hb.rpos (k + 1) (by omega)
      obtain ⟨v2, hv2, ev2⟩ := forN_spec (n := a.nv k) (s := List.replicate (a.rk (k + 1) * b.rk (k + 1)) 0)
        (body := fun jj out => vecKron (a.rk k) (a.rk (k + 1)) A.vals (jj * a.rk k) (a.rk k * a.nv k) (b.rk k)
          (b.rk (k + 1)) B.vals (jj * b.rk k) (b.rk k * b.nv k) (cm (b.rk k) (a.rk k) g) 1 out)
        (I := fun n (v : List K) => v = cm (b.rk (k + 1)) (a.rk (k + 1)) (fun q p => ∑ e ∈ range n,
          ∑ t ∈ range (a.rk k), ∑ u ∈ range (b.rk k), a.G k t e p * b.G k u e q * g u t))
        (by simp only [range_zero, sum_empty]; exact z2 _ _)
        (by
          rintro e he v rfl
          have hnk := hn k hk
          have m1 := Nat.le_mul_of_pos_right (a.rk k) (show 0 < a.nv k by omega)
          have m2 := Nat.le_mul_of_pos_right (b.rk k) (show 0 < b.nv k by omega)
          refine ⟨_, vecKron_ok hrk pa pb' pb (by omega) (by omega) ?_ ?_, ?_⟩
          · intro i hi t ht
            exact (lda_ok iA.len (.inl rfl) ht he hi).2
          · intro i hi t ht
            rw [hnk]
            exact (lda_ok iB.len (.inl rfl) ht he hi).2
          · apply cm_congr
            intro q hq p hp'
            rw [sum_range_succ]
            congr 1
            refine sum_congr rfl fun t ht => sum_congr rfl fun u hu => ?_
            rw [iA.getD (mem_range.1 ht) he hp' (by ring), hnk, iB.getD (mem_range.1 hu) he hq (by ring)])
      refine ⟨v2, ?_, _, ev2, ?_⟩
      · rw [ha.rk_get (by omega), bind_ok, ha.rk_get (by omega), bind_ok, hb.rk_get (by omega), bind_ok,
          hb.rk_get (by omega), bind_ok, ha.nv_get hk, bind_ok, hA, bind_ok, hB, bind_ok, hb.nv_get (by omega), bind_ok, hv2]
      · rw [← hg, drop_cons_nv ha hk]
        simp only [dtail_cons]
        simp only [sum_mul, mul_sum]
        conv_lhs => rw [rot3]
        conv_rhs => rw [rot3]
        refine sum_congr rfl fun e _ => ?_
        conv_lhs => rw [swap4]
        exact sum_congr rfl fun t _ => sum_congr rfl fun u _ => sum_congr rfl fun c _ => sum_congr rfl fun c' _ => by ring)
  rw [ha.last, hbl] at hvg hvs
  rw [ttDot, ha.rk_get (by omega), bind_ok, hb.rk_get (by omega), bind_ok, ha.nv_get hp, bind_ok, hA0, bind_ok, hB0,
    bind_ok, hb.nv_get (by omega), bind_ok, hv1, bind_ok, hv, bind_ok, hvg, rd_getD 0 (by simp)]
  rw [sum_range_one, sum_range_one, List.drop_of_length_le (by rw [ha.nnvals])] at hvs
  have e1 : dtail a b a.dim [] 0 0 = 1 := by simp [dtail, msum, tail]
  rw [e1, mul_one] at hvs
  have e2 := getD_cm (n := 1) (m := 1) (i := 0) (j := 0) g 0 (by omega) (by omega)
  rw [Nat.zero_mul, Nat.zero_add] at e2
  rw [e2, hvs]; rfl

/-- **C41** For two trains with the same ranks, in particular for a train with itself, no restriction is needed. -/
theorem ttDot_same_ranks {a b : TT K} (ha : a.WF) (hb : b.WF) (hd : b.dim = a.dim) (hn : ∀ k < a.dim, b.nv k = a.nv k)
    (hr : a.ranks = b.ranks) : ttDot a b = .ok (msum a.nvals (fun es => a.elem es * b.elem es)) :=
  ttDot_value_partial ha hb hd hn (fun k _ _ => by rw [TT.rk, TT.rk, hr])

/-- **C41** Trains of dimension 1 and 2 need no restriction. -/
theorem ttDot_dim2 {a b : TT K} (ha : a.WF) (hb : b.WF) (hd : b.dim = a.dim) (hn : ∀ k < a.dim, b.nv k = a.nv k)
    (h2 : a.dim ≤ 2) : ttDot a b = .ok (msum a.nvals (fun es => a.elem es * b.elem es)) :=
  ttDot_value_partial ha hb hd hn (fun k h1 h3 => by omega)

/-- A train of dimension 3, mode sizes 1, ranks 1,1,2,1, all entries 1. -/
def dotA : TT Int := ⟨3, [1, 1, 1], [1, 1, 2, 1], [⟨1, 1, 1, [1]⟩, ⟨1, 1, 2, [1, 1]⟩, ⟨2, 1, 1, [1, 1]⟩]⟩
/-- A rank-one train of the same shape. -/
def dotB : TT Int := ⟨3, [1, 1, 1], [1, 1, 1, 1], [⟨1, 1, 1, [1]⟩, ⟨1, 1, 1, [1]⟩, ⟨1, 1, 1, [1]⟩]⟩

theorem dotA_wf : dotA.WF := by
  refine ⟨by decide, rfl, rfl, rfl, rfl, rfl, by decide, ?_⟩
  rintro (_ | _ | _ | k) Q hQ <;> simp [dotA] at hQ <;> subst hQ <;> exact ⟨rfl, rfl, rfl, rfl⟩

theorem dotB_wf : dotB.WF := by
  refine ⟨by decide, rfl, rfl, rfl, rfl, rfl, by decide, ?_⟩
  rintro (_ | _ | _ | k) Q hQ <;> simp [dotB] at hQ <;> subst hQ <;> exact ⟨rfl, rfl, rfl, rfl⟩

/-- **C41** The inner product of two well-formed trains of the same shape can write out of bounds: `vec_kron` stores its
result with the column count of the first factor as row length. -/
theorem ttDot_counterexample : dotA.WF ∧ dotB.WF ∧ dotA.nvals = dotB.nvals ∧ ttDot dotA dotB = .error .oob :=
  ⟨dotA_wf, dotB_wf, rfl, by decide⟩

/-- **C41** With the arguments exchanged the linear-algebra library refuses the call. -/
theorem ttDot_exit_counterexample : ttDot dotB dotA = .error .exit := by decide

example : ttDot dotA dotA = .ok (msum dotA.nvals (fun es => dotA.elem es * dotA.elem es)) :=
  ttDot_same_ranks dotA_wf dotA_wf rfl (fun _ _ => rfl) rfl
example : msum dotA.nvals (fun es => dotA.elem es * dotA.elem es) = 4 := by decide
example : ttIntegrate dotA [[3], [5], [7]] = .ok 210 := by decide
example := ttIntegrate_value dotA_wf (w := [[3], [5], [7]]) (by decide) (by decide)

end C3.Tt
