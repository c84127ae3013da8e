/- Helper lemmas for products of orthogonal polynomial expansions. -/
import Verif.Poly.Prod
import Verif.Poly.AlgProps

set_option linter.unusedSectionVars false

namespace C3.Poly
open Finset
open C3.Lin (dv dv_ok)
variable {K : Type} [Field K] [LinearOrder K] [IsStrictOrderedRing K]

theorem getD_set_self {l : List K} {i : Nat} {v : K} (h : i < l.length) : (l.set i v).getD i 0 = v := by
  rw [List.getD_eq_getElem?_getD, List.getElem?_set, if_pos rfl, if_pos h]; rfl

/-- Accumulation in one entry. -/
theorem acc_ok {n kk : Nat} {c : List K} (hk : kk < c.length) {body : Nat → List K → C (List K)} (g : Nat → K)
    (hb : ∀ i < n, ∀ b : List K, b.length = c.length → body i b = .ok (b.set kk (b.getD kk 0 + g i))) :
    forN n body c = .ok (c.set kk (c.getD kk 0 + ∑ i ∈ range n, g i)) := by
  obtain ⟨s, e, h⟩ := forN_spec (n := n) (body := body)
    (I := fun i s => s = c.set kk (c.getD kk 0 + ∑ j ∈ range i, g j)) (s := c)
    (by
      rw [range_zero, sum_empty, add_zero, List.getD_eq_getElem?_getD, List.getElem?_eq_getElem hk, Option.getD_some, List.set_getElem_self])
    (fun j hj s hs => by
      subst hs
      refine ⟨_, hb j hj _ (List.length_set ..), ?_⟩
      rw [getD_set_self hk, List.set_set, sum_range_succ, add_assoc])
  rw [e, h]

/-- The contraction with a table. -/
theorem triple_ok {tab prods c : List K} {na nb ld nc : Nat} (hc : nc ≤ c.length)
    (ht : ∀ i < na, ∀ j < nb, ∀ k < nc, i + j * 50 + k * 2500 < tab.length) (hp : ∀ i < na, ∀ j < nb, j + i * ld < prods.length) :
    ∃ d, triple tab na nb ld prods nc c = .ok d ∧ d.length = c.length ∧ ∀ k < nc, d.getD k 0 = c.getD k 0 +
      ∑ i ∈ range na, ∑ j ∈ range nb, tab.getD (i + j * 50 + k * 2500) 0 * prods.getD (j + i * ld) 0 := by
  obtain ⟨d, e, l, v, -⟩ := forN_window (n := nc) (off := 0) (a := c)
    (fun k v => v + ∑ i ∈ range na, ∑ j ∈ range nb, tab.getD (i + j * 50 + k * 2500) 0 * prods.getD (j + i * ld) 0) (by omega)
    (body := fun kk c => forN na (fun ii c => forN nb (fun jj c => do
      let o ← rd c kk
      let t ← rd tab (ii + jj * 50 + kk * 2500)
      let p ← rd prods (jj + ii * ld)
      wr c kk (o + t * p)) c) c)
    (fun k hk b hb => by
      have hkb : k < b.length := by omega
      rw [Nat.zero_add]
      refine acc_ok hkb (fun i => ∑ j ∈ range nb, tab.getD (i + j * 50 + k * 2500) 0 * prods.getD (j + i * ld) 0) (fun i hi b' hb' => ?_)
      refine acc_ok (by omega) (fun j => tab.getD (i + j * 50 + k * 2500) 0 * prods.getD (j + i * ld) 0) (fun j hj b'' hb'' => ?_)
      rw [rd_getD 0 (by omega), bind_ok, rd_getD 0 (ht i hi j hj k hk), bind_ok, rd_getD 0 (hp i hi j hj), bind_ok, wr_ok _ (by omega)])
  refine ⟨d, e, l, fun k hk => ?_⟩
  have := v k hk
  rwa [Nat.zero_add] at this

theorem idx2_lt {i j na nb : Nat} (hi : i < na) (hj : j < nb) : j + i * nb < na * nb := by
  calc j + i * nb < nb + i * nb := by omega
    _ = (i + 1) * nb := by ring
    _ ≤ na * nb := Nat.mul_le_mul_right _ hi

theorem allProds_ok {a b : Ope K} (ha : a.WF) (hb : b.WF) :
    ∃ l, allProds a b = .ok l ∧ l.length = a.num * b.num ∧
      ∀ i < a.num, ∀ j < b.num, l.getD (j + i * b.num) 0 = a.coeff.getD i 0 * b.coeff.getD j 0 := by
  obtain ⟨l, e, hl, v, -⟩ := forN_scatter2 (A := a.num) (B := b.num) (a := List.replicate (a.num * b.num) (0 : K))
    (body := fun ii jj l => do
      let u ← rd a.coeff ii
      let v ← rd b.coeff jj
      wr l (jj + ii * b.num) (u * v))
    (fun i j => j + i * b.num) (fun i j => a.coeff.getD i 0 * b.coeff.getD j 0)
    (by intro i hi j hj; rw [List.length_replicate]; exact idx2_lt hi hj)
    (by
      intro i hi j hj i' hi' j' hj' h
      have e1 : j = j' := by
        have := congrArg (· % b.num) h
        simp only [Nat.add_mul_mod_self_right, Nat.mod_eq_of_lt hj, Nat.mod_eq_of_lt hj'] at this
        exact this
      subst e1
      exact ⟨Nat.eq_of_mul_eq_mul_right hb.pos (by omega), rfl⟩)
    (by
      intro i hi j hj b' hb'
      rw [rd_getD 0 (lt_of_lt_of_le hi (ha.num_le.trans ha.alloc_le)), bind_ok, rd_getD 0 (lt_of_lt_of_le hj (hb.num_le.trans hb.alloc_le)),
        bind_ok])
  rw [List.length_replicate] at hl
  refine ⟨l, e, hl, fun i hi j hj => ?_⟩
  rw [List.getD_eq_getElem?_getD, v i hi j hj]; rfl

/-- The table of triple products of a family: the product of two basis polynomials of order below 50 as a series. -/
structure TripleTab (fam : Fam K) (tab : List K) : Prop where
  len : 250000 ≤ tab.length
  prod : ∀ i < 50, ∀ j < 50, ∀ x, fam.p i x * fam.p j x = ∑ k ∈ range (i + j + 1), tab.getD (i + j * 50 + k * 2500) 0 * fam.p k x
  zero : ∀ i < 50, ∀ j < 50, ∀ k < 100, i + j < k → tab.getD (i + j * 50 + k * 2500) 0 = 0

theorem TripleTab.series {fam : Fam K} {tab : List K} (h : TripleTab fam tab) {i j N : Nat} (hi : i < 50) (hj : j < 50) (hN : i + j < N)
    (hN' : N ≤ 100) (x : K) : ∑ k ∈ range N, tab.getD (i + j * 50 + k * 2500) 0 * fam.p k x = fam.p i x * fam.p j x := by
  rw [h.prod i hi j hj x]
  symm
  refine sum_subset (range_subset_range.2 (by omega)) (fun k hk hk' => ?_)
  rw [mem_range] at hk hk'
  rw [h.zero i hi j hj k (by omega) (by omega), zero_mul]

/-- The series with the contracted coefficients is the sum of the products. -/
theorem TripleTab.contract {fam : Fam K} {tab : List K} (h : TripleTab fam tab) {na nb N : Nat} (ha : na ≤ 50) (hb : nb ≤ 50)
    (hN : N ≤ 100) (P : Nat → Nat → K) (hP : ∀ i < na, ∀ j < nb, N ≤ i + j → P i j = 0) (x : K) :
    ∑ k ∈ range N, (∑ i ∈ range na, ∑ j ∈ range nb, tab.getD (i + j * 50 + k * 2500) 0 * P i j) * fam.p k x =
      ∑ i ∈ range na, ∑ j ∈ range nb, P i j * (fam.p i x * fam.p j x) := by
  simp only [sum_mul]
  rw [sum_comm]
  refine sum_congr rfl fun i hi => ?_
  rw [sum_comm]
  refine sum_congr rfl fun j hj => ?_
  rw [mem_range] at hi hj
  by_cases hij : i + j < N
  · rw [← h.series (by omega) (by omega) hij hN x, mul_sum]
    exact sum_congr rfl fun k _ => by ring
  · rw [hP i hi j hj (by omega), zero_mul]
    exact sum_eq_zero fun k _ => by ring

/-- The value of the series at a point of the reference domain. -/
def Ope.ser (f : Ope K) (t : K) : K := ∑ k ∈ range f.num, f.coeff.getD k 0 * f.fam.p k t

theorem Ope.val_ser (f : Ope K) (x : K) : f.val x = f.ser (f.map.slope * x + f.map.off) := rfl

theorem Rounded.wf {thr : K} {c r : Ope K} (h : Rounded thr c r) (hc : c.WF) : r.WF :=
  ⟨h.pos, by rw [h.nalloc]; exact h.le.trans hc.num_le, by rw [h.nalloc, h.len]; exact hc.alloc_le,
    fun hh => by rw [h.fam] at hh ⊢; exact hc.cheb hh⟩

theorem Rounded.exact0 {a b : Ope K} (h : Rounded 0 a b) (x : K) : b.val x = a.val x := by
  refine val_congr h.fam h.map (fun k => ?_) x
  have := h.cf_le (M := ∑ k ∈ range a.num, |a.cf k|) le_rfl
    (fun k hk => single_le_sum (f := fun k => |a.cf k|) (fun _ _ => abs_nonneg _) (mem_range.2 hk)) k
  rw [zero_mul] at this
  exact sub_eq_zero.1 (abs_eq_zero.1 (le_antisymm this (abs_nonneg _)))

/-- Product by the table: the series in the reference variable is the product of the series with the polynomials of the first factor;
the mapping is that of a new expansion. -/
theorem prodTab_ok {thr : K} {tab : List K} {a b : Ope K} (ha : a.WF) (hb : b.WF) (hT : TripleTab a.fam tab)
    (na : a.num < 50) (nb : b.num < 50) (hpt : a.fam.pt ≠ .cheb)
    (hi : a.fam.pt ≠ .herm → a.fam.upper - a.fam.lower ≠ 0 ∧ a.ub - a.lb ≠ 0) :
    ∃ n c r, init a.fam (a.num + b.num + 1) a.lb a.ub = .ok n ∧ prodTab thr tab a b = .ok r ∧ c.WF ∧ c.fam = a.fam ∧ c.map = n.map ∧
      c.lb = a.lb ∧ c.ub = a.ub ∧ c.krist = false ∧ c.num = a.num + b.num + 1 ∧ (∀ t, c.ser t = a.ser t * ∑ k ∈ range b.num, b.coeff.getD k 0 * a.fam.p k t) ∧
      Rounded thr c r := by
  obtain ⟨n, en, n1, n2, n3, n4, n5, n6, n7⟩ := init_ok a.fam (a.num + b.num + 1) hi
  obtain ⟨l, el, ll, lv⟩ := allProds_ok ha hb
  have nl : n.coeff.length = a.num + b.num + 1 + 50 := by rw [n6, List.length_replicate]
  have hz : ∀ k, n.coeff.getD k 0 = 0 := fun k => by
    rw [n6, List.getD_eq_getElem?_getD, List.getElem?_replicate]; split <;> rfl
  obtain ⟨d, ed, dl, dv'⟩ := triple_ok (tab := tab) (prods := l) (c := n.coeff) (na := a.num) (nb := b.num) (ld := b.num) (nc := a.num + b.num + 1)
    (by omega) (fun i h1 j h2 k h3 => by have := hT.len; omega) (fun i h1 j h2 => by rw [ll]; exact idx2_lt h1 h2)
  have cw : ({ n with coeff := d } : Ope K).WF := ⟨by show 1 ≤ n.num; omega, by show n.num ≤ n.nalloc; omega, by show n.nalloc ≤ d.length; omega,
    fun h => absurd (by rw [← n1]; exact h) hpt⟩
  obtain ⟨r, er, hr, -⟩ := round_ok (thr := thr) cw.pos (cw.num_le.trans cw.alloc_le)
  refine ⟨n, { n with coeff := d }, r, en, ?_, cw, n1, rfl, n3, n4, n7, n2, fun t => ?_, hr⟩
  · rw [prodTab, en, bind_ok, el, bind_ok, ed, bind_ok, er]
  · show ∑ k ∈ range n.num, d.getD k 0 * n.fam.p k t = _
    rw [n1, n2]
    have e1 : ∀ k ∈ range (a.num + b.num + 1), d.getD k 0 * a.fam.p k t =
        (∑ i ∈ range a.num, ∑ j ∈ range b.num, tab.getD (i + j * 50 + k * 2500) 0 * (a.coeff.getD i 0 * b.coeff.getD j 0)) * a.fam.p k t := by
      intro k hk
      rw [dv' k (mem_range.1 hk), hz, zero_add]
      congr 1
      refine sum_congr rfl fun i h1 => sum_congr rfl fun j h2 => ?_
      rw [lv i (mem_range.1 h1) j (mem_range.1 h2)]
    rw [sum_congr rfl e1, hT.contract (by omega) (by omega) (by omega) _ (fun i h1 j h2 h3 => by omega), Ope.ser,
      sum_mul_sum]
    exact sum_congr rfl fun i _ => sum_congr rfl fun j _ => by ring

/-- One pair of the sums of products. -/
theorem sumRow_ok {x y : Ope K} (hx : x.WF) (hy : y.WF) {ma mb : Nat} (h1 : x.num ≤ ma) (h2 : y.num ≤ mb) {l : List K}
    (hl : l.length = mb * ma) :
    ∃ l', forN x.num (fun ii l => forN y.num (fun jj l => do
        let o ← rd l (jj + ii * mb)
        let u ← rd x.coeff ii
        let v ← rd y.coeff jj
        wr l (jj + ii * mb) (o + u * v)) l) l = .ok l' ∧ l'.length = mb * ma ∧
      ∀ i < ma, ∀ j < mb, l'.getD (j + i * mb) 0 = l.getD (j + i * mb) 0 + x.cf i * y.cf j := by
  obtain ⟨l', e, hl', hv⟩ := forN_spec (n := x.num) (s := l) (body := fun ii l => forN y.num (fun jj l => do
        let o ← rd l (jj + ii * mb)
        let u ← rd x.coeff ii
        let v ← rd y.coeff jj
        wr l (jj + ii * mb) (o + u * v)) l)
    (I := fun m (s : List K) => s.length = mb * ma ∧
      ∀ i < ma, ∀ j < mb, s.getD (j + i * mb) 0 = l.getD (j + i * mb) 0 + if i < m then x.cf i * y.cf j else 0)
    ⟨hl, fun i _ j _ => by rw [if_neg (by omega), add_zero]⟩
    (fun m hm s ⟨sl, sv⟩ => by
      have hrow : m * mb + y.num ≤ s.length := by
        calc m * mb + y.num ≤ m * mb + mb := by omega
          _ = (m + 1) * mb := by ring
          _ ≤ ma * mb := Nat.mul_le_mul_right _ (by omega)
          _ = s.length := by rw [sl, Nat.mul_comm]
      obtain ⟨s', es, ls, vs, os⟩ := forN_window (n := y.num) (off := m * mb) (a := s)
        (fun j v => v + x.coeff.getD m 0 * y.coeff.getD j 0) hrow
        (body := fun jj l => do
          let o ← rd l (jj + m * mb)
          let u ← rd x.coeff m
          let v ← rd y.coeff jj
          wr l (jj + m * mb) (o + u * v))
        (fun j hj b hb => by
          rw [rd_getD 0 (by omega), bind_ok, rd_getD 0 (lt_of_lt_of_le hm (hx.num_le.trans hx.alloc_le)), bind_ok,
            rd_getD 0 (lt_of_lt_of_le hj (hy.num_le.trans hy.alloc_le)), bind_ok, wr_ok _ (by omega), Nat.add_comm j])
      refine ⟨s', es, by rw [ls, sl], fun i hi j hj => ?_⟩
      by_cases him : i = m
      · subst him
        by_cases hjy : j < y.num
        · rw [Nat.add_comm j, vs j hjy, Nat.add_comm (i * mb), sv i hi j hj, if_neg (by omega), if_pos (by omega), add_zero, Ope.cf, Ope.cf,
            if_pos hm, if_pos hjy]
        · rw [List.getD_eq_getElem?_getD, os _ (Or.inr (by omega)), ← List.getD_eq_getElem?_getD, sv i hi j hj, if_neg (by omega),
            if_pos (by omega), cf_ge (f := y) (by omega), mul_zero]
      · rw [List.getD_eq_getElem?_getD, os _ ?_, ← List.getD_eq_getElem?_getD, sv i hi j hj]
        · congr 1
          by_cases hi' : i < m
          · rw [if_pos hi', if_pos (by omega)]
          · rw [if_neg hi', if_neg (by omega)]
        · rcases Nat.lt_or_ge i m with h | h
          · left
            calc j + i * mb < mb + i * mb := by omega
              _ = (i + 1) * mb := by ring
              _ ≤ m * mb := Nat.mul_le_mul_right _ h
          · right
            calc m * mb + y.num ≤ m * mb + mb := by omega
              _ = (m + 1) * mb := by ring
              _ ≤ i * mb := Nat.mul_le_mul_right _ (by omega)
              _ ≤ j + i * mb := by omega)
  refine ⟨l', e, hl', fun i hi j hj => ?_⟩
  rw [hv i hi j hj]
  congr 1
  split
  · rfl
  · rw [cf_ge (f := x) (by omega), zero_mul]

theorem sumProds_ok {n lda ldb : Nat} {a b : List (Ope K)} (x y : Nat → Ope K) (hx : ∀ i < n, a[i * lda]? = some (x i) ∧ (x i).WF)
    (hy : ∀ i < n, b[i * ldb]? = some (y i) ∧ (y i).WF) {ma mb : Nat} (h1 : ∀ i < n, (x i).num ≤ ma) (h2 : ∀ i < n, (y i).num ≤ mb) :
    ∃ l, sumProds n lda a ldb b ma mb = .ok l ∧ l.length = mb * ma ∧
      ∀ i < ma, ∀ j < mb, l.getD (j + i * mb) 0 = ∑ k ∈ range n, (x k).cf i * (y k).cf j := by
  obtain ⟨l, e, hl, hv⟩ := forN_spec (n := n) (s := List.replicate (mb * ma) (0 : K)) (body := fun kk l => do
      let x ← rd a (kk * lda)
      let y ← rd b (kk * ldb)
      forN x.num (fun ii l => forN y.num (fun jj l => do
        let o ← rd l (jj + ii * mb)
        let u ← rd x.coeff ii
        let v ← rd y.coeff jj
        wr l (jj + ii * mb) (o + u * v)) l) l)
    (I := fun m (s : List K) => s.length = mb * ma ∧ ∀ i < ma, ∀ j < mb, s.getD (j + i * mb) 0 = ∑ k ∈ range m, (x k).cf i * (y k).cf j)
    ⟨List.length_replicate .., fun i _ j _ => by
      rw [range_zero, sum_empty, List.getD_eq_getElem?_getD, List.getElem?_replicate]; split <;> rfl⟩
    (fun m hm s ⟨sl, sv⟩ => by
      obtain ⟨s', es, ls, vs⟩ := sumRow_ok (hx m hm).2 (hy m hm).2 (h1 m hm) (h2 m hm) sl
      refine ⟨s', by rw [rd_of_getElem? (hx m hm).1, bind_ok, rd_of_getElem? (hy m hm).1, bind_ok, es], ls, fun i hi j hj => ?_⟩
      rw [vs i hi j hj, sv i hi j hj, sum_range_succ])
  exact ⟨l, e, hl, hv⟩

theorem spScan_ok {n lda ldb : Nat} {a b : List (Ope K)} {pt : PT} (x y : Nat → Ope K) (hx : ∀ i < n, a[i * lda]? = some (x i))
    (hy : ∀ i < n, b[i * ldb]? = some (y i)) (h1 : ∀ i < n, (x i).fam.pt = pt) (h2 : ∀ i < n, (y i).fam.pt = pt) :
    ∃ m : Nat × Nat × Nat, spScan n lda a ldb b pt = .ok (some m) ∧ (∀ i < n, (x i).num ≤ m.1) ∧ (∀ i < n, (y i).num ≤ m.2.1) ∧
      (∀ i < n, (x i).num + (y i).num ≤ m.2.2) ∧ m.2.2 ≤ m.1 + m.2.1 ∧
      (∀ B, (∀ i < n, (x i).num ≤ B) → m.1 ≤ B) ∧ (∀ B, (∀ i < n, (y i).num ≤ B) → m.2.1 ≤ B) := by
  obtain ⟨s, e, m, hs, h⟩ := forN_spec (n := n) (s := some (0, 0, 0))
    (body := fun ii (s : Option (Nat × Nat × Nat)) =>
      match s with
      | none => pure none
      | some m => do
        let x ← rd a (ii * lda)
        let y ← rd b (ii * ldb)
        pure (if x.fam.pt ≠ y.fam.pt then none
          else if x.fam.pt ≠ pt then none
          else some (max m.1 x.num, max m.2.1 y.num, max m.2.2 (x.num + y.num))))
    (I := fun k (s : Option (Nat × Nat × Nat)) => ∃ m, s = some m ∧ (∀ i < k, (x i).num ≤ m.1) ∧ (∀ i < k, (y i).num ≤ m.2.1) ∧
      (∀ i < k, (x i).num + (y i).num ≤ m.2.2) ∧ m.2.2 ≤ m.1 + m.2.1 ∧
      (∀ B, (∀ i < n, (x i).num ≤ B) → m.1 ≤ B) ∧ (∀ B, (∀ i < n, (y i).num ≤ B) → m.2.1 ≤ B))
    ⟨(0, 0, 0), rfl, by simp, by simp, by simp, by simp, by simp, by simp⟩
    (fun k hk s ⟨m, hs, i1, i2, i3, i4, i5, i6⟩ => by
      subst hs
      refine ⟨some (max m.1 (x k).num, max m.2.1 (y k).num, max m.2.2 ((x k).num + (y k).num)), ?_, _, rfl, ?_, ?_, ?_, ?_, ?_, ?_⟩
      · dsimp only
        rw [rd_of_getElem? (hx k hk), bind_ok, rd_of_getElem? (hy k hk), bind_ok, if_neg (by rw [h1 k hk, h2 k hk]; simp),
          if_neg (by rw [h1 k hk]; simp)]
        rfl
      · intro i hi
        rcases Nat.lt_succ_iff_lt_or_eq.1 hi with h | h
        · exact (i1 i h).trans (le_max_left _ _)
        · subst h; exact le_max_right _ _
      · intro i hi
        rcases Nat.lt_succ_iff_lt_or_eq.1 hi with h | h
        · exact (i2 i h).trans (le_max_left _ _)
        · subst h; exact le_max_right _ _
      · intro i hi
        rcases Nat.lt_succ_iff_lt_or_eq.1 hi with h | h
        · exact (i3 i h).trans (le_max_left _ _)
        · subst h; exact le_max_right _ _
      · dsimp only; omega
      · intro B hB
        exact max_le (i5 B hB) (hB k hk)
      · intro B hB
        exact max_le (i6 B hB) (hB k hk))
  subst hs
  exact ⟨m, e, h⟩

theorem sqCoeffs_ok {f : Ope K} (hf : f.WF) : sqCoeffs f = .ok (∑ k ∈ range f.num, f.coeff.getD k 0 ^ 2) := by
  rw [sqCoeffs, forN_sum (fun k => f.coeff.getD k 0 ^ 2) (fun i hi s => by
    rw [rd_getD 0 (lt_of_lt_of_le hi (hf.num_le.trans hf.alloc_le)), bind_ok]; rfl), zero_add]

end C3.Poly
