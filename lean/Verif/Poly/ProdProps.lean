/- C117: products of orthogonal polynomial expansions. -/
import Verif.Poly.ProdLemmas
import Verif.Poly.GaussProps
import Verif.Poly.MapProps

set_option linter.unusedSectionVars false

namespace C3.Poly
open Finset
open C3.Lin (dv dv_ok)

section
variable {K : Type} [Field K] [LinearOrder K] [IsStrictOrderedRing K]

/-- The expansion has the mapping of its domain, i.e. the one every new expansion on that domain gets (for Hermite polynomials: the
identity). -/
def Ope.Native (f : Ope K) : Prop := ∃ g, init f.fam f.num f.lb f.ub = .ok g ∧ g.map = f.map

theorem init_map_eq {fam : Fam K} {n m : Nat} {lb ub : K} {f g : Ope K} (h1 : init fam n lb ub = .ok f) (h2 : init fam m lb ub = .ok g) :
    f.map = g.map := by
  unfold init at h1 h2
  split at h1
  · rename_i hp
    rw [hp] at h2
    rw [← Except.ok.inj h1, ← Except.ok.inj h2]
  · rename_i hp
    have key : ∀ n : Nat, ∀ f : Ope K, (do
      let m ← dv (fam.upper - fam.lower) (ub - lb)
      let off := fam.upper - m * ub
      let im ← dv 1 m
      let io ← dv (-off) m
      pure (⟨fam, n, lb, ub, ⟨m, off, im, io⟩, n + 50, List.replicate (n + 50) 0, false⟩ : Ope K)) = .ok f →
      f.map = ⟨(fam.upper - fam.lower) / (ub - lb), fam.upper - (fam.upper - fam.lower) / (ub - lb) * ub,
        1 / ((fam.upper - fam.lower) / (ub - lb)), -(fam.upper - (fam.upper - fam.lower) / (ub - lb) * ub) / ((fam.upper - fam.lower) / (ub - lb))⟩ := by
      intro n f h
      have d : ∀ a b : K, dv a b = if b = 0 then .error .ub else .ok (a / b) := fun a b => by
        by_cases hb : b = 0
        · rw [if_pos hb, dv, if_pos hb]
        · rw [if_neg hb, dv_ok hb]
      rw [d] at h
      split at h
      · cases h
      · rw [bind_ok] at h
        dsimp only at h
        rw [d] at h
        split at h
        · cases h
        · rw [bind_ok, d] at h
          split at h
          · cases h
          · rw [bind_ok] at h
            rw [← Except.ok.inj h]
    rw [key n f h1]
    split at h2
    · rename_i hq; exact absurd hq (by simpa using hp)
    · exact (key m g h2).symm

/-- The projection on `N` polynomials of a family reproduces the polynomials of degree below `N`. -/
def ProjectsAt (Q : PT → Nat → Rule K) (fam : Fam K) (N : Nat) : Prop :=
  ∀ f : Ope K, f.WF → f.fam = fam → f.num = N → f.map.Inv → (∀ k < f.num, f.coeff.getD k 0 = 0) → ∀ q : Polynomial K, q.degree < N →
    ∀ A : K → C K, (∀ x, A x = .ok (q.eval (f.map.slope * x + f.map.off))) →
    ∃ r, approx Q A f = .ok r ∧ r.WF ∧ ∀ x, r.val x = q.eval (f.map.slope * x + f.map.off)

theorem bind_ok_inv'' {α β : Type} {m : C α} {k : α → C β} {r : β} (h : (m >>= k) = .ok r) : ∃ a, m = .ok a ∧ k a = .ok r := by
  cases m with
  | ok a => exact ⟨a, rfl, h⟩
  | error e => cases h

/-- A projection only changes the coefficients. -/
theorem approx_fields {Q : PT → Nat → Rule K} {A : K → C K} {f r : Ope K} (h : approx Q A f = .ok r) :
    r.fam = f.fam ∧ r.map = f.map ∧ r.lb = f.lb ∧ r.ub = f.ub ∧ r.krist = f.krist ∧ r.num = f.num ∧ r.nalloc = f.nalloc := by
  rw [approx] at h
  obtain ⟨fv, -, h⟩ := bind_ok_inv'' h
  rw [construct] at h
  split at h
  · obtain ⟨c, -, h⟩ := bind_ok_inv'' h
    obtain ⟨d, -, h⟩ := bind_ok_inv'' h
    rw [← Except.ok.inj h]; exact ⟨rfl, rfl, rfl, rfl, rfl, rfl, rfl⟩
  · obtain ⟨c, -, h⟩ := bind_ok_inv'' h
    obtain ⟨d, -, h⟩ := bind_ok_inv'' h
    obtain ⟨q, -, h⟩ := bind_ok_inv'' h
    obtain ⟨w, -, h⟩ := bind_ok_inv'' h
    rw [← Except.ok.inj h]; exact ⟨rfl, rfl, rfl, rfl, rfl, rfl, rfl⟩

/-- Families whose basis polynomials have exact degrees. -/
structure Fam.Lead (fam : Fam K) : Prop where
  c : fam.c0 ≠ 0
  l : fam.l1 ≠ 0
  a : ∀ n, 2 ≤ n → fam.an n ≠ 0

/-- A series as a polynomial in the reference variable. -/
theorem ser_poly {f : Ope K} (hl : f.fam.Lead) (hp : 1 ≤ f.num) : ∃ q : Polynomial K, q.natDegree < f.num ∧ ∀ t, q.eval t = f.ser t := by
  choose P p1 _ p3 using fun k => p_poly (fam := f.fam) hl.c hl.l hl.a k
  refine ⟨∑ k ∈ range f.num, .C (f.coeff.getD k 0) * P k, ?_, fun t => ?_⟩
  · refine lt_of_le_of_lt (Polynomial.natDegree_sum_le_of_forall_le (n := f.num - 1) _ _ (fun k hk => ?_)) (by omega)
    refine (Polynomial.natDegree_C_mul_le _ _).trans ((p1 k).trans ?_)
    have := mem_range.1 hk
    omega
  · rw [Polynomial.eval_finsetSum, Ope.ser]
    exact sum_congr rfl fun k _ => by rw [Polynomial.eval_mul, Polynomial.eval_C, p3]

/-- What the two factors have in common. -/
structure Mates (eps : K) (a b : Ope K) : Prop where
  wa : a.WF
  wb : b.WF
  fam : b.fam = a.fam
  map : b.map = a.map
  lb : |a.lb - b.lb| < eps
  ub : |a.ub - b.ub| < eps
  ka : a.krist = false
  kb : b.krist = false
  inv : a.map.Inv
  dom : a.fam.pt ≠ .herm → a.fam.upper - a.fam.lower ≠ 0 ∧ a.ub - a.lb ≠ 0
  lead : a.fam.Lead

/-- Products computed with a table. -/
def ByTab (a b : Ope K) : Prop := a.fam.pt ≠ .cheb ∧ a.num < 50 ∧ b.num < 50

/-- What the auxiliary data have to provide for the product of two expansions: the table of triple products of the family, with the
mapping every new expansion gets, or an exact projection. -/
structure Aux (Q : PT → Nat → Rule K) (legTab hermTab : List K) (a b : Ope K) : Prop where
  leg : ByTab a b → a.fam.pt = .leg → TripleTab a.fam legTab
  herm : ByTab a b → a.fam.pt = .herm → TripleTab a.fam hermTab
  native : ByTab a b → a.Native
  proj : ¬ ByTab a b → ProjectsAt Q a.fam (a.num + b.num + 5)

/-- C117: the product. There is an expansion of the family, on the domain and with the mapping of the first factor whose value is the product
of the values at every point; the result is that expansion after rounding. Only when the product is not computed by table and the sum of the squared coefficients of one
factor is below the threshold, the result is the zero function. -/
theorem prod_value {thr eps : K} {sq : K → K} {Q : PT → Nat → Rule K} {legTab hermTab : List K} {a b : Ope K} (h : Mates eps a b)
    (hx : Aux Q legTab hermTab a b) :
    ∃ c r, prod thr eps sq Q legTab hermTab a b = .ok r ∧ (∀ x, c.val x = a.val x * b.val x) ∧ c.WF ∧ c.fam = a.fam ∧ c.map = a.map ∧
      c.lb = a.lb ∧ c.ub = a.ub ∧ c.krist = false ∧ c.num ≤ a.num + b.num + 5 ∧ r.WF ∧ r.fam = a.fam ∧ r.map = a.map ∧ r.lb = a.lb ∧ r.ub = a.ub ∧
      r.krist = false ∧
      (Rounded thr c r ∨ ¬ ByTab a b ∧ (∑ k ∈ range a.num, a.coeff.getD k 0 ^ 2 < thr ∨ ∑ k ∈ range b.num, b.coeff.getD k 0 ^ 2 < thr) ∧
        ∀ x, r.val x = 0) := by
  have ep : prod thr eps sq Q legTab hermTab a b = (if a.fam.pt = .leg ∧ a.num < 50 ∧ b.num < 50 then prodTab thr legTab a b
      else if a.fam.pt = .herm ∧ a.num < 50 ∧ b.num < 50 then prodTab thr hermTab a b else prodApprox thr sq Q a b) := by
    rw [prod, cassert_of (decide_eq_true h.lb), bind_ok, cassert_of (decide_eq_true h.ub), bind_ok]
  by_cases hT : ByTab a b
  · have tabc : ∀ tab, TripleTab a.fam tab → ∃ c r, prodTab thr tab a b = .ok r ∧ (∀ x, c.val x = a.val x * b.val x) ∧ c.WF ∧ c.fam = a.fam ∧ c.map = a.map ∧
      c.lb = a.lb ∧ c.ub = a.ub ∧ c.krist = false ∧ c.num ≤ a.num + b.num + 5 ∧ r.WF ∧ r.fam = a.fam ∧ r.map = a.map ∧ r.lb = a.lb ∧ r.ub = a.ub ∧
      r.krist = false ∧
      (Rounded thr c r ∨ ¬ ByTab a b ∧ (∑ k ∈ range a.num, a.coeff.getD k 0 ^ 2 < thr ∨ ∑ k ∈ range b.num, b.coeff.getD k 0 ^ 2 < thr) ∧
        ∀ x, r.val x = 0) := by
      intro tab ht
      obtain ⟨n, c, r, en, er, cw, cf, cm, cl, cu, ck, cn, cv, hr⟩ := prodTab_ok (thr := thr) h.wa h.wb ht hT.2.1 hT.2.2 hT.1 h.dom
      obtain ⟨g, eg, gm⟩ := hx.native hT
      have cm' : c.map = a.map := by rw [cm, init_map_eq en eg, gm]
      refine ⟨c, r, er, fun x => ?_, cw, cf, cm', cl, cu, ck, by omega, hr.wf cw, by rw [hr.fam, cf], by rw [hr.map, cm'], by rw [hr.lb, cl],
        by rw [hr.ub, cu], by rw [hr.krist, ck], Or.inl hr⟩
      rw [Ope.val_ser, cv, cm', Ope.val_ser, Ope.val_ser, h.map]
      simp only [Ope.ser]
      rw [h.fam]
    rw [ep]
    cases hp : a.fam.pt with
    | leg => rw [if_pos ⟨rfl, hT.2⟩]; exact tabc _ (hx.leg hT hp)
    | herm => rw [if_neg (by simp), if_pos ⟨rfl, hT.2⟩]; exact tabc _ (hx.herm hT hp)
    | cheb => exact absurd hp hT.1
  · have e2 : prod thr eps sq Q legTab hermTab a b = prodApprox thr sq Q a b := by
      rw [ep, if_neg (fun hh => hT ⟨by rw [hh.1]; simp, hh.2⟩), if_neg (fun hh => hT ⟨by rw [hh.1]; simp, hh.2⟩)]
    obtain ⟨n, en, n1, n2, n3, n4, n5, n6, n7⟩ := init_ok a.fam (a.num + b.num + 5) h.dom
    have nw : ({ n with map := a.map } : Ope K).WF := ⟨by show 1 ≤ n.num; omega, by show n.num ≤ n.nalloc; omega,
      by show n.nalloc ≤ n.coeff.length; rw [n6, List.length_replicate]; omega, fun hh => by
        show ∃ pi, n.fam = _
        have : a.fam.pt = .cheb := by rw [← n1]; exact hh
        rw [n1]; exact h.wa.cheb this⟩
    obtain ⟨qa, da, va⟩ := ser_poly h.lead h.wa.pos
    obtain ⟨qb, db, vb⟩ := ser_poly (f := b) (by rw [h.fam]; exact h.lead) h.wb.pos
    obtain ⟨c, ec, cw, cv⟩ := hx.proj hT { n with map := a.map } nw n1 n2 h.inv
      (fun k _ => by
        show n.coeff.getD k 0 = 0
        rw [n6, List.getD_eq_getElem?_getD, List.getElem?_replicate]; split <;> rfl)
      (qa * qb) (by
        refine lt_of_le_of_lt Polynomial.degree_le_natDegree ?_
        have := Polynomial.natDegree_mul_le (p := qa) (q := qb)
        exact_mod_cast (show (qa * qb).natDegree < a.num + b.num + 5 by omega))
      (eval3 sq a b) (fun x => by
        rw [eval3, eval_value sq h.wa h.ka, bind_ok, eval_value sq h.wb h.kb, bind_ok]
        show Except.ok _ = _
        rw [Polynomial.eval_mul, va, vb, Ope.val_ser, Ope.val_ser, h.map])
    obtain ⟨c1, c2, c3, c4, c5, c6, -⟩ := approx_fields ec
    have c1 : c.fam = a.fam := c1.trans n1
    have c2 : c.map = a.map := c2
    have c3 : c.lb = a.lb := c3.trans n3
    have c4 : c.ub = a.ub := c4.trans n4
    have c5 : c.krist = false := c5.trans n7
    have c6 : c.num = a.num + b.num + 5 := c6.trans n2
    have cval : ∀ x, c.val x = a.val x * b.val x := fun x => by
      rw [cv, Polynomial.eval_mul, va, vb, Ope.val_ser, Ope.val_ser, h.map]
    rw [e2, prodApprox, sqCoeffs_ok h.wa, bind_ok, sqCoeffs_ok h.wb, bind_ok]
    by_cases hs : ∑ k ∈ range a.num, a.coeff.getD k 0 ^ 2 < thr ∨ ∑ k ∈ range b.num, b.coeff.getD k 0 ^ 2 < thr
    · rw [if_pos hs]
      obtain ⟨z, ez, z1, z2, z3, z4, z5, z6, z7⟩ := init_ok a.fam 1 h.dom
      have zl : z.coeff.length = 51 := by rw [z6, List.length_replicate]
      refine ⟨c, { z with map := a.map, coeff := z.coeff.set 0 0 }, ?_, cval, cw, c1, c2, c3, c4, c5, by omega, ⟨?_, ?_, ?_, ?_⟩, z1, rfl, z3, z4, z7,
        Or.inr ⟨hT, hs, fun x => ?_⟩⟩
      · rw [ez, bind_ok, wr_ok _ (by omega), bind_ok]; rfl
      · show 1 ≤ z.num; omega
      · show z.num ≤ z.nalloc; omega
      · show z.nalloc ≤ (z.coeff.set 0 0).length; rw [List.length_set]; omega
      · intro hh
        show ∃ pi, z.fam = _
        have : a.fam.pt = .cheb := by rw [← z1]; exact hh
        rw [z1]; exact h.wa.cheb this
      · show ∑ k ∈ range z.num, (z.coeff.set 0 0).getD k 0 * _ = 0
        refine sum_eq_zero fun k _ => ?_
        have : (z.coeff.set 0 0).getD k 0 = 0 := by
          rw [z6, List.getD_eq_getElem?_getD, List.getElem?_set]
          split
          · split <;> rfl
          · rw [List.getElem?_replicate]; split <;> rfl
        rw [this, zero_mul]
    · rw [if_neg hs, en, bind_ok, ec, bind_ok]
      obtain ⟨r, er, hr, -⟩ := round_ok (thr := thr) cw.pos (cw.num_le.trans cw.alloc_le)
      exact ⟨c, r, er, cval, cw, c1, c2, c3, c4, c5, by omega, hr.wf cw, by rw [hr.fam, c1], by rw [hr.map, c2], by rw [hr.lb, c3],
        by rw [hr.ub, c4], by rw [hr.krist, c5], Or.inl hr⟩

/-- C117: without a threshold the product is exact at every point. -/
theorem prod_exact {eps : K} {sq : K → K} {Q : PT → Nat → Rule K} {legTab hermTab : List K} {a b : Ope K} (h : Mates eps a b)
    (hx : Aux Q legTab hermTab a b) :
    ∃ r, prod 0 eps sq Q legTab hermTab a b = .ok r ∧ (∀ x, r.val x = a.val x * b.val x) ∧ r.WF ∧ r.fam = a.fam ∧ r.map = a.map ∧
      r.lb = a.lb ∧ r.ub = a.ub ∧ r.krist = false := by
  obtain ⟨c, r, e, v, -, -, -, -, -, -, -, r1, r2, r3, r4, r5, r6, hr | ⟨-, hs, -⟩⟩ := prod_value (thr := 0) (sq := sq) h hx
  · exact ⟨r, e, fun x => by rw [hr.exact0, v], r1, r2, r3, r4, r5, r6⟩
  · have nn : ∀ f : Ope K, ¬ ∑ k ∈ range f.num, f.coeff.getD k 0 ^ 2 < 0 := fun f => not_lt.2 (sum_nonneg fun _ _ => sq_nonneg _)
    exact absurd hs (not_or.2 ⟨nn a, nn b⟩)

/-- C117: sums of products of Legendre expansions with at most 49 polynomials each: a single expansion with the exact sum of the products as
value at every point, rounded once. -/
theorem sumProd_leg {thr eps : K} {sq : K → K} {Q : PT → Nat → Rule K} {legTab hermTab : List K} {n lda ldb : Nat} {a b : List (Ope K)}
    (x y : Nat → Ope K) (hn : 1 ≤ n) (hx : ∀ i < n, a[i * lda]? = some (x i) ∧ (x i).WF) (hy : ∀ i < n, b[i * ldb]? = some (y i) ∧ (y i).WF)
    (hxf : ∀ i < n, (x i).fam = (x 0).fam ∧ (x i).map = (x 0).map ∧ (x i).num < 50)
    (hyf : ∀ i < n, (y i).fam = (x 0).fam ∧ (y i).map = (x 0).map ∧ (y i).num < 50)
    (hpt : (x 0).fam.pt = .leg) (hT : TripleTab (x 0).fam legTab) (hnat : (x 0).Native)
    (hd : (x 0).fam.upper - (x 0).fam.lower ≠ 0 ∧ (x 0).ub - (x 0).lb ≠ 0) :
    ∃ c r, sumProd thr eps sq Q legTab hermTab n lda a ldb b = .ok (some r) ∧ (∀ p, c.val p = ∑ i ∈ range n, (x i).val p * (y i).val p) ∧
      Rounded thr c r ∧ c.WF ∧ c.fam = (x 0).fam ∧ c.map = (x 0).map ∧ c.lb = (x 0).lb ∧ c.ub = (x 0).ub := by
  have h0 : a[0]? = some (x 0) := by have := (hx 0 hn).1; rwa [Nat.zero_mul] at this
  obtain ⟨m, em, m1, m2, m3, m4, m5, m6⟩ := spScan_ok (pt := .leg) x y (fun i hi => (hx i hi).1) (fun i hi => (hy i hi).1)
    (fun i hi => by rw [(hxf i hi).1, hpt]) (fun i hi => by rw [(hyf i hi).1, hpt])
  have hm1 : m.1 ≤ 49 := m5 49 (fun i hi => by have := (hxf i hi).2.2; omega)
  have hm2 : m.2.1 ≤ 49 := m6 49 (fun i hi => by have := (hyf i hi).2.2; omega)
  obtain ⟨g, eg, g1, g2, g3, g4, g5, g6, g7⟩ := init_ok (x 0).fam m.2.2 (lb := (x 0).lb) (ub := (x 0).ub) (fun _ => hd)
  obtain ⟨l, el, ll, lv⟩ := sumProds_ok x y hx hy m1 m2
  have gl : g.coeff.length = m.2.2 + 50 := by rw [g6, List.length_replicate]
  obtain ⟨d, ed, dl, dv'⟩ := triple_ok (tab := legTab) (prods := l) (c := g.coeff) (na := m.1) (nb := m.2.1) (ld := m.2.1) (nc := m.2.2)
    (by omega) (fun i h1 j h2 k h3 => by have := hT.len; omega) (fun i h1 j h2 => by rw [ll, Nat.mul_comm m.2.1 m.1]; exact idx2_lt h1 h2)
  have hpos : 1 ≤ m.2.2 := by have := m3 0 hn; have := (hx 0 hn).2.pos; omega
  obtain ⟨g', eg', gm'⟩ := hnat
  have gmap : g.map = (x 0).map := by rw [init_map_eq eg eg', gm']
  have cw : ({ g with coeff := d } : Ope K).WF := ⟨by show 1 ≤ g.num; omega, by show g.num ≤ g.nalloc; omega, by show g.nalloc ≤ d.length; omega,
    fun h => by
      have h' : g.fam.pt = .cheb := h
      rw [g1, hpt] at h'; cases h'⟩
  obtain ⟨r, er, hr, -⟩ := round_ok (thr := thr) cw.pos (cw.num_le.trans cw.alloc_le)
  refine ⟨{ g with coeff := d }, r, ?_, fun p => ?_, hr, cw, g1, gmap, g3, g4⟩
  · rw [sumProd, rd_of_getElem? h0, bind_ok, hpt, em, bind_ok]
    dsimp only
    rw [if_neg (by simp; omega), sumProdTab, eg, bind_ok, el, bind_ok, ed, bind_ok, er]
    rfl
  · rw [Ope.val_ser]
    show ∑ k ∈ range g.num, d.getD k 0 * g.fam.p k (g.map.slope * p + g.map.off) = _
    rw [g1, g2, gmap]
    set t := (x 0).map.slope * p + (x 0).map.off with ht
    have e1 : ∀ k ∈ range m.2.2, d.getD k 0 * (x 0).fam.p k t = (∑ i ∈ range m.1, ∑ j ∈ range m.2.1,
        legTab.getD (i + j * 50 + k * 2500) 0 * ∑ q ∈ range n, (x q).cf i * (y q).cf j) * (x 0).fam.p k t := by
      intro k hk
      rw [dv' k (mem_range.1 hk), g6, List.getD_eq_getElem?_getD, List.getElem?_replicate]
      have : (if k < m.2.2 + 50 then some (0 : K) else none).getD 0 = 0 := by split <;> rfl
      rw [this, zero_add]
      congr 1
      exact sum_congr rfl fun i h1 => sum_congr rfl fun j h2 => by rw [lv i (mem_range.1 h1) j (mem_range.1 h2)]
    rw [sum_congr rfl e1, hT.contract (by omega) (by omega) (by omega) _ (fun i h1 j h2 h3 => ?_)]
    · simp only [sum_mul]
      have e2 : ∀ q ∈ range n, (x q).val p * (y q).val p = ∑ i ∈ range m.1, ∑ j ∈ range m.2.1,
          (x q).cf i * (y q).cf j * ((x 0).fam.p i t * (x 0).fam.p j t) := by
        intro q hq
        have hq' := mem_range.1 hq
        rw [val_cf (m1 q hq'), val_cf (m2 q hq'), (hxf q hq').1, (hyf q hq').1, (hxf q hq').2.1, (hyf q hq').2.1, sum_mul_sum]
        exact sum_congr rfl fun i _ => sum_congr rfl fun j _ => by ring
      rw [sum_congr rfl e2, sum_comm (s := range n)]
      exact sum_congr rfl fun i _ => sum_comm
    · refine sum_eq_zero fun q hq => ?_
      have hq' := mem_range.1 hq
      by_cases hi : i < (x q).num
      · rw [cf_ge (f := y q) (by have := m3 q hq'; omega), mul_zero]
      · rw [cf_ge (f := x q) (by omega), zero_mul]

/-- C117: sums of products without a threshold, for every family and any number of polynomials. -/
theorem sumProd_exact {eps : K} {sq : K → K} {Q : PT → Nat → Rule K} {legTab hermTab : List K} {n lda ldb : Nat} {a b : List (Ope K)}
    (x y : Nat → Ope K) (hn : 1 ≤ n) (hx : ∀ i < n, a[i * lda]? = some (x i)) (hy : ∀ i < n, b[i * ldb]? = some (y i))
    (hm : ∀ i < n, Mates eps (x i) (y i)) (hxf : ∀ i < n, (x i).fam = (x 0).fam ∧ (x i).map = (x 0).map ∧ (x i).lb = (x 0).lb ∧ (x i).ub = (x 0).ub)
    (haux : ∀ i < n, Aux Q legTab hermTab (x i) (y i)) (hT : (x 0).fam.pt = .leg → TripleTab (x 0).fam legTab)
    (hnat : (x 0).fam.pt = .leg → (x 0).Native) :
    ∃ r, sumProd 0 eps sq Q legTab hermTab n lda a ldb b = .ok (some r) ∧ (∀ p, r.val p = ∑ i ∈ range n, (x i).val p * (y i).val p) ∧
      r.WF ∧ r.fam = (x 0).fam ∧ r.map = (x 0).map ∧ r.lb = (x 0).lb ∧ r.ub = (x 0).ub := by
  have h0 : a[0]? = some (x 0) := by have := hx 0 hn; rwa [Nat.zero_mul] at this
  have h0' : b[0]? = some (y 0) := by have := hy 0 hn; rwa [Nat.zero_mul] at this
  have yf : ∀ i < n, (y i).fam = (x 0).fam ∧ (y i).map = (x 0).map := fun i hi => by
    rw [(hm i hi).fam, (hm i hi).map, (hxf i hi).1, (hxf i hi).2.1]; exact ⟨rfl, rfl⟩
  obtain ⟨m, em, m1, m2, -, -, m5, m6⟩ := spScan_ok (pt := (x 0).fam.pt) x y hx hy
    (fun i hi => by rw [(hxf i hi).1]) (fun i hi => by rw [(yf i hi).1])
  by_cases hb : m.1 > 49 ∨ m.2.1 > 49 ∨ (x 0).fam.pt ≠ .leg
  · have heps : 0 < eps := lt_of_le_of_lt (abs_nonneg _) (hm 0 hn).lb
    have hex : ∀ i < n, ∃ r, prod 0 eps sq Q legTab hermTab (x i) (y i) = .ok r ∧ (∀ p, r.val p = (x i).val p * (y i).val p) ∧ r.WF ∧
        r.fam = (x 0).fam ∧ r.map = (x 0).map ∧ r.lb = (x 0).lb ∧ r.ub = (x 0).ub ∧ r.krist = false := fun i hi => by
      obtain ⟨r, e, v, w, r1, r2, r3, r4, r5⟩ := prod_exact (sq := sq) (hm i hi) (haux i hi)
      exact ⟨r, e, v, w, r1.trans (hxf i hi).1, r2.trans (hxf i hi).2.1, r3.trans (hxf i hi).2.2.1, r4.trans (hxf i hi).2.2.2, r5⟩
    obtain ⟨c, ec, cv, cw, c1, c2, c3, c4, c5⟩ := hex 0 hn
    obtain ⟨r, er, rv, rw', r1, r2, r3, r4⟩ := forR_spec (a := 1) (b := n) (s := c)
      (body := fun ii c => do
        let x ← rd a (ii * lda)
        let y ← rd b (ii * ldb)
        let t ← prod 0 eps sq Q legTab hermTab x y
        axpy 0 eps 1 t c)
      (I := fun k r => (∀ p, r.val p = ∑ i ∈ range k, (x i).val p * (y i).val p) ∧ r.WF ∧ r.fam = (x 0).fam ∧ r.map = (x 0).map ∧
        r.lb = (x 0).lb ∧ r.ub = (x 0).ub) hn
      ⟨fun p => by rw [sum_range_one, cv], cw, c1, c2, c3, c4⟩
      (by
        intro k h1 h2 s ⟨sv, sw, s1, s2, s3, s4⟩
        obtain ⟨t, et, tv, tw, t1, t2, t3, t4, t5⟩ := hex k h2
        obtain ⟨s', es, w, e1, e2, e3, e4, -, -, -, ev⟩ := axpy_value (thr := 0) (eps := eps) (a := 1) tw sw le_rfl (t1.trans s1.symm) (t2.trans s2.symm)
          (by rw [t3, s3, sub_self, abs_zero]; exact heps) (by rw [t4, s4, sub_self, abs_zero]; exact heps)
        refine ⟨s', by rw [rd_of_getElem? (hx k h2), bind_ok, rd_of_getElem? (hy k h2), bind_ok, et, bind_ok, es], fun p => ?_, w,
          e1.trans s1, e2.trans s2, e3.trans s3, e4.trans s4⟩
        have := ev p
        rw [zero_mul] at this
        have := sub_eq_zero.1 (abs_eq_zero.1 (le_antisymm this (abs_nonneg _)))
        rw [this, one_mul, tv, sv, sum_range_succ, add_comm])
    refine ⟨r, ?_, rv, rw', r1, r2, r3, r4⟩
    rw [sumProd, rd_of_getElem? h0, bind_ok, em, bind_ok]
    dsimp only
    rw [if_pos hb, sumProdEach, rd_of_getElem? h0, bind_ok, rd_of_getElem? h0', bind_ok, ec, bind_ok, er]
    rfl
  · simp only [not_or, not_lt, not_not] at hb
    obtain ⟨b1, b2, b3⟩ := hb
    obtain ⟨c, r, e, cv, hr, cw, c1, c2, c3, c4⟩ := sumProd_leg (thr := 0) (eps := eps) (sq := sq) (Q := Q) (hermTab := hermTab) x y hn
      (fun i hi => ⟨hx i hi, (hm i hi).wa⟩) (fun i hi => ⟨hy i hi, (hm i hi).wb⟩)
      (fun i hi => ⟨(hxf i hi).1, (hxf i hi).2.1, by have := m1 i hi; omega⟩)
      (fun i hi => ⟨(yf i hi).1, (yf i hi).2, by have := m2 i hi; omega⟩) b3 (hT b3) (hnat b3) ((hm 0 hn).dom (by rw [b3]; simp))
    exact ⟨r, e, fun p => by rw [hr.exact0, cv], hr.wf cw, by rw [hr.fam, c1], by rw [hr.map, c2], by rw [hr.lb, c3], by rw [hr.ub, c4]⟩

/-- C117: expansions of different families are refused by the sum of products with a null result. -/
theorem sumProd_types {thr eps : K} {sq : K → K} {Q : PT → Nat → Rule K} {legTab hermTab : List K} {n lda ldb : Nat} {a b : List (Ope K)}
    (x y : Nat → Ope K) (hn : 1 ≤ n) (hx : ∀ i < n, a[i * lda]? = some (x i)) (hy : ∀ i < n, b[i * ldb]? = some (y i))
    (hd : ∃ i < n, (x i).fam.pt ≠ (x 0).fam.pt ∨ (y i).fam.pt ≠ (x 0).fam.pt) :
    sumProd thr eps sq Q legTab hermTab n lda a ldb b = .ok none := by
  have h0 : a[0]? = some (x 0) := by have := hx 0 hn; rwa [Nat.zero_mul] at this
  obtain ⟨s, e, h1, h2⟩ := forN_spec (n := n) (s := some (0, 0, 0))
    (body := fun ii (s : Option (Nat × Nat × Nat)) =>
      match s with
      | none => pure none
      | some m => do
        let x' ← rd a (ii * lda)
        let y ← rd b (ii * ldb)
        pure (if x'.fam.pt ≠ y.fam.pt then none
          else if x'.fam.pt ≠ (x 0).fam.pt then none
          else some (max m.1 x'.num, max m.2.1 y.num, max m.2.2 (x'.num + y.num))))
    (I := fun k s => (s = none ∨ ∃ m, s = some m) ∧ ((∃ i < k, (x i).fam.pt ≠ (x 0).fam.pt ∨ (y i).fam.pt ≠ (x 0).fam.pt) → s = none))
    ⟨Or.inr ⟨_, rfl⟩, fun ⟨i, hi, _⟩ => absurd hi (Nat.not_lt_zero _)⟩
    (fun k hk s ⟨i1, i2⟩ => by
      rcases i1 with hs | ⟨m, hs⟩
      · subst hs; exact ⟨none, rfl, Or.inl rfl, fun _ => rfl⟩
      · subst hs
        have hno : ¬ ∃ i < k, (x i).fam.pt ≠ (x 0).fam.pt ∨ (y i).fam.pt ≠ (x 0).fam.pt := fun h => by cases i2 h
        refine ⟨_, by dsimp only; rw [rd_of_getElem? (hx k hk), bind_ok, rd_of_getElem? (hy k hk), bind_ok]; rfl, ?_, ?_⟩
        · by_cases c1 : (x k).fam.pt = (y k).fam.pt
          · by_cases c2 : (x k).fam.pt = (x 0).fam.pt
            · rw [if_neg (by simpa using c1), if_neg (by simpa using c2)]; exact Or.inr ⟨_, rfl⟩
            · rw [if_neg (by simpa using c1), if_pos c2]; exact Or.inl rfl
          · rw [if_pos c1]; exact Or.inl rfl
        · rintro ⟨i, hi, hc⟩
          rcases Nat.lt_succ_iff_lt_or_eq.1 hi with h | h
          · exact absurd ⟨i, h, hc⟩ hno
          · subst h
            by_cases c1 : (x i).fam.pt = (y i).fam.pt
            · rw [if_neg (by simpa using c1), if_pos (by rw [← c1] at hc; rcases hc with h | h <;> exact h)]
            · rw [if_pos c1])
  have := h2 hd
  subst this
  have e' : spScan n lda a ldb b (x 0).fam.pt = .ok none := e
  rw [sumProd, rd_of_getElem? h0, bind_ok, e', bind_ok]
  rfl

end

/-! Instances for the families of the library, and cases in which the claim fails. -/

open Real

theorem Leg.lead : legFam.Lead := ⟨legFam_lead.1, legFam_lead.2.1, legFam_lead.2.2⟩
theorem Herm.lead (big : ℝ) : (hermFam big).Lead := ⟨(hermFam_lead big).1, (hermFam_lead big).2.1, (hermFam_lead big).2.2⟩
theorem Cheb.lead : (chebFam π).Lead := ⟨(chebFam_lead π).1, (chebFam_lead π).2.1, (chebFam_lead π).2.2⟩

theorem projects_leg {Q : PT → Nat → Rule ℝ} {N : Nat} (hQ : IsGaussLeg (N + 1) (Q .leg (N + 1))) : ProjectsAt Q legFam N := by
  intro f hf hfam hn hm hz q hq A hA
  subst hn
  exact approx_leg hf hfam hQ hm hz q hq hA

theorem projects_herm {big : ℝ} {Q : PT → Nat → Rule ℝ} {N : Nat} (hQ : IsGaussHerm (N + 1) (Q .herm (N + 1))) :
    ProjectsAt Q (hermFam big) N := by
  intro f hf hfam hn hm hz q hq A hA
  subst hn
  exact approx_herm hf hfam hQ hm hz q hq hA

theorem projects_cheb {Q : PT → Nat → Rule ℝ} {N : Nat} (hQ : IsChebGauss N (Q .cheb N)) : ProjectsAt Q (chebFam π) N := by
  intro f hf hfam hn hm hz q hq A hA
  subst hn
  exact approx_cheb hf hfam hQ hm hz q hq hA

/-- Every family with exact degrees has a table of triple products. -/
theorem exists_tripleTab {fam : Fam ℝ} (h : fam.Lead) : ∃ tab, TripleTab fam tab := by
  have key : ∀ i j : Nat, ∃ a : Nat → ℝ, ∀ t, fam.p i t * fam.p j t = ∑ k ∈ range (i + j + 1), a k * fam.p k t := fun i j => by
    obtain ⟨P, p1, -, p3⟩ := p_poly h.c h.l h.a i
    obtain ⟨R, r1, -, r3⟩ := p_poly h.c h.l h.a j
    obtain ⟨a, ha⟩ := exists_series h.c h.l h.a (i + j + 1) (P * R) (by
      refine lt_of_le_of_lt Polynomial.degree_le_natDegree ?_
      have := Polynomial.natDegree_mul_le (p := P) (q := R)
      exact_mod_cast (show (P * R).natDegree < i + j + 1 by omega))
    exact ⟨a, fun t => by rw [← ha, Polynomial.eval_mul, p3, r3]⟩
  choose T hT using key
  have hg : ∀ i < 50, ∀ j < 50, ∀ k < 100, ((List.range 250000).map fun m => if m % 50 + m / 50 % 50 < m / 2500 then (0 : ℝ)
      else T (m % 50) (m / 50 % 50) (m / 2500)).getD (i + j * 50 + k * 2500) 0 = if i + j < k then 0 else T i j k := by
    intro i hi j hj k hk
    rw [List.getD_eq_getElem?_getD, List.getElem?_map, List.getElem?_range (by omega)]
    have e1 : (i + j * 50 + k * 2500) % 50 = i := by omega
    have e2 : (i + j * 50 + k * 2500) / 50 % 50 = j := by omega
    have e3 : (i + j * 50 + k * 2500) / 2500 = k := by omega
    simp only [Option.map_some, Option.getD_some, e1, e2, e3]
  refine ⟨(List.range 250000).map fun m => if m % 50 + m / 50 % 50 < m / 2500 then 0 else T (m % 50) (m / 50 % 50) (m / 2500), ?_, ?_, ?_⟩
  · rw [List.length_map, List.length_range]
  · intro i hi j hj x
    rw [hT i j x]
    refine sum_congr rfl fun k hk => ?_
    have := mem_range.1 hk
    rw [hg i hi j hj k (by omega), if_neg (by omega)]
  · intro i hi j hj k hk h
    rw [hg i hi j hj k hk, if_pos h]

/-- A Chebyshev expansion on [-1,1]. -/
noncomputable def chebEx (c : List ℝ) : Ope ℝ := ⟨chebFam π, c.length, -1, 1, ⟨1, 0, 1, 0⟩, c.length, c, false⟩

theorem chebEx_mates {c d : List ℝ} {eps : ℝ} (he : 0 < eps) (hc : 1 ≤ c.length) (hd : 1 ≤ d.length) : Mates eps (chebEx c) (chebEx d) :=
  ⟨⟨hc, le_rfl, le_rfl, fun _ => ⟨π, rfl⟩⟩, ⟨hd, le_rfl, le_rfl, fun _ => ⟨π, rfl⟩⟩, rfl, rfl, by simpa [chebEx] using he, by simpa [chebEx] using he,
    rfl, rfl, ⟨by simp [chebEx], by simp [chebEx]⟩, fun _ => ⟨by norm_num [chebEx, chebFam], by norm_num [chebEx]⟩, Cheb.lead⟩

/-- The product of two Chebyshev expansions, with the rule of the library. -/
example : ∃ (Q : PT → Nat → Rule ℝ) (r : Ope ℝ), prod 0 1 Real.sqrt Q [] [] (chebEx [1, 2, 3]) (chebEx [4, 5]) = .ok r ∧
    ∀ x, r.val x = (chebEx [1, 2, 3]).val x * (chebEx [4, 5]).val x := by
  choose Q hQ using exists_isChebGauss
  have hb : ¬ ByTab (chebEx [1, 2, 3]) (chebEx [4, 5]) := fun h => h.1 rfl
  obtain ⟨r, e, v, -⟩ := prod_exact (sq := Real.sqrt) (Q := fun _ => Q) (legTab := []) (hermTab := [])
    (chebEx_mates (c := [1, 2, 3]) (d := [4, 5]) (eps := 1) one_pos (by simp) (by simp))
    ⟨fun h => absurd h hb, fun h => absurd h hb, fun h => absurd h hb, fun _ => projects_cheb (hQ _)⟩
  exact ⟨_, r, e, v⟩

/-- A Legendre expansion on [0,2]. -/
noncomputable def legEx2 (c : List ℝ) : Ope ℝ := ⟨legFam, c.length, 0, 2, ⟨1, -1, 1, 1⟩, c.length, c, false⟩

theorem legEx2_native (c : List ℝ) : (legEx2 c).Native := by
  refine ⟨⟨legFam, c.length, 0, 2, ⟨1, -1, 1, 1⟩, c.length + 50, List.replicate (c.length + 50) 0, false⟩, ?_, rfl⟩
  have e : ((1 : ℝ) - -1) / (2 - 0) = 1 := by norm_num
  have h2 : (2 : ℝ) - 0 ≠ 0 := by norm_num
  show (do
      let m ← dv ((1 : ℝ) - -1) (2 - 0)
      let off := 1 - m * 2
      let im ← dv 1 m
      let io ← dv (-off) m
      pure (⟨legFam, c.length, 0, 2, ⟨m, off, im, io⟩, c.length + 50, List.replicate (c.length + 50) 0, false⟩ : Ope ℝ)) = _
  rw [dv_ok h2, e, bind_ok]
  dsimp only
  rw [dv_ok one_ne_zero, bind_ok, dv_ok one_ne_zero, bind_ok]
  norm_num

/-- The product of two Legendre expansions by the table. -/
example : ∃ (tab : List ℝ) (r : Ope ℝ), prod 0 1 Real.sqrt (fun _ _ => ⟨[], []⟩) tab [] (legEx2 [1, 2, 3]) (legEx2 [4, 5]) = .ok r ∧
    ∀ x, r.val x = (legEx2 [1, 2, 3]).val x * (legEx2 [4, 5]).val x := by
  obtain ⟨tab, ht⟩ := exists_tripleTab Leg.lead
  have hb : ByTab (legEx2 [1, 2, 3]) (legEx2 [4, 5]) := ⟨by show PT.leg ≠ PT.cheb; simp, by show 3 < 50; simp, by show 2 < 50; simp⟩
  obtain ⟨r, e, v, -⟩ := prod_exact (eps := 1) (sq := Real.sqrt) (Q := fun _ _ => ⟨[], []⟩) (legTab := tab) (hermTab := []) (a := legEx2 [1, 2, 3]) (b := legEx2 [4, 5])
    ⟨⟨by show 1 ≤ 3; simp, le_rfl, le_rfl, fun h => by cases h⟩, ⟨by show 1 ≤ 2; simp, le_rfl, le_rfl, fun h => by cases h⟩, rfl, rfl,
      by simp [legEx2], by simp [legEx2], rfl, rfl, ⟨by simp [legEx2], by simp [legEx2]⟩, fun _ => ⟨by norm_num [legEx2, legFam], by norm_num [legEx2]⟩, Leg.lead⟩
    ⟨fun _ _ => ht, fun _ h => (by cases h), fun _ => legEx2_native _, fun h => absurd hb h⟩
  exact ⟨tab, r, e, v⟩

/-- Hermite expansions for the normal distribution with mean 1: the function x - 1 times the constant 1 is, by the table, the function x:
the product loses the mapping of its factors. -/
theorem prod_map_counterexample {big : ℝ} {hermTab : List ℝ} (hT : TripleTab (hermFam big) hermTab) (Q : PT → Nat → Rule ℝ) (legTab : List ℝ) :
    ∃ a b r : Ope ℝ, a.WF ∧ b.WF ∧ a.fam = hermFam big ∧ b.fam = hermFam big ∧ a.map = b.map ∧ a.lb = b.lb ∧ a.ub = b.ub ∧
      (∀ x, a.val x = x - 1) ∧ (∀ x, b.val x = 1) ∧ prod 0 1 Real.sqrt Q legTab hermTab a b = .ok r ∧ ∀ x, r.val x = x := by
  have wa : (⟨hermFam big, 2, 0, 0, ⟨1, -1, 1, 1⟩, 2, [0, 1], false⟩ : Ope ℝ).WF := ⟨by simp, by simp, by simp, fun h => by cases h⟩
  have wb : (⟨hermFam big, 1, 0, 0, ⟨1, -1, 1, 1⟩, 1, [1], false⟩ : Ope ℝ).WF := ⟨by simp, by simp, by simp, fun h => by cases h⟩
  obtain ⟨n, c, r, en, er, -, cf, cm, -, -, -, -, cv, hr⟩ := prodTab_ok (thr := 0) wa wb hT (by show 2 < 50; simp) (by show 1 < 50; simp)
    (by show PT.herm ≠ PT.cheb; simp) (fun h => absurd rfl h)
  refine ⟨_, _, r, wa, wb, rfl, rfl, rfl, rfl, rfl, fun x => ?_, fun x => ?_, ?_, fun x => ?_⟩
  · simp [Ope.val, sum_range_succ, Fam.p, hermFam]; ring
  · simp [Ope.val, Fam.p, hermFam]
  · have h0 : cassert (decide (|(0 : ℝ) - 0| < 1)) = .ok () := cassert_of (by simp)
    rw [prod]
    dsimp only
    rw [h0, bind_ok, bind_ok, if_neg (fun h => by cases h.1), if_pos ⟨rfl, by norm_num, by norm_num⟩, er]
  · rw [hr.exact0, Ope.val_ser, cv, cm]
    have : n.map = ⟨1, 0, 1, 0⟩ := by rw [← Except.ok.inj en]
    rw [this]
    simp [Ope.ser, sum_range_succ, Fam.p, hermFam]

/-- The type of the second factor is not compared with that of the first: the constant 1 as a Legendre expansion times the Chebyshev polynomial of
order two is, at the right end of the domain, the square root of five instead of one. -/
theorem prod_type_counterexample {legTab : List ℝ} (hT : TripleTab legFam legTab) (Q : PT → Nat → Rule ℝ) (hermTab : List ℝ) :
    ∃ a b r : Ope ℝ, a.WF ∧ b.WF ∧ a.map = b.map ∧ a.lb = b.lb ∧ a.ub = b.ub ∧ a.Native ∧ a.val 2 = 1 ∧ b.val 2 = 1 ∧
      prod 0 1 Real.sqrt Q legTab hermTab a b = .ok r ∧ r.val 2 = √5 := by
  have wa : (legEx2 [1]).WF := ⟨by show 1 ≤ 1; simp, le_rfl, le_rfl, fun h => by cases h⟩
  have wb : (⟨chebFam π, 3, 0, 2, ⟨1, -1, 1, 1⟩, 3, [0, 0, 1], false⟩ : Ope ℝ).WF := ⟨by simp, by simp, by simp, fun _ => ⟨π, rfl⟩⟩
  obtain ⟨n, c, r, en, er, -, cf, cm, -, -, -, -, cv, hr⟩ := prodTab_ok (thr := 0) wa wb hT (by show 1 < 50; simp) (by show 3 < 50; simp)
    (by show PT.leg ≠ PT.cheb; simp) (fun _ => ⟨by norm_num [legEx2, legFam], by norm_num [legEx2]⟩)
  have hm : c.map = ⟨1, -1, 1, 1⟩ := by
    obtain ⟨g, eg, gm⟩ := legEx2_native [1]
    rw [cm, init_map_eq en eg, gm]; rfl
  refine ⟨_, _, r, wa, wb, rfl, rfl, rfl, legEx2_native _, ?_, ?_, ?_, ?_⟩
  · simp [Ope.val, legEx2, Fam.p, legFam]
  · simp [Ope.val, sum_range_succ, Fam.p, chebFam]; norm_num
  · rw [prod, cassert_of (by simp [legEx2]), bind_ok, cassert_of (by simp [legEx2]), bind_ok, if_pos ⟨rfl, by show 1 < 50; simp, by show 3 < 50; simp⟩, er]
  · rw [hr.exact0, Ope.val_ser, cv, hm]
    have h5 : legFam.p 2 1 = √5 := by
      have e15 : √(15 : ℝ) = √5 * √3 := by rw [← Real.sqrt_mul (by norm_num)]; norm_num
      have h3 : √(3 : ℝ) * √3 = 3 := Real.mul_self_sqrt (by norm_num)
      show (√(4 * ((2 : ℕ) * (2 : ℕ) : ℝ) - 1) / (2 : ℕ) * 1 + 0) * (0 + 1 * √3 * 1) + -(√(2 * ((2 : ℕ) : ℝ) + 1) * ((2 : ℕ) - 1)) / (2 : ℕ) / √(2 * ((2 : ℕ) : ℝ) - 3) * 1 = √5
      have a1 : (4 * ((2 : ℕ) * (2 : ℕ) : ℝ) - 1) = 15 := by norm_num
      have a2 : (2 * ((2 : ℕ) : ℝ) + 1) = 5 := by norm_num
      have a3 : (2 * ((2 : ℕ) : ℝ) - 3) = 1 := by norm_num
      rw [a1, a2, a3, e15, Real.sqrt_one]
      push_cast
      linear_combination (√5 / 2) * h3
    have ht : (1 : ℝ) * 2 + -1 = 1 := by norm_num
    rw [ht]
    simp [Ope.ser, legEx2, sum_range_succ, h5]
    simp [legFam]

/-- Whatever the positive threshold, there are two constant functions with product one (as Chebyshev expansions) whose computed product is the zero
function. -/
theorem prod_small_counterexample {thr : ℝ} (ht : 0 < thr) : ∃ (a b r : Ope ℝ) (Q : PT → Nat → Rule ℝ), Mates 1 a b ∧ (∀ x, a.val x * b.val x = 1) ∧
    prod thr 1 Real.sqrt Q [] [] a b = .ok r ∧ ∀ x, r.val x = 0 := by
  choose Q hQ using exists_isChebGauss
  obtain ⟨e, he, he2⟩ : ∃ e : ℝ, 0 < e ∧ e ^ 2 < thr := by
    refine ⟨min 1 (thr / 2), lt_min one_pos (by linarith), ?_⟩
    have h1 : min 1 (thr / 2) ≤ 1 := min_le_left _ _
    have h2 : min 1 (thr / 2) ≤ thr / 2 := min_le_right _ _
    have h3 : 0 < min 1 (thr / 2) := lt_min one_pos (by linarith)
    nlinarith
  have hm : Mates 1 (chebEx [e]) (chebEx [1 / e]) := chebEx_mates one_pos (by simp) (by simp)
  have hb : ¬ ByTab (chebEx [e]) (chebEx [1 / e]) := fun h => h.1 rfl
  have hv : ∀ x, (chebEx [e]).val x * (chebEx [1 / e]).val x = 1 := fun x => by
    simp [Ope.val, chebEx, Fam.p, chebFam, mul_inv_cancel₀ he.ne']
  have hs : ∑ k ∈ range (chebEx [e]).num, (chebEx [e]).coeff.getD k 0 ^ 2 < thr := by simpa [chebEx] using he2
  refine ⟨chebEx [e], chebEx [1 / e], { (⟨chebFam π, 1, -1, 1, ⟨1, 0, 1, 0⟩, 51, (List.replicate 51 0).set 0 0, false⟩ : Ope ℝ) with map := (chebEx [e]).map },
    fun _ => Q, hm, hv, ?_, fun x => ?_⟩
  · rw [prod, cassert_of (decide_eq_true hm.lb), bind_ok, cassert_of (decide_eq_true hm.ub), bind_ok, if_neg (fun h => by cases h.1),
      if_neg (fun h => by cases h.1), prodApprox, sqCoeffs_ok hm.wa, bind_ok, sqCoeffs_ok hm.wb, bind_ok, if_pos (Or.inl hs)]
    obtain ⟨z, ez, z1, z2, z3, z4, z5, z6, z7⟩ := init_ok (chebEx [e]).fam 1 hm.dom
    rw [ez, bind_ok, wr_ok _ (by rw [z6, List.length_replicate]; omega), bind_ok, z6]
    show Except.ok _ = Except.ok _
    congr 1
    rw [z1, z2, z3, z4, z5, z7]
    rfl
  · simp [Ope.val]

end C3.Poly
