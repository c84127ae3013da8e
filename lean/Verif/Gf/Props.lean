/-
C141: sums, products, inner products and linear combinations of generic functions, for functions of one class and of several.
-/
import Verif.Gf.Model
import Verif.Ft.MulLemmas
import Mathlib.Algebra.BigOperators.Fin
import Mathlib.Tactic.Ring
import Mathlib.Tactic.Linarith
import Mathlib.Tactic.IntervalCases
import Mathlib.Tactic.NormNum
import Mathlib.Algebra.Order.Ring.Rat

namespace C3.Gf
open Finset
variable {K V X : Type} [Field K]

/-! ## Specification -/

/-- The function a generic function stands for: the object, read as what it is. -/
def val (sem : Fc → V → X → K) (g : GF V) (x : X) : K :=
  match g.f with
  | none => 0
  | some o => sem o.cls o.val x

/-- The tag is one of the classes `S`, the pointer points to an object of that class, and the object is valid. -/
def Good (Vd : Fc → V → Prop) (S : Fc → Prop) (g : GF V) : Prop := S g.fc ∧ ∃ v, g.f = some ⟨g.fc, v⟩ ∧ Vd g.fc v

/-- What the implementations of the classes `S` promise for scaling, adding and evaluating. -/
structure LinLaws (I : Impl K V X) (sem : Fc → V → X → K) (D : X → Prop) (Vd : Fc → V → Prop) (S : Fc → Prop) : Prop where
  eval : ∀ c v x, S c → Vd c v → D x → I.eval c v x = .ok (sem c v x)
  scale : ∀ c a v, S c → Vd c v → ∃ w, I.scale c a v = .ok w ∧ Vd c w ∧ ∀ x, D x → sem c w x = a * sem c v x
  axpy : ∀ c a v w, S c → Vd c v → Vd c w →
    ∃ u, I.axpy c a v w = .ok (0, u) ∧ Vd c u ∧ ∀ x, D x → sem c u x = a * sem c v x + sem c w x
  polyDaxpby : ∀ a v b w, S .poly → Vd .poly v → Vd .poly w →
    ∃ u, I.polyDaxpby a v b w = .ok u ∧ Vd .poly u ∧ ∀ x, D x → sem .poly u x = a * sem .poly v x + b * sem .poly w x
  pwDaxpby : ∀ a v b w, S .pw → Vd .pw v → Vd .pw w →
    ∃ u, I.pwDaxpby a v b w = .ok u ∧ Vd .pw u ∧ ∀ x, D x → sem .pw u x = a * sem .pw v x + b * sem .pw w x
  leaf : ∀ v, S .pw → S .poly → Vd .poly v → Vd .pw (I.leaf v) ∧ ∀ x, D x → sem .pw (I.leaf v) x = sem .poly v x

/-- What they promise for products. -/
def ProdLaws (I : Impl K V X) (sem : Fc → V → X → K) (D : X → Prop) (Vd : Fc → V → Prop) (S : Fc → Prop) : Prop :=
  ∀ c v w, S c → Vd c v → Vd c w → ∃ u, I.prod c v w = .ok u ∧ Vd c u ∧ ∀ x, D x → sem c u x = sem c v x * sem c w x

/-- What they promise for inner products; `ip` is the inner product of functions, it looks at the domain only. -/
structure InnerLaws (I : Impl K V X) (sem : Fc → V → X → K) (D : X → Prop) (Vd : Fc → V → Prop) (S : Fc → Prop)
    (ip : (X → K) → (X → K) → K) : Prop where
  inner : ∀ c v w, S c → Vd c v → Vd c w → I.inner c v w = .ok (ip (sem c v) (sem c w))
  congr : ∀ f f' g g', (∀ x, D x → f x = f' x) → (∀ x, D x → g x = g' x) → ip f g = ip f' g'

/-- Two different classes of `S` are always the two polynomial ones. -/
def Mixable (S : Fc → Prop) : Prop :=
  ∀ c d, S c → S d → c ≠ d → (c = .pw ∧ d = .poly) ∨ (c = .poly ∧ d = .pw)

/-! ## Proofs -/

variable {I : Impl K V X} {sem : Fc → V → X → K} {D : X → Prop} {Vd : Fc → V → Prop} {S : Fc → Prop}

omit [Field K] in
theorem asCls_ok (c : Fc) (v : V) : asCls c (some ⟨c, v⟩) = .ok v := by simp [asCls]

/-- **C141** Evaluation of a function whose tag is right. -/
theorem eval_ok (hL : LinLaws I sem D Vd S) {g : GF V} (hg : Good Vd S g) {x : X} (hx : D x) : eval I g x = .ok (val sem g x) := by
  obtain ⟨hs, v, e, hv⟩ := hg
  rw [eval, val, e, asCls_ok, bind_ok, hL.eval _ _ _ hs hv hx]

theorem scale_ok (hL : LinLaws I sem D Vd S) {g : GF V} (hg : Good Vd S g) (a : K) :
    ∃ h, scale I a g = .ok h ∧ Good Vd S h ∧ h.fc = g.fc ∧ ∀ x, D x → val sem h x = a * val sem g x := by
  obtain ⟨fc, f⟩ := g
  obtain ⟨hs, v, e, hv⟩ := hg
  dsimp only at hs e hv
  subst e
  obtain ⟨w, h1, h2, h3⟩ := hL.scale fc a v hs hv
  refine ⟨⟨fc, some ⟨fc, w⟩⟩, ?_, ⟨hs, w, rfl, h2⟩, rfl, h3⟩
  simp only [scale]
  rw [asCls_ok, bind_ok, h1, bind_ok]

omit [Field K] in
theorem copy_ok {g : GF V} (hg : Good Vd S g) : copy g = .ok g := by
  obtain ⟨fc, f⟩ := g
  obtain ⟨_, v, e, _⟩ := hg
  dsimp only at e
  subst e
  simp only [copy]
  rw [asCls_ok, bind_ok]

theorem toPw_ok (hL : LinLaws I sem D Vd S) {g : GF V} (hg : Good Vd S g) (hw : S .pw) (h : g.fc = .pw ∨ g.fc = .poly) :
    ∃ v, toPw I g = .ok v ∧ Vd .pw v ∧ ∀ x, D x → sem .pw v x = val sem g x := by
  obtain ⟨fc, f⟩ := g
  obtain ⟨hs, v, e, hv⟩ := hg
  dsimp only at hs e hv h
  subst e
  rcases h with h | h <;> subst h
  · exact ⟨v, by simp [toPw, asCls], hv, fun x _ => rfl⟩
  · obtain ⟨h1, h2⟩ := hL.leaf v hw hs hv
    exact ⟨I.leaf v, by simp [toPw, asCls, bind_ok], h1, h2⟩

/-- **C141** `a x + b y` for two functions whose classes can be added: the values, and the class of the result (the common class, or
piecewise polynomial). -/
theorem daxpby_ok (hL : LinLaws I sem D Vd S) (hM : Mixable S) {x y : GF V} (hx : Good Vd S x) (hy : Good Vd S y) (a b : K) :
    ∃ h, daxpby I a (some x) b (some y) = .ok h ∧ Good Vd S h ∧ h.fc = (if x.fc = y.fc then x.fc else .pw) ∧
      ∀ t, D t → val sem h t = a * val sem x t + b * val sem y t := by
  by_cases hc : x.fc = y.fc
  · obtain ⟨o, h1, h2, h3, h4⟩ := scale_ok hL hx a
    obtain ⟨fo, po⟩ := o
    obtain ⟨fy, py⟩ := y
    obtain ⟨hso, v, e, hv⟩ := h2
    obtain ⟨hsy, w, e', hw⟩ := hy
    dsimp only at hso e hv hsy e' hw hc h3
    subst e e'
    have hfo : fo = fy := by rw [h3, hc]
    subst hfo
    obtain ⟨u, q1, q2, q3⟩ := hL.axpy fo b w v hso hw hv
    refine ⟨⟨fo, some ⟨fo, u⟩⟩, ?_, ⟨hso, u, rfl, q2⟩, ?_, fun t ht => ?_⟩
    · simp only [daxpby, daxpby2]
      rw [if_pos hc, copy_ok hx, bind_ok, h1, bind_ok]
      simp only [axpy]
      rw [cassert_of (by simp), bind_ok, asCls_ok, bind_ok, asCls_ok, bind_ok, q1, bind_ok, bind_ok]
    · rw [if_pos hc]; exact hc.symm
    · have := h4 t ht
      simp only [val] at this ⊢
      rw [q3 t ht, this]
      ring
  · have hm := hM _ _ hx.1 hy.1 hc
    have hw : S .pw := by
      rcases hm with ⟨h, _⟩ | ⟨_, h⟩
      · exact h ▸ hx.1
      · exact h ▸ hy.1
    obtain ⟨v, h1, h2, h3⟩ := toPw_ok hL hx hw (by tauto)
    obtain ⟨w, k1, k2, k3⟩ := toPw_ok hL hy hw (by tauto)
    obtain ⟨u, q1, q2, q3⟩ := hL.pwDaxpby a v b w hw h2 k2
    refine ⟨⟨.pw, some ⟨.pw, u⟩⟩, ?_, ⟨hw, u, rfl, q2⟩, by rw [if_neg hc], fun t ht => ?_⟩
    · simp only [daxpby, daxpby2]
      have n1 : ¬ (x.fc = .lin ∨ y.fc = .lin) := by rcases hm with ⟨e, e'⟩ | ⟨e, e'⟩ <;> simp [e, e']
      have n2 : ¬ (x.fc = .const ∨ y.fc = .const) := by rcases hm with ⟨e, e'⟩ | ⟨e, e'⟩ <;> simp [e, e']
      have n3 : ¬ (x.fc = .kern ∨ y.fc = .kern) := by rcases hm with ⟨e, e'⟩ | ⟨e, e'⟩ <;> simp [e, e']
      rw [if_neg hc, if_neg n1, if_neg n2, if_neg n3, h1, bind_ok, k1, bind_ok, q1, bind_ok]
    · show sem .pw u t = _
      rw [q3 t ht, h3 t ht, k3 t ht]

/-- **C141** With one function missing the other one is scaled by its own factor; with both missing the program stops. -/
theorem daxpby_null (hL : LinLaws I sem D Vd S) {x : GF V} (hx : Good Vd S x) (a b : K) :
    (∃ h, daxpby I a (some x) b none = .ok h ∧ Good Vd S h ∧ h.fc = x.fc ∧ ∀ t, D t → val sem h t = a * val sem x t) ∧
    (∃ h, daxpby I a none b (some x) = .ok h ∧ Good Vd S h ∧ h.fc = x.fc ∧ ∀ t, D t → val sem h t = b * val sem x t) ∧
    daxpby I a none b none = .error .assertFail := by
  refine ⟨?_, ?_, rfl⟩
  · obtain ⟨h, h1, h2⟩ := scale_ok hL hx a
    refine ⟨h, ?_, h2⟩
    simp only [daxpby]
    rw [copy_ok hx, bind_ok, h1]
  · obtain ⟨h, h1, h2⟩ := scale_ok hL hx b
    refine ⟨h, ?_, h2⟩
    simp only [daxpby]
    rw [copy_ok hx, bind_ok, h1]

omit [Field K] in
/-- **C141** Functions of different classes, one of them nodal or a kernel expansion, are refused by the sum. -/
theorem daxpby_refused {x y : GF V} (hc : x.fc ≠ y.fc)
    (h : (x.fc ≠ .pw ∧ x.fc ≠ .poly) ∨ (y.fc ≠ .pw ∧ y.fc ≠ .poly)) (a b : K) :
    daxpby I a (some x) b (some y) = .error .exit := by
  simp only [daxpby, daxpby2]
  rw [if_neg hc]
  rcases hx : x.fc <;> rcases hy : y.fc <;> simp_all

/-- **C141** Inner products: the inner product of the two functions, also for a polynomial and a piecewise polynomial. -/
theorem inner_ok (hL : LinLaws I sem D Vd S) (hM : Mixable S) {ip : (X → K) → (X → K) → K} (hI : InnerLaws I sem D Vd S ip)
    {x y : GF V} (hx : Good Vd S x) (hy : Good Vd S y) : inner I x y = .ok (ip (val sem x) (val sem y)) := by
  by_cases hc : x.fc ≠ y.fc ∨ x.fc = .pw
  · have hm : (x.fc = .pw ∨ x.fc = .poly) ∧ (y.fc = .pw ∨ y.fc = .poly) ∧ (x.fc = .pw ∨ y.fc = .pw) := by
      by_cases he : x.fc = y.fc
      · have h : x.fc = .pw := by tauto
        exact ⟨.inl h, .inl (he ▸ h), .inl h⟩
      · have := hM _ _ hx.1 hy.1 he
        tauto
    obtain ⟨m1, m2, m3⟩ := hm
    have hw : S .pw := by
      rcases m3 with h | h
      · exact h ▸ hx.1
      · exact h ▸ hy.1
    obtain ⟨v, h1, h2, h3⟩ := toPw_ok hL hx hw m1
    obtain ⟨w, k1, k2, k3⟩ := toPw_ok hL hy hw m2
    rw [inner, if_pos hc]
    have c1 : ∀ c : Fc, c = .pw ∨ c = .poly → c ≠ .lin ∧ c ≠ .const ∧ c ≠ .kern := by
      rintro c (rfl | rfl) <;> simp
    obtain ⟨a1, a2, a3⟩ := c1 _ m1
    obtain ⟨b1, b2, b3⟩ := c1 _ m2
    rw [cassert_of (decide_eq_true a1), bind_ok, cassert_of (decide_eq_true b1), bind_ok, cassert_of (decide_eq_true a2), bind_ok,
      cassert_of (decide_eq_true b2), bind_ok, cassert_of (decide_eq_true a3), bind_ok, cassert_of (decide_eq_true b3), bind_ok,
      h1, bind_ok, k1, bind_ok, hI.inner _ _ _ hw h2 k2]
    rw [hI.congr _ _ _ _ h3 k3]
  · obtain ⟨fx, px⟩ := x
    obtain ⟨fy, py⟩ := y
    obtain ⟨hs, v, e, hv⟩ := hx
    obtain ⟨hs', w, e', hw⟩ := hy
    dsimp only at hs e hv hs' e' hw hc
    subst e e'
    have hfy : fx = fy := by tauto
    subst hfy
    rw [inner, if_neg hc]
    dsimp only
    rw [asCls_ok, bind_ok, asCls_ok, bind_ok, hI.inner _ _ _ hs hv hw]
    rfl

omit [Field K] in
/-- **C141** Inner products of functions of different classes, one of them nodal or a kernel expansion, stop the program. -/
theorem inner_refused {x y : GF V} (hc : x.fc ≠ y.fc)
    (h : (x.fc ≠ .pw ∧ x.fc ≠ .poly) ∨ (y.fc ≠ .pw ∧ y.fc ≠ .poly)) : inner I x y = .error .assertFail := by
  rw [inner, if_pos (.inl hc)]
  rcases hx : x.fc <;> rcases hy : y.fc <;> simp_all [cassert, bind, Except.bind]

/-- **C141** (partial) Products: right for two functions of the same class, and for a piecewise polynomial times a polynomial. Missing:
the other order (`prod_poly_pw_counterexample`). -/
theorem prod_ok_partial (hL : LinLaws I sem D Vd S) (hP : ProdLaws I sem D Vd S) {x y : GF V} (hx : Good Vd S x) (hy : Good Vd S y)
    (hc : x.fc = y.fc ∨ (x.fc = .pw ∧ y.fc = .poly)) :
    ∃ h, prod I x y = .ok h ∧ Good Vd S h ∧ h.fc = x.fc ∧ ∀ t, D t → val sem h t = val sem x t * val sem y t := by
  by_cases hp : x.fc = .pw
  · have hw : S .pw := hp ▸ hx.1
    obtain ⟨v, h1, h2, h3⟩ := toPw_ok hL hx hw (.inl hp)
    obtain ⟨w, k1, k2, k3⟩ := toPw_ok hL hy hw (by rcases hc with h | h; exact .inl (h ▸ hp); exact .inr h.2)
    obtain ⟨u, q1, q2, q3⟩ := hP .pw v w hw h2 k2
    refine ⟨⟨x.fc, some ⟨.pw, u⟩⟩, ?_, ⟨hx.1, u, by rw [hp], by rw [hp]; exact q2⟩, rfl, fun t ht => ?_⟩
    · rw [prod, if_pos (.inr hp), h1, bind_ok, k1, bind_ok, q1, bind_ok]
    · show sem .pw u t = _
      rw [q3 t ht, h3 t ht, k3 t ht]
  · have hfy : x.fc = y.fc := by tauto
    obtain ⟨fx, px⟩ := x
    obtain ⟨fy, py⟩ := y
    obtain ⟨hs, v, e, hv⟩ := hx
    obtain ⟨hs', w, e', hw⟩ := hy
    dsimp only at hs e hv hs' e' hw hc hfy hp
    subst e e' hfy
    obtain ⟨u, q1, q2, q3⟩ := hP fx v w hs hv hw
    refine ⟨⟨fx, some ⟨fx, u⟩⟩, ?_, ⟨hs, u, rfl, q2⟩, rfl, q3⟩
    simp only [prod]
    rw [if_neg (by tauto), asCls_ok, bind_ok, asCls_ok, bind_ok, q1, bind_ok]

/-- **C141** A polynomial times a piecewise polynomial (`generic_function_prod`): the product is computed but carries the tag of the
first factor, POLYNOMIAL, while the object is a piecewise polynomial. Every evaluation of the result, every scaling and every sum with it
uses the tree as an expansion: undefined. -/
theorem prod_poly_pw_counterexample (hL : LinLaws I sem D Vd S) (hP : ProdLaws I sem D Vd S) {x y : GF V} (hx : Good Vd S x)
    (hy : Good Vd S y) (cx : x.fc = .poly) (cy : y.fc = .pw) :
    ∃ h, prod I x y = .ok h ∧ h.fc = .poly ∧ (∀ t, D t → val sem h t = val sem x t * val sem y t) ∧
      (∀ t, eval I h t = .error .ub) ∧ (∀ a, scale I a h = .error .ub) ∧
      ∀ a b z, ∃ e, daxpby I a (some h) b z = .error e := by
  have hw : S .pw := cy ▸ hy.1
  obtain ⟨v, h1, h2, h3⟩ := toPw_ok hL hx hw (.inr cx)
  obtain ⟨w, k1, k2, k3⟩ := toPw_ok hL hy hw (.inl cy)
  obtain ⟨u, q1, q2, q3⟩ := hP .pw v w hw h2 k2
  have hb : ∀ {α : Type} (k : V → C α), (asCls Fc.poly (some (⟨.pw, u⟩ : Obj V)) >>= k) = .error .ub := by
    intro α k
    simp [asCls, bind_error]
  refine ⟨⟨.poly, some ⟨.pw, u⟩⟩, ?_, rfl, fun t ht => ?_, fun t => ?_, fun a => ?_, fun a b z => ?_⟩
  · rw [prod, if_pos (.inl (by rw [cx, cy]; simp)), h1, bind_ok, k1, bind_ok, q1, bind_ok, cx]
  · show sem .pw u t = _
    rw [q3 t ht, h3 t ht, k3 t ht]
  · simp only [eval]
    exact hb _
  · simp only [scale]
    exact hb _
  · rcases z with _ | z
    · refine ⟨.ub, ?_⟩
      simp only [daxpby, copy]
      rw [hb, bind_error]
    · simp only [daxpby, daxpby2]
      by_cases hz : Fc.poly = z.fc
      · refine ⟨.ub, ?_⟩
        rw [if_pos hz]
        simp only [copy]
        rw [hb, bind_error]
      · rw [if_neg hz]
        have : toPw I (⟨.poly, some ⟨.pw, u⟩⟩ : GF V) = .error .ub := by
          rw [toPw, if_pos rfl]
          exact hb _
        rw [this, bind_error]
        split_ifs <;> exact ⟨_, rfl⟩

omit [Field K] in
/-- **C141** A nodal function or a kernel expansion times a function of another class (`generic_function_prod`): unlike the inner product
and the sum, the product does not refuse, it uses the object as a piecewise polynomial. -/
theorem prod_nodal_counterexample {x y : GF V} (hx : Good Vd S x) (hc : x.fc ≠ y.fc) (h1 : x.fc ≠ .pw) (h2 : x.fc ≠ .poly) :
    prod I x y = .error .ub := by
  obtain ⟨fx, px⟩ := x
  obtain ⟨_, v, e, _⟩ := hx
  dsimp only at e hc h1 h2
  subst e
  rw [prod, if_pos (.inl hc), toPw, if_neg h2]
  simp [asCls, h1, bind_error]

/-- **C141** The sum into an allocated function that holds nothing yet. -/
theorem weightedSumPa_ok (hL : LinLaws I sem D Vd S) (hM : Mixable S) {x y z : GF V} (hx : Good Vd S x) (hy : Good Vd S y)
    (hz : z.f = none) (a b : K) :
    ∃ h, weightedSumPa I a x b y z = .ok h ∧ Good Vd S h ∧ h.fc = (if x.fc = y.fc then x.fc else .pw) ∧
      ∀ t, D t → val sem h t = a * val sem x t + b * val sem y t := by
  by_cases hc : x.fc = y.fc
  · have nodal : ∀ c, x.fc = c → y.fc = c → ∃ h, weightedSumPa.sumNodal I a x b y z c = .ok h ∧ Good Vd S h ∧ h.fc = c ∧
        ∀ t, D t → val sem h t = a * val sem x t + b * val sem y t := by
      intro c e1 e2
      obtain ⟨fx, px⟩ := x
      obtain ⟨fy, py⟩ := y
      obtain ⟨hs, v, e, hv⟩ := hx
      obtain ⟨hs', w, e', hw⟩ := hy
      dsimp only at hs e hv hs' e' hw e1 e2
      subst e e' e1 e2
      obtain ⟨w', r1, r2, r3⟩ := hL.scale fy b w hs' hw
      obtain ⟨u, q1, q2, q3⟩ := hL.axpy fy a v w' hs' hv r2
      refine ⟨⟨fy, some ⟨fy, u⟩⟩, ?_, ⟨hs', u, rfl, q2⟩, rfl, fun t ht => ?_⟩
      · simp only [weightedSumPa.sumNodal]
        rw [hz, cassert_of (by simp), bind_ok, asCls_ok, bind_ok, r1, bind_ok, asCls_ok, bind_ok, q1, bind_ok]
      · show sem fy u t = _
        rw [q3 t ht, r3 t ht]
        rfl
    have hD := daxpby_ok hL hM hx hy a b
    rw [if_pos hc] at hD ⊢
    rw [weightedSumPa, if_neg (not_not.2 hc)]
    rcases hf : x.fc with _ | _ | _ | _ | _
    · rw [hf] at hD; exact hD
    · obtain ⟨fx, px⟩ := x
      obtain ⟨fy, py⟩ := y
      obtain ⟨hs, v, e, hv⟩ := hx
      obtain ⟨hs', w, e', hw⟩ := hy
      dsimp only at hs e hv hs' e' hw hc hf
      subst e e' hc hf
      obtain ⟨u, q1, q2, q3⟩ := hL.polyDaxpby a v b w hs hv hw
      refine ⟨⟨.poly, some ⟨.poly, u⟩⟩, ?_, ⟨hs, u, rfl, q2⟩, rfl, q3⟩
      dsimp only
      rw [hz, if_neg (by simp), asCls_ok, bind_ok, asCls_ok, bind_ok, q1, bind_ok]
    · exact nodal .const hf (hc ▸ hf)
    · exact nodal .lin hf (hc ▸ hf)
    · rw [hf] at hD; exact hD
  · obtain ⟨h, h1, h2, h3, h4⟩ := daxpby_ok hL hM hx hy a b
    refine ⟨h, ?_, h2, h3, h4⟩
    obtain ⟨_, v, e, _⟩ := h2
    rw [weightedSumPa, if_pos hc, h1, bind_ok, e, cassert_of (by simp), bind_ok]

omit [Field K] in
/-- **C141** The sum into a function that holds something: polynomials exit, nodal functions stop at an assertion. -/
theorem weightedSumPa_used {x y z : GF V} (hc : x.fc = y.fc) (hz : z.f.isSome = true) (a b : K) :
    (x.fc = .poly → weightedSumPa I a x b y z = .error .exit) ∧
    (x.fc = .lin ∨ x.fc = .const → weightedSumPa I a x b y z = .error .assertFail) := by
  obtain ⟨o, ho⟩ := Option.isSome_iff_exists.1 hz
  refine ⟨fun h => ?_, fun h => ?_⟩
  · rw [weightedSumPa, if_neg (not_not.2 hc), h]
    simp [hz]
  · rw [weightedSumPa, if_neg (not_not.2 hc)]
    rcases h with h | h <;> rw [h] <;> simp [weightedSumPa.sumNodal, ho, cassert, bind, Except.bind]

/-- **C141** Linear combinations of `n ≥ 1` functions whose classes can be added. -/
theorem linComb_ok (hL : LinLaws I sem D Vd S) (hM : Mixable S) {n : Nat} (hn : 0 < n) {fs : List (GF V)} {cs : List K}
    {f : Nat → GF V} {c : Nat → K} (hf : ∀ i < n, rd fs i = .ok (f i)) (hg : ∀ i < n, Good Vd S (f i))
    (hc : ∀ i < n, rd cs i = .ok (c i)) :
    ∃ h, linComb I n fs cs = .ok h ∧ Good Vd S h ∧ ∀ t, D t → val sem h t = ∑ i ∈ range n, c i * val sem (f i) t := by
  by_cases h1 : n = 1
  · subst h1
    obtain ⟨⟨h, a1, a2, _, a4⟩, _⟩ := daxpby_null hL (hg 0 hn) (c 0) 0
    refine ⟨h, ?_, a2, fun t ht => by rw [a4 t ht]; simp⟩
    rw [linComb, if_pos rfl, hc 0 hn, bind_ok, hf 0 hn, bind_ok, a1]
  · obtain ⟨t0, a1, a2, _, a4⟩ := daxpby_ok hL hM (hg 0 hn) (hg 1 (by omega)) (c 0) (c 1)
    obtain ⟨r, b1, b2⟩ := forR_spec (body := lcStep I fs cs)
      (I := fun k (s : Option (GF V) × Option (GF V)) => ∃ g, (s = (some g, none) ∧ k % 2 = 0 ∨ s = (none, some g) ∧ k % 2 = 1) ∧
        Good Vd S g ∧ ∀ t, D t → val sem g t = ∑ i ∈ range k, c i * val sem (f i) t)
      (a := 2) (b := n) (s := (some t0, none)) (by omega)
      ⟨t0, .inl ⟨rfl, rfl⟩, a2, fun t ht => by rw [a4 t ht]; simp [sum_range_succ]⟩
      (by
        rintro i h2 hi s ⟨g, hs, hgood, hv⟩
        obtain ⟨h, e1, e2, _, e4⟩ := daxpby_ok hL hM (hg i hi) hgood (c i) 1
        have hval : ∀ t, D t → val sem h t = ∑ i ∈ range (i + 1), c i * val sem (f i) t := by
          intro t ht
          rw [e4 t ht, hv t ht, sum_range_succ]
          ring
        rcases hs with ⟨hs, hk⟩ | ⟨hs, hk⟩ <;> subst hs
        · refine ⟨(none, some h), ?_, h, .inr ⟨rfl, by omega⟩, e2, hval⟩
          rw [lcStep, hc i hi, bind_ok, hf i hi, bind_ok, if_pos hk, e1, bind_ok]
        · refine ⟨(some h, none), ?_, h, .inl ⟨rfl, by omega⟩, e2, hval⟩
          rw [lcStep, hc i hi, bind_ok, hf i hi, bind_ok, if_neg (by omega), e1, bind_ok])
    obtain ⟨g, hs, hgood, hv⟩ := b2
    refine ⟨g, ?_, hgood, hv⟩
    rw [linComb, if_neg h1, hc 0 hn, bind_ok, hf 0 hn, bind_ok, hc 1 (by omega), bind_ok, hf 1 (by omega), bind_ok, a1, bind_ok, b1,
      bind_ok]
    rcases hs with ⟨hs, _⟩ | ⟨hs, _⟩ <;> rw [hs]

/-- **C141** `y[i] ← a x[i] + y[i]` for `n ≥ 1` functions: the code is 0 and every function is updated. -/
theorem arrayAxpy_ok (hL : LinLaws I sem D Vd S) {n : Nat} (hn : 0 < n) (a : K) {x y : List (GF V)} (hx : x.length = n)
    (hy : y.length = n) (hgx : ∀ f ∈ x, Good Vd S f) (hgy : ∀ f ∈ y, Good Vd S f)
    (hc : ∀ i (h : i < n), (x[i]'(by omega)).fc = (y[i]'(by omega)).fc) :
    ∃ z, arrayAxpy I n a x y = .ok (0, z) ∧ ∃ hz : z.length = n, ∀ i (h : i < n), Good Vd S (z[i]'(by omega)) ∧
      ∀ t, D t → val sem (z[i]'(by omega)) t = a * val sem (x[i]'(by omega)) t + val sem (y[i]'(by omega)) t := by
  obtain ⟨s, h1, hk, h0, hl, hd, hu⟩ := forN_spec
    (body := fun ii (s : Int × List (GF V) × Bool) =>
      (if s.2.2 then .ok s else do
        let f ← rd x ii
        let g ← rd s.2.1 ii
        let q ← axpy I a f g
        let y' ← wr s.2.1 ii q.2
        .ok (q.1, y', decide (q.1 = 1)) : C (Int × List (GF V) × Bool)))
    (I := fun k (s : Int × List (GF V) × Bool) => s.2.2 = false ∧ (0 < k → s.1 = 0) ∧ s.2.1.length = n ∧
      (∀ i f, i < k → s.2.1[i]? = some f → Good Vd S f ∧ ∀ (u v : GF V), x[i]? = some u → y[i]? = some v →
        ∀ t, D t → val sem f t = a * val sem u t + val sem v t) ∧
      ∀ i, k ≤ i → s.2.1[i]? = y[i]?)
    (s := (1, y, false)) (n := n) ⟨rfl, by simp, hy, by simp, by simp⟩
    (by
      rintro i hi ⟨c, ys, b⟩ ⟨e1, e2, e3, e4, e5⟩
      dsimp only at e1 e2 e3 e4 e5
      subst e1
      have hxi : i < x.length := by omega
      have hyi : i < y.length := by omega
      have hys : i < ys.length := by omega
      have ey : ys[i] = y[i] := by
        have := e5 i le_rfl
        rw [List.getElem?_eq_getElem hys, List.getElem?_eq_getElem hyi] at this
        exact Option.some.inj this
      obtain ⟨v, w, ⟨ex, hv, hsx⟩, ⟨ew, hw⟩⟩ : ∃ v w, (x[i].f = some ⟨x[i].fc, v⟩ ∧ Vd x[i].fc v ∧ S x[i].fc) ∧
          (y[i].f = some ⟨x[i].fc, w⟩ ∧ Vd x[i].fc w) := by
        obtain ⟨q1, v, q2, q3⟩ := hgx _ (List.getElem_mem hxi)
        obtain ⟨_, w, q5, q6⟩ := hgy _ (List.getElem_mem hyi)
        rw [← hc i hi] at q5 q6
        exact ⟨v, w, ⟨q2, q3, q1⟩, q5, q6⟩
      obtain ⟨u, q1, q2, q3⟩ := hL.axpy x[i].fc a v w hsx hv hw
      refine ⟨(0, ys.set i ⟨y[i].fc, some ⟨x[i].fc, u⟩⟩, false), ?_, rfl, fun _ => rfl, by simpa using e3, ?_, ?_⟩
      · dsimp only
        rw [if_neg (by simp), rd_ok hxi, bind_ok, rd_ok hys, bind_ok, ey]
        simp only [axpy]
        rw [cassert_of (decide_eq_true (hc i hi)), bind_ok, ex, asCls_ok, bind_ok, ew, asCls_ok, bind_ok, q1, bind_ok, bind_ok,
          wr_ok (a := ys) _ hys, bind_ok]
        rfl
      · intro j f hj hf
        dsimp only at hf
        by_cases hji : j = i
        · subst hji
          rw [List.getElem?_set_self hys] at hf
          have hf := Option.some.inj hf
          subst hf
          refine ⟨⟨by rw [← hc j hi]; exact hsx, u, by rw [← hc j hi], by rw [← hc j hi]; exact q2⟩, fun p q hp hq t ht => ?_⟩
          rw [List.getElem?_eq_getElem hxi] at hp
          rw [List.getElem?_eq_getElem hyi] at hq
          have hp := Option.some.inj hp
          have hq := Option.some.inj hq
          subst hp hq
          simp only [val]
          rw [ex, ew]
          exact q3 t ht
        · rw [List.getElem?_set_ne (Ne.symm hji)] at hf
          exact e4 j f (by omega) hf
      · intro j hj
        dsimp only
        rw [List.getElem?_set_ne (by omega)]
        exact e5 j (by omega))
  refine ⟨s.2.1, ?_, hl, fun i h => ?_⟩
  · rw [arrayAxpy, h1, bind_ok, h0 hn]
  · have hi : i < s.2.1.length := by omega
    obtain ⟨g1, g2⟩ := hd i _ h (List.getElem?_eq_getElem hi)
    exact ⟨g1, g2 _ _ (List.getElem?_eq_getElem (by omega)) (List.getElem?_eq_getElem (by omega))⟩

omit [Field K] in
/-- **C141** For no functions at all the same call reports an error: the code 1 is the start value (`generic_function_array_axpy`). -/
theorem arrayAxpy_zero_actual (a : K) (x y : List (GF V)) : arrayAxpy I 0 a x y = .ok (1, y) := rfl

omit [Field K] in
/-- **C141** Where numbers and indices have the same size (64 bit machines) a pivot that holds an index is evaluated as if its bits were a
number: the nodal evaluation is never reached (`generic_function_1d_eval_gen`). -/
theorem evalGen_actual {Wd : Type} (s : Nat) (asDouble : Wd → X) (asSize : Wd → Nat) (g : GF V) (loc : Wd) (size : Nat) :
    evalGen I s s asDouble asSize g loc size = if size = s then eval I g (asDouble loc) else .error .exit := by
  rw [evalGen]
  split_ifs <;> rfl

/-- The family of the generic functions of the classes `S`. -/
def fam (D : X → Prop) (Vd : Fc → V → Prop) (S : Fc → Prop) : Ft.Fam (GF V) X := ⟨fun _ => Good Vd S, fun _ => D⟩

/-- Evaluation of generic functions for matrices and trains of functions. -/
def ev (sem : Fc → V → X → K) : Ft.Ev K (GF V) X := ⟨val sem, fun g => decide (g.fc = .poly)⟩

/-- **C141** Generic functions whose classes can be added are a family as the theorems about matrices and trains of functions assume
(`C3.Ft.LinLaw`); the shortcut for polynomials (`orth_poly_expansion_lin_comb`) is assumed to be right. -/
theorem lops_linLaw (hL : LinLaws I sem D Vd S) (hM : Mixable S) {lcPoly : List K → List (GF V) → C (GF V)}
    {spPoly : List (GF V) → List (GF V) → C (GF V)}
    (hlc : ∀ cs fs, cs.length = fs.length → fs ≠ [] → (∀ f ∈ fs, Good Vd S f ∧ f.fc = .poly) →
      ∃ h, lcPoly cs fs = .ok h ∧ Good Vd S h ∧ ∀ x, D x → val sem h x = (List.zipWith (fun c f => c * val sem f x) cs fs).sum) :
    Ft.LinLaw (ev sem) (lops I lcPoly spPoly) (fam D Vd S) where
  scale := fun _ a f hf => by
    obtain ⟨⟨h, h1, h2, _, h4⟩, _⟩ := daxpby_null hL hf a 0
    exact ⟨h, h1, h2, h4⟩
  daxpby := fun _ a f b g hf hg => by
    obtain ⟨h, h1, h2, _, h4⟩ := daxpby_ok hL hM hf hg a b
    exact ⟨h, h1, h2, h4⟩
  lcPoly := fun _ cs fs h1 h2 h3 => hlc cs fs h1 h2 fun f hf => ⟨(h3 f hf).1, by simpa [lops] using (h3 f hf).2⟩

/-- **C141** Products of matrices of functions (`C3.Ft.SpLaw`): within one class. -/
theorem lops_spLaw_partial (hL : LinLaws I sem D Vd S) (hP : ProdLaws I sem D Vd S) (h1c : ∀ c d, S c → S d → c = d)
    {lcPoly : List K → List (GF V) → C (GF V)} {spPoly : List (GF V) → List (GF V) → C (GF V)}
    (hsp : ∀ fs gs, fs.length = gs.length → fs ≠ [] → (∀ f ∈ fs, Good Vd S f ∧ f.fc = .poly) →
      (∀ f ∈ gs, Good Vd S f ∧ f.fc = .poly) → ∃ h, spPoly fs gs = .ok h ∧ Good Vd S h ∧
        ∀ x, D x → val sem h x = (List.zipWith (fun f g => val sem f x * val sem g x) fs gs).sum) :
    Ft.SpLaw (ev sem) (lops I lcPoly spPoly) (fam D Vd S) where
  prod := fun _ f g hf hg => by
    obtain ⟨h, h1, h2, _, h4⟩ := prod_ok_partial hL hP hf hg (.inl (h1c _ _ hf.1 hg.1))
    exact ⟨h, h1, h2, h4⟩
  spPoly := fun _ fs gs h1 h2 h3 h4 => hsp fs gs h1 h2 (fun f hf => ⟨(h3 f hf).1, by simpa [lops] using (h3 f hf).2⟩)
    fun f hf => ⟨(h4 f hf).1, by simpa [lops] using (h4 f hf).2⟩

/-- **C141** `Σ_i a_i b_i` (an entry of a product of matrices of functions, `generic_function_sum_prod`) with at least two terms never
returns a function if `a_0` is a polynomial and `b_0` a piecewise polynomial: the first product has the wrong tag. -/
theorem sumProd_mixed_counterexample (hL : LinLaws I sem D Vd S) (hP : ProdLaws I sem D Vd S)
    {lcPoly : List K → List (GF V) → C (GF V)} {spPoly : List (GF V) → List (GF V) → C (GF V)} {n : Nat} (hn : 2 ≤ n)
    {fs gs : List (GF V)} {f g : GF V} (hf : rd fs 0 = .ok f) (hg : rd gs 0 = .ok g) (gf : Good Vd S f) (gg : Good Vd S g)
    (cf : f.fc = .poly) (cg : g.fc = .pw) (r : GF V) : Ft.spChain (lops I lcPoly spPoly) n fs gs ≠ .ok r := by
  obtain ⟨p, h1, _, _, _, _, h6⟩ := prod_poly_pw_counterexample hL hP gf gg cf cg
  intro h
  rw [Ft.spChain, hf, bind_ok, hg, bind_ok, show (lops I lcPoly spPoly).prod f g = .ok p from h1, bind_ok] at h
  obtain ⟨m, rfl⟩ : ∃ m, n = m + 2 := ⟨n - 2, by omega⟩
  have hbad : ∀ m, ∃ e, forR 1 (m + 2) (fun i t => do
      let f ← rd fs i
      let g ← rd gs i
      let p ← (lops I lcPoly spPoly).prod f g
      (lops I lcPoly spPoly).daxpby 1 t 1 p) p = .error e := by
    intro m
    have hstep : ∀ k, ∃ e, forN (k + 1) (fun i t => do
        let f ← rd fs (1 + i)
        let g ← rd gs (1 + i)
        let p ← (lops I lcPoly spPoly).prod f g
        (lops I lcPoly spPoly).daxpby 1 t 1 p) p = .error e := by
      intro k
      induction k with
      | zero =>
        rw [forN_succ, forN_zero, ebind_ok]
        rcases h1 : rd fs (1 + 0) with e | u
        · exact ⟨e, rfl⟩
        rcases h2 : rd gs (1 + 0) with e | w
        · exact ⟨e, rfl⟩
        rcases h3 : (lops I lcPoly spPoly).prod u w with e | q
        · exact ⟨e, by rw [bind_ok, bind_ok, h3]; rfl⟩
        obtain ⟨e, he⟩ := h6 1 1 (some q)
        exact ⟨e, by rw [bind_ok, bind_ok, h3, bind_ok]; exact he⟩
      | succ k ih =>
        obtain ⟨e, he⟩ := ih
        exact ⟨e, by rw [forN_succ, he]; rfl⟩
    exact hstep m
  obtain ⟨e, he⟩ := hbad m
  rw [he] at h
  exact absurd h (by simp)

/-! ## Examples -/

/-- Functions on the rationals, the same operations for every class; the inner product is a sum over two points. -/
def exImpl : Impl ℚ (ℚ → ℚ) ℚ where
  scale _ a v := .ok fun x => a * v x
  axpy _ a v w := .ok (0, fun x => a * v x + w x)
  eval _ v x := .ok (v x)
  nodal _ v i := .ok (v i)
  inner _ v w := .ok (v 0 * w 0 + v 1 * w 1)
  prod _ v w := .ok fun x => v x * w x
  polyDaxpby a v b w := .ok fun x => a * v x + b * w x
  pwDaxpby a v b w := .ok fun x => a * v x + b * w x
  leaf v := v

/-- The two polynomial classes. -/
def exS (c : Fc) : Prop := c = .pw ∨ c = .poly

theorem exLin : LinLaws exImpl (fun _ v => v) (fun _ => True) (fun _ _ => True) exS where
  eval _ _ _ _ _ _ := rfl
  scale _ _ _ _ _ := ⟨_, rfl, trivial, fun _ _ => rfl⟩
  axpy _ _ _ _ _ _ _ := ⟨_, rfl, trivial, fun _ _ => rfl⟩
  polyDaxpby _ _ _ _ _ _ _ := ⟨_, rfl, trivial, fun _ _ => rfl⟩
  pwDaxpby _ _ _ _ _ _ _ := ⟨_, rfl, trivial, fun _ _ => rfl⟩
  leaf _ _ _ _ := ⟨trivial, fun _ _ => rfl⟩

theorem exProd : ProdLaws exImpl (fun _ v => v) (fun _ => True) (fun _ _ => True) exS :=
  fun _ _ _ _ _ _ => ⟨_, rfl, trivial, fun _ _ => rfl⟩

theorem exInner : InnerLaws exImpl (fun _ v => v) (fun _ => True) (fun _ _ => True) exS (fun f g => f 0 * g 0 + f 1 * g 1) where
  inner _ _ _ _ _ _ := rfl
  congr f f' g g' h h' := by rw [h _ trivial, h _ trivial, h' _ trivial, h' _ trivial]

theorem exMix : Mixable exS := by
  rintro c d (rfl | rfl) (rfl | rfl) h <;> simp_all

/-- `x ↦ x` as a polynomial and `x ↦ 2` as a piecewise polynomial. -/
def exP : GF (ℚ → ℚ) := ⟨.poly, some ⟨.poly, fun x => x⟩⟩
def exW : GF (ℚ → ℚ) := ⟨.pw, some ⟨.pw, fun _ => 2⟩⟩

theorem exPGood : Good (fun _ _ => True) exS exP := ⟨.inr rfl, _, rfl, trivial⟩
theorem exWGood : Good (fun _ _ => True) exS exW := ⟨.inl rfl, _, rfl, trivial⟩

example : ∃ h, daxpby exImpl 3 (some exP) 5 (some exW) = .ok h ∧ h.fc = .pw ∧ eval exImpl h 7 = .ok 31 := by
  obtain ⟨h, h1, h2, h3, h4⟩ := daxpby_ok exLin exMix exPGood exWGood 3 5
  refine ⟨h, h1, h3, ?_⟩
  rw [eval_ok exLin h2 trivial, h4 _ trivial]
  norm_num [val, exP, exW]

example : inner exImpl exP exW = .ok 2 := by
  rw [inner_ok exLin exMix exInner exPGood exWGood]
  norm_num [val, exP, exW]

example : ∃ h, prod exImpl exW exP = .ok h ∧ eval exImpl h 7 = .ok 14 := by
  obtain ⟨h, h1, h2, _, h4⟩ := prod_ok_partial exLin exProd exWGood exPGood (.inr ⟨rfl, rfl⟩)
  refine ⟨h, h1, ?_⟩
  rw [eval_ok exLin h2 trivial, h4 _ trivial]
  norm_num [val, exP, exW]

example : ∃ h, prod exImpl exP exW = .ok h ∧ eval exImpl h 7 = .error .ub := by
  obtain ⟨h, h1, _, _, h4, _⟩ := prod_poly_pw_counterexample exLin exProd exPGood exWGood rfl rfl
  exact ⟨h, h1, h4 7⟩

example : ∃ h, weightedSumPa exImpl 3 exP 5 exP ⟨.poly, none⟩ = .ok h ∧ h.fc = .poly := by
  obtain ⟨h, h1, _, h3, _⟩ := weightedSumPa_ok exLin exMix exPGood exPGood (z := ⟨.poly, none⟩) rfl 3 5
  exact ⟨h, h1, h3⟩

example : ∃ h, linComb exImpl 3 [exP, exW, exP] [1, 10, 100] = .ok h ∧ eval exImpl h 7 = .ok 727 := by
  obtain ⟨h, h1, h2, h3⟩ := linComb_ok exLin exMix (n := 3) (by norm_num) (fs := [exP, exW, exP]) (cs := [1, 10, 100])
    (f := fun i => if i = 1 then exW else exP) (c := fun i => 10 ^ i)
    (by intro i hi; interval_cases i <;> rfl)
    (by intro i hi; interval_cases i; exacts [exPGood, exWGood, exPGood])
    (by intro i hi; interval_cases i <;> norm_num [rd])
  refine ⟨h, h1, ?_⟩
  rw [eval_ok exLin h2 trivial, h3 _ trivial]
  norm_num [sum_range_succ, val, exP, exW]

example : ∃ z, arrayAxpy exImpl 2 3 [exP, exW] [exP, exW] = .ok (0, z) := by
  have hg : ∀ f ∈ [exP, exW], Good (fun _ _ => True) exS f := by
    intro f hf
    simp only [List.mem_cons, List.not_mem_nil, or_false] at hf
    rcases hf with rfl | rfl
    exacts [exPGood, exWGood]
  obtain ⟨z, h, _⟩ := arrayAxpy_ok exLin (n := 2) (by norm_num) 3 (x := [exP, exW]) (y := [exP, exW]) rfl rfl hg hg (fun _ _ => rfl)
  exact ⟨z, h⟩

example (r : GF (ℚ → ℚ)) : Ft.spChain (lops exImpl (fun _ _ => .error .exit) (fun _ _ => .error .exit)) 2 [exP, exP] [exW, exW] ≠ .ok r :=
  sumProd_mixed_counterexample exLin exProd le_rfl rfl rfl exPGood exWGood rfl rfl r

end C3.Gf
