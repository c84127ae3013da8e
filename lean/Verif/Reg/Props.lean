/- Regression: costs, gradients and the decision table (properties C44, C45). -/
import Verif.Reg.Model
import Verif.Poly.ArrProps
import Verif.Poly.ApproxLemmas
import Mathlib.Analysis.Calculus.Deriv.Add
import Mathlib.Analysis.Calculus.Deriv.Mul
import Mathlib.Analysis.Calculus.Deriv.Pow

set_option linter.unusedSectionVars false

namespace C3.Reg
open Finset
open C3.Poly (Decay getD_set' forN_window)

variable {F : Type}

/-- A parametric model with `n` parameters: `ok g p` says that `g` represents the function with parameters `p`, whose value at `x` in `dom`
is `m p x` with partial derivatives `d p k x`. -/
structure IsModel (ops : Ops F) (n : Nat) (dom : ℝ → Prop) (ok : F → (Nat → ℝ) → Prop) (m : (Nat → ℝ) → ℝ → ℝ) (d : (Nat → ℝ) → Nat → ℝ → ℝ) : Prop where
  update : ∀ {g p} {param : List ℝ}, ok g p → n ≤ param.length → ∃ g', ops.update g n param = .ok g' ∧ ok g' (fun k => param.getD k 0)
  eval : ∀ {g p x}, ok g p → dom x → ops.eval g x = .ok (m p x)
  pgrad : ∀ {g p x} {buf : List ℝ}, ok g p → dom x → n ≤ buf.length →
    ∃ b, ops.pgrad g x buf = .ok b ∧ b.length = buf.length ∧ ∀ k < n, b.getD k 0 = d p k x
  deriv : ∀ {p k x}, k < n → dom x → HasDerivAt (fun t => m (Function.update p k t) x) (d p k x) (p k)

/-- Half the sum of the squared residuals. -/
noncomputable def half (m : (Nat → ℝ) → ℝ → ℝ) (N : Nat) (xs ys : List ℝ) (p : Nat → ℝ) : ℝ :=
  1 / 2 * ∑ i ∈ range N, (ys.getD i 0 - m p (xs.getD i 0)) ^ 2

/-- Options ready for a call: buffers of the right size, a current function. -/
structure Ready (o : Opts F) (n : Nat) (dom : ℝ → Prop) (ok : F → (Nat → ℝ) → Prop) : Prop where
  np : o.nparam = n
  xl : o.N ≤ o.xs.length
  yl : o.N ≤ o.ys.length
  el : o.N ≤ o.eval.length
  rl : o.N ≤ o.resid.length
  gl : ∃ b, o.grad = some b ∧ n ≤ b.length
  gf : ∃ g p, o.gf = some g ∧ ok g p
  dom : ∀ i < o.N, dom (o.xs.getD i 0)

section
variable {ops : Ops F} {n : Nat} {dom : ℝ → Prop} {ok : F → (Nat → ℝ) → Prop} {m : (Nat → ℝ) → ℝ → ℝ} {d : (Nat → ℝ) → Nat → ℝ → ℝ}

theorem evalLoop_ok (hm : IsModel ops n dom ok m d) {g : F} {p : Nat → ℝ} (hg : ok g p) {N : Nat} {xs ev : List ℝ} (hx : N ≤ xs.length) (he : N ≤ ev.length)
    (hd : ∀ i < N, dom (xs.getD i 0)) :
    ∃ e, evalLoop ops g N xs ev = .ok e ∧ e.length = ev.length ∧ ∀ i < N, e.getD i 0 = m p (xs.getD i 0) := by
  obtain ⟨e, h1, h2, h3, -⟩ := forN_window (n := N) (off := 0) (a := ev) (fun i _ => m p (xs.getD i 0)) (by omega)
    (body := fun ii ev => do
      let x ← rd xs ii
      let v ← ops.eval g x
      wr ev ii v)
    (fun i hi b hb => by rw [rd_getD 0 (by omega), bind_ok, hm.eval hg (hd i hi), bind_ok, wr_ok _ (by omega), Nat.zero_add])
  exact ⟨e, h1, h2, fun i hi => by have := h3 i hi; rwa [Nat.zero_add] at this⟩

theorem residLoop_ok {N : Nat} {ys ev resid : List ℝ} (hy : N ≤ ys.length) (he : N ≤ ev.length) (hr : N ≤ resid.length) :
    ∃ r, residLoop N ys ev resid = .ok (∑ i ∈ range N, (ys.getD i 0 - ev.getD i 0) ^ 2, r) ∧ r.length = resid.length ∧
      ∀ i < N, r.getD i 0 = ys.getD i 0 - ev.getD i 0 := by
  obtain ⟨s, e, h1, h2, h3⟩ := forN_spec (n := N) (s := ((0 : ℝ), resid))
    (body := fun ii (s : ℝ × List ℝ) => do
      let y ← rd ys ii
      let e ← rd ev ii
      let r ← wr s.2 ii (y - e)
      let v ← rd r ii
      pure (s.1 + v * v, r))
    (I := fun i s => s.1 = ∑ j ∈ range i, (ys.getD j 0 - ev.getD j 0) ^ 2 ∧ s.2.length = resid.length ∧ ∀ j < i, s.2.getD j 0 = ys.getD j 0 - ev.getD j 0)
    ⟨rfl, rfl, fun j hj => absurd hj (by omega)⟩
    (fun i hi s hs => by
      obtain ⟨a, r⟩ := s
      obtain ⟨h1, h2, h3⟩ := hs
      dsimp only at h1 h2 h3 ⊢
      have hl : i < r.length := by omega
      refine ⟨(a + (ys.getD i 0 - ev.getD i 0) * (ys.getD i 0 - ev.getD i 0), r.set i (ys.getD i 0 - ev.getD i 0)), ?_, ?_, ?_, fun j hj => ?_⟩
      · rw [rd_getD 0 (by omega), bind_ok, rd_getD 0 (by omega), bind_ok, wr_ok _ hl, bind_ok, rd_getD 0 (by rw [List.length_set]; exact hl), bind_ok,
          getD_set' hl, if_pos rfl]; rfl
      · rw [sum_range_succ, ← h1, sq]
      · rw [List.length_set, h2]
      · rw [getD_set' hl]
        by_cases hji : j = i
        · rw [if_pos hji, hji]
        · rw [if_neg hji, h3 j (by omega)])
  refine ⟨s.2, ?_, h2, h3⟩
  rw [← h1]; exact e

theorem addPoint_ok {dim : Nat} (r : ℝ) {pg grad : List ℝ} (hp : dim ≤ pg.length) (hg : dim ≤ grad.length) :
    ∃ g, addPoint dim r pg grad = .ok g ∧ g.length = grad.length ∧ (∀ k < dim, g.getD k 0 = grad.getD k 0 - r * pg.getD k 0) ∧
      ∀ k, dim ≤ k → g[k]? = grad[k]? := by
  obtain ⟨g, e, l, h1, h2⟩ := forN_window (n := dim) (off := 0) (a := grad) (fun k w => w - r * pg.getD k 0) (by omega)
    (body := fun ii grad => do
      let g ← rd grad ii
      let p ← rd pg ii
      wr grad ii (g + r * (-1) * p))
    (fun i hi b hb => by
      rw [rd_getD 0 (by omega), bind_ok, rd_getD 0 (by omega), bind_ok, wr_ok _ (by omega), Nat.zero_add]
      congr 2; ring)
  exact ⟨g, e, l, fun k hk => by have := h1 k hk; rwa [Nat.zero_add] at this, fun k hk => h2 k (Or.inr (by omega))⟩

theorem gradLoop_ok (hm : IsModel ops n dom ok m d) {g : F} {p : Nat → ℝ} (hg : ok g p) {N : Nat} {xs resid buf grad : List ℝ} (hx : N ≤ xs.length)
    (hr : N ≤ resid.length) (hb : n ≤ buf.length) (hgl : n ≤ grad.length) (hd : ∀ i < N, dom (xs.getD i 0)) :
    ∃ b gr, gradLoop ops g n N xs resid buf grad = .ok (b, gr) ∧ b.length = buf.length ∧ gr.length = grad.length ∧
      (∀ k < n, gr.getD k 0 = - ∑ i ∈ range N, resid.getD i 0 * d p k (xs.getD i 0)) ∧ ∀ k, n ≤ k → gr[k]? = grad[k]? := by
  obtain ⟨z, ez, zl, z1, z2⟩ := forN_window (n := n) (off := 0) (a := grad) (fun _ _ => (0 : ℝ)) (by omega)
    (body := fun ii grad => wr grad ii 0) (fun i hi b hb => by rw [wr_ok _ (by omega), Nat.zero_add])
  obtain ⟨s, e, h1, h2, h3, h4⟩ := forN_spec (n := N) (s := (buf, z))
    (body := fun jj (s : List ℝ × List ℝ) => do
      let x ← rd xs jj
      let buf ← ops.pgrad g x s.1
      let r ← rd resid jj
      let grad ← addPoint n r buf s.2
      pure (buf, grad))
    (I := fun i s => s.1.length = buf.length ∧ s.2.length = grad.length ∧
      (∀ k < n, s.2.getD k 0 = - ∑ j ∈ range i, resid.getD j 0 * d p k (xs.getD j 0)) ∧ ∀ k, n ≤ k → s.2[k]? = grad[k]?)
    ⟨rfl, zl, fun k hk => by have := z1 k hk; rw [Nat.zero_add] at this; rw [this]; simp, fun k hk => z2 k (Or.inr (by omega))⟩
    (fun i hi s hs => by
      obtain ⟨b, gr⟩ := s
      obtain ⟨h1, h2, h3, h4⟩ := hs
      dsimp only at h1 h2 h3 h4 ⊢
      obtain ⟨b', eb, bl, bv⟩ := hm.pgrad (buf := b) hg (hd i hi) (by omega)
      obtain ⟨g', eg, gl, gv, go⟩ := addPoint_ok (dim := n) (resid.getD i 0) (pg := b') (grad := gr) (by omega) (by omega)
      refine ⟨(b', g'), by rw [rd_getD 0 (by omega), bind_ok, eb, bind_ok, rd_getD 0 (by omega), bind_ok, eg]; rfl, by dsimp only; omega, by dsimp only; omega, fun k hk => ?_, fun k hk => ?_⟩
      · rw [gv k hk, h3 k hk, bv k hk, sum_range_succ]; ring
      · rw [go k hk, h4 k hk])
  refine ⟨s.1, s.2, ?_, h1, h2, h3, h4⟩
  rw [gradLoop, ez, bind_ok]; exact e

/-- The derivative of half the sum of squares. -/
theorem half_deriv (hm : IsModel ops n dom ok m d) {N : Nat} {xs ys : List ℝ} (hd : ∀ i < N, dom (xs.getD i 0)) {p : Nat → ℝ} {k : Nat} (hk : k < n) :
    HasDerivAt (fun t => half m N xs ys (Function.update p k t)) (- ∑ i ∈ range N, (ys.getD i 0 - m p (xs.getD i 0)) * d p k (xs.getD i 0)) (p k) := by
  have h : ∀ i ∈ range N, HasDerivAt (fun t => (ys.getD i 0 - m (Function.update p k t) (xs.getD i 0)) ^ 2)
      (-2 * ((ys.getD i 0 - m p (xs.getD i 0)) * d p k (xs.getD i 0))) (p k) := by
    intro i hi
    have h1 := ((hm.deriv (p := p) hk (hd i (mem_range.1 hi))).const_sub (ys.getD i 0)).fun_pow 2
    rw [Function.update_eq_self] at h1
    refine h1.congr_deriv ?_
    push_cast; ring
  have h2 := (HasDerivAt.fun_sum h).const_mul (1 / 2 : ℝ)
  refine h2.congr_deriv ?_
  rw [← mul_sum]; ring

/-- What a successful cost call says: the value, and for every parameter the partial derivative of the cost function `J`. -/
structure CostOk (J : (Nat → ℝ) → ℝ) (n : Nat) (param : List ℝ) (grad : Option (List ℝ)) (v : ℝ) (gr : Option (List ℝ)) : Prop where
  value : v = J (fun k => param.getD k 0)
  nograd : grad = none → gr = none
  grad : ∀ g, grad = some g → ∃ g', gr = some g' ∧ g'.length = g.length ∧
    (∀ k < n, HasDerivAt (fun t => J (Function.update (fun k => param.getD k 0) k t)) (g'.getD k 0) (param.getD k 0)) ∧ ∀ k, n ≤ k → g'[k]? = g[k]?

/-- C44: least squares. For every model the cost is half the sum of the squared residuals at the given parameters, whatever function the
options held before, and the gradient is its derivative; what the gradient array held before does not matter. The options stay ready. -/
theorem lsCost_spec (hm : IsModel ops n dom ok m d) {o : Opts F} (ho : Ready o n dom ok) {param : List ℝ} (hp : n ≤ param.length) (grad : Option (List ℝ))
    (hg : ∀ g, grad = some g → n ≤ g.length) :
    ∃ v gr o', lsCost ops o n param grad = .ok (v, gr, o') ∧ CostOk (half m o.N o.xs o.ys) n param grad v gr ∧ Ready o' n dom ok ∧
      o'.lam = o.lam ∧ o'.decay = o.decay ∧ o'.decayPar = o.decayPar ∧ ∃ g', o'.gf = some g' ∧ ok g' (fun k => param.getD k 0) := by
  obtain ⟨g, p, eg, hgp⟩ := ho.gf
  obtain ⟨b, eb, hb⟩ := ho.gl
  obtain ⟨g', eu, hg'⟩ := hm.update hgp hp
  obtain ⟨ev, ee, evl, evv⟩ := evalLoop_ok hm hg' ho.xl ho.el ho.dom
  obtain ⟨r, er, rl, rv⟩ := residLoop_ok (ys := o.ys) (ev := ev) (resid := o.resid) ho.yl (by have := ho.el; omega) ho.rl
  have hval : (∑ i ∈ range o.N, (o.ys.getD i 0 - ev.getD i 0) ^ 2) * (1 / 2) = half m o.N o.xs o.ys (fun k => param.getD k 0) := by
    rw [half, mul_comm]
    congr 1
    exact sum_congr rfl fun i hi => by rw [evv i (mem_range.1 hi)]
  have start : ∀ grad, lsCost ops o n param grad = (match grad with
      | none => .ok ((∑ i ∈ range o.N, (o.ys.getD i 0 - ev.getD i 0) ^ 2) * (1 / 2), none, { o with gf := some g', eval := ev, resid := r })
      | some gr => do
        let t ← gradLoop ops g' n o.N o.xs r b gr
        pure ((∑ i ∈ range o.N, (o.ys.getD i 0 - ev.getD i 0) ^ 2) * (1 / 2), some t.2, { o with gf := some g', eval := ev, resid := r, grad := some t.1 })) := by
    intro grad
    rw [lsCost, cassert_of (by simpa using ho.np), bind_ok, eg, show cassert (some g).isSome = .ok () from rfl, bind_ok, show deref (some g) = .ok g from rfl, bind_ok, eu,
      bind_ok, ee, bind_ok, er, bind_ok, eb]
    cases grad <;> rfl
  rw [start]
  cases grad with
  | none =>
    refine ⟨_, _, _, rfl, ⟨hval, fun _ => rfl, fun g hg => by cases hg⟩,
      ⟨ho.np, ho.xl, ho.yl, by dsimp only; have := ho.el; omega, by dsimp only; have := ho.rl; omega, ho.gl, ⟨g', _, rfl, hg'⟩, ho.dom⟩, rfl, rfl, rfl, g', rfl, hg'⟩
  | some gr =>
    obtain ⟨b', gr', e, bl, gl, gv, go⟩ := gradLoop_ok hm hg' (xs := o.xs) (resid := r) (buf := b) (grad := gr) ho.xl (by have := ho.rl; omega) hb (hg gr rfl) ho.dom
    dsimp only
    rw [e, bind_ok]
    refine ⟨_, _, _, rfl, ⟨hval, fun h => (by cases h), fun g hg => ?_⟩,
      ⟨ho.np, ho.xl, ho.yl, by dsimp only; have := ho.el; omega, by dsimp only; have := ho.rl; omega, ⟨b', rfl, by omega⟩, ⟨g', _, rfl, hg'⟩, ho.dom⟩, rfl, rfl, rfl, g', rfl, hg'⟩
    cases hg
    refine ⟨gr', rfl, gl, fun k hk => ?_, go⟩
    refine (half_deriv hm (ys := o.ys) ho.dom hk).congr_deriv ?_
    rw [gv k hk]
    congr 1
    refine sum_congr rfl fun i hi => ?_
    rw [mem_range] at hi
    rw [rv i hi, evv i hi]

/-- A penalty `R` of the parameters whose gradient is added with a factor. -/
structure IsPenalty (val : F → C ℝ) (gradf : F → List ℝ → C (List ℝ)) (n : Nat) (ok : F → (Nat → ℝ) → Prop) (R : (Nat → ℝ) → ℝ) (s : ℝ) : Prop where
  val : ∀ {g p}, ok g p → val g = .ok (R p)
  grad : ∀ {g p} {gr : List ℝ}, ok g p → n ≤ gr.length → ∃ gr', gradf g gr = .ok gr' ∧ gr'.length = gr.length ∧
    (∀ k < n, HasDerivAt (fun t => s * R (Function.update p k t)) (gr'.getD k 0 - gr.getD k 0) (p k)) ∧ ∀ k, n ≤ k → gr'[k]? = gr[k]?

/-- A penalty whose gradient belongs to the factor in the cost keeps value and gradient consistent. -/
theorem penalty_ok {val : F → C ℝ} {gradf : F → List ℝ → C (List ℝ)} {R J : (Nat → ℝ) → ℝ} {s : ℝ} (hR : IsPenalty val gradf n ok R s) {param : List ℝ}
    {grad : Option (List ℝ)} (hg : ∀ g, grad = some g → n ≤ g.length) {v : ℝ} {gr : Option (List ℝ)} (h : CostOk J n param grad v gr) {g' : F}
    (hok : ok g' (fun k => param.getD k 0)) :
    val g' = .ok (R (fun k => param.getD k 0)) ∧ ∃ gr', addGrad (gradf g') gr = .ok gr' ∧
      CostOk (fun p => J p + s * R p) n param grad (v + s * R (fun k => param.getD k 0)) gr' := by
  refine ⟨hR.val hok, ?_⟩
  cases hc : grad with
  | none =>
    rw [h.nograd hc]
    exact ⟨none, rfl, by rw [h.value], fun _ => rfl, fun g hg => by cases hg⟩
  | some a =>
    obtain ⟨b, eb, bl, bd, bo⟩ := h.grad a hc
    obtain ⟨c, ec, cl, cd, co⟩ := hR.grad (gr := b) hok (by rw [bl]; exact hg a hc)
    rw [eb]
    refine ⟨some c, by rw [addGrad, ec]; rfl, by rw [h.value], fun h => (by cases h), fun g hg => ?_⟩
    cases hg
    refine ⟨c, rfl, by rw [cl, bl], fun k hk => ?_, fun k hk => by rw [co k hk, bo k hk]⟩
    refine ((bd k hk).add (cd k hk)).congr_deriv ?_
    ring

/-- C44: ridge regression for every function class whose gradient call is the derivative of its squared norm. -/
theorem rls2Cost_spec (hm : IsModel ops n dom ok m d) {R : (Nat → ℝ) → ℝ} {o : Opts F} (hR : IsPenalty (fun g => ops.inner g g) (fun g => ops.sqGrad g (1 / 2 * o.lam)) n ok R (1 / 2 * o.lam))
    (ho : Ready o n dom ok) {param : List ℝ} (hp : n ≤ param.length) (grad : Option (List ℝ)) (hg : ∀ g, grad = some g → n ≤ g.length) :
    ∃ v gr o', rls2Cost ops o n param grad = .ok (v, gr, o') ∧ CostOk (fun p => half m o.N o.xs o.ys p + 1 / 2 * o.lam * R p) n param grad v gr ∧ Ready o' n dom ok := by
  obtain ⟨v, gr, o', e, h, hr, -, -, -, g', eg, hg'⟩ := lsCost_spec hm ho hp grad hg
  obtain ⟨e1, gr', e2, h2⟩ := penalty_ok hR hg h hg'
  refine ⟨_, gr', o', ?_, h2, hr⟩
  rw [rls2Cost, e, bind_ok]
  dsimp only
  rw [eg, show deref (some g') = .ok g' from rfl, bind_ok, e1, bind_ok, e2]; rfl

/-- C44: the penalty with decaying weights is consistent only for function classes whose gradient call with factor λ is the derivative of λ/2 times the
penalty. -/
theorem rkhsCost_spec_partial (hm : IsModel ops n dom ok m d) {R : (Nat → ℝ) → ℝ} {o : Opts F}
    (hR : IsPenalty (fun g => ops.rkhs g o.decay o.decayPar) (fun g => ops.rkhsGrad g o.lam o.decay o.decayPar) n ok R (1 / 2 * o.lam))
    (ho : Ready o n dom ok) {param : List ℝ} (hp : n ≤ param.length) (grad : Option (List ℝ)) (hg : ∀ g, grad = some g → n ≤ g.length) :
    ∃ v gr o', rkhsCost ops o n param grad = .ok (v, gr, o') ∧ CostOk (fun p => half m o.N o.xs o.ys p + 1 / 2 * o.lam * R p) n param grad v gr ∧ Ready o' n dom ok := by
  obtain ⟨v, gr, o', e, h, hr, -, -, -, g', eg, hg'⟩ := lsCost_spec hm ho hp grad hg
  obtain ⟨e1, gr', e2, h2⟩ := penalty_ok hR hg h hg'
  refine ⟨_, gr', o', ?_, h2, hr⟩
  rw [rkhsCost, e, bind_ok]
  dsimp only
  rw [eg, show deref (some g') = .ok g' from rfl, bind_ok, e1, bind_ok, e2]; rfl

/-- C44: with a penalty on the second derivative, the value of the cost is right when no gradient is asked for. -/
theorem rlsd2Cost_value_partial (hm : IsModel ops n dom ok m d) {R : (Nat → ℝ) → ℝ} {o : Opts F}
    (hR : ∀ {g p}, ok g p → ∃ g1 g2, ops.deriv g = .ok g1 ∧ ops.deriv g1 = .ok g2 ∧ ops.inner g2 g2 = .ok (R p))
    (ho : Ready o n dom ok) {param : List ℝ} (hp : n ≤ param.length) :
    ∃ o', rlsd2Cost ops o n param none = .ok (half m o.N o.xs o.ys (fun k => param.getD k 0) + 1 / 2 * o.lam * R (fun k => param.getD k 0), none, o') ∧
      Ready o' n dom ok := by
  obtain ⟨v, gr, o', e, h, hr, -, -, -, g', eg, hg'⟩ := lsCost_spec hm ho hp none (fun _ h => by cases h)
  obtain ⟨g1, g2, e1, e2, e3⟩ := hR hg'
  refine ⟨o', ?_, hr⟩
  rw [rlsd2Cost, e, bind_ok]
  dsimp only
  rw [eg, show deref (some g') = .ok g' from rfl, bind_ok, e1, bind_ok, e2, bind_ok, e3, bind_ok, h.nograd rfl, h.value]; rfl

end

/-! ### The decision table -/

/-- The option combinations that are supported and complete. -/
def Accepted (o : Opts F) : Prop :=
  o.atype = .parametric ∧ (o.rtype = .ls ∨ (o.rtype = .rls2 ∨ o.rtype = .rlsd2) ∧ o.regSet = true ∨ o.rtype = .rlsrkhs ∧ o.regSet = true ∧ o.decay ≠ .none)

/-- The objective documented for each type. -/
noncomputable def costOf : RType → Cost F
  | .ls => lsCost
  | .rls2 => rls2Cost
  | .rlsd2 => rlsd2Cost
  | _ => rkhsCost

theorem objective_some {o : Opts F} (ha : o.atype = .parametric) : (∃ c, objective o = some c) ↔ Accepted o := by
  unfold objective Accepted
  cases hr : o.rtype <;> cases hs : o.regSet <;> by_cases hd : o.decay = .none <;> simp [ha, hd]

theorem objective_eq {o : Opts F} {c : Cost F} (h : objective o = some c) : c = costOf o.rtype := by
  unfold objective at h
  cases hr : o.rtype <;> rw [hr] at h <;> simp only [costOf] <;> (try split at h) <;> (try split at h) <;> simp_all

/-- C45: with the initial parameters set (or none needed) the call returns NULL exactly for the option combinations that are not supported or incomplete,
without touching the code; otherwise the optimizer runs on the documented objective, starting at the initial parameters, and the function returned is the
one with the parameters it leaves, whatever its code. -/
theorem regress1d_spec_partial (ops : Ops F) {o : Opts F} (minimize : Cost F → List ℝ → C (Int × List ℝ)) {p0 : List ℝ} (hi : o.init = some p0)
    (hl : p0.length = o.nparam) (hf : o.form = true) :
    (¬ Accepted o → regress1d ops o minimize = .ok (none, none)) ∧
    (Accepted o → regress1d ops o minimize = (do
      let r ← minimize (costOf o.rtype) p0
      let f ← ops.create o.nparam r.2
      pure (some f, some r.1))) := by
  have hs : forN o.nparam (fun ii s => do
      let v ← rd p0 ii
      wr s ii v) (List.replicate o.nparam 0) = .ok p0 := by
    obtain ⟨c, e, l, h1, h2⟩ := forN_window (n := o.nparam) (off := 0) (a := List.replicate o.nparam (0 : ℝ)) (fun i _ => p0.getD i 0) (by simp)
      (body := fun ii s => do
        let v ← rd p0 ii
        wr s ii v)
      (fun i hi b hb => by rw [List.length_replicate] at hb; rw [rd_getD 0 (by omega), bind_ok, wr_ok _ (by omega), Nat.zero_add])
    rw [e]
    congr 1
    rw [List.length_replicate] at l
    refine List.ext_getElem (by omega) fun i h3 h4 => ?_
    have := h1 i (by omega)
    simpa [List.getD_eq_getElem?_getD, h3, h4] using this
  constructor
  · intro ha
    unfold regress1d
    cases hat : o.atype with
    | parametric =>
      have : objective o = none := by
        rw [Option.eq_none_iff_forall_ne_some]
        exact fun c hc => ha ((objective_some hat).1 ⟨c, hc⟩)
      dsimp only
      rw [hi]
      dsimp only
      rw [hs, bind_ok, this]; rfl
    | nonparametric => rfl
    | other => rfl
  · intro ha
    obtain ⟨c, hc⟩ := (objective_some ha.1).2 ha
    unfold regress1d
    rw [ha.1]
    dsimp only
    rw [hi]
    dsimp only
    rw [hs, bind_ok, hc]
    dsimp only
    rw [objective_eq hc, hf]; rfl

/-- C45 fails for missing initial parameters: the code reads from a null pointer instead of returning NULL. -/
theorem regress1d_init_counterexample (ops : Ops F) (minimize : Cost F → List ℝ → C (Int × List ℝ)) (N : Nat) (xs ys : List ℝ) (np : Nat) (h : 0 < np) :
    regress1d ops (setForm (optsCreate .parametric .ls N xs ys) np) minimize = .error .null := by
  unfold regress1d setForm optsCreate
  dsimp only
  rw [if_neg (by omega), bind_error]

/-- C45: options built by the setters are ready for the costs, and acceptance depends on the calls made as documented. -/
theorem opts_accepted (ops : Ops F) (rtype : RType) (N : Nat) (xs ys : List ℝ) (np : Nat) (p0 : List ℝ) (lam : ℝ) {g : F} (hg : ops.create np p0 = .ok g) :
    ∃ o, setInit ops (setForm (optsCreate .parametric rtype N xs ys) np) p0 = .ok o ∧ o.init = some p0 ∧ o.nparam = np ∧ o.form = true ∧
      (Accepted o ↔ rtype = .ls) ∧ (Accepted (setPenalty o lam) ↔ rtype = .ls ∨ rtype = .rls2 ∨ rtype = .rlsd2) := by
  refine ⟨⟨.parametric, rtype, true, false, 0, .none, 1, N, xs, ys, np, some p0, some g, List.replicate N 0, some (List.replicate np 0), List.replicate N 0⟩,
    ?_, rfl, rfl, rfl, ?_, ?_⟩
  · rw [setInit, show (setForm (optsCreate .parametric rtype N xs ys) np : Opts F).form = true from rfl, if_pos rfl,
      show (setForm (optsCreate .parametric rtype N xs ys) np : Opts F).nparam = np from rfl, hg]; rfl
  · simp [Accepted]
  · cases rtype <;> simp [Accepted, setPenalty]

/-- C45: the decay setter accepts exactly the documented rates and enables the corresponding regression. -/
theorem setDecay_spec (tol : ℝ) (o : Opts F) (d : Decay) (r : ℝ) :
    (∃ o', setDecay tol o d r = .ok o') ↔ d = .alg ∧ tol ≤ r ∧ r ≤ 1 ∨ d = .exp ∧ 0 ≤ r := by
  cases d with
  | alg =>
    by_cases h : r < tol ∨ r > 1
    · simp only [setDecay, if_pos h]
      simp only [true_and, reduceCtorEq, false_and, or_false, exists_false, false_iff]
      rintro ⟨h1, h2⟩; rcases h with h | h <;> linarith
    · simp only [setDecay, if_neg h]
      rw [not_or] at h
      simp only [true_and, reduceCtorEq, false_and, or_false]
      exact ⟨fun _ => ⟨not_lt.1 h.1, not_lt.1 h.2⟩, fun _ => ⟨_, rfl⟩⟩
  | exp =>
    by_cases h : r < 0
    · simp [setDecay, if_pos h, h]
    · simp [setDecay, if_neg h, not_lt.1 h]
  | none => simp [setDecay]

end C3.Reg
