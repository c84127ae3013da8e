/- C109: Laplace and diffusion operators of function trains; operators applied to each core. -/
import Verif.Dif.Props
import Mathlib.Analysis.Calculus.Deriv.Polynomial

namespace C3.Dif
open C3.Ft Finset
variable {U : Type} {e : Ev ℝ U ℝ} {F : Fam U ℝ}

/-- Matrix of values of array `k` of a list. -/
noncomputable def lv (e : Ev ℝ U ℝ) (l : List (Qma U)) (k : Nat) (x : ℝ) (i j : Nat) : ℝ := ((l[k]?).map (fun Q => Q.val e x i j)).getD 0

theorem lv_eq {l : List (Qma U)} {k : Nat} {Q : Qma U} (h : l[k]? = some Q) : lv e l k = Q.val e := by
  funext x i j; rw [lv, h]; rfl

/-- The arrays have the sizes of the ranks `s` and functions of the family. -/
def Lst (F : Fam U ℝ) (s : Nat → Nat) (d : Nat) (l : List (Qma U)) : Prop :=
  ∀ k < d, ∃ Q, l[k]? = some Q ∧ QOk F k Q ∧ Q.nrows = s k ∧ Q.ncols = s (k + 1)

theorem Lst.of {ft : FT ℝ U} (h : ft.Ok F) : Lst F ft.rk ft.dim ft.cores := fun k hk => by
  obtain ⟨Q, -, h1, h2, h3, h4, h5, -⟩ := h.get hk
  exact ⟨Q, h1, ⟨h2, h5⟩, h3, h4⟩

theorem Lst.rep {s : Nat → Nat} {d : Nat} {l : List (Qma U)} (h : Lst F s d l) {k : Nat} (hk : k < d) :
    ∃ Q, rd l k = .ok Q ∧ Rep e F k (s k) (s (k + 1)) (lv e l k) Q := by
  obtain ⟨Q, h1, h2, h3, h4⟩ := h k hk
  exact ⟨Q, rd_of_getElem? h1, h3, h4, h2.wf, h2.mem, fun x _ i _ j _ => by rw [lv_eq h1]⟩

/-- A routine applied to each function of each array. -/
theorem mapL_ok {op : Nat → U → C U} {R : U → U → Prop} (hop : ∀ k f, F.P k f → ∃ g, op k f = .ok g ∧ F.P k g ∧ R f g) {s : Nat → Nat}
    {d : Nat} {l : List (Qma U)} (h : Lst F s d l) :
    ∃ l', collect d (fun ii => do
        let Q ← rd l ii
        mapQ (op ii) Q) = .ok l' ∧ l'.length = d ∧ Lst F s d l' ∧
      ∀ k < d, ∀ r < s k, ∀ c < s (k + 1), ∃ f g, R f g ∧ (∀ t, lv e l k t r c = e.ev f t) ∧ ∀ t, lv e l' k t r c = e.ev g t := by
  obtain ⟨l', h1, h2, h3⟩ := collect_rel (n := d) (g := fun ii => do
        let Q ← rd l ii
        mapQ (op ii) Q) (P := fun k Q' => QOk F k Q' ∧ Q'.nrows = s k ∧ Q'.ncols = s (k + 1) ∧
          ∀ r < s k, ∀ c < s (k + 1), ∃ f g, R f g ∧ (∀ t, lv e l k t r c = e.ev f t) ∧ ∀ t, Q'.val e t r c = e.ev g t) (by
    intro k hk
    obtain ⟨Q, q1, q2, q3, q4⟩ := h k hk
    obtain ⟨Q', p1, p2, p3, p4, p5⟩ := mapQ_ok (hop k) q2
    refine ⟨Q', by rw [rd_of_getElem? q1, bind_ok, p1], p2, by rw [p3, q3], by rw [p4, q4], fun r hr c hc => ?_⟩
    obtain ⟨f, g, g1, g2, g3⟩ := p5 r (by omega) c (by omega)
    exact ⟨f, g, g3, fun t => by rw [lv_eq q1]; exact entry_val g1, fun t => entry_val g2⟩)
  refine ⟨l', h1, h2, fun k hk => ?_, fun k hk r hr c hc => ?_⟩
  · obtain ⟨Q', q1, q2, q3, q4, -⟩ := h3 k hk
    exact ⟨Q', q1, q2, q3, q4⟩
  · obtain ⟨Q', q1, -, -, -, q5⟩ := h3 k hk
    obtain ⟨f, g, g1, g2, g3⟩ := q5 r hr c hc
    exact ⟨f, g, g1, g2, fun t => by rw [lv_eq q1]; exact g3 t⟩

/-- Second derivative of the value, from second derivatives of the entries of one core. -/
theorem fchain_second {ft : FT ℝ U} (h : ft.Ok F) {i : Nat} (hi : i < ft.dim) {x : List ℝ} (hx : ft.dim ≤ x.length)
    {B2 : ℝ → Nat → Nat → ℝ} (hB : ∀ r < ft.rk i, ∀ c < ft.rk (i + 1), ∃ b : ℝ → ℝ,
      (∀ t, HasDerivAt (fun t => valAt e ft i t r c) (b t) t) ∧ ∀ t, HasDerivAt b (B2 t r c) t) (t : ℝ) :
    Second (fun t => value e ft.cores (x.set i t))
      (fchain ft.rk (Function.update (valAt e ft) i B2) (Function.update (crd x) i t) ft.dim 0 0) t := by
  classical
  have hB' : ∀ r c, ∃ b : ℝ → ℝ, r < ft.rk i → c < ft.rk (i + 1) →
      (∀ t, HasDerivAt (fun t => valAt e ft i t r c) (b t) t) ∧ ∀ t, HasDerivAt b (B2 t r c) t := by
    intro r c
    by_cases hr : r < ft.rk i ∧ c < ft.rk (i + 1)
    · obtain ⟨b, hb⟩ := hB r hr.1 c hr.2
      exact ⟨b, fun _ _ => hb⟩
    · exact ⟨fun _ => 0, fun h1 h2 => absurd ⟨h1, h2⟩ hr⟩
  choose B hB' using hB'
  have hr0 : 0 < ft.rk 0 := by rw [h.wf.rk_zero]; omega
  refine ⟨fun t => fchain ft.rk (Function.update (valAt e ft) i (fun t r c => B r c t)) (Function.update (crd x) i t) ft.dim 0 0,
    fun s => ?_, ?_⟩
  · simp only [value_set' h hx hi]
    exact fchain_deriv (fun r hr c hc => (hB' r c hr hc).1 s) (by omega) (Nat.zero_le _) hr0
  · have := fchain_deriv (s := ft.rk) (M := Function.update (valAt e ft) i (fun t r c => B r c t)) (y := crd x) (i := i)
      (B := B2) (t0 := t) (fun r hr c hc => by rw [Function.update_self]; exact (hB' r c hr hc).2 t) (n := ft.dim) (k := 0)
      (r := 0) (by omega) (Nat.zero_le _) hr0
    rwa [Function.update_idem] at this

theorem lv_cores {ft : FT ℝ U} : lv e ft.cores = valAt e ft := rfl

theorem update_crd_self {x : List ℝ} {i : Nat} : Function.update (crd x) i (crd x i) = crd x := Function.update_eq_self _ _

/-- C109: the Laplace operator of a train of dimension at least two returns a train with doubled inner ranks whose value is the
sum of the second partial derivatives. -/
theorem laplace_value_partial {dd : Nat → U → C U} {zero : Nat → C U} (hdd : Der2Law e F dd) (hz : ZLaw e F zero) {f : FT ℝ U}
    (h : f.Ok F) (h2 : 2 ≤ f.dim) :
    ∃ g, laplace dd zero f = .ok g ∧ g.Ok F ∧ g.dim = f.dim ∧ g.rk 0 = 1 ∧ g.rk f.dim = 1 ∧
      (∀ k, 0 < k → k < f.dim → g.rk k = 2 * f.rk k) ∧
      ∀ x, InDom F f.dim x → ∃ v : Nat → ℝ, (∀ i < f.dim, Second (fun t => value e f.cores (x.set i t)) (v i) (x.getD i 0)) ∧
        value e g.cores x = ∑ i ∈ range f.dim, v i := by
  obtain ⟨l, l1, l2, l3, l4⟩ := mapL_ok (e := e) (R := fun f f' => ∃ f1 : ℝ → ℝ, (∀ x, HasDerivAt (e.ev f) (f1 x) x) ∧
    ∀ x, HasDerivAt f1 (e.ev f' x) x) hdd (Lst.of h)
  obtain ⟨g, g1, g2, g3, g4, g5⟩ := blockTrain_ok (e := e) (F := F) (rl := 1) h2 rfl h.wf.rk_zero h.wf.rk_last
    (fun k hk => h.pos k _ (h.wf.rk_get hk)) hz (A := fun ii => rd f.cores ii) (B := fun ii => rd l ii)
    (MA := valAt e f) (MB := lv e l) (fun k hk => (Lst.of h).rep hk) (fun k hk => l3.rep hk)
  refine ⟨g, ?_, g2, g3, by rw [g4 0 (by omega)]; rfl, by rw [g4 _ (le_refl _), bSz, if_pos (Or.inr rfl)], fun k h1 h2 => ?_, fun x hx => ?_⟩
  · rw [laplace, rd_of_getElem? (h.wf.rk_get (Nat.zero_le _)), bind_ok, rd_of_getElem? (h.wf.rk_get (le_refl _)), bind_ok, l1, bind_ok,
      h.wf.rk_zero, h.wf.rk_last, g1]
  · rw [g4 k (by omega), bSz, if_neg (by omega), two_mul]
  · refine ⟨fun i => fchain f.rk (Function.update (valAt e f) i (lv e l i)) (crd x) f.dim 0 0, fun i hi => ?_, g5 x hx⟩
    have := fchain_second (e := e) h hi hx.len (B2 := lv e l i) (fun r hr c hc => by
      obtain ⟨u, u', ⟨u1, p1, p2⟩, hu, hu'⟩ := l4 i hi r hr c hc
      refine ⟨u1, fun t => ?_, fun t => ?_⟩
      · rw [← lv_cores, show (fun t => lv e f.cores i t r c) = e.ev u from funext hu]; exact p1 t
      · rw [hu' t]; exact p2 t) (crd x i)
    rwa [update_crd_self] at this

theorem update_kron {s' : Nat → Nat} {M N : Nat → ℝ → Nat → Nat → ℝ} {i : Nat} {B C : ℝ → Nat → Nat → ℝ} :
    Function.update (fun j => Mk (s' j) (s' (j + 1)) (M j) (N j)) i (Mk (s' i) (s' (i + 1)) B C)
      = fun j => Mk (s' j) (s' (j + 1)) (Function.update M i B j) (Function.update N i C j) := by
  funext j
  by_cases hj : j = i
  · subst hj; simp only [Function.update_self]
  · simp only [Function.update_of_ne hj]

/-- Divergence of `a` times the gradient of `f`, from the derivatives of the entries of the cores. -/
theorem div_spec {a f : FT ℝ U} (ha : a.Ok F) (hf : f.Ok F) (hdim : f.dim = a.dim) {da df ddf : List (Qma U)}
    (a4 : ∀ k < a.dim, ∀ r < a.rk k, ∀ c < a.rk (k + 1), ∃ u u' : U, (∀ x, HasDerivAt (e.ev u) (e.ev u' x) x) ∧
      (∀ t, lv e a.cores k t r c = e.ev u t) ∧ ∀ t, lv e da k t r c = e.ev u' t)
    (f4 : ∀ k < a.dim, ∀ r < f.rk k, ∀ c < f.rk (k + 1), ∃ u u' : U, (∀ x, HasDerivAt (e.ev u) (e.ev u' x) x) ∧
      (∀ t, lv e f.cores k t r c = e.ev u t) ∧ ∀ t, lv e df k t r c = e.ev u' t)
    (k4 : ∀ k < a.dim, ∀ r < f.rk k, ∀ c < f.rk (k + 1), ∃ u u' : U, (∀ x, HasDerivAt (e.ev u) (e.ev u' x) x) ∧
      (∀ t, lv e df k t r c = e.ev u t) ∧ ∀ t, lv e ddf k t r c = e.ev u' t) {x : List ℝ} (hx : InDom F a.dim x) :
    ∃ v : Nat → ℝ, (∀ i < a.dim, ∃ G : ℝ → ℝ, (∀ t, HasDerivAt (fun t => value e f.cores (x.set i t)) (G t) t) ∧
        HasDerivAt (fun t => value e a.cores (x.set i t) * G t) (v i) (x.getD i 0)) ∧
      ∑ i ∈ range a.dim, fchain (fun k => a.rk k * f.rk k)
        (Function.update (fun k => Mk (f.rk k) (f.rk (k + 1)) (valAt e a k) (valAt e f k)) i
          (fun x r c => Mk (f.rk i) (f.rk (i + 1)) (valAt e a i) (lv e ddf i) x r c
            + Mk (f.rk i) (f.rk (i + 1)) (lv e da i) (lv e df i) x r c)) (crd x) a.dim 0 0 = ∑ i ∈ range a.dim, v i := by
  have sa0 := ha.wf.rk_zero
  have sad := ha.wf.rk_last
  have sf0 := hf.wf.rk_zero
  have sfd := hf.wf.rk_last
  rw [hdim] at sfd
  have hr0 : 0 < f.rk 0 := by omega
  have hra : 0 < a.rk 0 := by omega
  refine ⟨fun i => fchain a.rk (valAt e a) (crd x) a.dim 0 0 * fchain f.rk (Function.update (valAt e f) i (lv e ddf i)) (crd x) a.dim 0 0
    + fchain a.rk (Function.update (valAt e a) i (lv e da i)) (crd x) a.dim 0 0
      * fchain f.rk (Function.update (valAt e f) i (lv e df i)) (crd x) a.dim 0 0, fun i hi => ?_, ?_⟩
  · refine ⟨fun t => fchain f.rk (Function.update (valAt e f) i (lv e df i)) (Function.update (crd x) i t) a.dim 0 0, fun t => ?_, ?_⟩
    · simp only [value_set' hf (show f.dim ≤ x.length by rw [hdim]; exact hx.len) (show i < f.dim by omega), hdim]
      refine fchain_deriv (fun r hr c hc => ?_) (by omega) (Nat.zero_le _) hr0
      obtain ⟨u, u', p, hu, hu'⟩ := f4 i hi r hr c hc
      rw [hu' t, ← lv_cores, show (fun t => lv e f.cores i t r c) = e.ev u from funext hu]; exact p t
    · have e1 := fchain_deriv (s := a.rk) (M := valAt e a) (y := crd x) (i := i) (B := lv e da i) (t0 := crd x i) (fun r hr c hc => by
        obtain ⟨u, u', p, hu, hu'⟩ := a4 i hi r hr c hc
        rw [hu' _, ← lv_cores, show (fun t => lv e a.cores i t r c) = e.ev u from funext hu]; exact p _) (n := a.dim) (k := 0) (r := 0)
        (by omega) (Nat.zero_le _) hra
      have e2 := fchain_deriv (s := f.rk) (M := Function.update (valAt e f) i (lv e df i)) (y := crd x) (i := i) (B := lv e ddf i)
        (t0 := crd x i) (fun r hr c hc => by
        obtain ⟨u, u', p, hu, hu'⟩ := k4 i hi r hr c hc
        rw [Function.update_self, hu' _, show (fun t => lv e df i t r c) = e.ev u from funext hu]; exact p _) (n := a.dim) (k := 0) (r := 0)
        (by omega) (Nat.zero_le _) hr0
      rw [Function.update_idem] at e2
      have e3 := e1.mul e2
      rw [update_crd_self] at e3
      simp only [value_set' ha hx.len hi]
      refine e3.congr_deriv ?_
      ring
  · refine sum_congr rfl fun i hi => ?_
    have hi := mem_range.1 hi
    rw [fchain_add (by omega) (Nat.zero_le _) (by simp only [sa0, sf0]; omega), update_kron, update_kron,
      fchain_kron (by rw [Nat.zero_add]; exact sad) (by rw [Nat.zero_add]; exact sfd) (by rw [sa0, sf0]; omega),
      fchain_kron (by rw [Nat.zero_add]; exact sad) (by rw [Nat.zero_add]; exact sfd) (by rw [sa0, sf0]; omega),
      Function.update_eq_self]
    simp only [Nat.zero_div, Nat.zero_mod]

/-- C109: the diffusion operator of two trains `a`, `f` of the same dimension, at least two, returns a train whose value is the
divergence of `a` times the gradient of `f`; the inner ranks are twice the products of the ranks. -/
theorem diffusion_value_partial {o : DOps ℝ U} (hd : DerLaw e F fun _ => o.deriv) (hp : ProdLaw e o.toOps F) (hax : AxLaw e F o.axpy)
    (hz : ZLaw e F o.zero) {a f : FT ℝ U} (ha : a.Ok F) (hf : f.Ok F) (hdim : f.dim = a.dim) (h2 : 2 ≤ a.dim) :
    ∃ g, diffusion o a f = .ok g ∧ g.Ok F ∧ g.dim = a.dim ∧ g.rk 0 = 1 ∧ g.rk a.dim = 1 ∧
      (∀ k, 0 < k → k < a.dim → g.rk k = 2 * (a.rk k * f.rk k)) ∧
      ∀ x, InDom F a.dim x → ∃ v : Nat → ℝ, (∀ i < a.dim, ∃ G : ℝ → ℝ, (∀ t, HasDerivAt (fun t => value e f.cores (x.set i t)) (G t) t) ∧
          HasDerivAt (fun t => value e a.cores (x.set i t) * G t) (v i) (x.getD i 0)) ∧
        value e g.cores x = ∑ i ∈ range a.dim, v i := by
  have hLa := Lst.of ha
  have hLf := Lst.of hf
  rw [hdim] at hLf
  obtain ⟨da, a1, a2, a3, a4⟩ := mapL_ok (e := e) (R := fun f f' => ∀ x, HasDerivAt (e.ev f) (e.ev f' x) x) hd hLa
  obtain ⟨df, f1, f2, f3, f4⟩ := mapL_ok (e := e) (R := fun f f' => ∀ x, HasDerivAt (e.ev f) (e.ev f' x) x) hd hLf
  obtain ⟨ddf, k1, k2, k3, k4⟩ := mapL_ok (e := e) (R := fun f f' => ∀ x, HasDerivAt (e.ev f) (e.ev f' x) x) hd f3
  have sa0 := ha.wf.rk_zero
  have sad := ha.wf.rk_last
  have sf0 := hf.wf.rk_zero
  have sfd := hf.wf.rk_last
  rw [hdim] at sfd
  obtain ⟨g, g1, g2, g3, g4, g5⟩ := blockTrain_ok (e := e) (F := F) (d := a.dim) (r0 := 1) (rl := 1) h2 rfl
    (s := fun k => a.rk k * f.rk k) (by simp only [sa0, sf0]) (by simp only [sad, sfd])
    (fun k hk => Nat.mul_pos (ha.pos k _ (ha.wf.rk_get hk)) (hf.pos k _ (hf.wf.rk_get (by omega)))) hz
    (A := fun ii => do
      let x ← rd a.cores ii
      let y ← rd f.cores ii
      kron o.toOps x y)
    (B := fun ii => do
      let x ← rd a.cores ii
      let y ← rd ddf ii
      let l1 ← kron o.toOps x y
      let x ← rd da ii
      let y ← rd df ii
      let l2 ← kron o.toOps x y
      axpyQ o.axpy l1 l2)
    (MA := fun k => Mk (f.rk k) (f.rk (k + 1)) (valAt e a k) (valAt e f k))
    (MB := fun k x i j => Mk (f.rk k) (f.rk (k + 1)) (valAt e a k) (lv e ddf k) x i j
      + Mk (f.rk k) (f.rk (k + 1)) (lv e da k) (lv e df k) x i j)
    (fun k hk => by
      obtain ⟨x, x1, x2⟩ := hLa.rep (e := e) hk
      obtain ⟨y, y1, y2⟩ := hLf.rep (e := e) hk
      obtain ⟨Q, q1, q2⟩ := kron_rep hp x2 y2
      exact ⟨Q, by rw [x1, bind_ok, y1, bind_ok, q1], q2⟩)
    (fun k hk => by
      obtain ⟨x, x1, x2⟩ := hLa.rep (e := e) hk
      obtain ⟨y, y1, y2⟩ := k3.rep (e := e) hk
      obtain ⟨Q, q1, q2⟩ := kron_rep hp x2 y2
      obtain ⟨x', x1', x2'⟩ := a3.rep (e := e) hk
      obtain ⟨y', y1', y2'⟩ := f3.rep (e := e) hk
      obtain ⟨Q', q1', q2'⟩ := kron_rep hp x2' y2'
      obtain ⟨W, w1, w2⟩ := axpyQ_rep hax q2 q2'
      exact ⟨W, by rw [x1, bind_ok, y1, bind_ok, q1, bind_ok, x1', bind_ok, y1', bind_ok, q1', bind_ok, w1], w2⟩)
  refine ⟨g, ?_, g2, g3, by rw [g4 0 (by omega)]; rfl, by rw [g4 _ (le_refl _), bSz, if_pos (Or.inr rfl)], fun k h1 h2 => ?_, fun x hx => ?_⟩
  · rw [diffusion, a1, bind_ok, f1, bind_ok, k1, bind_ok, g1]
  · rw [g4 k (by omega), bSz, if_neg (by omega), two_mul]
  · rw [g5 x hx]
    exact div_spec ha hf hdim a4 f4 k4 hx

/-! ### What fails -/

/-- C109: `function_train_operate` applies the operator to each univariate function, but the first rank of the result is
zero, so evaluating the result fails its assertion for every train, operator and point. -/
theorem operate_actual {op : Nat → U → C U} {R : U → U → Prop} (hop : ∀ k f, F.P k f → ∃ g, op k f = .ok g ∧ F.P k g ∧ R f g)
    {ft : FT ℝ U} (h : ft.Ok F) :
    ∃ g, operate op ft = .ok g ∧ g.dim = ft.dim ∧ (∀ k, 0 < k → k ≤ ft.dim → g.rk k = ft.rk k) ∧ g.rk 0 = 0 ∧
      (∀ k < ft.dim, ∀ r < ft.rk k, ∀ c < ft.rk (k + 1), ∃ u u', R u u' ∧ (∀ t, valAt e ft k t r c = e.ev u t) ∧
        ∀ t, valAt e g k t r c = e.ev u' t) ∧ ∀ x, eval e g x = .error .assertFail := by
  obtain ⟨l, l1, l2, l3, l4⟩ := mapL_ok (e := e) hop (Lst.of h)
  have hd : 0 < ft.dim := by rw [h.wf.dim]; exact h.wf.len_pos
  obtain ⟨rk, r1, r2, r3, r4⟩ := forN_spec (n := ft.dim) (s := (List.replicate (ft.dim + 1) 0).set 1 (ft.rk 1))
    (body := fun ii rk => do
      let r ← rd ft.ranks (ii + 1)
      wr rk (ii + 1) r)
    (I := fun i rk => rk.length = ft.dim + 1 ∧ rk[0]? = some 0 ∧ ∀ k, 0 < k → k ≤ i → rk[k]? = some (ft.rk k))
    ⟨by simp, by rw [List.getElem?_set_ne (by omega)]; simp, fun k h1 h2 => by omega⟩
    (by
      rintro i hi rk ⟨u1, u2, u3⟩
      refine ⟨rk.set (i + 1) (ft.rk (i + 1)), by rw [rd_of_getElem? (h.wf.rk_get (by omega)), bind_ok, wr_ok _ (by omega)],
        by simp [u1], by rw [List.getElem?_set_ne (by omega)]; exact u2, fun k h1 h2 => ?_⟩
      by_cases hk : k = i + 1
      · subst hk; rw [List.getElem?_set_self (by omega)]
      · rw [List.getElem?_set_ne (Ne.symm hk)]; exact u3 k h1 (by omega))
  refine ⟨⟨ft.dim, rk, l, none, none, none⟩, ?_, rfl, fun k h1 h2 => ?_, ?_, l4, fun x => ?_⟩
  · rw [operate, rd_of_getElem? (h.wf.rk_get (by omega)), bind_ok, wr_ok _ (by simp; omega), bind_ok, l1, bind_ok, r1, bind_ok, pure_eq_ok]
  · rw [FT.rk, List.getD_eq_getElem?_getD]; dsimp only; rw [r4 k h1 h2]; rfl
  · rw [FT.rk, List.getD_eq_getElem?_getD]; dsimp only; rw [r3]; rfl
  · rw [eval]
    dsimp only
    rw [rd_of_getElem? r3, bind_ok]
    rfl

/-- C109: in dimension one the Laplace operator returns a core with two rows under ranks `1, 1`; its first row is the function
itself, and evaluating it writes past the end of the scratch space. -/
theorem laplace_one_actual {dd : Nat → U → C U} {zero : Nat → C U} (hdd : Der2Law e F dd) {f : FT ℝ U} (h : f.Ok F) (h1 : f.dim = 1) :
    ∃ g Q, laplace dd zero f = .ok g ∧ g.ranks = [1, 1] ∧ g.cores = [Q] ∧ Q.nrows = 2 ∧ Q.ncols = 1 ∧
      (∀ x, F.D 0 x → Q.val e x 0 0 = value e f.cores [x]) ∧ ∀ x : List ℝ, 0 < x.length → eval e g x = .error .oob := by
  obtain ⟨l, l1, l2, l3, l4⟩ := mapL_ok (e := e) (R := fun f f' => ∃ f1 : ℝ → ℝ, (∀ x, HasDerivAt (e.ev f) (f1 x) x) ∧
    ∀ x, HasDerivAt f1 (e.ev f' x) x) hdd (Lst.of h)
  have r0 := h.wf.rk_zero
  have rl := h.wf.rk_last
  rw [h1] at rl
  obtain ⟨A, a1, a2⟩ := (Lst.of h).rep (e := e) (k := 0) (by omega)
  obtain ⟨B, b1, b2⟩ := l3.rep (e := e) (k := 0) (by omega)
  rw [r0, Nat.zero_add, rl] at a2 b2
  obtain ⟨Q0, q1, q2⟩ := stackh_rep b2 a2
  obtain ⟨Q, p1, p2⟩ := stackv_rep a2 b2
  have hx0 : ∀ x, value e f.cores [x] = valAt e f 0 x 0 0 := fun x => by
    rw [value_all h (by simp [h1]), h1]
    simp [fchain, rl, crd]
  have hl : Q.funcs.length = 2 := by have := p2.wf; rw [Qma.WF, p2.nrows, p2.ncols] at this; exact this
  refine ⟨⟨1, [1, 1], [Q], none, none, none⟩, Q, ?_, rfl, rfl, p2.nrows, p2.ncols, fun x hx => ?_, fun x hx => ?_⟩
  · rw [laplace, rd_of_getElem? (h.wf.rk_get (Nat.zero_le _)), bind_ok, rd_of_getElem? (h.wf.rk_get (le_refl _)), bind_ok, l1, bind_ok,
      r0, h.wf.rk_last, h1, blockTrain, wr_ok _ (by simp), bind_ok, wr_ok _ (by simp), bind_ok, blockFirst, b1, bind_ok, a1, bind_ok, q1,
      bind_ok, wr_ok _ (by simp), bind_ok, wr_ok _ (by simp), bind_ok, pure_eq_ok, bind_ok]
    rw [show forR 1 (1 - 1) (blockStep (fun ii => rd f.cores ii) (fun ii => rd l ii) zero)
        ⟨(((List.replicate (1 + 1) 0).set 0 1).set 1 1).set 1 Q0.ncols, (List.replicate 1 none).set 0 (some Q0)⟩ = .ok
        ⟨(((List.replicate (1 + 1) 0).set 0 1).set 1 1).set 1 Q0.ncols, (List.replicate 1 none).set 0 (some Q0)⟩ from rfl, bind_ok,
      blockLast, show 1 - 1 = 0 from rfl, a1, bind_ok, b1, bind_ok, p1, bind_ok, wr_ok _ (by simp), bind_ok, wr_ok _ (by simp), bind_ok,
      pure_eq_ok, bind_ok, p2.ncols]
    rfl
  · rw [hx0, p2.val x hx 0 (by omega) 0 (by omega), Mv, if_pos (by omega)]; rfl
  · obtain ⟨x0, xs, rfl⟩ : ∃ x0 xs, x = x0 :: xs := by
      cases x with
      | nil => simp at hx
      | cons a b => exact ⟨a, b, rfl⟩
    obtain ⟨u, v, hu⟩ : ∃ u v, Q.funcs = [u, v] := by
      match hq : Q.funcs, hl with
      | [u, v], _ => exact ⟨u, v, rfl⟩
    rw [eval]
    dsimp only
    rw [rd_of_getElem? (by rfl : [1, 1][0]? = some 1), bind_ok, decide_eq_true rfl, rd_of_getElem? (by rfl : [1, 1][1]? = some 1),
      show preEval (⟨1, [1, 1], [Q], none, none, none⟩ : FT ℝ U) = .ok ⟨[0], [0], [0], 1⟩ from rfl,
      rd_of_getElem? (by rfl : [Q][0]? = some Q), rd_of_getElem? (by rfl : (x0 :: xs)[0]? = some x0)]
    change (evalArr e (Q.nrows * Q.ncols) Q.funcs x0 [0] >>= _) = _
    rw [p2.nrows, p2.ncols, hu]
    rfl

/-! ### Non-vacuity -/

open Polynomial in
/-- Real polynomials. -/
noncomputable def pEv : Ev ℝ (Polynomial ℝ) ℝ := ⟨fun f x => f.eval x, fun _ => false⟩
noncomputable def pOps : DOps ℝ (Polynomial ℝ) where
  scale a f := .ok (Polynomial.C a * f)
  prod f g := .ok (f * g)
  deriv f := .ok f.derivative
  axpy f g := .ok (f + g)
  zero _ := .ok 0
def pFam : Fam (Polynomial ℝ) ℝ := ⟨fun _ _ => True, fun _ _ => True⟩

theorem p_der : DerLaw pEv pFam fun _ => pOps.deriv := fun _ f _ => ⟨_, rfl, trivial, fun x => f.hasDerivAt x⟩
theorem p_der2 : Der2Law pEv pFam fun _ f => .ok f.derivative.derivative := fun _ f _ =>
  ⟨_, rfl, trivial, fun x => f.derivative.eval x, fun x => f.hasDerivAt x, fun x => f.derivative.hasDerivAt x⟩
theorem p_prod : ProdLaw pEv pOps.toOps pFam := fun _ _ _ _ _ => ⟨_, rfl, trivial, fun _ _ => Polynomial.eval_mul⟩
theorem p_ax : AxLaw pEv pFam pOps.axpy := fun _ _ _ _ _ => ⟨_, rfl, trivial, fun _ _ => Polynomial.eval_add⟩
theorem p_zero : ZLaw pEv pFam pOps.zero := fun _ => ⟨_, rfl, trivial, fun _ _ => Polynomial.eval_zero⟩

open Polynomial in
/-- `x² y + y³` with rank 2. -/
noncomputable def pFt : FT ℝ (Polynomial ℝ) :=
  ⟨2, [1, 2, 1], [⟨1, 2, [X ^ 2, 1]⟩, ⟨2, 1, [X, X ^ 3]⟩], none, none, none⟩

open Polynomial in
theorem pFt_ok : pFt.Ok pFam := by
  refine ⟨⟨rfl, List.cons_ne_nil _ _, rfl, ?_⟩, ?_, fun _ _ _ _ _ => trivial⟩
  · refine Fits.cons (⟨1, 2, [X ^ 2, 1]⟩ : Qma (Polynomial ℝ)) _ rfl ?_
    exact Fits.cons (⟨2, 1, [X, X ^ 3]⟩ : Qma (Polynomial ℝ)) _ rfl (.nil _)
  · intro k r h
    change [1, 2, 1][k]? = some r at h
    rcases k with _ | _ | _ | k <;> simp at h <;> omega

theorem pFt_value (a b : ℝ) : value pEv pFt.cores [a, b] = a ^ 2 * b + b ^ 3 := by
  simp [value, mats, chain, pFt, pEv, Qma.val, Finset.sum_range_succ]

theorem p_dom (a b : ℝ) : InDom pFam 2 [a, b] := ⟨Nat.le_refl _, fun _ _ _ _ => trivial⟩

theorem Second.unique {g : ℝ → ℝ} {v w t : ℝ} (h : Second g v t) (h' : Second g w t) : v = w := by
  obtain ⟨g1, h1, h2⟩ := h
  obtain ⟨g2, h3, h4⟩ := h'
  obtain rfl : g1 = g2 := funext fun s => (h1 s).unique (h3 s)
  exact h2.unique h4

open Polynomial in
/-- The Laplacian of `x² y + y³` is `8 y`. -/
example (a b : ℝ) : ∃ g, laplace (fun _ f => .ok f.derivative.derivative) pOps.zero pFt = .ok g ∧ g.rk 1 = 4 ∧
    value pEv g.cores [a, b] = 8 * b := by
  obtain ⟨g, h1, -, -, -, -, h2, h3⟩ := laplace_value_partial p_der2 p_zero pFt_ok (Nat.le_refl 2)
  refine ⟨g, h1, h2 1 (by decide) (by decide), ?_⟩
  obtain ⟨v, v1, v2⟩ := h3 _ (p_dom a b)
  have e0 := v1 0 (by decide)
  have e1 := v1 1 (by decide)
  simp only [List.set_cons_zero, List.set_cons_succ, pFt_value, List.getD_cons_zero, List.getD_cons_succ] at e0 e1
  have p0 : Second (fun t => t ^ 2 * b + b ^ 3) (2 * b) a :=
    ⟨fun t => 2 * t * b, fun s => by simpa using ((hasDerivAt_pow 2 s).mul_const b).add_const (b ^ 3),
      by simpa using ((hasDerivAt_id a).const_mul 2).mul_const b⟩
  have p1 : Second (fun t => a ^ 2 * t + t ^ 3) (6 * b) b :=
    ⟨fun t => a ^ 2 + 3 * t ^ 2, fun s => HasDerivAt.congr_deriv (((hasDerivAt_id s).const_mul (a ^ 2)).add (hasDerivAt_pow 3 s)) (by norm_num),
      (((hasDerivAt_pow 2 b).const_mul 3).const_add (a ^ 2)).congr_deriv (by norm_num; ring)⟩
  rw [v2, show pFt.dim = 2 from rfl, Finset.sum_range_succ, Finset.sum_range_one, e0.unique p0, e1.unique p1]
  ring

example : ∃ g, diffusion pOps pFt pFt = .ok g ∧ g.rk 1 = 8 := by
  obtain ⟨g, h1, -, -, -, -, h2, -⟩ := diffusion_value_partial p_der p_prod p_ax p_zero pFt_ok pFt_ok rfl (Nat.le_refl 2)
  exact ⟨g, h1, h2 1 (by decide) (by decide)⟩

example : ∃ l, hessian pOps.deriv pFt = .ok l ∧ l.length = 4 := by
  obtain ⟨l, h1, h2, -⟩ := hessian_hasDerivAt p_der pFt_ok
  exact ⟨l, h1, h2⟩

example : ∃ l, gradient (fun f => .ok f.derivative.derivative) pFt = .ok l ∧ l.length = 2 := by
  obtain ⟨l, h1, h2, -⟩ := hessDiag_second (op := fun f => .ok f.derivative.derivative) p_der2 pFt_ok
  exact ⟨l, h1, h2⟩

example (x : List ℝ) : ∃ g, operate (fun _ => pOps.deriv) pFt = .ok g ∧ eval pEv g x = .error .assertFail := by
  obtain ⟨g, h1, -, -, -, -, h2⟩ := operate_actual (e := pEv) (F := pFam) (R := fun _ _ => True) (op := fun _ => pOps.deriv)
    (fun _ _ _ => ⟨_, rfl, trivial, trivial⟩) pFt_ok
  exact ⟨g, h1, h2 x⟩

open Polynomial in
noncomputable def pOne : FT ℝ (Polynomial ℝ) := ⟨1, [1, 1], [⟨1, 1, [X ^ 2]⟩], none, none, none⟩

open Polynomial in
theorem pOne_ok : pOne.Ok pFam := by
  refine ⟨⟨rfl, List.cons_ne_nil _ _, rfl, ?_⟩, ?_, fun _ _ _ _ _ => trivial⟩
  · exact Fits.cons (⟨1, 1, [X ^ 2]⟩ : Qma (Polynomial ℝ)) _ rfl (.nil _)
  · intro k r h
    change [1, 1][k]? = some r at h
    rcases k with _ | _ | k <;> simp at h <;> omega

example : ∃ g, laplace (fun _ f => .ok f.derivative.derivative) pOps.zero pOne = .ok g ∧ eval pEv g [3] = .error .oob := by
  obtain ⟨g, Q, h1, -, -, -, -, -, h2⟩ := laplace_one_actual (zero := pOps.zero) p_der2 pOne_ok rfl
  exact ⟨g, h1, h2 _ (by simp)⟩

end C3.Dif
