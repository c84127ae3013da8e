/- C109: derivatives of function trains. -/
import Verif.Dif.Model
import Verif.Dif.Chain

namespace C3.Dif
open C3.Ft Finset
variable {U : Type} {e : Ev ℝ U ℝ} {F : Fam U ℝ}

/-- `op` returns the derivative of each function of the family, in the family. -/
def DerLaw (e : Ev ℝ U ℝ) (F : Fam U ℝ) (op : Nat → U → C U) : Prop :=
  ∀ k f, F.P k f → ∃ g, op k f = .ok g ∧ F.P k g ∧ ∀ x, HasDerivAt (e.ev f) (e.ev g x) x

/-- `v` is the second derivative of `g` at `t`. -/
def Second (g : ℝ → ℝ) (v t : ℝ) : Prop := ∃ g1 : ℝ → ℝ, (∀ s, HasDerivAt g (g1 s) s) ∧ HasDerivAt g1 v t

/-- `op` returns the second derivative of each function of the family, in the family. -/
def Der2Law (e : Ev ℝ U ℝ) (F : Fam U ℝ) (op : Nat → U → C U) : Prop :=
  ∀ k f, F.P k f → ∃ g, op k f = .ok g ∧ F.P k g ∧ ∃ f1 : ℝ → ℝ, (∀ x, HasDerivAt (e.ev f) (f1 x) x) ∧
    ∀ x, HasDerivAt f1 (e.ev g x) x

/-- `zero` returns a function that vanishes on the domain, in the family. -/
def ZLaw (e : Ev ℝ U ℝ) (F : Fam U ℝ) (zero : Nat → C U) : Prop :=
  ∀ k, ∃ g, zero k = .ok g ∧ F.P k g ∧ ∀ x, F.D k x → e.ev g x = 0

/-- `axpy f g` returns a function with values `f + g`, in the family. -/
def AxLaw (e : Ev ℝ U ℝ) (F : Fam U ℝ) (ax : U → U → C U) : Prop :=
  ∀ k f g, F.P k f → F.P k g → ∃ h, ax f g = .ok h ∧ F.P k h ∧ ∀ x, F.D k x → e.ev h x = e.ev f x + e.ev g x

theorem entry_val {Q : Qma U} {x : ℝ} {i j : Nat} {f : U} (h : Q.funcs[j * Q.nrows + i]? = some f) : Q.val e x i j = e.ev f x := by
  rw [Qma.val, h]; rfl

/-- Collecting values with a property. -/
theorem collect_rel {α : Type} {n : Nat} {g : Nat → C α} {P : Nat → α → Prop} (h : ∀ i < n, ∃ v, g i = .ok v ∧ P i v) :
    ∃ l, collect n g = .ok l ∧ l.length = n ∧ ∀ i < n, ∃ v, l[i]? = some v ∧ P i v := by
  obtain ⟨l, h1, h2, h3⟩ := forN_spec (body := fun i (l : List α) => g i >>= fun v => pure (l ++ [v])) (n := n) (s := [])
    (I := fun i l => l.length = i ∧ ∀ j < i, ∃ v, l[j]? = some v ∧ P j v) ⟨rfl, fun _ h => absurd h (Nat.not_lt_zero _)⟩
    (by
      rintro i hi l ⟨hl, hp⟩
      obtain ⟨v, hv, hP⟩ := h i hi
      refine ⟨l ++ [v], by rw [hv, bind_ok, pure_eq_ok], by simp [hl], fun j hj => ?_⟩
      by_cases hji : j < i
      · obtain ⟨w, hw, hPw⟩ := hp j hji
        exact ⟨w, by rw [List.getElem?_append_left (by omega)]; exact hw, hPw⟩
      · obtain rfl : j = i := by omega
        exact ⟨v, by rw [List.getElem?_append_right (by omega), hl]; simp, hP⟩)
  exact ⟨l, h1, h2, h3⟩

/-- Applying a routine to each function. -/
theorem mapQ_ok {op : U → C U} {k : Nat} {R : U → U → Prop} (hop : ∀ f, F.P k f → ∃ g, op f = .ok g ∧ F.P k g ∧ R f g) {Q : Qma U}
    (hQ : QOk F k Q) : ∃ Q', mapQ op Q = .ok Q' ∧ QOk F k Q' ∧ Q'.nrows = Q.nrows ∧ Q'.ncols = Q.ncols ∧
      ∀ i < Q.nrows, ∀ j < Q.ncols, ∃ f g, Q.funcs[j * Q.nrows + i]? = some f ∧ Q'.funcs[j * Q'.nrows + i]? = some g ∧ R f g := by
  have hl := hQ.wf
  rw [Qma.WF] at hl
  obtain ⟨l, h1, h2, h3⟩ := collect_rel (n := Q.nrows * Q.ncols) (g := fun ii => rd Q.funcs ii >>= fun f => op f)
    (P := fun i g => F.P k g ∧ ∃ f, Q.funcs[i]? = some f ∧ R f g) (by
      intro i hi
      have hi' : i < Q.funcs.length := by omega
      obtain ⟨g, g1, g2, g3⟩ := hop Q.funcs[i] (hQ.mem _ (List.getElem_mem _))
      exact ⟨g, by rw [rd_ok hi', bind_ok, g1], g2, _, List.getElem?_eq_getElem hi', g3⟩)
  refine ⟨⟨Q.nrows, Q.ncols, l⟩, by rw [mapQ, h1, bind_ok, pure_eq_ok], ⟨h2, fun f hf => ?_⟩, rfl, rfl, fun i hi j hj => ?_⟩
  · obtain ⟨p, hp, rfl⟩ := List.getElem_of_mem hf
    obtain ⟨v, hv, hP, -⟩ := h3 p (by rw [← h2]; exact hp)
    rw [List.getElem?_eq_getElem hp, Option.some.injEq] at hv
    rw [hv]; exact hP
  · obtain ⟨v, hv, -, f, hf, hR⟩ := h3 _ (cm_idx_lt hi hj)
    exact ⟨f, v, hf, hv, hR⟩

/-- A train with one core replaced by an array of the same size. -/
theorem derivCore_ok {op : U → C U} {ft : FT ℝ U} (h : ft.Ok F) {i : Nat} (hi : i < ft.dim) {R : U → U → Prop}
    (hop : ∀ f, F.P i f → ∃ g, op f = .ok g ∧ F.P i g ∧ R f g) :
    ∃ g, derivCore op ft i = .ok g ∧ g.Ok F ∧ g.dim = ft.dim ∧ g.ranks = ft.ranks ∧
      (∀ j, j ≠ i → valAt e g j = valAt e ft j) ∧
      ∀ r < ft.rk i, ∀ c < ft.rk (i + 1), ∃ f f', R f f' ∧ (∀ t, valAt e ft i t r c = e.ev f t) ∧
        ∀ t, valAt e g i t r c = e.ev f' t := by
  obtain ⟨Q, hQ, gQ, wQ, nQ, mQ, pQ, -⟩ := h.get hi
  obtain ⟨Q', q1, q2, q3, q4, q5⟩ := mapQ_ok hop ⟨wQ, pQ⟩
  have hlen : i < ft.cores.length := by rw [← h.wf.dim]; exact hi
  have hM : CoreRep e F ft.rk (fun j => if j = i then Q'.val e else valAt e ft j) (ft.cores.set i Q') := by
    intro k hk
    rw [List.length_set] at hk
    by_cases hki : k = i
    · subst hki
      refine ⟨Q', List.getElem?_set_self hlen, by rw [q3, nQ], by rw [q4, mQ], q2.wf, q2.mem, fun x _ a _ b _ => ?_⟩
      dsimp only; rw [if_pos rfl]
    · obtain ⟨Q0, h1, h2⟩ := h.core' (e := e) k hk
      refine ⟨Q0, by rw [List.getElem?_set_ne (Ne.symm hki)]; exact h1, h2.nrows, h2.ncols, h2.wf, h2.mem, fun x hx a ha b hb => ?_⟩
      dsimp only; rw [if_neg hki]; exact h2.val x hx a ha b hb
  refine ⟨⟨ft.dim, ft.ranks, ft.cores.set i Q', none, none, none⟩, ?_, ?_, rfl, rfl, ?_, ?_⟩
  · rw [derivCore, copy_ok h.wf, bind_ok, hQ, bind_ok, q1, bind_ok, wr_ok _ (show i < ft.cores.length from hlen), bind_ok, pure_eq_ok]
  · refine ok_mk (e := e) (by rw [List.length_set, h.wf.dim]) (by omega) h.wf.rk_zero h.wf.rk_last ?_ hM h.wf.ranks_len
      fun k hk => h.wf.rk_get hk
    intro k hk
    exact h.pos k _ (h.wf.rk_get hk)
  · intro j hj
    funext t r c
    simp only [valAt, List.getElem?_set_ne (Ne.symm hj)]
  · intro r hr c hc
    obtain ⟨f, g, g1, g2, g3⟩ := q5 r (by omega) c (by omega)
    refine ⟨f, g, g3, fun t => ?_, fun t => ?_⟩
    · rw [valAt_eq gQ]; exact entry_val g1
    · rw [valAt_eq (ft := ⟨ft.dim, ft.ranks, ft.cores.set i Q', none, none, none⟩) (List.getElem?_set_self hlen)]
      exact entry_val g2

/-- Value of a train whose factors are those of `ft` except one. -/
theorem value_upd {ft g : FT ℝ U} (h : ft.Ok F) (hg : g.Ok F) {i : Nat} (hgd : g.dim = ft.dim) (hgr : g.ranks = ft.ranks)
    (hv : ∀ j, j ≠ i → valAt e g j = valAt e ft j) {x : List ℝ} (hx : ft.dim ≤ x.length) :
    value e g.cores x = fchain ft.rk (Function.update (valAt e ft) i (valAt e g i)) (crd x) ft.dim 0 0 := by
  have hr : g.rk = ft.rk := by funext k; rw [FT.rk, FT.rk, hgr]
  rw [value_all hg (by omega), hgd, hr]
  congr 1
  funext j
  by_cases hj : j = i
  · subst hj; rw [Function.update_self]
  · rw [Function.update_of_ne hj, hv j hj]

theorem value_set' {ft : FT ℝ U} (h : ft.Ok F) {x : List ℝ} (hx : ft.dim ≤ x.length) {i : Nat} (hi : i < ft.dim) (t : ℝ) :
    value e ft.cores (x.set i t) = fchain ft.rk (valAt e ft) (Function.update (crd x) i t) ft.dim 0 0 := by
  rw [value_all h (by rw [List.length_set]; exact hx), crd_set (by omega)]

/-- C109: replacing one core by the derivatives of its functions gives the partial derivative of the function. -/
theorem derivCore_deriv {op : Nat → U → C U} (hop : DerLaw e F op) {ft : FT ℝ U} (h : ft.Ok F) {i : Nat} (hi : i < ft.dim) :
    ∃ g, derivCore (op i) ft i = .ok g ∧ g.Ok F ∧ g.dim = ft.dim ∧ g.ranks = ft.ranks ∧
      ∀ x : List ℝ, ft.dim ≤ x.length → ∀ t, HasDerivAt (fun t => value e ft.cores (x.set i t)) (value e g.cores (x.set i t)) t := by
  obtain ⟨g, h1, h2, h3, h4, h5, h6⟩ := derivCore_ok (e := e) (R := fun f f' => ∀ x, HasDerivAt (e.ev f) (e.ev f' x) x) h hi (hop i)
  refine ⟨g, h1, h2, h3, h4, fun x hx t => ?_⟩
  rw [value_upd h h2 h3 h4 h5 (by rw [List.length_set]; exact hx), crd_set (by omega)]
  simp only [value_set' h hx hi]
  refine fchain_deriv (fun r hr c hc => ?_) (by omega) (Nat.zero_le _) (by rw [h.wf.rk_zero]; omega)
  obtain ⟨f, f', hR, hf, hf'⟩ := h6 r hr c hc
  rw [hf' t, show (fun t => valAt e ft i t r c) = e.ev f from funext hf]
  exact hR t

/-- C109: entry `i` of the gradient is the partial derivative in coordinate `i`, as a function on the whole space. -/
theorem gradient_hasDerivAt {op : U → C U} (hop : DerLaw e F fun _ => op) {ft : FT ℝ U} (h : ft.Ok F) :
    ∃ l, gradient op ft = .ok l ∧ l.length = ft.dim ∧ ∀ i < ft.dim, ∃ g, l[i]? = some g ∧ g.Ok F ∧ g.dim = ft.dim ∧
      g.ranks = ft.ranks ∧
      ∀ x : List ℝ, ft.dim ≤ x.length → ∀ t, HasDerivAt (fun t => value e ft.cores (x.set i t)) (value e g.cores (x.set i t)) t := by
  obtain ⟨l, h1, h2, h3⟩ := collect_rel (n := ft.dim) (g := derivCore op ft) (fun i hi => derivCore_deriv hop h hi)
  exact ⟨l, h1, h2, h3⟩

/-- C109: entry `i·n + j` of the Jacobian of `n` trains is the partial derivative of train `j` in coordinate `i`. -/
theorem jacobian_hasDerivAt {op : U → C U} (hop : DerLaw e F fun _ => op) {d : Nat} {fta : List (FT ℝ U)} (hne : fta ≠ [])
    (h : ∀ f ∈ fta, f.Ok F ∧ f.dim = d) :
    ∃ l, jacobian op fta = .ok l ∧ l.length = fta.length * d ∧ ∀ i < d, ∀ j < fta.length, ∃ f g, fta[j]? = some f ∧
      l[i * fta.length + j]? = some g ∧ g.Ok F ∧ g.dim = d ∧ g.ranks = f.ranks ∧
      ∀ x : List ℝ, d ≤ x.length → ∀ t, HasDerivAt (fun t => value e f.cores (x.set i t)) (value e g.cores (x.set i t)) t := by
  have hpos : 0 < fta.length := List.length_pos_iff.2 hne
  have h0 := (h _ (List.getElem_mem hpos)).2
  have f1 : Fills (fun p (g : FT ℝ U) => ∃ f, fta[p % fta.length]? = some f ∧ g.Ok F ∧ g.dim = d ∧ g.ranks = f.ranks ∧
        ∀ x : List ℝ, d ≤ x.length → ∀ t, HasDerivAt (fun t => value e f.cores (x.set (p / fta.length) t))
          (value e g.cores (x.set (p / fta.length) t)) t) (fta.length * d)
      (forN d (fun ii => forN fta.length (fun jj l => do
        let f ← rd fta jj
        let g ← derivCore op f ii
        wr l (ii * fta.length + jj) (some g)))) (fun p => ∃ i < d, ∃ j < fta.length, p = i * fta.length + j) := by
    refine Fills.forN fun i hi => Fills.forN fun j hj => ?_
    obtain ⟨hf, hd⟩ := h _ (List.getElem_mem hj)
    obtain ⟨g, g1, g2, g3, g4, g5⟩ := derivCore_deriv hop hf (i := i) (by omega)
    refine Fills.bind (rd_ok hj) (Fills.bind g1 (Fills.wr (cm_idx_lt hj hi) ?_))
    rw [cm_mod hj, cm_div hj]
    exact ⟨_, List.getElem?_eq_getElem hj, g2, by omega, g4, fun x hx t => g5 x (by omega) t⟩
  obtain ⟨b, l, b1, b2, b3, b4⟩ := f1.finish (fun p hp => by
    obtain ⟨q1, q2, q3⟩ := divmod_of_lt hp
    exact ⟨p / fta.length, q2, p % fta.length, q1, q3.symm⟩)
  refine ⟨l, ?_, b3, fun i hi j hj => ?_⟩
  · rw [jacobian, rd_ok hpos, bind_ok, h0, b1, bind_ok, b2]
  · obtain ⟨g, g1, f, g2, g3⟩ := b4 _ (cm_idx_lt hj hi)
    rw [cm_mod hj, cm_div hj] at *
    exact ⟨f, g, g2, g1, g3⟩

/-- C109: entry `i·d + j` of the Hessian is the partial derivative in coordinate `i` of a function `G` which is the partial
derivative of the train in coordinate `j`. -/
theorem hessian_hasDerivAt {op : U → C U} (hop : DerLaw e F fun _ => op) {ft : FT ℝ U} (h : ft.Ok F) :
    ∃ l, hessian op ft = .ok l ∧ l.length = ft.dim * ft.dim ∧ ∀ i < ft.dim, ∀ j < ft.dim, ∃ g, l[i * ft.dim + j]? = some g ∧
      g.Ok F ∧ g.dim = ft.dim ∧ g.ranks = ft.ranks ∧ ∃ G : List ℝ → ℝ,
        ∀ x : List ℝ, ft.dim ≤ x.length → ∀ t, HasDerivAt (fun t => value e ft.cores (x.set j t)) (G (x.set j t)) t ∧
          HasDerivAt (fun t => G (x.set i t)) (value e g.cores (x.set i t)) t := by
  obtain ⟨gl, g1, g2, g3⟩ := gradient_hasDerivAt hop h
  have hd : 0 < ft.dim := by rw [h.wf.dim]; exact h.wf.len_pos
  obtain ⟨l, l1, l2, l3⟩ := jacobian_hasDerivAt hop (d := ft.dim) (fta := gl) (by rw [← List.length_pos_iff]; omega) (by
    intro f hf
    obtain ⟨p, hp, rfl⟩ := List.getElem_of_mem hf
    obtain ⟨g, q1, q2, q3, -⟩ := g3 p (by omega)
    rw [List.getElem?_eq_getElem hp, Option.some.injEq] at q1
    rw [q1]; exact ⟨q2, q3⟩)
  rw [g2] at l2 l3
  refine ⟨l, by rw [hessian, g1, bind_ok, l1], l2, fun i hi j hj => ?_⟩
  obtain ⟨f, g, e1, e2, e3, e4, e5, e6⟩ := l3 i hi j hj
  obtain ⟨f', q1, q2, q3, q4, q5⟩ := g3 j hj
  rw [e1, Option.some.injEq] at q1
  subst q1
  exact ⟨g, e2, e3, e4, by rw [e5, q4], value e f.cores, fun x hx t => ⟨q5 x hx t, e6 x hx t⟩⟩

/-- C109: replacing one core by the second derivatives gives the second partial derivative. -/
theorem derivCore_second {op : Nat → U → C U} (hop : Der2Law e F op) {ft : FT ℝ U} (h : ft.Ok F) {i : Nat} (hi : i < ft.dim) :
    ∃ g, derivCore (op i) ft i = .ok g ∧ g.Ok F ∧ g.dim = ft.dim ∧ g.ranks = ft.ranks ∧
      ∀ x : List ℝ, ft.dim ≤ x.length → ∀ t, Second (fun t => value e ft.cores (x.set i t)) (value e g.cores (x.set i t)) t := by
  classical
  obtain ⟨g, h1, h2, h3, h4, h5, h6⟩ := derivCore_ok (e := e) (R := fun f f' => ∃ f1 : ℝ → ℝ, (∀ x, HasDerivAt (e.ev f) (f1 x) x) ∧
    ∀ x, HasDerivAt f1 (e.ev f' x) x) h hi (hop i)
  refine ⟨g, h1, h2, h3, h4, fun x hx t => ?_⟩
  have hB : ∀ r c, ∃ b : ℝ → ℝ, r < ft.rk i → c < ft.rk (i + 1) →
      (∀ t, HasDerivAt (fun t => valAt e ft i t r c) (b t) t) ∧ ∀ t, HasDerivAt b (valAt e g i t r c) t := by
    intro r c
    by_cases hr : r < ft.rk i ∧ c < ft.rk (i + 1)
    · obtain ⟨f, f', ⟨f1, q1, q2⟩, hf, hf'⟩ := h6 r hr.1 c hr.2
      refine ⟨f1, fun _ _ => ⟨fun t => ?_, fun t => ?_⟩⟩
      · rw [show (fun t => valAt e ft i t r c) = e.ev f from funext hf]; exact q1 t
      · rw [hf' t]; exact q2 t
    · exact ⟨fun _ => 0, fun h1 h2 => absurd ⟨h1, h2⟩ hr⟩
  choose B hB using hB
  have hr0 : 0 < ft.rk 0 := by rw [h.wf.rk_zero]; omega
  refine ⟨fun t => fchain ft.rk (Function.update (valAt e ft) i (fun t r c => B r c t)) (Function.update (crd x) i t) ft.dim 0 0,
    fun s => ?_, ?_⟩
  · simp only [value_set' h hx hi]
    exact fchain_deriv (fun r hr c hc => (hB r c hr hc).1 s) (by omega) (Nat.zero_le _) hr0
  · rw [value_upd h h2 h3 h4 h5 (by rw [List.length_set]; exact hx), crd_set (by omega)]
    have := fchain_deriv (s := ft.rk) (M := Function.update (valAt e ft) i (fun t r c => B r c t)) (y := crd x) (i := i)
      (B := valAt e g i) (t0 := t) (fun r hr c hc => by rw [Function.update_self]; exact (hB r c hr hc).2 t) (n := ft.dim) (k := 0)
      (r := 0) (by omega) (Nat.zero_le _) hr0
    rwa [Function.update_idem] at this

/-- C109: entry `i` of the diagonal of the Hessian is the second partial derivative in coordinate `i`. -/
theorem hessDiag_second {op : U → C U} (hop : Der2Law e F fun _ => op) {ft : FT ℝ U} (h : ft.Ok F) :
    ∃ l, gradient op ft = .ok l ∧ l.length = ft.dim ∧ ∀ i < ft.dim, ∃ g, l[i]? = some g ∧ g.Ok F ∧ g.dim = ft.dim ∧
      g.ranks = ft.ranks ∧
      ∀ x : List ℝ, ft.dim ≤ x.length → ∀ t, Second (fun t => value e ft.cores (x.set i t)) (value e g.cores (x.set i t)) t := by
  obtain ⟨l, h1, h2, h3⟩ := collect_rel (n := ft.dim) (g := derivCore op ft) (fun i hi => derivCore_second hop h hi)
  exact ⟨l, h1, h2, h3⟩

/-! ### Block trains -/

theorem _root_.C3.Ft.Rep.to {k n m n' m' : Nat} {M M' : ℝ → Nat → Nat → ℝ} {Q : Qma U} (h : Rep e F k n m M Q) (hn : n = n') (hm : m = m')
    (hM : ∀ x, F.D k x → ∀ i < n, ∀ j < m, M x i j = M' x i j) : Rep e F k n' m' M' Q := by
  subst hn; subst hm
  exact ⟨h.nrows, h.ncols, h.wf, h.mem, fun x hx i hi j hj => (h.val x hx i hi j hj).trans (hM x hx i hi j hj)⟩

theorem stackh_rep {k n ma mb : Nat} {A B : ℝ → Nat → Nat → ℝ} {a b : Qma U} (ha : Rep e F k n ma A a) (hb : Rep e F k n mb B b) :
    ∃ Q, stackh a b = .ok Q ∧ Rep e F k n (ma + mb) (Mh ma A B) Q := by
  obtain ⟨Q, h1, h2⟩ := stackh_ok (e := e) ha.wf hb.wf ha.mem hb.mem (by rw [ha.nrows, hb.nrows])
  refine ⟨Q, h1, h2.to ha.nrows (by rw [ha.ncols, hb.ncols]) fun x hx i hi j hj => ?_⟩
  rw [ha.ncols, hb.ncols] at hj
  rw [ha.nrows] at hi
  simp only [Mh, ha.ncols]
  split
  · exact ha.val x hx i hi j (by assumption)
  · exact hb.val x hx i hi _ (by omega)

theorem stackv_rep {k na nb m : Nat} {A B : ℝ → Nat → Nat → ℝ} {a b : Qma U} (ha : Rep e F k na m A a) (hb : Rep e F k nb m B b) :
    ∃ Q, stackv a b = .ok Q ∧ Rep e F k (na + nb) m (Mv na A B) Q := by
  obtain ⟨Q, h1, h2⟩ := stackv_ok (e := e) ha.wf hb.wf ha.mem hb.mem (by rw [ha.ncols, hb.ncols])
  refine ⟨Q, h1, h2.to (by rw [ha.nrows, hb.nrows]) ha.ncols fun x hx i hi j hj => ?_⟩
  rw [ha.nrows, hb.nrows] at hi
  rw [ha.ncols] at hj
  simp only [Mv, ha.nrows]
  split
  · exact ha.val x hx i (by assumption) j hj
  · exact hb.val x hx _ (by omega) j hj

theorem kron_rep {o : Ops ℝ U} (hp : ProdLaw e o F) {k na nb ma mb : Nat} {A B : ℝ → Nat → Nat → ℝ} {a b : Qma U}
    (ha : Rep e F k na ma A a) (hb : Rep e F k nb mb B b) :
    ∃ Q, kron o a b = .ok Q ∧ Rep e F k (na * nb) (ma * mb) (Mk nb mb A B) Q := by
  obtain ⟨Q, h1, h2⟩ := kron_ok (e := e) hp ha.wf hb.wf ha.mem hb.mem
  refine ⟨Q, h1, h2.to (by rw [ha.nrows, hb.nrows]) (by rw [ha.ncols, hb.ncols]) fun x hx i hi j hj => ?_⟩
  rw [ha.nrows, hb.nrows, Nat.mul_comm] at hi
  rw [ha.ncols, hb.ncols, Nat.mul_comm] at hj
  obtain ⟨i1, i2, -⟩ := divmod_of_lt hi
  obtain ⟨j1, j2, -⟩ := divmod_of_lt hj
  simp only [Mk, hb.nrows, hb.ncols]
  rw [ha.val x hx _ i2 _ j2, hb.val x hx _ i1 _ j1]

theorem zeros_rep {zero : Nat → C U} (hz : ZLaw e F zero) (k n m : Nat) :
    ∃ Q, zerosQ (zero k) n m = .ok Q ∧ Rep e F k n m (fun _ _ _ => 0) Q := by
  obtain ⟨l, h1, h2, h3⟩ := collect_rel (n := n * m) (g := fun _ => zero k) (P := fun p v => EntryR e F k n (fun _ _ _ => 0) p v)
    (fun i _ => by obtain ⟨g, g1, g2, g3⟩ := hz k; exact ⟨g, g1, g2, g3⟩)
  exact ⟨⟨n, m, l⟩, by rw [zerosQ, h1, bind_ok, pure_eq_ok], rep_of_fill h2 h3⟩

theorem axpyQ_rep {ax : U → U → C U} (hx : AxLaw e F ax) {k n m : Nat} {A B : ℝ → Nat → Nat → ℝ} {a b : Qma U}
    (ha : Rep e F k n m A a) (hb : Rep e F k n m B b) :
    ∃ Q, axpyQ ax a b = .ok Q ∧ Rep e F k n m (fun x i j => A x i j + B x i j) Q := by
  have la : a.funcs.length = n * m := by have := ha.wf; rw [Qma.WF, ha.nrows, ha.ncols] at this; exact this
  have lb : b.funcs.length = n * m := by have := hb.wf; rw [Qma.WF, hb.nrows, hb.ncols] at this; exact this
  have ea : ∀ p < n * m, ∃ f, a.funcs[p]? = some f ∧ EntryR e F k n A p f := by
    intro p hp
    obtain ⟨q1, q2, q3⟩ := divmod_of_lt hp
    have hl : p < a.funcs.length := by omega
    refine ⟨_, List.getElem?_eq_getElem hl, ha.mem _ (List.getElem_mem _), fun x hx => ?_⟩
    rw [← ha.val x hx _ q1 _ q2]
    exact (entry_val (by rw [ha.nrows, q3]; exact List.getElem?_eq_getElem hl)).symm
  have eb : ∀ p < n * m, ∃ f, b.funcs[p]? = some f ∧ EntryR e F k n B p f := by
    intro p hp
    obtain ⟨q1, q2, q3⟩ := divmod_of_lt hp
    have hl : p < b.funcs.length := by omega
    refine ⟨_, List.getElem?_eq_getElem hl, hb.mem _ (List.getElem_mem _), fun x hx => ?_⟩
    rw [← hb.val x hx _ q1 _ q2]
    exact (entry_val (by rw [hb.nrows, q3]; exact List.getElem?_eq_getElem hl)).symm
  obtain ⟨l, h1, h2, h3, h4⟩ := forN_spec (n := n * m) (s := b.funcs)
    (body := fun ii (fs : List U) => do
      let f ← rd a.funcs ii
      let g ← rd fs ii
      let h ← ax f g
      wr fs ii h)
    (I := fun i fs => fs.length = n * m ∧ (∀ p < i, ∃ v, fs[p]? = some v ∧ EntryR e F k n (fun x i j => A x i j + B x i j) p v) ∧
      ∀ p, i ≤ p → fs[p]? = b.funcs[p]?) ⟨lb, fun _ h => absurd h (Nat.not_lt_zero _), fun _ _ => rfl⟩
    (by
      rintro i hi fs ⟨hl, hd, hr⟩
      obtain ⟨f, f1, f2, f3⟩ := ea i hi
      obtain ⟨g, g1, g2, g3⟩ := eb i hi
      obtain ⟨h, h1, h2, h3⟩ := hx k f g f2 g2
      refine ⟨fs.set i h, ?_, by rw [List.length_set, hl], fun p hp => ?_, fun p hp => ?_⟩
      · rw [rd_of_getElem? f1, bind_ok, rd_of_getElem? ((hr i (le_refl _)).trans g1), bind_ok, h1, bind_ok, wr_ok _ (by omega)]
      · by_cases hpi : p = i
        · subst hpi
          exact ⟨h, List.getElem?_set_self (by omega), h2, fun x hx => by rw [h3 x hx, f3 x hx, g3 x hx]⟩
        · obtain ⟨v, v1, v2⟩ := hd p (by omega)
          exact ⟨v, by rw [List.getElem?_set_ne (Ne.symm hpi)]; exact v1, v2⟩
      · rw [List.getElem?_set_ne (by omega)]; exact hr p (by omega))
  refine ⟨⟨n, m, l⟩, ?_, rep_of_fill h2 h3⟩
  rw [axpyQ, ha.nrows, hb.nrows, ha.ncols, hb.ncols, decide_eq_true rfl, decide_eq_true rfl, h1]
  rfl

/-- A train with blocks `A` and `B` represents the sum over the dimensions of the products with one factor `A` replaced by
`B`. -/
theorem blockTrain_ok {d r0 rl : Nat} (h2 : 2 ≤ d) (hr0 : r0 = 1) {s : Nat → Nat} (hs0 : s 0 = 1) (hsd : s d = 1)
    (hsp : ∀ k ≤ d, 0 < s k) {A B : Nat → C (Qma U)} {MA MB : Nat → ℝ → Nat → Nat → ℝ} {zero : Nat → C U} (hz : ZLaw e F zero)
    (hA : ∀ k < d, ∃ Q, A k = .ok Q ∧ Rep e F k (s k) (s (k + 1)) (MA k) Q)
    (hB : ∀ k < d, ∃ Q, B k = .ok Q ∧ Rep e F k (s k) (s (k + 1)) (MB k) Q) :
    ∃ g : FT ℝ U, blockTrain d r0 rl A B zero = .ok g ∧ g.Ok F ∧ g.dim = d ∧ (∀ k ≤ d, g.rk k = bSz d s k) ∧
      ∀ x, InDom F d x → value e g.cores x = ∑ i ∈ range d, fchain s (Function.update MA i (MB i)) (crd x) d 0 0 := by
  have hz0 : bSz d s 0 = 1 := by rw [bSz, if_pos (Or.inl rfl)]
  have hzd : bSz d s d = 1 := by rw [bSz, if_pos (Or.inr rfl)]
  have hzi : ∀ k, 0 < k → k < d → bSz d s k = s k + s k := fun k h1 h2 => by rw [bSz, if_neg (by omega)]
  -- first core
  obtain ⟨b0, eb0, rb0⟩ := hB 0 (by omega)
  obtain ⟨a0, ea0, ra0⟩ := hA 0 (by omega)
  obtain ⟨q0, eq0, rq0⟩ := stackh_rep rb0 ra0
  have rq0' : Rep e F 0 (bSz d s 0) (bSz d s 1) (bMat d s MA MB 0) q0 := rq0.to (by rw [hz0, hs0]) (by rw [hzi 1 (by omega) (by omega)])
    fun x _ i _ j _ => by simp [Mh, bMat]
  have hmid : ∀ k, 0 < k → k + 1 < d → ∃ a b z c1 c2 Q, A k = .ok a ∧ B k = .ok b ∧ zerosQ (zero k) a.nrows a.ncols = .ok z ∧
      stackv a b = .ok c1 ∧ stackv z a = .ok c2 ∧ stackh c1 c2 = .ok Q ∧
      Rep e F k (bSz d s k) (bSz d s (k + 1)) (bMat d s MA MB k) Q := by
    intro k hk hk'
    obtain ⟨b, eb, rb⟩ := hB k (by omega)
    obtain ⟨a, ea, ra⟩ := hA k (by omega)
    obtain ⟨z, ez, rz⟩ := zeros_rep (e := e) (F := F) hz k a.nrows a.ncols
    rw [ra.nrows, ra.ncols] at rz
    obtain ⟨c1, ec1, rc1⟩ := stackv_rep ra rb
    obtain ⟨c2, ec2, rc2⟩ := stackv_rep rz ra
    obtain ⟨Q, eQ, rQ⟩ := stackh_rep rc1 rc2
    refine ⟨a, b, z, c1, c2, Q, ea, eb, ez, ec1, ec2, eQ, rQ.to (by rw [hzi k hk (by omega)]) (by rw [hzi (k + 1) (by omega) hk'])
      fun x _ i _ j _ => ?_⟩
    simp only [Mh, Mv, bMat, if_neg (show ¬ k = 0 by omega), if_neg (show ¬ k + 1 = d by omega)]
  have hlast : ∃ a b Q, A (d - 1) = .ok a ∧ B (d - 1) = .ok b ∧ stackv a b = .ok Q ∧
      Rep e F (d - 1) (bSz d s (d - 1)) (bSz d s d) (bMat d s MA MB (d - 1)) Q := by
    obtain ⟨b, eb, rb⟩ := hB (d - 1) (by omega)
    obtain ⟨a, ea, ra⟩ := hA (d - 1) (by omega)
    obtain ⟨Q, eQ, rQ⟩ := stackv_rep ra rb
    refine ⟨a, b, Q, ea, eb, eQ, rQ.to (by rw [hzi (d - 1) (by omega) (by omega)]) (by rw [hzd, show d - 1 + 1 = d by omega, hsd])
      fun x _ i _ j _ => ?_⟩
    simp only [Mv, bMat, if_neg (show ¬ d - 1 = 0 by omega), if_pos (show d - 1 + 1 = d by omega)]
  -- the loop
  have hlen0 : (((List.replicate (d + 1) 0).set 0 r0).set d rl).length = d + 1 := by simp
  obtain ⟨t, t1, t2, t3, t4, t5, t6⟩ := forR_spec (a := 1) (b := d - 1) (body := blockStep A B zero)
    (s := (⟨(((List.replicate (d + 1) 0).set 0 r0).set d rl).set 1 q0.ncols, (List.replicate d none).set 0 (some q0)⟩ : Bld U))
    (I := fun k t => t.ranks.length = d + 1 ∧ t.cores.length = d ∧ t.ranks[0]? = some 1 ∧
      (∀ j, 1 ≤ j → j ≤ k → t.ranks[j]? = some (bSz d s j)) ∧
      ∀ j < k, ∃ Q, t.cores[j]? = some (some Q) ∧ Rep e F j (bSz d s j) (bSz d s (j + 1)) (bMat d s MA MB j) Q)
    (by omega)
    ⟨by simp, by simp, by
      rw [List.getElem?_set_ne (by omega), List.getElem?_set_ne (by omega), List.getElem?_set_self (by simp), hr0], by
      intro j h1 h2
      obtain rfl : j = 1 := by omega
      rw [List.getElem?_set_self (by simp; omega), rq0'.ncols], by
      intro j hj
      obtain rfl : j = 0 := by omega
      exact ⟨q0, List.getElem?_set_self (by simp; omega), rq0'⟩⟩
    (by
      rintro k h1 h2' t ⟨u1, u2, u3, u4, u5⟩
      obtain ⟨a, b, z, c1, c2, Q, ea, eb, ez, ec1, ec2, eQ, rQ⟩ := hmid k (by omega) (by omega)
      refine ⟨⟨t.ranks.set (k + 1) Q.ncols, t.cores.set k (some Q)⟩, ?_, by simp [u1], by simp [u2], ?_, ?_, ?_⟩
      · rw [blockStep, ea, bind_ok, eb, bind_ok, ez, bind_ok, ec1, bind_ok, ec2, bind_ok, eQ, bind_ok, wr_ok _ (by omega), bind_ok,
          wr_ok _ (by omega), bind_ok, pure_eq_ok]
      · dsimp only; rw [List.getElem?_set_ne (by omega)]; exact u3
      · intro j h3 h4
        dsimp only
        by_cases hj : j = k + 1
        · subst hj; rw [List.getElem?_set_self (by omega), rQ.ncols]
        · rw [List.getElem?_set_ne (Ne.symm hj)]; exact u4 j h3 (by omega)
      · intro j hj
        dsimp only
        by_cases hjk : j = k
        · subst hjk; exact ⟨Q, List.getElem?_set_self (by omega), rQ⟩
        · rw [List.getElem?_set_ne (Ne.symm hjk)]; exact u5 j (by omega))
  obtain ⟨a, b, Q, ea, eb, eQ, rQ⟩ := hlast
  have hcov : ∀ j < d, ∃ Q', (t.cores.set (d - 1) (some Q))[j]? = some (some Q') ∧
      Rep e F j (bSz d s j) (bSz d s (j + 1)) (bMat d s MA MB j) Q' := by
    intro j hj
    by_cases hjd : j = d - 1
    · subst hjd
      exact ⟨Q, List.getElem?_set_self (by omega), by rw [show d - 1 + 1 = d by omega]; exact rQ⟩
    · rw [List.getElem?_set_ne (Ne.symm hjd)]; exact t6 j (by omega)
  obtain ⟨l, l1, l2, l3⟩ := allSome_ok (b := t.cores.set (d - 1) (some Q)) (by
    intro p hp
    rw [List.length_set, t3] at hp
    obtain ⟨Q', h, -⟩ := hcov p hp
    exact ⟨Q', h⟩)
  rw [List.length_set, t3] at l2
  have hM : CoreRep e F (bSz d s) (bMat d s MA MB) l := by
    intro k hk
    obtain ⟨Q', h, h'⟩ := hcov k (by omega)
    rw [l3 k] at h
    exact ⟨Q', by simpa using h, h'⟩
  have hrk : ∀ k ≤ d, (t.ranks.set d Q.ncols)[k]? = some (bSz d s k) := by
    intro k hk
    by_cases hkd : k = d
    · subst hkd; rw [List.getElem?_set_self (by omega), rQ.ncols]
    · rw [List.getElem?_set_ne (Ne.symm hkd)]
      rcases Nat.eq_zero_or_pos k with h0 | h0
      · subst h0; rw [t4, hz0]
      · exact t5 k h0 (by omega)
  refine ⟨⟨d, t.ranks.set d Q.ncols, l, none, none, none⟩, ?_, ?_, rfl, fun k hk => ?_, fun x hx => ?_⟩
  · rw [blockTrain, wr_ok _ (by simp), bind_ok, wr_ok _ (by simp), bind_ok, blockFirst, eb0, bind_ok, ea0, bind_ok, eq0, bind_ok,
      wr_ok _ (by simp; omega), bind_ok, wr_ok _ (by simp; omega), bind_ok, pure_eq_ok, bind_ok, t1, bind_ok, blockLast, ea, bind_ok, eb,
      bind_ok, eQ, bind_ok, wr_ok _ (by omega), bind_ok, wr_ok _ (by omega), bind_ok, pure_eq_ok, bind_ok, ftDone,
      show d - 1 + 1 = d by omega, l1, bind_ok, pure_eq_ok]
  · refine ok_mk (e := e) l2 (by omega) hz0 hzd (fun k hk => ?_) hM (by rw [List.length_set, t2]) hrk
    rw [bSz]
    split
    · omega
    · have := hsp k hk; omega
  · rw [FT.rk, List.getD_eq_getElem?_getD, hrk k hk]; rfl
  · rw [value_fchain hM (by rw [l2]; exact hx) (by rw [hz0]; omega), l2, bchain_zero hs0 hsd h2]

end C3.Dif
