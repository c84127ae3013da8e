/-
Property theorems: parameterised function trains, value and gradient with respect to the parameters.
-/
import Verif.Sl.Bwd
import Mathlib.Analysis.Calculus.Deriv.Add
import Mathlib.Analysis.Calculus.Deriv.Mul
import Mathlib.Tactic.IntervalCases
import Mathlib.Tactic.NormNum

namespace C3.Sl

variable {K U : Type} [CommRing K]

theorem po_split (np : Nat → Nat) (n p : Nat) (h : p < po np n) :
    ∃ u l, u < n ∧ l < np u ∧ p = po np u + l := by
  induction n with
  | zero => simp [po] at h
  | succ n ih =>
    rw [po_succ] at h
    by_cases hp : p < po np n
    · obtain ⟨u, l, h1, h2, h3⟩ := ih hp
      exact ⟨u, l, by omega, h2, h3⟩
    · exact ⟨n, p - po np n, by omega, by omega, by omega⟩

theorem uo_split (r : Nat → Nat) (d u : Nat) (h : u < uo r d) :
    ∃ k i j, k < d ∧ i < r k ∧ j < r (k + 1) ∧ u = uo r k + (i + j * r k) := by
  induction d with
  | zero => simp [uo] at h
  | succ d ih =>
    by_cases hp : u < uo r d
    · obtain ⟨k, i, j, h1, h2, h3, h4⟩ := ih hp
      exact ⟨k, i, j, by omega, h2, h3, h4⟩
    · rw [uo_succ] at h
      have hpos : 0 < r d := by
        rcases Nat.eq_zero_or_pos (r d) with h0 | h0
        · rw [h0, Nat.zero_mul] at h; omega
        · exact h0
      refine ⟨d, (u - uo r d) % r d, (u - uo r d) / r d, by omega, Nat.mod_lt _ hpos, ?_, ?_⟩
      · rw [Nat.div_lt_iff_lt_mul hpos, Nat.mul_comm]; omega
      · rw [Nat.mod_add_div']; omega

variable {F : FTP K U} {r np : Nat → Nat} {e : Nat → K} {gr : Nat → K} {gev : List K}
  {G : Nat → List K → Prop} {ef : EvalFn K}

theorem gradGen_ok (hL : Lay F r np) (h2 : 2 ≤ F.dim) (hef : EfOk ef r np e F.dim G)
    (grad gev mem evals : List K) (hG0 : G 0 gev)
    (hGend : ∀ g, G (uo r F.dim) g → ∀ p, p < po np (uo r F.dim) → g[p]? = some (gr p))
    (hg : po np (uo r F.dim) ≤ grad.length) (hm : mo r F.dim ≤ mem.length)
    (he : uo r F.dim ≤ evals.length) :
    ∃ R, gradGen F ef grad gev mem evals = .ok R ∧ R.out = trainVal r e F.dim ∧
      R.grad.length = grad.length ∧ GradFrom r np e gr F.dim 0 R.grad ∧
      G (uo r F.dim) R.gev ∧ R.mem.length = mem.length ∧ R.evals.length = evals.length := by
  obtain ⟨f, hf, ⟨f1, f2, f3, f4, f5, f6, f7⟩, find⟩ := forward_ok hL hef mem evals gev hm he hG0
  have hd1 : F.dim - 1 + 1 = F.dim := by omega
  have hout := f7 (F.dim - 1) (by omega) 0 (by rw [hd1, hL.last]; omega)
  rw [hd1, Nat.add_zero] at hout
  obtain ⟨b, hb, b1, b2, b3⟩ := backward_ok (e := e) (gr := gr) hL h2 (gev := f.gev)
    (hGend _ f3) (evals := f.evals) f5 (Nm := mem.length) (Ng := grad.length) hm hg
    ⟨f.mem, grad, f.onuni, f.onparam, f.indmem⟩
    ⟨find, f1, f2, rfl, f6, fun k hk c hc => f7 k (by omega) c hc, by
      intro c hc
      rw [if_pos rfl]
      have := f7 (F.dim - 1) (by omega) c (by rw [hd1]; exact hc)
      rw [hd1] at this
      exact this, fun k hk hk' => absurd hk (by omega)⟩
  refine ⟨⟨trainVal r e F.dim, b.grad, f.gev, b.mem, f.evals⟩, ?_, rfl, b2, b1, f3, b3, f4⟩
  rw [gradGen, rd_of_getElem? (hL.ranks 0 (by omega)), bind_ok, cassert,
    if_pos (decide_eq_true hL.first), bind_ok, hf, bind_ok, find, rd_of_getElem? hout, bind_ok]
  rw [find] at hb
  rw [hb, bind_ok]
  rfl

/-- The univariate functions report value `e u` and derivatives `gr (po np u + l)`. -/
def Reports (F : FTP K U) (r np : Nat → Nat) (ge : U → K → K × List K) (x : List K)
    (e gr : Nat → K) : Prop :=
  ∀ k, k < F.dim → ∀ j, j < r k * r (k + 1) → ∃ core u xk,
    F.cores[k]? = some core ∧ core[j]? = some u ∧ x[k]? = some xk ∧
    (ge u xk).1 = e (uo r k + j) ∧ (ge u xk).2.length = np (uo r k + j) ∧
    ∀ l, l < np (uo r k + j) → (ge u xk).2[l]? = some (gr (po np (uo r k + j) + l))

/-- `ft_param_gradeval` for at least two dimensions: the return value is the function train, and
the entry for parameter `l` of the function in row `i`, column `j` of core `k` is the product of the
cores to the left, its univariate derivative and the cores to the right. -/
theorem gradeval_ok (hL : Lay F r np) (h2 : 2 ≤ F.dim) (ge : U → K → K × List K) (x : List K)
    (hge : Reports F r np ge x e gr) (grad gev mem evals : List K)
    (hg : F.nparams ≤ grad.length) (hgev : F.nparams ≤ gev.length)
    (hm : mo r F.dim ≤ mem.length) (he : uo r F.dim ≤ evals.length) :
    ∃ R, gradeval F ge x grad gev mem evals = .ok R ∧ R.out = trainVal r e F.dim ∧
      R.grad.length = grad.length ∧ GradFrom r np e gr F.dim 0 R.grad ∧
      R.gev.length = gev.length ∧ R.mem.length = mem.length ∧
      R.evals.length = evals.length := by
  rw [hL.nparams] at hg hgev
  obtain ⟨R, h1, h2, h3, h4, h5, h6, h7⟩ := gradGen_ok (gr := gr) hL h2
    (evNonlin_ok (e := e) ge x gr gev.length hgev hge) grad gev mem evals
    ⟨rfl, fun p hp => by simp [po] at hp⟩ (fun g hg p hp => hg.2 p hp) hg hm he
  exact ⟨R, h1, h2, h3, h4, h5.1, h6, h7⟩

/-- `ft_param_gradeval_lin` for at least two dimensions. -/
theorem gradevalLin_ok (hL : Lay F r np) (h2 : 2 ≤ F.dim) (gev grad mem evals : List K)
    (hp : F.nparams ≤ F.params.length)
    (hg : F.nparams ≤ grad.length) (hgev : F.nparams ≤ gev.length)
    (hm : mo r F.dim ≤ mem.length) (he : uo r F.dim ≤ evals.length) :
    ∃ R, gradevalLin F gev grad mem evals = .ok R ∧
      R.out = trainVal r (fun u => ∑ l ∈ Finset.range (np u),
        gev.getD (po np u + l) 0 * F.params.getD (po np u + l) 0) F.dim ∧
      R.grad.length = grad.length ∧
      GradFrom r np (fun u => ∑ l ∈ Finset.range (np u),
        gev.getD (po np u + l) 0 * F.params.getD (po np u + l) 0)
        (fun p => gev.getD p 0) F.dim 0 R.grad ∧ R.gev = gev := by
  rw [hL.nparams] at hp hg hgev
  obtain ⟨R, h1, h2, h3, h4, h5, h6, h7⟩ := gradGen_ok (gr := fun p => gev.getD p 0) hL h2
    (evLin_ok hL gev hgev hp) grad gev mem evals rfl (fun g hg p hp => by
      subst hg
      have : p < g.length := by omega
      simp [List.getElem?_eq_getElem this]) hg hm he
  exact ⟨R, h1, h2, h3, h4, h5⟩

/-! ### The gradient is the derivative -/

/-- Family `Φ u θ`: value of univariate function `u` for the parameter vector `θ` of the whole
train; a function depends only on its own parameters. -/
def OwnParams (np : Nat → Nat) (n : Nat) (Φ : Nat → (Nat → ℝ) → ℝ) : Prop :=
  ∀ u, u < n → ∀ θ p t, ¬ (po np u ≤ p ∧ p < po np (u + 1)) →
    Φ u (Function.update θ p t) = Φ u θ

/-- What the sweeps compute is the partial derivative with respect to each parameter. -/
theorem gradFrom_hasDerivAt {r np : Nat → Nat} {d : Nat} (hlast : r d = 1)
    (Φ : Nat → (Nat → ℝ) → ℝ) (hown : OwnParams np (uo r d) Φ) (θ gr : Nat → ℝ)
    (hder : ∀ u, u < uo r d → ∀ l, l < np u →
      HasDerivAt (fun t => Φ u (Function.update θ (po np u + l) t)) (gr (po np u + l))
        (θ (po np u + l))) (grad : List ℝ)
    (hgr : GradFrom r np (fun u => Φ u θ) gr d 0 grad) (p : Nat) (hp : p < po np (uo r d)) :
    ∃ g, grad[p]? = some g ∧
      HasDerivAt (fun t => trainVal r (fun u => Φ u (Function.update θ p t)) d) g (θ p) := by
  obtain ⟨u, l, hu, hl, rfl⟩ := po_split np _ _ hp
  obtain ⟨k, i, j, hk, hi, hj, rfl⟩ := uo_split r d u hu
  refine ⟨_, hgr k (Nat.zero_le k) hk i hi j hj l hl, ?_⟩
  have hfun : ∀ t, trainVal r (fun u => Φ u (Function.update θ
        (po np (uo r k + (i + j * r k)) + l) t)) d
      = trainVal r (fun u => Φ u θ) d
        + lft r (fun u => Φ u θ) k i * (Φ (uo r k + (i + j * r k)) (Function.update θ
            (po np (uo r k + (i + j * r k)) + l) t) - Φ (uo r k + (i + j * r k)) θ)
          * rgt r (fun u => Φ u θ) d (d - (k + 1)) j := by
    intro t
    rw [← value_update r (fun u => Φ u θ) d k i j _ hlast hk hi hj]
    unfold trainVal
    refine lft_congr r _ _ d (fun v hv => ?_) 0 (by omega)
    by_cases hvu : v = uo r k + (i + j * r k)
    · subst hvu; rw [Function.update_self]
    · rw [Function.update_of_ne hvu]
      refine hown v hv θ _ t ?_
      rintro ⟨h1, h2⟩
      rcases Nat.lt_or_ge v (uo r k + (i + j * r k)) with hlt | hge
      · have := po_mono np (show v + 1 ≤ uo r k + (i + j * r k) from hlt)
        omega
      · have := po_mono np (show uo r k + (i + j * r k) + 1 ≤ v by omega)
        rw [po_succ] at this
        omega
  simp only [hfun]
  exact ((((hder _ hu l hl).sub_const _).const_mul _).mul_const _).const_add _

/-- `ft_param_gradeval`, at least two dimensions: for parameters `θ`, if every univariate function
reports its value and its derivatives with respect to its own parameters, the return value is the
value of the train and every entry of the gradient buffer is the partial derivative of the train.
Partial: exact real arithmetic and at least two dimensions; see
`gradeval_dim_one_counterexample`. -/
theorem gradeval_hasDerivAt_partial {F : FTP ℝ U} (hL : Lay F r np) (h2 : 2 ≤ F.dim)
    (ge : U → ℝ → ℝ × List ℝ) (x : List ℝ) (Φ : Nat → (Nat → ℝ) → ℝ) (θ gr : Nat → ℝ)
    (hge : Reports F r np ge x (fun u => Φ u θ) gr) (hown : OwnParams np (uo r F.dim) Φ)
    (hder : ∀ u, u < uo r F.dim → ∀ l, l < np u →
      HasDerivAt (fun t => Φ u (Function.update θ (po np u + l) t)) (gr (po np u + l))
        (θ (po np u + l))) (grad gev mem evals : List ℝ)
    (hg : F.nparams ≤ grad.length) (hgev : F.nparams ≤ gev.length)
    (hm : mo r F.dim ≤ mem.length) (he : uo r F.dim ≤ evals.length) :
    ∃ R, gradeval F ge x grad gev mem evals = .ok R ∧
      R.out = trainVal r (fun u => Φ u θ) F.dim ∧
      ∀ p, p < F.nparams → ∃ g, R.grad[p]? = some g ∧
        HasDerivAt (fun t => trainVal r (fun u => Φ u (Function.update θ p t)) F.dim) g (θ p) := by
  obtain ⟨R, h1, h3, _, h4, _⟩ := gradeval_ok hL h2 ge x hge grad gev mem evals hg hgev hm he
  refine ⟨R, h1, h3, fun p hp => ?_⟩
  rw [hL.nparams] at hp
  exact gradFrom_hasDerivAt hL.last Φ hown θ gr hder _ h4 p hp

/-- Univariate functions that are linear in their parameters, with basis values `b`. -/
def linFam (np : Nat → Nat) (b : Nat → ℝ) (u : Nat) (θ : Nat → ℝ) : ℝ :=
  ∑ l ∈ Finset.range (np u), b (po np u + l) * θ (po np u + l)

theorem linFam_own (np : Nat → Nat) (b : Nat → ℝ) (n : Nat) : OwnParams np n (linFam np b) := by
  intro u _ θ p t hp
  refine Finset.sum_congr rfl (fun l hl => ?_)
  have hl' := Finset.mem_range.1 hl
  rw [Function.update_of_ne]
  intro h
  exact hp ⟨by omega, by rw [po_succ]; omega⟩

theorem linFam_hasDerivAt (np : Nat → Nat) (b : Nat → ℝ) (u : Nat) (θ : Nat → ℝ) (l : Nat)
    (hl : l < np u) :
    HasDerivAt (fun t => linFam np b u (Function.update θ (po np u + l) t)) (b (po np u + l))
      (θ (po np u + l)) := by
  have hfun : ∀ t, linFam np b u (Function.update θ (po np u + l) t)
      = linFam np b u θ + b (po np u + l) * (t - θ (po np u + l)) := by
    intro t
    unfold linFam
    rw [← sub_eq_iff_eq_add', ← Finset.sum_sub_distrib, Finset.sum_eq_single l]
    · rw [Function.update_self]; ring
    · intro m _ hml
      rw [Function.update_of_ne (by omega)]; ring
    · intro h; exact absurd (Finset.mem_range.2 hl) h
  simp only [hfun]
  have := (((hasDerivAt_id (θ (po np u + l))).sub_const (θ (po np u + l))).const_mul
    (b (po np u + l))).const_add (linFam np b u θ)
  simpa using this

/-- `ft_param_gradeval_lin`, at least two dimensions, with the precomputed basis values
`grad_evals`: value and partial derivatives of the train whose univariate functions are the
linear combinations of the basis values with the parameters.  Partial as
`gradeval_hasDerivAt_partial`. -/
theorem gradevalLin_hasDerivAt_partial {F : FTP ℝ U} (hL : Lay F r np) (h2 : 2 ≤ F.dim)
    (gev grad mem evals : List ℝ) (hp : F.nparams ≤ F.params.length)
    (hg : F.nparams ≤ grad.length) (hgev : F.nparams ≤ gev.length)
    (hm : mo r F.dim ≤ mem.length) (he : uo r F.dim ≤ evals.length) :
    ∃ R, gradevalLin F gev grad mem evals = .ok R ∧
      R.out = trainVal r (fun u => linFam np (fun p => gev.getD p 0) u
        (fun p => F.params.getD p 0)) F.dim ∧
      ∀ p, p < F.nparams → ∃ g, R.grad[p]? = some g ∧
        HasDerivAt (fun t => trainVal r (fun u => linFam np (fun p => gev.getD p 0) u
          (Function.update (fun p => F.params.getD p 0) p t)) F.dim) g (F.params.getD p 0) := by
  obtain ⟨R, h1, h3, _, h4, _⟩ := gradevalLin_ok hL h2 gev grad mem evals hp hg hgev hm he
  refine ⟨R, h1, h3, fun p hp => ?_⟩
  rw [hL.nparams] at hp
  exact gradFrom_hasDerivAt hL.last (linFam np (fun p => gev.getD p 0)) (linFam_own np _ _)
    (fun p => F.params.getD p 0) (fun p => gev.getD p 0)
    (fun u _ l hl => linFam_hasDerivAt np _ u _ l hl) _ h4 p hp

/-! ### Evaluation only -/

/-- Invariant of `ft_param_eval_lin`. -/
structure EI (r np : Nat → Nat) (e : Nat → K) (Nm : Nat) (u m : Nat) (s : El K) : Prop where
  onuni : s.onuni = u
  onparam : s.onparam = po np u
  mlen : s.mem.length = Nm
  mem : ∀ c, c < r (m + 1) → s.mem[mo r m + c]? = some (lft r e (m + 1) c)

theorem evalLin_ok (hL : Lay F r np) (gev mem : List K) (hp : F.nparams ≤ F.params.length)
    (hgev : F.nparams ≤ gev.length) (hm : mo r F.dim ≤ mem.length) :
    evalLin F gev mem = .ok (trainVal r (fun u => ∑ l ∈ Finset.range (np u),
        gev.getD (po np u + l) 0 * F.params.getD (po np u + l) 0) F.dim) := by
  rw [hL.nparams] at hp hgev
  set e : Nat → K := fun u => ∑ l ∈ Finset.range (np u),
        gev.getD (po np u + l) 0 * F.params.getD (po np u + l) 0 with hedef
  have hdot : ∀ u, u < uo r F.dim →
      dotAt (np u) gev (po np u) F.params (po np u) = .ok (e u) := by
    intro u hu
    have h1 := po_mono np (show u + 1 ≤ uo r F.dim from hu)
    rw [po_succ] at h1
    exact dotAt_ok _ _ _ _ _ (by omega) (by omega)
  have hd := hL.dim_pos
  have hu1 : uo r 1 = r 1 := by simp [uo, hL.first]
  have hu1d : uo r 1 ≤ uo r F.dim := uo_mono r hd
  have hm1d : r 1 ≤ mo r F.dim := by
    have := mo_mono r (show 1 ≤ F.dim from hd)
    simpa [mo] using this
  rw [evalLin, rd_of_getElem? (hL.ranks 0 (by omega)), bind_ok, cassert,
    if_pos (decide_eq_true hL.first), bind_ok, rd_of_getElem? (hL.ranks 1 (by omega)), bind_ok]
  obtain ⟨s1, hs1, a1, a2, a3, a4, a5⟩ := forN_spec
    (I := fun col (s : El K) => s.onuni = col ∧ s.onparam = po np col ∧ s.mem.length = mem.length ∧
      s.indmem = 0 ∧ ∀ c, c < col → s.mem[c]? = some (e c))
    (n := r 1) (body := elCol0 F gev) (s := ⟨mem, 0, 0, 0⟩)
    ⟨rfl, rfl, rfl, rfl, fun c hc => absurd hc (Nat.not_lt_zero c)⟩ (by
      intro col hc s ⟨h1, h2, h3, h4, h5⟩
      refine ⟨{ s with mem := s.mem.set col (e col), onparam := po np col + np col
                       onuni := col + 1 }, by
        rw [elCol0, h1, h2, rd_of_getElem? (hL.npu col (by omega)), bind_ok,
          hdot col (by omega), bind_ok, wr_ok _ (by omega), bind_ok], rfl,
        (po_succ np col).symm, by simp [h3], h4, ?_⟩
      intro c hc'
      dsimp only
      by_cases hvc : c = col
      · subst hvc; rw [List.getElem?_set_self (by omega)]
      · rw [List.getElem?_set_ne (by omega)]; exact h5 c (by omega))
  rw [hs1, bind_ok]
  obtain ⟨s2, hs2, hEI, hind⟩ := forR_spec
    (I := fun kk (s : El K) => EI r np e mem.length (uo r kk) (kk - 1) s ∧
      s.indmem = mo r (kk - 1)) (a := 1) (b := F.dim) (body := elCore F gev) (s := s1) hd
    ⟨⟨by rw [hu1]; exact a1, by rw [hu1]; exact a2, a3, by
      intro c hc
      have : lft r e (1 - 1 + 1) c = e c := by simp [lft, hL.first, uo]
      rw [this, show mo r (1 - 1) + c = c by simp [mo]]
      exact a5 c hc⟩, by rw [a4]; rfl⟩ (by
      intro kk h1k hkd s ⟨⟨h1, h2, h3, h4⟩, h5⟩
      obtain ⟨k, rfl⟩ : ∃ k, kk = k + 1 := ⟨kk - 1, by omega⟩
      rw [Nat.add_sub_cancel] at h4 h5 ⊢
      have hmo := mo_succ r k
      rw [elCore, rd_of_getElem? (hL.ranks _ (by omega)), bind_ok,
        rd_of_getElem? (hL.ranks _ (by omega)), bind_ok]
      obtain ⟨t, ht, t1, t2, t3, t4, t5, t6⟩ := forN_spec
        (I := fun col (s : El K) => s.onuni = uo r (k + 1) + col * r (k + 1) ∧
          s.onparam = po np (uo r (k + 1) + col * r (k + 1)) ∧ s.mem.length = mem.length ∧
          s.indmem = mo r k ∧
          (∀ c, c < r (k + 1) → s.mem[mo r k + c]? = some (lft r e (k + 1) c)) ∧
          ∀ c, c < col → s.mem[mo r (k + 1) + c]? = some (lft r e (k + 2) c))
        (n := r (k + 1 + 1)) (body := elCol F gev (r (k + 1))) (s := s)
        ⟨by simpa using h1, by simpa using h2, h3, h5, h4,
          fun c hc => absurd hc (Nat.not_lt_zero c)⟩ (by
          intro col hc s ⟨g1, g2, g3, g4, g5, g6⟩
          have hmlt := mo_idx_lt (r := r) hkd hc
          have ha : s.indmem + r (k + 1) + col = mo r (k + 1) + col := by rw [g4, hmo]
          rw [elCol, ha, wr_ok _ (by omega), bind_ok]
          obtain ⟨t, ht, b1, b2, b3, b4, b5, b6, b7⟩ := forN_spec
            (I := fun row (s : El K) => s.onuni = uo r (k + 1) + (row + col * r (k + 1)) ∧
              s.onparam = po np (uo r (k + 1) + (row + col * r (k + 1))) ∧
              s.mem.length = mem.length ∧ s.indmem = mo r k ∧
              (∀ c, c < r (k + 1) → s.mem[mo r k + c]? = some (lft r e (k + 1) c)) ∧
              (∀ c, c < col → s.mem[mo r (k + 1) + c]? = some (lft r e (k + 2) c)) ∧
              s.mem[mo r (k + 1) + col]? = some (∑ i ∈ Finset.range row,
                lft r e (k + 1) i * e (uo r (k + 1) + (i + col * r (k + 1)))))
            (n := r (k + 1)) (body := elRow F gev (r (k + 1)) col)
            (s := { s with mem := s.mem.set (mo r (k + 1) + col) 0 })
            ⟨by simpa using g1, by simpa using g2, by simp [g3], g4, by
              intro c hc'
              dsimp only
              rw [List.getElem?_set_ne (by omega)]; exact g5 c hc', by
              intro c hc'
              dsimp only
              rw [List.getElem?_set_ne (by omega)]; exact g6 c hc', by
              dsimp only
              rw [List.getElem?_set_self (by omega)]; simp⟩ (by
              intro row hrow s ⟨c1, c2, c3, c4, c5, c6, c7⟩
              have hlt := uo_idx_lt (r := r) hkd (idx_lt hrow hc)
              have ha : s.indmem + r (k + 1) + col = mo r (k + 1) + col := by rw [c4, hmo]
              have hu : uo r (k + 1) + (row + 1 + col * r (k + 1))
                  = uo r (k + 1) + (row + col * r (k + 1)) + 1 := by omega
              refine ⟨{ s with
                  mem := s.mem.set (mo r (k + 1) + col) (∑ i ∈ Finset.range row,
                      lft r e (k + 1) i * e (uo r (k + 1) + (i + col * r (k + 1)))
                    + lft r e (k + 1) row * e (uo r (k + 1) + (row + col * r (k + 1))))
                  onparam := po np (uo r (k + 1) + (row + col * r (k + 1)))
                    + np (uo r (k + 1) + (row + col * r (k + 1)))
                  onuni := uo r (k + 1) + (row + col * r (k + 1)) + 1 }, by
                rw [elRow, c1, c2, rd_of_getElem? (hL.npu _ hlt), bind_ok, hdot _ hlt, bind_ok,
                  ha, rd_of_getElem? c7, bind_ok, c4, rd_of_getElem? (c5 row hrow), bind_ok,
                  wr_ok _ (by omega), bind_ok], hu.symm, ?_, by simp [c3], c4, ?_, ?_, ?_⟩
              · rw [hu, po_succ]
              · intro c hc'
                dsimp only
                rw [List.getElem?_set_ne (by omega)]; exact c5 c hc'
              · intro c hc'
                dsimp only
                rw [List.getElem?_set_ne (by omega)]; exact c6 c hc'
              · dsimp only
                rw [List.getElem?_set_self (by omega), Finset.sum_range_succ])
          have hu : uo r (k + 1) + (r (k + 1) + col * r (k + 1))
              = uo r (k + 1) + (col + 1) * r (k + 1) := by ring
          rw [hu] at b1 b2
          refine ⟨t, ht, b1, b2, b3, b4, b5, ?_⟩
          intro c hc'
          by_cases hcc : c = col
          · subst hcc; rw [b7]; rfl
          · exact b6 c (by omega))
      have hu : uo r (k + 1) + r (k + 1 + 1) * r (k + 1) = uo r (k + 1 + 1) := by
        rw [uo_succ r (k + 1)]; ring
      rw [hu] at t1 t2
      rw [ht, bind_ok]
      exact ⟨_, rfl, ⟨t1, t2, t3, t6⟩, by dsimp only; rw [t4]; exact hmo.symm⟩)
  rw [hs2, bind_ok, hind]
  have := hEI.mem 0 (by rw [show F.dim - 1 + 1 = F.dim by omega, hL.last]; omega)
  rw [show F.dim - 1 + 1 = F.dim by omega, Nat.add_zero] at this
  rw [rd_of_getElem? this]
  rfl

/-! ### One dimension -/

/-- What `ft_param_gradeval` does for a function of one variable: the value is right but every
gradient entry is multiplied by the value, because the workspace read as "product of the cores to
the right" still holds the product of all cores.  (parameterization.c:1145-1165) -/
theorem gradeval_dim_one_actual (hL : Lay F r np) (h1 : F.dim = 1) (ge : U → K → K × List K)
    (x : List K) (hge : Reports F r np ge x e gr) (grad gev mem evals : List K)
    (hg : F.nparams ≤ grad.length) (hgev : F.nparams ≤ gev.length)
    (hm : 1 ≤ mem.length) (he : 1 ≤ evals.length) :
    ∃ R, gradeval F ge x grad gev mem evals = .ok R ∧ R.out = e 0 ∧
      ∀ l, l < np 0 → R.grad[l]? = some (gr l * e 0) := by
  rw [hL.nparams] at hg hgev
  have hr1 : r 1 = 1 := by have := hL.last; rwa [h1] at this
  have hu1 : uo r 1 = 1 := by simp [uo, hL.first, hr1]
  have hud : uo r F.dim = 1 := by rw [h1]; exact hu1
  have hmd : mo r F.dim = 1 := by rw [h1]; simp [mo, hr1]
  obtain ⟨f, hf, ⟨f1, f2, f3, f4, f5, f6, f7⟩, find⟩ := forward_ok hL
    (evNonlin_ok (e := e) ge x gr gev.length hgev hge) mem evals gev (by omega) (by omega)
    ⟨rfl, fun p hp => by simp [po] at hp⟩
  have hm0 := f7 0 (by omega) 0 (by rw [Nat.zero_add, hr1]; omega)
  have hl1 : lft r e (0 + 1) 0 = e 0 := by simp [lft, hL.first, uo]
  rw [hl1, show mo r 0 + 0 = 0 by simp [mo]] at hm0
  have hind : f.indmem = 0 := by rw [find, h1]; simp [mo]
  obtain ⟨s', hs', hGI, hmem⟩ := bwFirst_ok (gr := gr) hL (gev := f.gev) f3.2 f.mem grad hg
    (fun _ => e 0) (fun c hc => by
      obtain rfl : c = 0 := by omega
      exact hm0)
  refine ⟨⟨e 0, s'.grad, f.gev, s'.mem, f.evals⟩, ?_, rfl, ?_⟩
  · rw [gradeval, gradGen, rd_of_getElem? (hL.ranks 0 (by omega)), bind_ok, cassert,
      if_pos (decide_eq_true hL.first), bind_ok, hf, bind_ok, hind, rd_of_getElem? hm0, bind_ok,
      backward, h1, Nat.sub_self, forN_zero, bind_ok, f1, f2, hud, ← hu1, hs', bind_ok]
  · intro l hl
    have := hGI.done 0 (by omega) l (by simpa using hl)
    simpa [po] using this

/-- **Counterexample.** The claim "the gradient buffer holds the derivative of the returned value"
fails in one dimension: for the train consisting of the single function `θ ↦ θ` (a constant) at
`θ = 3`, the value is 3 and the gradient entry is 3 instead of 1. -/
theorem gradeval_dim_one_counterexample :
    ∃ (F : FTP ℤ Unit) (r np : Nat → Nat), Lay F r np ∧ F.params = [3] ∧
      ∃ R, gradeval F (fun _ _ => (3, [1])) [0] [0] [0] [0] [0] = .ok R ∧
        R.out = 3 ∧ R.grad = [3] := by
  refine ⟨⟨1, [1, 1], [1], [1], 1, [3], [[()]]⟩, fun _ => 1, fun _ => 1, ⟨by simp, ?_, ?_, ?_, rfl,
    rfl, by decide⟩, rfl, _, rfl, rfl, rfl⟩
  · intro k hk
    dsimp only at hk
    interval_cases k <;> rfl
  · intro u hu
    have : u < 1 := by simpa [uo] using hu
    interval_cases u; rfl
  · intro k hk
    dsimp only at hk
    interval_cases k; rfl

/-! ### Instances of the hypotheses -/

/-- A train of two dimensions with ranks 1, 2, 1 and two parameters per function. -/
noncomputable def exF : FTP ℝ Nat :=
  ⟨2, [1, 2, 1], [2, 2, 2, 2], [4, 4], 8, [1, 2, 3, 4, 5, 6, 7, 8], [[0, 1], [2, 3]]⟩

def exR (k : Nat) : Nat := if k = 1 then 2 else 1

theorem exF_lay : Lay exF exR (fun _ => 2) := by
  refine ⟨by simp [exF], ?_, ?_, ?_, rfl, rfl, by decide⟩
  · intro k hk
    have hk' : k ≤ 2 := hk
    interval_cases k <;> rfl
  · intro u hu
    have : u < 4 := hu
    interval_cases u <;> rfl
  · intro k hk
    have hk' : k < 2 := hk
    interval_cases k <;> rfl

example (gev : List ℝ) (h : gev.length = 8) :
    ∃ R, gradevalLin exF gev (List.replicate 8 0) (List.replicate 3 0) (List.replicate 4 0)
      = .ok R :=
  Exists.imp (fun _ h => h.1) <| gradevalLin_hasDerivAt_partial exF_lay (by simp [exF]) gev _ _ _ (by simp [exF])
    (by simp [exF]) (by simp [exF, h]) (by simp [exF, mo, exR, Finset.sum_range_succ])
    (by simp [exF, uo, exR, Finset.sum_range_succ])

/-- Functions linear in the parameters with basis `1, x` satisfy the contract of
`gradeval_hasDerivAt_partial`. -/
theorem exF_reports (x0 x1 : ℝ) :
    Reports exF exR (fun _ => 2)
      (fun u x => (exF.params.getD (2 * u) 0 + x * exF.params.getD (2 * u + 1) 0, [1, x]))
      [x0, x1]
      (fun u => linFam (fun _ => 2) (fun p => [1, x0, 1, x0, 1, x1, 1, x1].getD p 0) u
        (fun p => exF.params.getD p 0))
      (fun p => [1, x0, 1, x0, 1, x1, 1, x1].getD p 0) := by
  intro k hk j hj
  have hk' : k < 2 := hk
  interval_cases k
  · have hj' : j < 2 := hj
    interval_cases j
    · refine ⟨_, _, _, rfl, rfl, rfl, ?_, rfl, ?_⟩
      · simp [linFam, uo, po, exF, Finset.sum_range_succ]
      · intro l hl; interval_cases l <;> rfl
    · refine ⟨_, _, _, rfl, rfl, rfl, ?_, rfl, ?_⟩
      · simp [linFam, uo, po, exF, Finset.sum_range_succ]
      · intro l hl; interval_cases l <;> rfl
  · have hj' : j < 2 := hj
    interval_cases j
    · refine ⟨_, _, _, rfl, rfl, rfl, ?_, rfl, ?_⟩
      · simp [linFam, uo, po, exF, exR, Finset.sum_range_succ]
      · intro l hl; interval_cases l <;> rfl
    · refine ⟨_, _, _, rfl, rfl, rfl, ?_, rfl, ?_⟩
      · simp [linFam, uo, po, exF, exR, Finset.sum_range_succ]
      · intro l hl; interval_cases l <;> rfl

end C3.Sl
