/-
C99: alternating least squares.  Every problem the run hands to the optimizer is the exact
restriction of the full problem to the active core, and the objective never goes up.
-/
import Verif.Sl.AlsRun
import Mathlib.Tactic.IntervalCases

namespace C3.Sl

variable {K U : Type} [CommRing K]
variable {r np : Nat → Nat}

/-- Sum over the parameters of consecutive functions, block by block. -/
theorem sum_blocks (np : Nat → Nat) (b : Nat) (f : Nat → K) (n : Nat) :
    ∑ j ∈ Finset.range (po np (b + n) - po np b), f j
      = ∑ w ∈ Finset.range n, ∑ l ∈ Finset.range (np (b + w)), f (po np (b + w) - po np b + l) := by
  induction n with
  | zero => simp
  | succ n ih =>
    have h1 := po_mono np (show b ≤ b + n by omega)
    rw [Finset.sum_range_succ, ← ih, show b + (n + 1) = b + n + 1 by omega, po_succ,
      show po np (b + n) + np (b + n) - po np b = (po np (b + n) - po np b) + np (b + n) by omega,
      Finset.sum_range_add]

theorem mult_repl {c d : Nat} {p0 p q : List K} (h : Repl r np c p0 p q) (hc : c < d)
    (gev : List K) (w : Nat) (hw : w < r c * r (c + 1)) :
    mult r (linE np gev q) d c w = mult r (linE np gev p0) d c w := by
  have hr : 0 < r c := by
    rcases Nat.eq_zero_or_pos (r c) with h0 | h0
    · rw [h0, Nat.zero_mul] at hw; omega
    · exact h0
  rw [mult, mult, lft_congr r (linE np gev q) (linE np gev p0) c
      (fun u hu => repl_linE h gev u (.inl hu)) _ (Nat.mod_lt _ hr),
    rgt_congr r (linE np gev q) (linE np gev p0) d (d - (c + 1)) (by omega)
      (fun u hu => repl_linE h gev u (.inr (by rwa [show d - (d - (c + 1)) = c + 1 by omega] at hu)))]

/-- The coefficients of the predictions in terms of the parameters of the active core. -/
def Coef (r np : Nat → Nat) (d c : Nat) (gev p0 : List K) (G : Nat → K) : Prop :=
  ∀ w, w < r c * r (c + 1) → ∀ l, l < np (uo r c + w) →
    G (po np (uo r c + w) - po np (uo r c) + l)
      = mult r (linE np gev p0) d c w * gev.getD (po np (uo r c + w) + l) 0

theorem coef_value {d c : Nat} {gev p0 p q : List K} {G : Nat → K} (hd : r d = 1) (hc : c < d)
    (hG : Coef r np d c gev p0 G) (h : Repl r np c p0 p q) :
    trainVal r (linE np gev q) d = ∑ j ∈ Finset.range (cn r np c), G j * p.getD j 0 := by
  rw [← value_mult r (linE np gev q) d c hd hc, cn, uo_succ, sum_blocks]
  refine Finset.sum_congr rfl (fun w hw => ?_)
  have hw' := Finset.mem_range.1 hw
  rw [linE, Finset.sum_mul]
  refine Finset.sum_congr rfl (fun l hl => ?_)
  have hl' := Finset.mem_range.1 hl
  have h1 := po_mono np (show uo r c ≤ uo r c + w by omega)
  have h2 := po_mono np (show uo r c + w + 1 ≤ uo r (c + 1) by rw [uo_succ]; omega)
  rw [po_succ] at h2
  have h3 := h.2.1 (po np (uo r c + w) - po np (uo r c) + l) (by rw [cn]; omega)
  rw [show po np (uo r c) + (po np (uo r c + w) - po np (uo r c) + l) = po np (uo r c + w) + l by
    omega] at h3
  rw [hG w hw' l hl', mult_repl h hc gev w hw', List.getD_eq_getElem?_getD (l := q), h3,
    List.getD_eq_getElem?_getD (l := p)]
  ring

/-- The predictions of the train for the parameters `q`. -/
def preds (r np : Nat → Nat) (cf : Cfg K) (q : List K) : List K :=
  (List.range cf.N).map (fun i => trainVal r (linE np (cf.gevs.getD i []) q) cf.d)

/-- A problem handed to the optimizer is the exact restriction of the full problem: for *every*
candidate `p` for the parameters of the active core the predictions computed from the stored products
are those of the whole train with `p` in place. -/
theorem alsEval_exact {cf : Cfg K} {q0 : FTP K U × Nat × List (List K) × List (List K)}
    (h2 : 2 ≤ cf.d) (hgl : cf.gevs.length = cf.N)
    (hgev : ∀ i, i < cf.N → po np (uo r cf.d) ≤ (cf.gevs.getD i []).length)
    (h : CallOk r np cf q0) (p : List K) (hp : p.length = cn r np q0.2.1) :
    ∃ q, updateCore q0.1 q0.2.1 p = .ok { q0.1 with params := q } ∧
      Repl r np q0.2.1 q0.1.params p q ∧
      alsEval cf.N cf.gevs q0.1 q0.2.1 q0.2.2.1 q0.2.2.2 p = .ok (preds r np cf q) := by
  obtain ⟨F, c, A, B⟩ := q0
  obtain ⟨hd, hc, hL, hpar, hrows⟩ := h
  dsimp only at hd hc hL hpar hrows hp ⊢
  obtain ⟨q, hq, hrep⟩ := updateCore_ok hL hpar c (by omega) p hp
  refine ⟨q, hq, hrep, ?_⟩
  rw [alsEval, hq, bind_ok]
  have := forN_fill_all (n := cf.N) (a := List.replicate cf.N (0 : K))
    (fun i => trainVal r (linE np (cf.gevs.getD i []) q) cf.d)
    (body := fun ii ev => do
      let a ← rd A ii
      let b ← rd B ii
      let g ← rd cf.gevs ii
      let v ← coreEvalLin { F with params := q } c (some a) (some b) g
      wr ev ii v) (by simp) (by
      intro i hi ev hev
      obtain ⟨a, b, ha, hb, har⟩ := hrows i hi
      rw [rd_of_getElem? ha, bind_ok, rd_of_getElem? hb, bind_ok,
        rd_getD [] (show i < cf.gevs.length by omega), bind_ok]
      have hpar' : F.nparams ≤ q.length := by rw [hrep.1]; exact hpar
      have hg : F.nparams ≤ (cf.gevs.getD i []).length := by
        rw [hL.nparams, hd]; exact hgev i hi
      have := coreEvalLin_ok (hL.withParams q) (by dsimp only; omega) hg hpar' c
        (by dsimp only; omega) (some a) (some b)
        (by dsimp only; rw [hd]; exact around_repl hrep hc _ har)
      dsimp only at this
      rw [this, bind_ok, hd])
  exact this

/-- The gradients handed to the optimizer are exact too: there are coefficients, independent of the
candidate, with which every prediction is the linear form `∑ G i j * p j` of the candidate, and the
returned gradient of prediction `i` consists of these coefficients. -/
theorem alsEvalGrad_exact {cf : Cfg K} {q0 : FTP K U × Nat × List (List K) × List (List K)}
    (h2 : 2 ≤ cf.d) (hgl : cf.gevs.length = cf.N)
    (hgev : ∀ i, i < cf.N → po np (uo r cf.d) ≤ (cf.gevs.getD i []).length)
    (h : CallOk r np cf q0) :
    ∃ G : Nat → Nat → K, ∀ p, p.length = cn r np q0.2.1 → ∀ grads : List (List K),
      grads.length = cf.N → (∀ i, i < cf.N → (grads.getD i []).length = cn r np q0.2.1) →
      ∃ q gs, Repl r np q0.2.1 q0.1.params p q ∧
        alsEvalGrad cf.N cf.gevs q0.1 q0.2.1 q0.2.2.1 q0.2.2.2 p grads
          = .ok (preds r np cf q, gs) ∧
        gs.length = cf.N ∧
        ∀ i, i < cf.N →
          gs[i]? = some ((List.range (cn r np q0.2.1)).map (G i)) ∧
          trainVal r (linE np (cf.gevs.getD i []) q) cf.d
            = ∑ j ∈ Finset.range (cn r np q0.2.1), G i j * p.getD j 0 := by
  obtain ⟨F, c, A, B⟩ := q0
  obtain ⟨hd, hc, hL, hpar, hrows⟩ := h
  dsimp only at hd hc hL hpar hrows ⊢
  have hlast : r cf.d = 1 := by rw [← hd]; exact hL.last
  have hlen0 : ∀ i, i < cf.N → F.nparams ≤ (cf.gevs.getD i []).length := by
    intro i hi; rw [hL.nparams, hd]; exact hgev i hi
  obtain ⟨hcn, hcn'⟩ := cn_le (r := r) (np := np) c cf.d hc
  -- the coefficients: gradient at the current parameters
  have hex : ∀ i, i < cf.N → ∃ G : Nat → K,
      Coef r np cf.d c (cf.gevs.getD i []) F.params G := by
    intro i hi
    obtain ⟨a, b, ha, hb, har⟩ := hrows i hi
    obtain ⟨g, _, _, hg⟩ := coreGradLin_ok hL (by omega) (hlen0 i hi) hpar c (by omega) (some a)
      (some b) (by rw [hd]; exact har) (List.replicate (cn r np c) 0) (by simp [cn])
    refine ⟨fun j => g.getD j 0, fun w hw l hl => ?_⟩
    have := hg w hw l hl
    dsimp only
    rw [List.getD_eq_getElem?_getD, this, hd]
    rfl
  classical
  refine ⟨fun i => if hi : i < cf.N then (hex i hi).choose else fun _ => 0, ?_⟩
  intro p hp grads hgr hgr'
  obtain ⟨q, hq, hrep⟩ := updateCore_ok hL hpar c (by omega) p hp
  have hcoef : ∀ i (hi : i < cf.N), Coef r np cf.d c (cf.gevs.getD i []) F.params
      ((fun i => if hi : i < cf.N then (hex i hi).choose else fun _ => 0) i) := by
    intro i hi
    dsimp only
    rw [dif_pos hi]
    exact (hex i hi).choose_spec
  set G : Nat → Nat → K := fun i => if hi : i < cf.N then (hex i hi).choose else fun _ => 0 with hGdef
  clear_value G
  obtain ⟨s, hs, s1, s2, s3, s4, s5⟩ := forN_spec
    (I := fun ii (ev : List K × List (List K)) => ev.1.length = cf.N ∧ ev.2.length = cf.N ∧
      (∀ i, i < ii → ev.1[i]? = some (trainVal r (linE np (cf.gevs.getD i []) q) cf.d)) ∧
      (∀ i, i < ii → ev.2[i]? = some ((List.range (cn r np c)).map (G i))) ∧
      ∀ i, ii ≤ i → ev.2[i]? = grads[i]?)
    (n := cf.N) (s := (List.replicate cf.N 0, grads))
    (body := fun ii (ev : List K × List (List K)) => do
      let a ← rd A ii
      let b ← rd B ii
      let g ← rd cf.gevs ii
      let gr ← rd ev.2 ii
      let v ← coreGradLin { F with params := q } c gr (some a) (some b) g
      let e ← wr ev.1 ii v.1
      let gs ← wr ev.2 ii v.2
      .ok (e, gs))
    ⟨by simp, hgr, fun i hi => absurd hi (Nat.not_lt_zero i),
      fun i hi => absurd hi (Nat.not_lt_zero i), fun _ _ => rfl⟩ (by
      intro i hi ⟨e, gs⟩ ⟨e1, e2, e3, e4, e5⟩
      dsimp only at e1 e2 e3 e4 e5
      obtain ⟨a, b, ha, hb, har⟩ := hrows i hi
      have hgi : gs[i]? = some (grads.getD i []) := by
        rw [e5 i (Nat.le_refl i), List.getElem?_eq_getElem (by omega)]
        simp [show i < grads.length by omega]
      have hpar' : F.nparams ≤ q.length := by rw [hrep.1]; exact hpar
      have hlen : (grads.getD i []).length = cn r np c := hgr' i hi
      obtain ⟨g, hg, hgl', hgv⟩ := coreGradLin_ok (hL.withParams q) (by dsimp only; omega)
        (hlen0 i hi) hpar' c (by dsimp only; omega) (some a) (some b)
        (by dsimp only; rw [hd]; exact around_repl hrep hc _ har) (grads.getD i [])
        (by rw [hlen, cn])
      dsimp only at hg hgv
      rw [hd] at hgv
      have hg' : coreGradLin { F with params := q } c (grads.getD i []) (some a) (some b)
          (cf.gevs.getD i []) = .ok (trainVal r (linE np (cf.gevs.getD i []) q) cf.d, g) := by
        rw [← hd]; exact hg
      have hgeq : g = (List.range (cn r np c)).map (G i) := by
        refine List.ext_getElem? (fun j => ?_)
        by_cases hj : j < cn r np c
        · -- locate `j` in its block
          have hsp := po_split np (uo r c + r c * r (c + 1)) (po np (uo r c) + j)
            (by rw [← uo_succ]; omega)
          obtain ⟨u, l, hu, hl, hul⟩ := hsp
          have huc : uo r c ≤ u := by
            by_contra hlt
            have := po_mono np (show u + 1 ≤ uo r c by omega)
            rw [po_succ] at this
            omega
          have h0 := po_mono np huc
          have h1 := hgv (u - uo r c) (by omega) l (by
            rw [show uo r c + (u - uo r c) = u by omega]; exact hl)
          rw [show uo r c + (u - uo r c) = u by omega,
            show po np u - po np (uo r c) + l = j by omega] at h1
          have h2 := hcoef i hi (u - uo r c) (by omega) l (by
            rw [show uo r c + (u - uo r c) = u by omega]; exact hl)
          rw [show uo r c + (u - uo r c) = u by omega,
            show po np u - po np (uo r c) + l = j by omega] at h2
          rw [h1, mult_repl hrep hc _ _ (by omega), ← h2]
          simp [hj]
        · rw [List.getElem?_eq_none (by omega), List.getElem?_eq_none (by simp; omega)]
      refine ⟨(e.set i (trainVal r (linE np (cf.gevs.getD i []) q) cf.d), gs.set i g), ?_,
        by simp [e1], by simp [e2], ?_, ?_, ?_⟩
      · rw [rd_of_getElem? ha, bind_ok, rd_of_getElem? hb, bind_ok,
          rd_getD [] (show i < cf.gevs.length by omega), bind_ok, rd_of_getElem? hgi, bind_ok,
          hg', bind_ok, wr_ok _ (show i < e.length by omega), bind_ok,
          wr_ok _ (show i < gs.length by omega), bind_ok]
      · intro k hk
        dsimp only
        by_cases hki : k = i
        · subst hki; rw [List.getElem?_set_self (by omega)]
        · rw [List.getElem?_set_ne (by omega)]; exact e3 k (by omega)
      · intro k hk
        dsimp only
        by_cases hki : k = i
        · subst hki; rw [List.getElem?_set_self (by omega), hgeq]
        · rw [List.getElem?_set_ne (by omega)]; exact e4 k (by omega)
      · intro k hk
        dsimp only
        rw [List.getElem?_set_ne (by omega)]; exact e5 k (by omega))
  have he : s.1 = preds r np cf q := by
    refine List.ext_getElem? (fun j => ?_)
    by_cases hj : j < cf.N
    · rw [s3 j hj]; simp [preds, hj]
    · rw [List.getElem?_eq_none (by omega), List.getElem?_eq_none (by simp [preds]; omega)]
  refine ⟨q, s.2, hrep, by rw [alsEvalGrad, hq, bind_ok, hs, ← he], s2, fun i hi => ⟨s4 i hi, ?_⟩⟩
  exact coef_value hlast hc (hcoef i hi) hrep

/-- Starting state of a run: the parameterised train, running products of the right sizes (any
content), nothing recorded. -/
structure Start (r np : Nat → Nat) (cf : Cfg K) (s : Als K U) : Prop where
  sh : Shape r np cf s
  calls : s.calls = []

/-- Every problem handed to the optimizer during the whole run of alternating least squares is exact,
whatever the optimizer returns and however many sweeps are made.  Missing for the full claim: trains
of one dimension (`alsRun_dim_one_actual`), nonlinear parameterisations, minibatches. -/
theorem alsRun_exact_partial {cf : Cfg K} {opt : Optm K U} {conv : FTP K U → FTP K U → Bool}
    {maxSweeps : Nat} (hopt : ∀ F c A B g, (opt F c A B g).length = g.length) {s : Als K U}
    (h : Start r np cf s) :
    ∃ s', alsRun opt conv cf.N cf.gevs maxSweeps s = .ok s' ∧ Lay s'.F r np ∧
      s'.F.dim = cf.d ∧ s'.F.nparams ≤ s'.F.params.length ∧
      ∀ call ∈ s'.calls, ∀ p, p.length = cn r np call.2.1 →
        ∃ q, updateCore call.1 call.2.1 p = .ok { call.1 with params := q } ∧
          alsEval cf.N cf.gevs call.1 call.2.1 call.2.2.1 call.2.2.2 p
            = .ok (preds r np cf q) := by
  obtain ⟨s', hs, hI⟩ := alsRun_inv (r := r) (np := np) (ob := fun _ => True) (conv := conv)
    (maxSweeps := maxSweeps) hopt (fun _ _ _ _ _ _ _ _ _ _ _ => trivial)
    (s := s) ⟨⟨h.sh, fun c hc => absurd hc (Nat.not_lt_zero c), fun c hc hc' => by omega⟩,
      by rw [h.calls]; simp, trivial⟩
  refine ⟨s', hs, hI.ai.sh.lay, hI.ai.sh.dim, hI.ai.sh.par, ?_⟩
  intro call hcall p hp
  obtain ⟨q, h1, _, h3⟩ := alsEval_exact h.sh.two h.sh.gl h.sh.gev (hI.calls call hcall) p hp
  exact ⟨q, h1, h3⟩

/-- If the optimizer never returns parameters with a larger objective than its initial guess - the
objective being any function of the predictions it is shown - then the objective of the final train
is at most that of the initial one.  Missing for the full claim: as in `alsRun_exact_partial`, and
regularisation terms. -/
theorem alsRun_monotone_partial {L : Type} [Preorder L] {cf : Cfg K} {opt : Optm K U}
    {conv : FTP K U → FTP K U → Bool} {maxSweeps : Nat} (obj : List K → L)
    (hopt : ∀ F c A B g, (opt F c A B g).length = g.length)
    (hdec : ∀ F c A B g v0 v1, alsEval cf.N cf.gevs F c A B g = .ok v0 →
      alsEval cf.N cf.gevs F c A B (opt F c A B g) = .ok v1 → obj v1 ≤ obj v0)
    {s : Als K U} (h : Start r np cf s) :
    ∃ s', alsRun opt conv cf.N cf.gevs maxSweeps s = .ok s' ∧
      obj (preds r np cf s'.F.params) ≤ obj (preds r np cf s.F.params) := by
  obtain ⟨s', hs, hI⟩ := alsRun_inv (r := r) (np := np)
    (ob := fun q => obj (preds r np cf q) ≤ obj (preds r np cf s.F.params)) (conv := conv)
    (maxSweeps := maxSweeps) hopt (by
      intro F c A B g q hcall hgl hgv hrep hob
      obtain ⟨q0, h1, h2, h3⟩ := alsEval_exact h.sh.two h.sh.gl h.sh.gev hcall g hgl
      obtain ⟨q1, h4, h5, h6⟩ := alsEval_exact h.sh.two h.sh.gl h.sh.gev hcall
        (opt F c A B g) (by rw [hopt]; exact hgl)
      dsimp only at h1 h2 h3 h4 h5 h6
      have hpl : po np (uo r cf.d) ≤ F.params.length := by
        have := hcall.par
        dsimp only at this
        rw [hcall.lay.nparams, hcall.dim] at this
        exact this
      have hq0 : q0 = F.params := repl_self hcall.core hpl hgv h2
      have hq1 : q1 = q := by
        refine List.ext_getElem? (fun j => ?_)
        by_cases hj : j < po np (uo r c) ∨ po np (uo r (c + 1)) ≤ j
        · rw [h5.2.2 j hj, hrep.2.2 j hj]
        · obtain ⟨hcn, _⟩ := cn_le (r := r) (np := np) c cf.d hcall.core
          have e1 := h5.2.1 (j - po np (uo r c)) (by omega)
          have e2 := hrep.2.1 (j - po np (uo r c)) (by omega)
          rw [show po np (uo r c) + (j - po np (uo r c)) = j by omega] at e1 e2
          rw [e1, e2]
      subst hq1
      rw [hq0] at h3
      exact le_trans (hdec F c A B g _ _ h3 h6) hob)
    (s := s) ⟨⟨h.sh, fun c hc => absurd hc (Nat.not_lt_zero c), fun c hc hc' => by omega⟩,
      by rw [h.calls]; simp, le_refl _⟩
  exact ⟨s', hs, hI.ob⟩

/-- In one dimension the initialisation of alternating least squares runs out of its arrays:
`zz = dim-2` wraps around. -/
theorem alsRun_dim_one_actual (opt : Optm K U) (conv : FTP K U → FTP K U → Bool) (maxSweeps : Nat)
    (gevs : List (List K)) (s : Als K U) (h : s.F.dim = 1) (s' : Als K U) :
    alsRun opt conv 0 gevs maxSweeps s ≠ .ok s' := by
  intro hc
  have : alsInit 0 gevs s = .error .oob := by
    rw [alsInit, rlAll, forN_zero, bind_ok, h]
    rfl
  rw [alsRun, this] at hc
  cases hc

/-- A run with two points on the train `exF`. -/
noncomputable def exA : Als ℝ Nat :=
  ⟨exF, [[[0, 0], [0, 0]], [[0], [0]]], [[[0], [0]], [[0, 0], [0, 0]]], []⟩

theorem exA_start (g0 g1 : List ℝ) (h0 : g0.length = 8) (h1 : g1.length = 8) :
    Start exR (fun _ => 2) ⟨2, 2, [g0, g1]⟩ exA := by
  refine ⟨⟨rfl, Nat.le_refl 2, exF_lay, by simp [exA, exF], rfl, ?_, rfl, rfl, ?_, ?_⟩, rfl⟩
  · intro i hi
    have hi' : i < 2 := hi
    have h8 : po (fun _ => 2) (uo exR 2) = 8 := by decide
    interval_cases i
    · simpa [h8] using h0.ge
    · simpa [h8] using h1.ge
  · intro c hc i hi
    have hc' : c < 2 := hc
    have hi' : i < 2 := hi
    interval_cases c <;> interval_cases i <;> exact ⟨_, rfl, by simp [exR]⟩
  · intro c hc i hi
    have hc' : c < 2 := hc
    have hi' : i < 2 := hi
    interval_cases c <;> interval_cases i <;> exact ⟨_, rfl, by simp [exR]⟩

example (g0 g1 : List ℝ) (h0 : g0.length = 8) (h1 : g1.length = 8) (opt : Optm ℝ Nat)
    (hopt : ∀ F c A B g, (opt F c A B g).length = g.length) :
    ∃ s', alsRun opt (fun _ _ => false) 2 [g0, g1] 5 exA = .ok s' :=
  Exists.imp (fun _ h => h.1) <| alsRun_exact_partial (conv := fun _ _ => false) (maxSweeps := 5)
    hopt (exA_start g0 g1 h0 h1)

end C3.Sl
