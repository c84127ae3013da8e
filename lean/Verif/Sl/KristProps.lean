/-
C137: a regression run never leaves a worse fit than it started from, and with Kristoffel weighting the quantity it minimises is
the least squares loss weighted by the inverse squares of the Kristoffel weights, for the train without weighting.
-/
import Verif.Sl.KristModel
import Verif.Sl.AioProps
import Verif.Core.FillV
import Mathlib.Algebra.BigOperators.Field

namespace C3.Sl
open Finset

/-! ## Specification -/

section Spec
variable {U : Type}

/-- Weight of the point `z`. -/
def wgt (W : Nat → ℝ → ℝ) (d : Nat) (z : Nat → ℝ) : ℝ := ∏ k ∈ range d, W k (z k)

/-- Point `i` of the data. -/
def pnt (x : List ℝ) (d i : Nat) : Nat → ℝ := fun c => x.getD (i * d + c) 0

/-- Mean of the squared residuals, each divided by the weight of its point. -/
noncomputable def wLoss (r np : Nat → Nat) (B : Nat → ℝ → Nat → ℝ) (W : Nat → ℝ → ℝ) (d N : Nat) (x y p : List ℝ) : ℝ :=
  (∑ i ∈ range N, ((y.getD i 0 - trainFn r np B p (pnt x d i) d) / wgt W d (pnt x d i)) ^ 2) / N

/-- The functions of the train are polynomials with the basis functions `B`, and all functions of core `k` have the weight `W k`. -/
structure KTrain (F : FTP ℝ (KU U)) (r np : Nat → Nat) (wt : U → ℝ → ℝ) (bas : U → ℝ → List ℝ) (B : Nat → ℝ → Nat → ℝ)
    (W : Nat → ℝ → ℝ) : Prop where
  len : F.cores.length = F.dim
  core : ∀ k, k < F.dim → ∃ core, F.cores[k]? = some core ∧ core.length = r k * r (k + 1) ∧ ∀ j, j < r k * r (k + 1) →
    ∃ u, core[j]? = some u ∧ u.poly = true ∧ (∀ x, bas u.f x = (List.range (np (uo r k + j))).map (B (uo r k + j) x)) ∧
      ∀ x, wt u.f x = W k x

/-- The optimizer ends without failure at parameters that are not worse than the first guess, for every objective that has the
values `J`, reports its partial derivatives and keeps `Inv` true of the state. -/
def Descends {S : Type} (solve : Solver ℝ S) : Prop :=
  ∀ (n : Nat) (J : List ℝ → ℝ) (Inv : S → Prop) (obj : List ℝ → Option (List ℝ) → S → C (ℝ × Option (List ℝ) × S)) (p0 : List ℝ)
    (s0 : S), p0.length = n → Inv s0 →
    (∀ p s, p.length = n → Inv s → (∃ s', obj p none s = .ok (J p, none, s') ∧ Inv s') ∧
      ∀ buf : List ℝ, buf.length = n → ∃ g s', obj p (some buf) s = .ok (J p, some g, s') ∧ Inv s' ∧ g.length = n ∧
        ∀ j < n, HasDerivAt (fun t => J (p.set j t)) (g.getD j 0) (p.getD j 0)) →
    ∃ res p s, solve obj p0 s0 = .ok (res, p, s) ∧ p.length = n ∧ Inv s ∧ J p ≤ J p0

/-- What is given with a regression problem: tables, parameters, at least two variables, positive ranks, at least one parameter for each
function, and data. -/
structure Given (F : FTP ℝ U) (r np : Nat → Nat) (N : Nat) (x y : List ℝ) : Prop where
  lay : Lay F r np
  dim : 2 ≤ F.dim
  par : F.params.length = F.nparams
  rpos : ∀ k, 0 < r k
  npos : ∀ u, 0 < np u
  data : 0 < N
  xs : N * F.dim ≤ x.length
  ys : y.length = N

end Spec

/-! ## Proofs -/

section Proofs
variable {U : Type} {r np : Nat → Nat}

theorem mapC_ok {α β : Type} {f : α → C β} {g : α → β} : ∀ {l : List α}, (∀ a ∈ l, f a = .ok (g a)) → mapC f l = .ok (l.map g)
  | [], _ => rfl
  | a :: l, h => by
    rw [mapC, h a (by simp), bind_ok, mapC_ok (fun b hb => h b (by simp [hb])), bind_ok]; rfl

theorem po_ge (hn : ∀ u, 0 < np u) (u : Nat) : u ≤ po np u := by
  induction u with
  | zero => omega
  | succ u ih => rw [po_succ]; have := hn u; omega

theorem mo_le_uo (hr : ∀ k, 0 < r k) (k : Nat) : mo r k ≤ uo r k := by
  induction k with
  | zero => simp [mo, uo]
  | succ k ih =>
    rw [mo_succ, uo_succ]
    have := Nat.le_mul_of_pos_left (r (k + 1)) (hr k)
    omega

theorem lay_params {F : FTP ℝ U} (h : Lay F r np) (q : List ℝ) : Lay { F with params := q } r np :=
  ⟨h.dim_pos, h.ranks, h.npu, h.npc, h.first, h.last, h.nparams⟩

theorem initGuess_ok {F : FTP ℝ U} (h : F.params.length = F.nparams) : initGuess F = .ok F.params := by
  have := updateParams_ok (K := ℝ) (F := { F with params := List.replicate F.nparams (0 : ℝ) }) (by simp) F.params h
  rw [updateParams] at this
  rw [initGuess]
  rcases hq : forN F.nparams (fun i b => do
    let v ← rd F.params i
    wr b i v) (List.replicate F.nparams 0) with e | q
  · simp only [hq] at this; cases this
  · simp only [hq, bind_ok, Except.ok.injEq, FTP.mk.injEq, true_and, and_true] at this
    rw [this]

/-- The objective with the precomputed basis values, in any state of the train. -/
theorem obj_ok {F : FTP ℝ U} {N : Nat} {x y : List ℝ} (h : Given F r np N x y) {bas : U → ℝ → List ℝ} {B : Nat → ℝ → Nat → ℝ}
    (hB : Basis F r np bas B) :
    ∃ lin, preCompute F bas N x (List.replicate (N * F.nparams) 0) = .ok lin ∧
      ∀ p s, p.length = F.nparams → (∃ q, q.length = F.nparams ∧ s = { F with params := q }) →
        (∃ s', objBatch (buildLS (lsObj F.nparams (aioMap lin (List.replicate (2 * F.nparams) 0)
            (List.replicate (2 * F.nparams) 0) (List.replicate (N * F.nparams) 0)) y none)) F.nparams N p none s
              = .ok (wLoss r np B (fun _ _ => 1) F.dim N x y p, none, s') ∧ ∃ q, q.length = F.nparams ∧ s' = { F with params := q }) ∧
        ∀ buf : List ℝ, buf.length = F.nparams → ∃ g s', objBatch (buildLS (lsObj F.nparams (aioMap lin (List.replicate (2 * F.nparams) 0)
            (List.replicate (2 * F.nparams) 0) (List.replicate (N * F.nparams) 0)) y none)) F.nparams N p (some buf) s
              = .ok (wLoss r np B (fun _ _ => 1) F.dim N x y p, some g, s') ∧ (∃ q, q.length = F.nparams ∧ s' = { F with params := q }) ∧
          g.length = F.nparams ∧ ∀ j < F.nparams, HasDerivAt (fun t => wLoss r np B (fun _ _ => 1) F.dim N x y (p.set j t))
            (g.getD j 0) (p.getD j 0) := by
  obtain ⟨lin, hlin, hlen, hval⟩ := preCompute_ok h.lay hB (lin := List.replicate (N * F.nparams) 0) h.xs (by simp)
  refine ⟨lin, hlin, ?_⟩
  rw [List.length_replicate] at hlen
  rintro p s hp ⟨q, hq, rfl⟩
  have hnp : F.nparams = po np (uo r F.dim) := h.lay.nparams
  have hu : uo r F.dim ≤ F.nparams := by rw [hnp]; exact po_ge h.npos _
  have hmo : mo r F.dim ≤ F.nparams := le_trans (mo_le_uo h.rpos _) hu
  have hb : BatchOk y (none : Option (List ℝ)) N none := fun ii hi =>
    ⟨fun l hl => (by cases hl), by rw [h.ys]; exact hi, fun l hl => (by cases hl)⟩
  have hix : ∀ ii, ii < N → ix none ii = .ok (ixv none ii) ∧ ixv none ii < N := fun ii hi => ⟨ix_ok hb hi, hi⟩
  have hmse : ∀ t : List ℝ, mse y none N none (pred r np F.dim F.nparams lin t) = wLoss r np B (fun _ _ => 1) F.dim N x y t := by
    intro t
    unfold mse wLoss
    congr 1
    refine Finset.sum_congr rfl (fun ii hi => ?_)
    have e := pred_trainFn h.lay (hval _ (hix ii (Finset.mem_range.1 hi)).2) t
    rw [e]
    simp only [wgt, Finset.prod_const_one, div_one, ixv, wv, one_mul]
    rfl
  have hL' := lay_params h.lay q
  have hprob : LsProblem F.nparams (aioMap lin (List.replicate (2 * F.nparams) 0) (List.replicate (2 * F.nparams) 0)
      (List.replicate (N * F.nparams) 0)) y none (pred r np F.dim F.nparams lin)
      (fun p k j => deriv (fun t => pred r np F.dim F.nparams lin (p.set j t) k) (p.getD j 0))
      (fun q => { F with params := q }) N none p { F with params := q } := by
    refine ⟨h.data, hb, aio_map hL' h.dim hq (Nd := N) (by rw [hlen]) (by simp; omega) (by simp; omega) (by simp) hix hp,
      fun ii hi j hj => ?_⟩
    have h3 : (ii + 1) * F.nparams ≤ N * F.nparams := Nat.mul_le_mul_right _ hi
    rw [Nat.add_mul, Nat.one_mul] at h3
    obtain ⟨R, _, _, _, h4⟩ := gradevalLin_deriv h.lay h.dim (lin.drop (ii * F.nparams)) p (List.replicate (2 * F.nparams) 0)
      (List.replicate (2 * F.nparams) 0) p hp (by omega) (by rw [List.length_drop]; omega) (by simp; omega) (by simp; omega)
    exact (h4 j hj).2.hasDerivAt
  refine ⟨?_, fun buf hbuf => ?_⟩
  · obtain ⟨h5, -⟩ := objective_ls hprob (List.replicate F.nparams 0) (by simp)
    exact ⟨_, by rw [objBatch, h5, hmse], p, hp, rfl⟩
  · obtain ⟨-, g, h5, h6, h7⟩ := objective_ls hprob buf hbuf
    refine ⟨g, _, by rw [objBatch, h5, hmse], ⟨p, hp, rfl⟩, h6, fun j hj => ?_⟩
    have h8 := h7 j hj
    simp only [hmse] at h8
    exact h8

/-- **C137** Without weighting: the run ends with a train of the same structure whose mean squared residual is at most the one of the
parameters it started from. -/
theorem aio_run {F : FTP ℝ U} {N : Nat} {x y : List ℝ} (h : Given F r np N x y) {bas : U → ℝ → List ℝ} {B : Nat → ℝ → Nat → ℝ}
    (hB : Basis F r np bas B) {solve : Solver ℝ (FTP ℝ U)} (hs : Descends solve) :
    ∃ p, runAio bas solve F N x y = .ok ({ F with params := p }, { F with params := p }) ∧ p.length = F.nparams ∧
      wLoss r np B (fun _ _ => 1) F.dim N x y p ≤ wLoss r np B (fun _ _ => 1) F.dim N x y F.params := by
  obtain ⟨lin, hlin, hobj⟩ := obj_ok h hB
  obtain ⟨res, p, s, h1, h2, ⟨q, hq, rfl⟩, h4⟩ := hs F.nparams _ _ _ F.params F h.par ⟨F.params, h.par, rfl⟩ hobj
  refine ⟨p, ?_, h2, h4⟩
  rw [runAio, hlin, bind_ok, initGuess_ok h.par, bind_ok, slpSolve, h1, bind_ok, bind_ok, if_neg (by simp)]
  have := updateParams_ok (F := { F with params := q }) hq p h2
  rw [this, bind_ok]

/-! ### Weights -/

/-- The core of function `u`. -/
noncomputable def kOf (r : Nat → Nat) (u : Nat) : Nat :=
  open Classical in if h : ∃ k j, j < r k * r (k + 1) ∧ u = uo r k + j then Classical.choose h else 0

theorem kOf_eq {k j : Nat} (hj : j < r k * r (k + 1)) : kOf r (uo r k + j) = k := by
  have h : ∃ k' j', j' < r k' * r (k' + 1) ∧ uo r k + j = uo r k' + j' := ⟨k, j, hj, rfl⟩
  rw [kOf, dif_pos h]
  obtain ⟨j', h1, h2⟩ := Classical.choose_spec h
  generalize Classical.choose h = k' at *
  rcases Nat.lt_trichotomy k' k with hk | hk | hk
  · have := uo_mono r (show k' + 1 ≤ k from hk)
    rw [uo_succ] at this; omega
  · exact hk
  · have := uo_mono r (show k + 1 ≤ k' from hk)
    rw [uo_succ] at this; omega

/-- The basis divided by the weights. -/
noncomputable def kB (r : Nat → Nat) (B : Nat → ℝ → Nat → ℝ) (W : Nat → ℝ → ℝ) (u : Nat) (x : ℝ) (l : Nat) : ℝ :=
  B u x l / W (kOf r u) x

theorem trainRow_kB (B : Nat → ℝ → Nat → ℝ) (W : Nat → ℝ → ℝ) (p : List ℝ) (z : Nat → ℝ) :
    ∀ k c, c < r k → trainRow r np (kB r B W) p z k c = trainRow r np B p z k c / ∏ m ∈ range k, W m (z m)
  | 0, c, _ => by simp [trainRow]
  | k + 1, c, hc => by
    rw [trainRow, trainRow, prod_range_succ, Finset.sum_div]
    refine sum_congr rfl fun i hi => ?_
    have hi := mem_range.1 hi
    rw [trainRow_kB B W p z k i hi]
    have e : ∀ l, kB r B W (uo r k + (i + c * r k)) (z k) l = B (uo r k + (i + c * r k)) (z k) l / W k (z k) := fun l => by
      rw [kB, kOf_eq (idx_lt hi hc)]
    simp only [e, div_mul_eq_mul_div, ← Finset.sum_div]
    rw [mul_div_assoc', div_div, mul_comm (W k (z k))]

theorem trainFn_kB {d : Nat} (hd : r d = 1) (B : Nat → ℝ → Nat → ℝ) (W : Nat → ℝ → ℝ) (p : List ℝ) (z : Nat → ℝ) :
    trainFn r np (kB r B W) p z d = trainFn r np B p z d / wgt W d z := trainRow_kB B W p z d 0 (by omega)

variable {F : FTP ℝ (KU U)} {wt : U → ℝ → ℝ} {bas : U → ℝ → List ℝ} {B : Nat → ℝ → Nat → ℝ} {W : Nat → ℝ → ℝ}

/-- The train with all flags set. -/
def kOn (F : FTP ℝ (KU U)) : FTP ℝ (KU U) := { F with cores := F.cores.map (List.map fun u => { u with krist := 1 }) }

theorem KTrain.poly (h : KTrain F r np wt bas B W) : ∀ core ∈ F.cores, ∀ u ∈ core, u.poly = true := by
  intro core hc u hu
  obtain ⟨k, hk⟩ := List.mem_iff_getElem?.1 hc
  obtain ⟨j, hj⟩ := List.mem_iff_getElem?.1 hu
  have hkd : k < F.dim := by have := (List.getElem?_eq_some_iff.1 hk).1; rw [← h.len]; exact this
  obtain ⟨core', h1, h2, h3⟩ := h.core k hkd
  rw [hk, Option.some.injEq] at h1
  subst h1
  obtain ⟨u', h4, h5, -⟩ := h3 j (by rw [← h2]; exact (List.getElem?_eq_some_iff.1 hj).1)
  rw [hj, Option.some.injEq] at h4
  rw [h4]; exact h5

theorem ftActivate_ok (h : KTrain F r np wt bas B W) : ftActivate F = .ok (kOn F) := by
  rw [ftActivate, mapC_ok (g := List.map fun u => { u with krist := 1 }) (fun core hc => mapC_ok (fun u hu => by
    rw [actFn, if_pos (h.poly core hc u hu)])), bind_ok]; rfl

theorem kOn_core (h : KTrain F r np wt bas B W) {k : Nat} (hk : k < F.dim) :
    ∃ core, (kOn F).cores[k]? = some core ∧ ∀ j, j < r k * r (k + 1) → ∃ u, core[j]? = some u ∧ u.poly = true ∧ u.krist = 1 ∧
      (∀ x, bas u.f x = (List.range (np (uo r k + j))).map (B (uo r k + j) x)) ∧ ∀ x, wt u.f x = W k x := by
  obtain ⟨core, h1, h2, h3⟩ := h.core k hk
  refine ⟨core.map fun u => { u with krist := 1 }, by rw [kOn]; simp [h1], fun j hj => ?_⟩
  obtain ⟨u, h4, h5, h6, h7⟩ := h3 j hj
  exact ⟨{ u with krist := 1 }, by simp [h4], h5, rfl, h6, h7⟩

theorem kOn_basis (h : KTrain F r np wt bas B W) : Basis (kOn F) r np (kBas wt bas) (kB r B W) := by
  intro k hk
  obtain ⟨core, h1, h2⟩ := kOn_core h hk
  refine ⟨core, h1, fun j hj => ?_⟩
  obtain ⟨u, h4, h5, h6, h7, h8⟩ := h2 j hj
  refine ⟨u, h4, fun x => ?_⟩
  rw [kBas, if_pos h6, h7, h8, List.map_map]
  exact List.map_congr_left fun l _ => by simp only [Function.comp, kB, kOf_eq hj]

theorem kwFt_ok (h : KTrain F r np wt bas B W) (hr : ∀ k, 0 < r k) {x : List ℝ} {i : Nat} (hx : (i + 1) * F.dim ≤ x.length) :
    kwFt wt (kOn F) x (i * F.dim) = .ok (wgt W F.dim (pnt x F.dim i)) := by
  obtain ⟨s, h1, h2⟩ := forN_spec (n := F.dim) (s := (1 : ℝ))
    (body := fun ii w => do
      let core ← rd (kOn F).cores ii
      let u ← rd core 0
      let xk ← rd x (i * F.dim + ii)
      let v ← kwFn wt u xk
      .ok (w * v))
    (I := fun n w => w = ∏ k ∈ range n, W k (pnt x F.dim i k)) (by simp)
    (by
      rintro k hk w rfl
      obtain ⟨core, h1, h2⟩ := kOn_core h hk
      obtain ⟨u, h4, h5, h6, h7, h8⟩ := h2 0 (Nat.mul_pos (hr _) (hr _))
      rw [Nat.add_mul, Nat.one_mul] at hx
      refine ⟨_, ?_, (prod_range_succ _ _).symm⟩
      rw [rd_of_getElem? h1, bind_ok, rd_of_getElem? h4, bind_ok, rd_getD 0 (by omega), bind_ok, kwFn, if_pos h5, bind_ok, h8]
      rfl)
  subst h2
  exact h1

theorem kLabels_ok (h : KTrain F r np wt bas B W) (hr : ∀ k, 0 < r k) (hW : ∀ k x, W k x ≠ 0) {N : Nat} {x y : List ℝ}
    (hx : N * F.dim ≤ x.length) (hy : y.length = N) :
    kLabels wt (kOn F) N x y = .ok ((List.range N).map fun i => y.getD i 0 / wgt W F.dim (pnt x F.dim i)) := by
  refine FillsV.finish (T := fun p => ∃ i < N, p = i) (FillsV.forN fun i hi => ?_) (fun p hp => ⟨p, hp, rfl⟩) (by simp)
  have hx' : (i + 1) * F.dim ≤ x.length := le_trans (Nat.mul_le_mul_right _ hi) hx
  refine FillsV.bind (kwFt_ok h hr hx') (FillsV.bind (rd_getD 0 (by omega)) (FillsV.bind (v := y.getD i 0 / wgt W F.dim (pnt x F.dim i)) ?_ (FillsV.wr hi rfl)))
  rw [fdiv, if_neg]
  exact Finset.prod_ne_zero_iff.2 fun k _ => hW _ _

theorem wLoss_kB {d N : Nat} (hd : r d = 1) {x y : List ℝ} (p : List ℝ) :
    wLoss r np (kB r B W) (fun _ _ => 1) d N x ((List.range N).map fun i => y.getD i 0 / wgt W d (pnt x d i)) p
      = wLoss r np B W d N x y p := by
  unfold wLoss
  congr 1
  refine sum_congr rfl fun i hi => ?_
  have hi := mem_range.1 hi
  rw [trainFn_kB hd]
  have : ((List.range N).map fun i => y.getD i 0 / wgt W d (pnt x d i)).getD i 0 = y.getD i 0 / wgt W d (pnt x d i) := by
    simp [hi]
  rw [this]
  simp only [wgt, Finset.prod_const_one, div_one, sub_div]

/-- **C137** With Kristoffel weighting: the run of the regression ends with a train without weighting whose functions are those given (with
the flags cleared), and whose residuals, divided by the weights of the points and squared, have a mean that is at most the one of the
parameters it started from. Partial: all parameters at once, linear parameters, least squares without regulariser, exact
arithmetic, all functions of a core have the same weight (`kristoffel_mixed_counterexample`). -/
theorem kristoffel_run_partial {N : Nat} {x y : List ℝ} (h : Given F r np N x y) (hT : KTrain F r np wt bas B W)
    (hW : ∀ k x, W k x ≠ 0) {solve : Solver ℝ (FTP ℝ (KU U))} (hs : Descends solve)
    (als : FTP ℝ (KU U) → Nat → List ℝ → List ℝ → C (FTP ℝ (KU U) × FTP ℝ (KU U))) :
    ∃ p, regRun wt bas .aio 1 solve als F N x y
        = .ok (ftDeactivate { F with params := p }, ftDeactivate { F with params := p }) ∧ p.length = F.nparams ∧
      wLoss r np B W F.dim N x y p ≤ wLoss r np B W F.dim N x y F.params := by
  have hl : r F.dim = 1 := h.lay.last
  have hG : Given (kOn F) r np N x ((List.range N).map fun i => y.getD i 0 / wgt W F.dim (pnt x F.dim i)) :=
    ⟨⟨h.lay.dim_pos, h.lay.ranks, h.lay.npu, h.lay.npc, h.lay.first, h.lay.last, h.lay.nparams⟩, h.dim, h.par, h.rpos, h.npos, h.data,
      h.xs, by simp⟩
  obtain ⟨p, h1, h2, h3⟩ := aio_run hG (kOn_basis hT) hs
  refine ⟨p, ?_, h2, ?_⟩
  · have : ftDeactivate { kOn F with params := p } = ftDeactivate { F with params := p } := by
      rw [ftDeactivate, ftDeactivate, kOn]
      simp only [FTP.mk.injEq, true_and, List.map_map]
      refine List.map_congr_left fun core hc => ?_
      simp only [Function.comp, List.map_map]
      exact List.map_congr_left fun u hu => by simp only [Function.comp, deactFn, hT.poly core hc u hu]; rfl
    rw [regRun, kPrep, if_pos (by decide), ftActivate_ok hT, bind_ok, kLabels_ok hT h.rpos hW h.xs h.ys, bind_ok, bind_ok, runType, h1,
      bind_ok, kDone, if_pos rfl, this]
  · have e : ∀ q, wLoss r np (kB r B W) (fun _ _ => 1) (kOn F).dim N x
        ((List.range N).map fun i => y.getD i 0 / wgt W F.dim (pnt x F.dim i)) q = wLoss r np B W F.dim N x y q :=
      fun q => wLoss_kB hl q
    rw [e, e] at h3
    exact h3

/-- If no flag was set before the run then clearing the flags changes nothing: the functions of the final train are those given. -/
theorem ftDeactivate_id {F : FTP ℝ (KU U)} (h : ∀ core ∈ F.cores, ∀ u ∈ core, u.krist = 0) : ftDeactivate F = F := by
  have h1 : ∀ core ∈ F.cores, List.map deactFn core = core := fun core hc => by
    refine (List.map_congr_left (g := id) fun u hu => ?_).trans (List.map_id _)
    rw [deactFn, id]
    split
    · have := h core hc u hu
      cases u; simp_all
    · rfl
  have h2 : F.cores.map (List.map deactFn) = F.cores :=
    (List.map_congr_left (g := id) h1).trans (List.map_id _)
  rw [ftDeactivate, h2]

/-- Without the option the alternating method gets the data as they are and its result is returned; an unknown method ends the
program. -/
theorem als_run (solve : Solver ℝ (FTP ℝ (KU U))) (als : FTP ℝ (KU U) → Nat → List ℝ → List ℝ → C (FTP ℝ (KU U) × FTP ℝ (KU U)))
    (F : FTP ℝ (KU U)) (N : Nat) (x y : List ℝ) :
    regRun wt bas .als 0 solve als F N x y = als F N x y ∧ regRun wt bas .other 0 solve als F N x y = .error .exit := by
  constructor
  · rw [regRun, kPrep, if_neg (by decide), bind_ok, runType]
    cases als F N x y with
    | error e => rfl
    | ok q => rw [bind_ok, kDone, if_neg (by decide)]
  · rw [regRun, kPrep, if_neg (by decide), bind_ok, runType, bind_error]

/-- Without the option, on a train without active weights, the run lowers the plain mean of the squared residuals. -/
theorem plain_run {N : Nat} {x y : List ℝ} (h : Given F r np N x y) (hB : Basis F r np (fun u => bas u.f) B)
    (hk : ∀ core ∈ F.cores, ∀ u ∈ core, u.krist ≠ 1) {solve : Solver ℝ (FTP ℝ (KU U))} (hs : Descends solve)
    (als : FTP ℝ (KU U) → Nat → List ℝ → List ℝ → C (FTP ℝ (KU U) × FTP ℝ (KU U))) :
    ∃ p, regRun wt bas .aio 0 solve als F N x y = .ok ({ F with params := p }, { F with params := p }) ∧ p.length = F.nparams ∧
      wLoss r np B (fun _ _ => 1) F.dim N x y p ≤ wLoss r np B (fun _ _ => 1) F.dim N x y F.params := by
  have hB' : Basis F r np (kBas wt bas) B := by
    intro k hk'
    obtain ⟨core, h1, h2⟩ := hB k hk'
    refine ⟨core, h1, fun j hj => ?_⟩
    obtain ⟨u, h3, h4⟩ := h2 j hj
    refine ⟨u, h3, fun x => ?_⟩
    rw [kBas, if_neg (hk core (List.mem_of_getElem? h1) u (List.mem_of_getElem? h3))]
    exact h4 x
  obtain ⟨p, h1, h2, h3⟩ := aio_run h hB' hs
  exact ⟨p, by rw [regRun, kPrep, if_neg (by decide), bind_ok, runType, h1, bind_ok, kDone, if_neg (by decide)], h2, h3⟩

theorem mapC_err {α β : Type} {f : α → C β} {e : Err} : ∀ {l : List α}, (∀ a ∈ l, (∃ b, f a = .ok b) ∨ f a = .error e) →
    (∃ a ∈ l, f a = .error e) → mapC f l = .error e
  | [], _, h => by obtain ⟨a, ha, _⟩ := h; cases ha
  | a :: l, h, hx => by
    rw [mapC]
    rcases h a (by simp) with ⟨b, hb⟩ | hb
    · rw [hb, bind_ok, mapC_err (fun c hc => h c (by simp [hc]))]
      · rfl
      · obtain ⟨c, hc, hc'⟩ := hx
        rcases List.mem_cons.1 hc with rfl | hc
        · rw [hb] at hc'; cases hc'
        · exact ⟨c, hc, hc'⟩
    · rw [hb]; rfl

theorem mapC_cases {α β : Type} {f : α → C β} {e : Err} : ∀ {l : List α}, (∀ a ∈ l, (∃ b, f a = .ok b) ∨ f a = .error e) →
    (∃ b, mapC f l = .ok b) ∨ mapC f l = .error e
  | [], _ => .inl ⟨[], rfl⟩
  | a :: l, h => by
    rw [mapC]
    rcases h a (by simp) with ⟨b, hb⟩ | hb
    · rw [hb, bind_ok]
      rcases mapC_cases (l := l) (fun c hc => h c (by simp [hc])) with ⟨t, ht⟩ | ht
      · exact .inl ⟨_, by rw [ht, bind_ok]⟩
      · exact .inr (by rw [ht]; rfl)
    · exact .inr (by rw [hb]; rfl)

/-- Weighting is refused, before anything is fitted, if any function of the train is not a polynomial. -/
theorem kristoffel_refused {kr : Int} (hk : kr ≠ 0) (h : ∃ core ∈ F.cores, ∃ u ∈ core, u.poly = false) (ty : RegT)
    (solve : Solver ℝ (FTP ℝ (KU U))) (als : FTP ℝ (KU U) → Nat → List ℝ → List ℝ → C (FTP ℝ (KU U) × FTP ℝ (KU U))) (N : Nat)
    (x y : List ℝ) : regRun wt bas ty kr solve als F N x y = .error .exit := by
  have h0 : ∀ u : KU U, (∃ b, actFn u = .ok b) ∨ actFn u = .error .exit := fun u => by
    rw [actFn]; split
    · exact .inl ⟨_, rfl⟩
    · exact .inr rfl
  obtain ⟨core, hc, u, hu, hp⟩ := h
  have h1 : mapC (mapC actFn) F.cores = .error .exit :=
    mapC_err (fun c _ => mapC_cases fun a _ => h0 a) ⟨core, hc, mapC_err (fun a _ => h0 a) ⟨u, hu, by rw [actFn, hp]; rfl⟩⟩
  rw [regRun, kPrep, if_pos hk, ftActivate, h1]; rfl

/-- The failure code of the optimizer is dropped: a run whose optimizer reports any code ends like one with code 0. -/
theorem slpSolve_actual {K S : Type} (res : Int) (p : List K) (s' : S) (obj : List K → Option (List K) → S → C (K × Option (List K) × S))
    (g : List K) (s : S) : slpSolve (fun _ _ _ => .ok (res, p, s')) obj g s = .ok (0, p, s') := rfl

/-- **C137** The call for users, without rank adaptation: the result is not worse than the parameters given, or than those of the linear fit that
replaces them when the sum of their squares is at most the tolerance. -/
theorem ft_regress_run_partial {U : Type} {r np : Nat → Nat} {F F' : FTP ℝ U} {N : Nat} {x y : List ℝ} {bas : U → ℝ → List ℝ}
    {B : Nat → ℝ → Nat → ℝ} {tol : ℝ} {mk : FTP ℝ U → C (FTP ℝ U)} (hp : F.params.length = F.nparams)
    (hF : F' = F ∧ tol < ∑ i ∈ range F.nparams, F.params.getD i 0 ^ 2 ∨
      mk F = .ok F' ∧ ∑ i ∈ range F.nparams, F.params.getD i 0 ^ 2 ≤ tol)
    (h : Given F' r np N x y) (hB : Basis F' r np bas B) {solve : Solver ℝ (FTP ℝ U)} (hs : Descends solve) {adapt : Int}
    (ha : adapt ≠ 1) (ra : FTP ℝ U → C (FTP ℝ U × FTP ℝ U)) :
    ∃ p, ftRegressRun tol mk adapt ra (fun G => runAio bas solve G N x y) F = .ok ({ F' with params := p }, { F' with params := p }) ∧
      wLoss r np B (fun _ _ => 1) F'.dim N x y p ≤ wLoss r np B (fun _ _ => 1) F'.dim N x y F'.params := by
  obtain ⟨p, h1, -, h3⟩ := aio_run h hB hs
  refine ⟨p, ?_, h3⟩
  have hd := dotAt_ok (n := F.nparams) (a := F.params) (b := F.params) (ao := 0) (bo := 0) (by omega) (by omega)
  have he : ∑ i ∈ range F.nparams, F.params.getD (0 + i) 0 * F.params.getD (0 + i) 0 = ∑ i ∈ range F.nparams, F.params.getD i 0 ^ 2 :=
    sum_congr rfl fun i _ => by rw [Nat.zero_add, sq]
  rw [he] at hd
  have hn : 0 ≤ ∑ i ∈ range F.nparams, F.params.getD i 0 ^ 2 := sum_nonneg fun i _ => sq_nonneg _
  have hst : startPar tol mk F = .ok F' := by
    rw [startPar, hd, bind_ok, abs_of_nonneg hn]
    rcases hF with ⟨rfl, h4⟩ | ⟨h4, h5⟩
    · rw [if_neg (not_le.2 h4)]
    · rw [if_pos h5, h4]
  rw [ftRegressRun, hst, bind_ok, if_neg ha, h1]

end Proofs

/-! ## Cases -/

/-- Evaluates the objective at the guess and at zero, and takes the better one. -/
noncomputable def twoPoint {S : Type} : Solver ℝ S := fun obj p0 s => do
  let a ← obj p0 none s
  let b ← obj (List.replicate p0.length 0) none a.2.2
  if b.1 ≤ a.1 then .ok (0, List.replicate p0.length 0, b.2.2) else .ok (0, p0, b.2.2)

theorem twoPoint_descends {S : Type} : Descends (twoPoint (S := S)) := by
  intro n J Inv obj p0 s0 hp hI h
  obtain ⟨⟨s1, h1, h2⟩, -⟩ := h p0 s0 hp hI
  obtain ⟨⟨s2, h3, h4⟩, -⟩ := h (List.replicate p0.length 0) s1 (by simp [hp]) h2
  by_cases hb : J (List.replicate p0.length 0) ≤ J p0
  · exact ⟨0, List.replicate p0.length 0, s2, by simp only [twoPoint, h1, bind_ok, h3, if_pos hb], by simp [hp], h4, hb⟩
  · exact ⟨0, p0, s2, by simp only [twoPoint, h1, bind_ok, h3, if_neg hb], hp, h4, le_refl _⟩

/-- Two variables, ranks 1, 2, 1, linear polynomials; the number is the weight. -/
def exKF : FTP ℝ (KU ℝ) :=
  ⟨2, [1, 2, 1], [2, 2, 2, 2], [4, 4], 8, [1, 2, 3, 4, 5, 6, 7, 8], [[⟨true, 0, 2⟩, ⟨true, 0, 2⟩], [⟨true, 0, 3⟩, ⟨true, 0, 3⟩]]⟩

theorem exKF_given (x y : List ℝ) (hx : x.length = 6) (hy : y.length = 3) : Given exKF exR (fun _ => 2) 3 x y :=
  ⟨⟨exF_lay.dim_pos, exF_lay.ranks, exF_lay.npu, exF_lay.npc, exF_lay.first, exF_lay.last, exF_lay.nparams⟩, by decide, rfl,
    fun k => by unfold exR; split <;> decide, fun _ => by decide, by decide, by simp [exKF, hx], hy⟩

theorem exKF_train : KTrain exKF exR (fun _ => 2) (fun u _ => u) (fun _ t => [1, t]) (fun _ t l => if l = 0 then 1 else t)
    (fun k _ => if k = 0 then 2 else 3) := by
  have h : ∀ t : ℝ, [1, t] = (List.range 2).map (fun l => if l = 0 then 1 else t) := by
    intro t; simp [List.range_succ]
  refine ⟨rfl, fun k hk => ?_⟩
  have hk2 : k < 2 := hk
  match k, hk2 with
  | 0, _ =>
    refine ⟨_, rfl, rfl, fun j hj => ?_⟩
    have hj2 : j < 2 := by simpa [exR] using hj
    match j, hj2 with
    | 0, _ => exact ⟨_, rfl, rfl, h, fun _ => rfl⟩
    | 1, _ => exact ⟨_, rfl, rfl, h, fun _ => rfl⟩
  | 1, _ =>
    refine ⟨_, rfl, rfl, fun j hj => ?_⟩
    have hj2 : j < 2 := by simpa [exR] using hj
    match j, hj2 with
    | 0, _ => exact ⟨_, rfl, rfl, h, fun _ => rfl⟩
    | 1, _ => exact ⟨_, rfl, rfl, h, fun _ => rfl⟩

example (x y : List ℝ) (hx : x.length = 6) (hy : y.length = 3) :
    ∃ p, regRun (fun u _ => u) (fun _ t => [1, t]) .aio 1 twoPoint (fun _ _ _ _ => .error .exit) exKF 3 x y
      = .ok (ftDeactivate { exKF with params := p }, ftDeactivate { exKF with params := p }) :=
  (kristoffel_run_partial (exKF_given x y hx hy) exKF_train (fun k _ => by split <;> norm_num) twoPoint_descends _).imp fun _ h => h.1

example (p : List ℝ) : ftDeactivate { exKF with params := p } = { exKF with params := p } :=
  ftDeactivate_id (by simp [exKF])

example (x y : List ℝ) (hx : x.length = 6) (hy : y.length = 3) :
    ∃ p, ftRegressRun 1 (fun _ => .error .exit) 0 (fun _ => .error .exit) (fun G => runAio (fun _ t => [1, t]) twoPoint G 3 x y) exF
      = .ok ({ exF with params := p }, { exF with params := p }) :=
  (ft_regress_run_partial (r := exR) (np := fun _ => 2) rfl (.inl ⟨rfl, by norm_num [exF, Finset.sum_range_succ]⟩)
    ⟨exF_lay, by decide, rfl, fun k => by unfold exR; split <;> decide, fun _ => by decide, by decide, by simp [exF, hx], hy⟩
    exF_basis twoPoint_descends (by decide) _).imp fun _ h => h.1

/-! ## Where the code differs -/

/-- The given parameters and the value of the objective at them (as the only parameters). -/
def valueSolver : Solver ℚ (FTP ℚ (KU ℚ)) := fun obj p s => do
  let q ← obj p none s
  .ok (0, q.1 :: p.tail, s)

/-- Two variables, ranks 1, 2, 1, constants, all parameters 1: the train is 2 everywhere. -/
def exMix (a b : ℚ) : FTP ℚ (KU ℚ) :=
  ⟨2, [1, 2, 1], [1, 1, 1, 1], [2, 2], 4, [1, 1, 1, 1], [[⟨true, 0, a⟩, ⟨true, 0, b⟩], [⟨true, 0, 1⟩, ⟨true, 0, 1⟩]]⟩

/-- With the option set to 2 (any value but 0 and 1) the weights are activated and never deactivated: the functions of the train
returned, and of the parameterised train, keep the flag, so every later evaluation is divided by the weights. -/
theorem kristoffel_two_counterexample :
    (regRun (fun u _ => u) (fun _ _ => [1]) .aio 2 valueSolver (fun _ _ _ _ => .error .exit) (exMix 1 1) 1 [0, 0] [2]).map
      (fun q => (q.1.cores.map (List.map KU.krist), q.2.cores.map (List.map KU.krist))) = .ok ([[1, 1], [1, 1]], [[1, 1], [1, 1]]) := by
  decide +kernel

/-- The label of a point is divided by the weights of the first function of each core, the basis of each function by its own weight.
If two functions of a core have different weights (different numbers of coefficients) the loss that is minimised is not the weighted
loss: the train that fits the datum exactly (it is 2, the label is 2) has the loss 1/4, with equal weights 0. -/
theorem kristoffel_mixed_counterexample :
    (regRun (fun u _ => u) (fun _ _ => [1]) .aio 1 valueSolver (fun _ _ _ _ => .error .exit) (exMix 1 2) 1 [0, 0] [2]).map
        (fun q => q.1.params.getD 0 0) = .ok (1 / 4) ∧
      (regRun (fun u _ => u) (fun _ _ => [1]) .aio 1 valueSolver (fun _ _ _ _ => .error .exit) (exMix 2 2) 1 [0, 0] [2]).map
        (fun q => q.1.params.getD 0 0) = .ok 0 := by
  decide +kernel

end C3.Sl
