/-
C100: gradient of the all-at-once regression objective, from the data to the partial derivatives.
-/
import Verif.Sl.AioModel
import Verif.Sl.AlsRun
import Verif.Sl.ObjProps
import Mathlib.Analysis.Calculus.Deriv.Basic

namespace C3.Sl

variable {K U : Type}
variable {r np : Nat → Nat}

section Ring
variable [Field K] [DecidableEq K] {F : FTP K U}

theorem updateParams_ok (hF : F.params.length = F.nparams) (p : List K)
    (hp : p.length = F.nparams) : updateParams F p = .ok { F with params := p } := by
  have := forN_fill_all (n := F.nparams) (a := F.params) (fun i => p.getD i 0)
    (body := fun i b => do
      let v ← rd p i
      wr b i v) hF (by
      intro i hi b hb
      rw [rd_getD 0 (by omega), bind_ok])
  rw [updateParams, this, bind_ok]
  have h : (List.range F.nparams).map (fun i => p.getD i 0) = p := by
    refine List.ext_getElem (by simp [hp]) (fun i h1 h2 => ?_)
    simp [h2]
  rw [h]

/-- Predictions without gradients. -/
theorem aioVals_ok (hL : Lay F r np) (hF : F.params.length = F.nparams) {Nd : Nat}
    {lin mem : List K} (hlin : Nd * F.nparams ≤ lin.length) (hm : mo r F.dim ≤ mem.length)
    {N : Nat} {ind : Option (List Nat)}
    (hix : ∀ ii, ii < N → ix ind ii = .ok (ixv ind ii) ∧ ixv ind ii < Nd)
    {p : List K} (hp : p.length = F.nparams) :
    aioVals lin mem p N ind F = .ok ((List.range N).map (fun ii =>
      trainVal r (linE np (lin.drop (ixv ind ii * F.nparams)) p) F.dim), { F with params := p }) := by
  rw [aioVals, updateParams_ok hF p hp, bind_ok]
  have := forN_fill_all (n := N) (a := List.replicate N (0 : K))
    (fun ii => trainVal r (linE np (lin.drop (ixv ind ii * F.nparams)) p) F.dim)
    (body := fun ii ev => do
      let k ← ix ind ii
      let v ← evalLin { F with params := p } (lin.drop (k * F.nparams)) mem
      wr ev ii v) (by simp) (by
      intro ii hi ev hev
      obtain ⟨h1, h2⟩ := hix ii hi
      have h3 : (ixv ind ii + 1) * F.nparams ≤ Nd * F.nparams := Nat.mul_le_mul_right _ h2
      rw [Nat.add_mul, Nat.one_mul] at h3
      rw [h1, bind_ok, evalLin_ok (hL.withParams p) _ mem (by dsimp only; omega)
        (by rw [List.length_drop]; dsimp only; omega) hm, bind_ok]
      rfl)
  dsimp only
  rw [this, bind_ok]

end Ring

/-! ### Gradients -/

/-- Prediction for datum `k` with the precomputed basis values `lin`. -/
def pred {K : Type} [Field K] (r np : Nat → Nat) (d n : Nat) (lin p : List K) (k : Nat) : K :=
  trainVal r (linE np (lin.drop (k * n)) p) d

theorem linE_set (gev p : List ℝ) {j : Nat} (hj : j < p.length) (t : ℝ) (u : Nat) :
    linE np gev (p.set j t) u = linFam np (fun q => gev.getD q 0) u
      (Function.update (fun q => p.getD q 0) j t) := by
  unfold linE linFam
  refine Finset.sum_congr rfl (fun l _ => ?_)
  congr 1
  by_cases h : po np u + l = j
  · rw [h]; simp [hj]
  · rw [Function.update_of_ne h]
    simp [List.getElem?_set_ne (fun h' => h h'.symm)]

variable {F : FTP ℝ U}

theorem gradevalLin_deriv (hL : Lay F r np) (h2 : 2 ≤ F.dim) (gev grad mem evals p : List ℝ)
    (hp : p.length = F.nparams)
    (hg : F.nparams ≤ grad.length) (hgev : F.nparams ≤ gev.length)
    (hm : mo r F.dim ≤ mem.length) (he : uo r F.dim ≤ evals.length) :
    ∃ R, gradevalLin { F with params := p } gev grad mem evals = .ok R ∧
      R.out = trainVal r (linE np gev p) F.dim ∧ R.grad.length = grad.length ∧
      ∀ j, j < F.nparams →
        R.grad[j]? = some (deriv (fun t => trainVal r (linE np gev (p.set j t)) F.dim)
          (p.getD j 0)) ∧
        DifferentiableAt ℝ (fun t => trainVal r (linE np gev (p.set j t)) F.dim) (p.getD j 0) := by
  obtain ⟨R, h1, h3, h5, h4, _⟩ := gradevalLin_ok (hL.withParams p) h2 gev grad mem evals
    (by dsimp only; omega) hg hgev hm he
  refine ⟨R, h1, h3, h5, fun j hj => ?_⟩
  have hj' := hj
  rw [hL.nparams] at hj
  obtain ⟨g, hg1, hg2⟩ := gradFrom_hasDerivAt hL.last (linFam np (fun p => gev.getD p 0))
    (linFam_own np _ _) (fun q => p.getD q 0) (fun p => gev.getD p 0)
    (fun u _ l hl => linFam_hasDerivAt np _ u _ l hl) _ h4 j hj
  have : HasDerivAt (fun t => trainVal r (linE np gev (p.set j t)) F.dim) g (p.getD j 0) := by
    have he : (fun t => trainVal r (linE np gev (p.set j t)) F.dim)
        = fun t => trainVal r (fun u => linFam np (fun p => gev.getD p 0) u
          (Function.update (fun q => p.getD q 0) j t)) F.dim := by
      funext t
      congr 1
      funext u
      exact linE_set gev p (by omega) t u
    rw [he]; exact hg2
  rw [this.deriv]
  exact ⟨hg1, this.differentiableAt⟩

theorem aio_map (hL : Lay F r np) (h2 : 2 ≤ F.dim) (hF : F.params.length = F.nparams) {Nd : Nat}
    {lin mem evals grads : List ℝ} (hlin : Nd * F.nparams ≤ lin.length)
    (hm : mo r F.dim ≤ mem.length) (he : uo r F.dim ≤ evals.length)
    {N : Nat} (hgr : N * F.nparams ≤ grads.length) {ind : Option (List Nat)}
    (hix : ∀ ii, ii < N → ix ind ii = .ok (ixv ind ii) ∧ ixv ind ii < Nd)
    {p : List ℝ} (hp : p.length = F.nparams) :
    MapOk F.nparams (aioMap lin mem evals grads) N ind p F (pred r np F.dim F.nparams lin p)
      (fun k j => deriv (fun t => pred r np F.dim F.nparams lin (p.set j t) k) (p.getD j 0))
      { F with params := p } := by
  constructor
  · refine ⟨_, aioVals_ok hL hF hlin hm hix hp, fun ii hi => ?_⟩
    simp [hi, pred]
  · obtain ⟨s, hs, hsl, hsg, hse, hsd⟩ := forN_spec (n := N)
      (s := (List.replicate N (0 : ℝ), grads))
      (body := fun ii (s : List ℝ × List ℝ) => do
        let k ← ix ind ii
        let R ← gradevalLin { F with params := p } (lin.drop (k * F.nparams))
          (s.2.drop (ii * F.nparams)) mem evals
        let ev ← wr s.1 ii R.out
        .ok (ev, s.2.take (ii * F.nparams) ++ R.grad))
      (I := fun n s => s.1.length = N ∧ s.2.length = grads.length ∧
        (∀ ii, ii < n → s.1[ii]? = some (pred r np F.dim F.nparams lin p (ixv ind ii))) ∧
        ∀ ii, ii < n → ∀ j, j < F.nparams → s.2[ii * F.nparams + j]? = some
          (deriv (fun t => pred r np F.dim F.nparams lin (p.set j t) (ixv ind ii)) (p.getD j 0)))
      ⟨by simp, rfl, fun _ h => absurd h (by omega), fun _ h => absurd h (by omega)⟩ (by
        intro ii hi s ⟨a1, a2, a3, a4⟩
        obtain ⟨h1, h3⟩ := hix ii hi
        have h5 : (ixv ind ii + 1) * F.nparams ≤ Nd * F.nparams := Nat.mul_le_mul_right _ h3
        have h6 : (ii + 1) * F.nparams ≤ N * F.nparams := Nat.mul_le_mul_right _ hi
        rw [Nat.add_mul, Nat.one_mul] at h5 h6
        obtain ⟨R, b1, b2, b3, b4⟩ := gradevalLin_deriv hL h2
          (lin.drop (ixv ind ii * F.nparams)) (s.2.drop (ii * F.nparams)) mem evals p hp
          (by rw [List.length_drop]; omega) (by rw [List.length_drop]; omega) hm he
        rw [List.length_drop] at b3
        refine ⟨(s.1.set ii R.out, s.2.take (ii * F.nparams) ++ R.grad), ?_, ?_, ?_, ?_, ?_⟩
        · rw [h1, bind_ok, b1, bind_ok, wr_ok _ (by omega), bind_ok]
        · simpa using a1
        · rw [List.length_append, List.length_take, b3]; omega
        · intro m hm
          by_cases hmi : m = ii
          · subst hmi
            rw [List.getElem?_set_self (by omega), b2]; rfl
          · rw [List.getElem?_set_ne (by omega)]; exact a3 m (by omega)
        · intro m hm j hj
          have ht : (s.2.take (ii * F.nparams)).length = ii * F.nparams := by
            rw [List.length_take]; omega
          by_cases hmi : m = ii
          · subst hmi
            rw [List.getElem?_append_right (by omega), ht, Nat.add_sub_cancel_left]
            exact (b4 j hj).1
          · have h7 : (m + 1) * F.nparams ≤ ii * F.nparams :=
              Nat.mul_le_mul_right _ (by omega)
            rw [Nat.add_mul, Nat.one_mul] at h7
            rw [List.getElem?_append_left (by omega), List.getElem?_take, if_pos (by omega)]
            exact a4 m (by omega) j hj)
    refine ⟨s.1, s.2, ?_, hse, hsd⟩
    show aioValsGrads lin mem evals grads p N ind F = _
    rw [aioValsGrads, updateParams_ok hF p hp, bind_ok]
    dsimp only
    rw [hs, bind_ok]

/-! ### Precomputed values -/

section Pre
variable {K U : Type} [Field K] [DecidableEq K] {F : FTP K U}

omit [Field K] [DecidableEq K] in
theorem putAt_ok' (buf : List K) (off : Nat) (l : List K) (h : off + l.length ≤ buf.length) :
    ∃ b, putAt buf off l = .ok b ∧ b.length = buf.length ∧
      (∀ i, i < l.length → b[off + i]? = l[i]?) ∧
      ∀ q, (q < off ∨ off + l.length ≤ q) → b[q]? = buf[q]? := by
  obtain ⟨b, h1, h2, h3, h4⟩ := forN_spec (n := l.length) (s := buf)
    (body := fun i b => do
      let v ← rd l i
      wr b (off + i) v)
    (I := fun n b => b.length = buf.length ∧ (∀ i, i < n → b[off + i]? = l[i]?) ∧
      ∀ q, (q < off ∨ off + n ≤ q) → b[q]? = buf[q]?)
    ⟨rfl, fun _ h => absurd h (by omega), fun _ _ => rfl⟩ (by
      intro i hi b ⟨a1, a2, a3⟩
      refine ⟨b.set (off + i) l[i], by rw [rd_ok hi, bind_ok, wr_ok _ (by omega)], by simpa using a1,
        ?_, ?_⟩
      · intro m hm
        by_cases hmi : m = i
        · subst hmi; rw [List.getElem?_set_self (by omega)]; simp [hi]
        · rw [List.getElem?_set_ne (by omega)]; exact a2 m (by omega)
      · intro q hq
        rw [List.getElem?_set_ne (by omega)]
        exact a3 q (by omega))
  exact ⟨b, h1, h2, h3, h4⟩

/-- The basis functions of the train: function `u` (counted over the whole train, in core `k`) has
the `np u` basis values `B u x` at a point with coordinate `x` in direction `k`. -/
def Basis (F : FTP K U) (r np : Nat → Nat) (bas : U → K → List K) (B : Nat → K → Nat → K) : Prop :=
  ∀ k, k < F.dim → ∃ core, F.cores[k]? = some core ∧ ∀ j, j < r k * r (k + 1) →
    ∃ u, core[j]? = some u ∧ ∀ x, bas u x = (List.range (np (uo r k + j))).map (B (uo r k + j) x)

/-- The core that function `u` belongs to, as coordinate `x` of the point. -/
structure Point (r np : Nat → Nat) (d : Nat) (B : Nat → K → Nat → K) (x : List K) (ii : Nat)
    (lin : List K) (base k j : Nat) : Prop where
  done : ∀ k', k' < d → ∀ j', j' < r k' * r (k' + 1) → (k' < k ∨ k' = k ∧ j' < j) →
    ∀ l, l < np (uo r k' + j') → lin[base + (po np (uo r k' + j') + l)]?
      = some (B (uo r k' + j') (x.getD (ii * d + k') 0) l)

theorem prePoint_ok (hL : Lay F r np) {bas : U → K → List K} {B : Nat → K → Nat → K}
    (hB : Basis F r np bas B) {x lin : List K} {ii : Nat} (hx : (ii + 1) * F.dim ≤ x.length)
    (hl : (ii + 1) * F.nparams ≤ lin.length) :
    ∃ lin', prePoint F bas x ii lin = .ok lin' ∧ lin'.length = lin.length ∧
      (∀ q, q < ii * F.nparams → lin'[q]? = lin[q]?) ∧
      ∀ k, k < F.dim → ∀ j, j < r k * r (k + 1) → ∀ l, l < np (uo r k + j) →
        lin'[ii * F.nparams + (po np (uo r k + j) + l)]?
          = some (B (uo r k + j) (x.getD (ii * F.dim + k) 0) l) := by
  rw [Nat.add_mul, Nat.one_mul] at hx hl
  obtain ⟨s, hs, c1, c2, c3, c4, c5⟩ := forN_spec (n := F.dim) (s := (lin, 0, 0))
    (body := fun kk (s : List K × Nat × Nat) => do
      let a ← rd F.ranks kk
      let b ← rd F.ranks (kk + 1)
      forN (a * b) (fun jj s => do
        let xk ← rd x (ii * F.dim + kk)
        preFun F bas (ii * F.nparams) xk kk jj s) s)
    (I := fun k s => s.1.length = lin.length ∧ s.2.2 = uo r k ∧ s.2.1 = po np (uo r k) ∧
      (∀ q, q < ii * F.nparams → s.1[q]? = lin[q]?) ∧
      Point r np F.dim B x ii s.1 (ii * F.nparams) k 0)
    ⟨rfl, rfl, rfl, fun _ _ => rfl, ⟨fun _ _ _ _ h => absurd h (by omega)⟩⟩ (by
      intro k hk s ⟨a1, a2, a3, a4, a5⟩
      obtain ⟨core, hcore, hB'⟩ := hB k hk
      rw [rd_of_getElem? (hL.ranks k (by omega)), bind_ok,
        rd_of_getElem? (hL.ranks (k + 1) (by omega)), bind_ok]
      obtain ⟨t, ht, t1, t2, t3, t4, t5⟩ := forN_spec (n := r k * r (k + 1)) (s := s)
        (body := fun jj s => do
          let xk ← rd x (ii * F.dim + k)
          preFun F bas (ii * F.nparams) xk k jj s)
        (I := fun j s => s.1.length = lin.length ∧ s.2.2 = uo r k + j ∧
          s.2.1 = po np (uo r k + j) ∧
          (∀ q, q < ii * F.nparams → s.1[q]? = lin[q]?) ∧
          Point r np F.dim B x ii s.1 (ii * F.nparams) k j)
        ⟨a1, a2, a3, a4, a5⟩ (by
          intro j hj s ⟨b1, b2, b3, b4, b5⟩
          obtain ⟨u, hu, hbas⟩ := hB' j hj
          have hu1 : uo r k + j < uo r F.dim := by
            have h1 := uo_mono r (show k + 1 ≤ F.dim from hk)
            rw [uo_succ] at h1
            omega
          have hp1 := po_mono np (show uo r k + j + 1 ≤ uo r F.dim from hu1)
          rw [po_succ, ← hL.nparams] at hp1
          have hlen : (bas u (x.getD (ii * F.dim + k) 0)).length = np (uo r k + j) := by
            rw [hbas]; simp
          obtain ⟨b, e1, e2, e3, e4⟩ := putAt_ok' s.1 (ii * F.nparams + s.2.1)
            (bas u (x.getD (ii * F.dim + k) 0)) (by rw [hlen, b1, b3]; omega)
          refine ⟨(b, s.2.1 + np (uo r k + j), s.2.2 + 1), ?_, by dsimp only; rw [e2, b1],
            by dsimp only; rw [b2]; omega, ?_, ?_, ?_⟩
          · rw [rd_getD 0 (by omega), bind_ok, preFun, rd_of_getElem? hcore, bind_ok,
              rd_of_getElem? hu, bind_ok, e1, bind_ok, b2, rd_of_getElem? (hL.npu _ hu1), bind_ok]
          · dsimp only; rw [b3, ← Nat.add_assoc, po_succ]
          · intro q hq
            dsimp only
            rw [e4 q (by omega)]; exact b4 q hq
          · constructor
            intro k' hk' j' hj' hlt l hl'
            dsimp only
            by_cases hnew : k' = k ∧ j' = j
            · obtain ⟨rfl, rfl⟩ := hnew
              have := e3 l (by rw [hlen]; exact hl')
              rw [b3] at this
              rw [← Nat.add_assoc, this, hbas]
              simp [hl']
            · have hold : k' < k ∨ k' = k ∧ j' < j := by omega
              have hu2 : uo r k' + j' + 1 ≤ uo r k + j := by
                rcases hold with h | ⟨h, h'⟩
                · have h1 := uo_mono r (show k' + 1 ≤ k from h)
                  rw [uo_succ] at h1
                  omega
                · subst h; omega
              have hp2 := po_mono np hu2
              rw [po_succ] at hp2
              rw [e4 _ (by omega)]
              exact b5.done k' hk' j' hj' hold l hl')
      refine ⟨t, ht, t1, by rw [t2, uo_succ], by rw [t3, uo_succ], t4, ⟨?_⟩⟩
      intro k' hk' j' hj' hlt l hl'
      refine t5.done k' hk' j' hj' ?_ l hl'
      rcases hlt with h | ⟨_, h⟩
      · by_cases hkk : k' = k
        · subst hkk; exact .inr ⟨rfl, hj'⟩
        · exact .inl (by omega)
      · omega)
  refine ⟨s.1, ?_, c1, c4, fun k hk j hj l hl' => c5.done k hk j hj (.inl hk) l hl'⟩
  rw [prePoint, hs, bind_ok]

/-- The array of precomputed values holds, for every datum and every univariate function, the values
of its basis functions at the coordinate of the datum belonging to the core of the function. -/
theorem preCompute_ok (hL : Lay F r np) {bas : U → K → List K} {B : Nat → K → Nat → K}
    (hB : Basis F r np bas B) {N : Nat} {x lin : List K} (hx : N * F.dim ≤ x.length)
    (hl : N * F.nparams ≤ lin.length) :
    ∃ lin', preCompute F bas N x lin = .ok lin' ∧ lin'.length = lin.length ∧
      ∀ ii, ii < N → ∀ k, k < F.dim → ∀ j, j < r k * r (k + 1) → ∀ l, l < np (uo r k + j) →
        lin'[ii * F.nparams + (po np (uo r k + j) + l)]?
          = some (B (uo r k + j) (x.getD (ii * F.dim + k) 0) l) := by
  obtain ⟨t, ht, t1, t2⟩ := forN_spec (n := N) (s := lin) (body := prePoint F bas x)
    (I := fun n t => t.length = lin.length ∧ ∀ ii, ii < n → ∀ k, k < F.dim →
      ∀ j, j < r k * r (k + 1) → ∀ l, l < np (uo r k + j) →
        t[ii * F.nparams + (po np (uo r k + j) + l)]?
          = some (B (uo r k + j) (x.getD (ii * F.dim + k) 0) l))
    ⟨rfl, fun _ h => absurd h (by omega)⟩ (by
      intro ii hi t ⟨a1, a2⟩
      have h6 : (ii + 1) * F.nparams ≤ N * F.nparams := Nat.mul_le_mul_right _ hi
      have h7 : (ii + 1) * F.dim ≤ N * F.dim := Nat.mul_le_mul_right _ hi
      obtain ⟨t', b1, b2, b3, b4⟩ := prePoint_ok hL hB (lin := t) (ii := ii) (x := x)
        (by omega) (by omega)
      refine ⟨t', b1, by rw [b2, a1], fun m hm k hk j hj l hl' => ?_⟩
      by_cases hmi : m = ii
      · subst hmi; exact b4 k hk j hj l hl'
      · have h8 : (m + 1) * F.nparams ≤ ii * F.nparams := Nat.mul_le_mul_right _ (by omega)
        rw [Nat.add_mul, Nat.one_mul] at h8
        have hu1 : uo r k + j + 1 ≤ uo r F.dim := by
          have h1 := uo_mono r (show k + 1 ≤ F.dim from hk)
          rw [uo_succ] at h1
          omega
        have hp1 := po_mono np hu1
        rw [po_succ, ← hL.nparams] at hp1
        rw [b3 _ (by omega)]
        exact a2 m (by omega) k hk j hj l hl')
  exact ⟨t, ht, t1, t2⟩

/-- Entry `c` of the product of the first `k` cores at the point `z`: the function in row `i`, column
`c` of core `k` is the combination of its basis functions at `z k` with its parameters. -/
def trainRow (r np : Nat → Nat) (B : Nat → K → Nat → K) (p : List K) (z : Nat → K) : Nat → Nat → K
  | 0, c => if c = 0 then 1 else 0
  | k + 1, c => ∑ i ∈ Finset.range (r k), trainRow r np B p z k i
      * ∑ l ∈ Finset.range (np (uo r k + (i + c * r k))),
        B (uo r k + (i + c * r k)) (z k) l * p.getD (po np (uo r k + (i + c * r k)) + l) 0

/-- Value at the point `z` of the function train with basis functions `B` and parameters `p`. -/
def trainFn (r np : Nat → Nat) (B : Nat → K → Nat → K) (p : List K) (z : Nat → K) (d : Nat) : K :=
  trainRow r np B p z d 0

theorem pred_trainFn (hL : Lay F r np) {B : Nat → K → Nat → K} {x lin : List K} {ii : Nat}
    (h : ∀ k, k < F.dim → ∀ j, j < r k * r (k + 1) → ∀ l, l < np (uo r k + j) →
      lin[ii * F.nparams + (po np (uo r k + j) + l)]?
        = some (B (uo r k + j) (x.getD (ii * F.dim + k) 0) l)) (p : List K) :
    pred r np F.dim F.nparams lin p ii
      = trainFn r np B p (fun k => x.getD (ii * F.dim + k) 0) F.dim := by
  have : ∀ k, k ≤ F.dim → ∀ c, c < r k →
      lft r (linE np (lin.drop (ii * F.nparams)) p) k c
        = trainRow r np B p (fun k => x.getD (ii * F.dim + k) 0) k c := by
    intro k
    induction k with
    | zero => intros; rfl
    | succ k ih =>
      intro hk c hc
      rw [lft, trainRow]
      refine Finset.sum_congr rfl (fun i hi => ?_)
      have hi' := Finset.mem_range.1 hi
      rw [ih (by omega) i hi']
      congr 1
      rw [linE]
      refine Finset.sum_congr rfl (fun l hl => ?_)
      congr 1
      rw [List.getD_eq_getElem?_getD, List.getElem?_drop,
        h k (by omega) (i + c * r k) (idx_lt hi' hc) l (Finset.mem_range.1 hl)]
      rfl
  exact this F.dim le_rfl 0 (by rw [hL.last]; omega)

end Pre

/-- From the data to the objective: with the precomputed basis values, for every batch the value is
the mean of the weighted squared residuals of the function train, and every entry of the gradient is
its partial derivative.  Partial: linear parameterisation, all parameters at once, at least two
variables, exact real arithmetic. -/
theorem aio_objective_partial (hL : Lay F r np) (h2 : 2 ≤ F.dim) (hF : F.params.length = F.nparams)
    {bas : U → ℝ → List ℝ} {B : Nat → ℝ → Nat → ℝ} (hB : Basis F r np bas B)
    {Nd : Nat} {x y lin0 mem evals grads : List ℝ} {w : Option (List ℝ)}
    (hx : Nd * F.dim ≤ x.length) (hl : Nd * F.nparams ≤ lin0.length) (hy : y.length = Nd)
    (hm : mo r F.dim ≤ mem.length) (he : uo r F.dim ≤ evals.length)
    {N : Nat} (hN : 0 < N) (hgr : N * F.nparams ≤ grads.length) {ind : Option (List Nat)}
    (hb : BatchOk y w N ind) {p : List ℝ} (hp : p.length = F.nparams) (buf : List ℝ)
    (hbuf : buf.length = F.nparams) :
    ∃ lin, preCompute F bas Nd x lin0 = .ok lin ∧
      ∃ g, objEval (buildLS (lsObj F.nparams (aioMap lin mem evals grads) y w)) F.nparams p
          (some buf) N ind F
        = .ok (mse y w N ind
            (fun k => trainFn r np B p (fun c => x.getD (k * F.dim + c) 0) F.dim), some g,
          { F with params := p }) ∧ g.length = F.nparams ∧
      ∀ j, j < F.nparams → HasDerivAt (fun t => mse y w N ind
          (fun k => trainFn r np B (p.set j t) (fun c => x.getD (k * F.dim + c) 0) F.dim))
        (g.getD j 0) (p.getD j 0) := by
  obtain ⟨lin, hlin, hlen, hval⟩ := preCompute_ok hL hB hx hl
  refine ⟨lin, hlin, ?_⟩
  have hix : ∀ ii, ii < N → ix ind ii = .ok (ixv ind ii) ∧ ixv ind ii < Nd :=
    fun ii hi => ⟨ix_ok hb hi, by rw [← hy]; exact (hb ii hi).2.1⟩
  have hmse : ∀ q : List ℝ, mse y w N ind (pred r np F.dim F.nparams lin q)
      = mse y w N ind
        (fun k => trainFn r np B q (fun c => x.getD (k * F.dim + c) 0) F.dim) := by
    intro q
    unfold mse
    congr 1
    refine Finset.sum_congr rfl (fun ii hi => ?_)
    rw [pred_trainFn hL (hval _ (hix ii (Finset.mem_range.1 hi)).2) q]
  have hprob : LsProblem F.nparams (aioMap lin mem evals grads) y w
      (pred r np F.dim F.nparams lin)
      (fun p k j => deriv (fun t => pred r np F.dim F.nparams lin (p.set j t) k) (p.getD j 0))
      (fun q => { F with params := q }) N ind p F := by
    refine ⟨hN, hb, aio_map hL h2 hF (by omega) hm he hgr hix hp, fun ii hi j hj => ?_⟩
    have h3 : (ixv ind ii + 1) * F.nparams ≤ Nd * F.nparams :=
      Nat.mul_le_mul_right _ (hix ii hi).2
    rw [Nat.add_mul, Nat.one_mul] at h3
    obtain ⟨R, _, _, _, h4⟩ := gradevalLin_deriv hL h2 (lin.drop (ixv ind ii * F.nparams)) p mem
      evals p hp (by omega) (by rw [List.length_drop]; omega) hm he
    exact (h4 j hj).2.hasDerivAt
  obtain ⟨_, g, h5, h6, h7⟩ := objective_ls hprob buf hbuf
  refine ⟨g, by rw [h5, hmse], h6, fun j hj => ?_⟩
  have h8 := h7 j hj
  simp only [hmse] at h8
  exact h8

/-- The train `exF` with basis functions 1 and `t` has a basis in this sense. -/
theorem exF_basis : Basis exF exR (fun _ => 2) (fun _ t => [1, t])
    (fun _ t l => if l = 0 then 1 else t) := by
  intro k hk
  have hk2 : k < 2 := hk
  have h : ∀ t : ℝ, [1, t] = (List.range 2).map (fun l => if l = 0 then 1 else t) := by
    intro t; simp [List.range_succ]
  match k, hk2 with
  | 0, _ =>
    refine ⟨[0, 1], rfl, fun j hj => ?_⟩
    have hj2 : j < 2 := by simpa [exR] using hj
    match j, hj2 with
    | 0, _ => exact ⟨0, rfl, h⟩
    | 1, _ => exact ⟨1, rfl, h⟩
  | 1, _ =>
    refine ⟨[2, 3], rfl, fun j hj => ?_⟩
    have hj2 : j < 2 := by simpa [exR] using hj
    match j, hj2 with
    | 0, _ => exact ⟨2, rfl, h⟩
    | 1, _ => exact ⟨3, rfl, h⟩

/-- Three data in two variables, batch of the data 2 and 0. -/
example (x y p : List ℝ) (hx : x.length = 6) (hy : y.length = 3) (hp : p.length = 8) :
    ∃ lin, preCompute exF (fun _ t => [1, t]) 3 x (List.replicate 24 0) = .ok lin :=
  Exists.imp (fun _ h => h.1) <| aio_objective_partial exF_lay (by simp [exF]) (by simp [exF])
    exF_basis (Nd := 3) (N := 2) (ind := some [2, 0]) (w := none) (y := y) (p := p)
    (mem := List.replicate 3 0) (evals := List.replicate 4 0) (grads := List.replicate 16 0)
    (by simp [exF, hx]) (by simp [exF]) hy
    (by simp [exF, mo, exR, Finset.sum_range_succ]) (by simp [exF, uo, exR, Finset.sum_range_succ])
    (by omega) (by simp [exF]) (by
      intro ii hi
      have : ii = 0 ∨ ii = 1 := by omega
      rcases this with rfl | rfl <;>
        exact ⟨by intro l h; cases h; simp, by simp [ixv, hy], by intro l h; cases h⟩)
    (by simpa [exF] using hp) (List.replicate 8 0) (by simp [exF])

end C3.Sl
