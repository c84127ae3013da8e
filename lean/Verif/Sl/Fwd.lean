/-
Forward sweep of the parameter gradient: the workspace holds the left products.
-/
import Verif.Sl.Model
import Verif.Sl.Spec

namespace C3.Sl

variable {K U : Type} [CommRing K]

/-- The tables of a parameterised function train describe ranks `r` and numbers of parameters
`np`; this is what `ft_param_alloc` (parameterization.c:84-137) sets up. -/
structure Lay (F : FTP K U) (r np : Nat → Nat) : Prop where
  dim_pos : 0 < F.dim
  ranks : ∀ k, k ≤ F.dim → F.ranks[k]? = some (r k)
  npu : ∀ u, u < uo r F.dim → F.npu[u]? = some (np u)
  npc : ∀ k, k < F.dim → F.npc[k]? = some (po np (uo r (k + 1)) - po np (uo r k))
  first : r 0 = 1
  last : r F.dim = 1
  nparams : F.nparams = po np (uo r F.dim)

/-- The evaluation of univariate functions succeeds, gives the values `e` and maintains `G`, a
property of the gradient buffer after `u` functions. -/
def EfOk (ef : EvalFn K) (r np : Nat → Nat) (e : Nat → K) (d : Nat)
    (G : Nat → List K → Prop) : Prop :=
  ∀ kk, kk < d → ∀ j, j < r kk * r (kk + 1) → ∀ gev, G (uo r kk + j) gev →
    ∃ gev', ef kk j (uo r kk + j) (po np (uo r kk + j)) gev = .ok (gev', e (uo r kk + j)) ∧
      G (uo r kk + j + 1) gev'

/-- Invariant of the forward sweep: `u` functions evaluated, `m` blocks of the workspace done. -/
structure FI (r np : Nat → Nat) (e : Nat → K) (G : Nat → List K → Prop) (Nm Ne : Nat)
    (u m : Nat) (s : Fw K) : Prop where
  onuni : s.onuni = u
  onparam : s.onparam = po np u
  gev : G u s.gev
  elen : s.evals.length = Ne
  evals : ∀ v, v < u → s.evals[v]? = some (e v)
  mlen : s.mem.length = Nm
  mem : ∀ k, k < m → ∀ c, c < r (k + 1) → s.mem[mo r k + c]? = some (lft r e (k + 1) c)

theorem uo_idx_lt {r : Nat → Nat} {k j d : Nat} (hk : k < d) (hj : j < r k * r (k + 1)) :
    uo r k + j < uo r d := by
  have := uo_mono r (show k + 1 ≤ d from hk)
  rw [uo_succ] at this; omega

theorem mo_idx_lt {r : Nat → Nat} {k c d : Nat} (hk : k < d) (hc : c < r (k + 1)) :
    mo r k + c < mo r d := by
  have := mo_mono r (show k + 1 ≤ d from hk)
  rw [mo_succ] at this; omega

variable {F : FTP K U} {r np : Nat → Nat} {e : Nat → K} {G : Nat → List K → Prop} {Nm Ne : Nat}
  {ef : EvalFn K}

theorem fwCol0_ok (hL : Lay F r np) (hef : EfOk ef r np e F.dim G) (hm : mo r F.dim ≤ Nm)
    (he : uo r F.dim ≤ Ne) (col : Nat) (hc : col < r 1) (s : Fw K)
    (hs : FI r np e G Nm Ne col 0 s ∧ s.indmem = 0 ∧ ∀ c, c < col → s.mem[c]? = some (e c)) :
    ∃ s', fwCol0 F ef col s = .ok s' ∧
      (FI r np e G Nm Ne (col + 1) 0 s' ∧ s'.indmem = 0 ∧
        ∀ c, c < col + 1 → s'.mem[c]? = some (e c)) := by
  obtain ⟨⟨h1, h2, h3, h4, h5, h6, _⟩, hind, hmem⟩ := hs
  have u0 : uo r 0 = 0 := rfl
  have hj : col < r 0 * r (0 + 1) := by rw [hL.first]; simpa using hc
  obtain ⟨gev', hg, hG⟩ := hef 0 hL.dim_pos col hj s.gev (by rw [u0, Nat.zero_add]; exact h3)
  rw [u0, Nat.zero_add] at hg hG
  have hlt : col < uo r F.dim := by
    have := uo_idx_lt (r := r) hL.dim_pos hj
    rwa [u0, Nat.zero_add] at this
  have hmlt : col < mo r F.dim := by
    have := mo_idx_lt (r := r) (k := 0) hL.dim_pos hc
    simpa [mo] using this
  refine ⟨{ s with mem := s.mem.set col (e col), evals := s.evals.set col (e col), gev := gev'
                   onuni := col + 1, onparam := po np col + np col }, by
    rw [fwCol0, h1, h2, hg, bind_ok, wr_ok _ (by omega), bind_ok, wr_ok _ (by omega), bind_ok,
      rd_of_getElem? (hL.npu col hlt), bind_ok], ⟨rfl, (po_succ np col).symm, hG, by simp [h4], ?_,
      by simp [h6], fun k hk => absurd hk (Nat.not_lt_zero k)⟩, hind, ?_⟩
  · intro v hv
    dsimp only
    by_cases hvc : v = col
    · subst hvc; rw [List.getElem?_set_self (by omega)]
    · rw [List.getElem?_set_ne (by omega)]; exact h5 v (by omega)
  · intro c hc'
    dsimp only
    by_cases hvc : c = col
    · subst hvc; rw [List.getElem?_set_self (by omega)]
    · rw [List.getElem?_set_ne (by omega)]; exact hmem c (by omega)

/-- Invariant of the loop over columns of core `k + 1`. -/
def CI (r np : Nat → Nat) (e : Nat → K) (G : Nat → List K → Prop) (Nm Ne k : Nat) (col : Nat)
    (s : Fw K) : Prop :=
  FI r np e G Nm Ne (uo r (k + 1) + col * r (k + 1)) (k + 1) s ∧ s.indmem = mo r k ∧
    ∀ c, c < col → s.mem[mo r (k + 1) + c]? = some (lft r e (k + 2) c)

/-- Invariant of the loop over rows of core `k + 1`, column `col`. -/
def RI (r np : Nat → Nat) (e : Nat → K) (G : Nat → List K → Prop) (Nm Ne k col : Nat) (row : Nat)
    (s : Fw K) : Prop :=
  FI r np e G Nm Ne (uo r (k + 1) + (row + col * r (k + 1))) (k + 1) s ∧ s.indmem = mo r k ∧
    (∀ c, c < col → s.mem[mo r (k + 1) + c]? = some (lft r e (k + 2) c)) ∧
    s.mem[mo r (k + 1) + col]? = some (∑ i ∈ Finset.range row,
      lft r e (k + 1) i * e (uo r (k + 1) + (i + col * r (k + 1))))

theorem fwRow_ok (hL : Lay F r np) (hef : EfOk ef r np e F.dim G) (hm : mo r F.dim ≤ Nm)
    (he : uo r F.dim ≤ Ne) (k col row : Nat) (hk : k + 1 < F.dim) (hc : col < r (k + 2))
    (hr : row < r (k + 1)) (s : Fw K) (hs : RI r np e G Nm Ne k col row s) :
    ∃ s', fwRow F ef (k + 1) (r (k + 1)) col row s = .ok s' ∧
      RI r np e G Nm Ne k col (row + 1) s' := by
  obtain ⟨⟨h1, h2, h3, h4, h5, h6, h7⟩, hind, hcols, hacc⟩ := hs
  have hj : row + col * r (k + 1) < r (k + 1) * r (k + 1 + 1) := idx_lt hr hc
  obtain ⟨gev', hg, hG⟩ := hef (k + 1) hk _ hj s.gev h3
  have hlt := uo_idx_lt (r := r) hk hj
  have hmlt := mo_idx_lt (r := r) hk hc
  have hmo := mo_succ r k
  have ha : s.indmem + r (k + 1) + col = mo r (k + 1) + col := by rw [hind, hmo]
  have hb := h7 k (Nat.lt_succ_self k) row hr
  have hu : uo r (k + 1) + (row + 1 + col * r (k + 1))
      = uo r (k + 1) + (row + col * r (k + 1)) + 1 := by omega
  refine ⟨{ s with
      mem := s.mem.set (mo r (k + 1) + col) (∑ i ∈ Finset.range row,
          lft r e (k + 1) i * e (uo r (k + 1) + (i + col * r (k + 1)))
        + lft r e (k + 1) row * e (uo r (k + 1) + (row + col * r (k + 1))))
      evals := s.evals.set (uo r (k + 1) + (row + col * r (k + 1)))
        (e (uo r (k + 1) + (row + col * r (k + 1))))
      gev := gev'
      onuni := uo r (k + 1) + (row + col * r (k + 1)) + 1
      onparam := po np (uo r (k + 1) + (row + col * r (k + 1)))
        + np (uo r (k + 1) + (row + col * r (k + 1))) }, by
    rw [fwRow, h1, h2, hg, bind_ok, wr_ok _ (by omega), bind_ok, ha, rd_of_getElem? hacc, bind_ok,
      hind, rd_of_getElem? hb, bind_ok, wr_ok _ (by omega), bind_ok,
      rd_of_getElem? (hL.npu _ hlt), bind_ok], ⟨?_, ?_, ?_, by simp [h4], ?_, by simp [h6], ?_⟩,
      hind, ?_, ?_⟩
  · exact hu.symm
  · rw [hu, po_succ]
  · rw [hu]; exact hG
  · intro v hv
    dsimp only
    by_cases hvc : v = uo r (k + 1) + (row + col * r (k + 1))
    · subst hvc; rw [List.getElem?_set_self (by omega)]
    · rw [List.getElem?_set_ne (by omega)]; exact h5 v (by omega)
  · intro k' hk' c hc'
    dsimp only
    have := mo_idx_lt (r := r) hk' hc'
    rw [List.getElem?_set_ne (by omega)]; exact h7 k' hk' c hc'
  · intro c hc'
    dsimp only
    rw [List.getElem?_set_ne (by omega)]; exact hcols c hc'
  · dsimp only
    rw [List.getElem?_set_self (by omega), Finset.sum_range_succ]

theorem fwCol_ok (hL : Lay F r np) (hef : EfOk ef r np e F.dim G) (hm : mo r F.dim ≤ Nm)
    (he : uo r F.dim ≤ Ne) (k col : Nat) (hk : k + 1 < F.dim) (hc : col < r (k + 2)) (s : Fw K)
    (hs : CI r np e G Nm Ne k col s) :
    ∃ s', fwCol F ef (k + 1) (r (k + 1)) col s = .ok s' ∧ CI r np e G Nm Ne k (col + 1) s' := by
  obtain ⟨⟨h1, h2, h3, h4, h5, h6, h7⟩, hind, hcols⟩ := hs
  have hmlt := mo_idx_lt (r := r) hk hc
  have hmo := mo_succ r k
  have ha : s.indmem + r (k + 1) + col = mo r (k + 1) + col := by rw [hind, hmo]
  rw [fwCol, ha, wr_ok _ (by omega), bind_ok]
  obtain ⟨s', hs', ⟨g1, g2, g3, g4, g5, g6, g7⟩, gind, gcols, gacc⟩ := forN_spec
    (I := RI r np e G Nm Ne k col)
    (s := { s with mem := s.mem.set (mo r (k + 1) + col) 0 })
    (n := r (k + 1)) (body := fwRow F ef (k + 1) (r (k + 1)) col) (by
      refine ⟨⟨by simpa using h1, by simpa using h2, by simpa using h3, h4, ?_, by simp [h6], ?_⟩,
        hind, ?_, ?_⟩
      · intro v hv; exact h5 v (by omega)
      · intro k' hk' c hc'
        have := mo_idx_lt (r := r) hk' hc'
        dsimp only
        rw [List.getElem?_set_ne (by omega)]; exact h7 k' hk' c hc'
      · intro c hc'
        dsimp only
        rw [List.getElem?_set_ne (by omega)]; exact hcols c hc'
      · dsimp only
        rw [List.getElem?_set_self (by omega)]; simp)
    (fun row hrow s hs => fwRow_ok hL hef hm he k col row hk hc hrow s hs)
  have hu : uo r (k + 1) + (r (k + 1) + col * r (k + 1))
      = uo r (k + 1) + (col + 1) * r (k + 1) := by ring
  rw [hu] at g1 g2 g3 g5
  refine ⟨s', hs', ⟨g1, g2, g3, g4, g5, g6, g7⟩, gind, ?_⟩
  intro c hc'
  by_cases hcc : c = col
  · subst hcc; rw [gacc]; rfl
  · exact gcols c (by omega)

/-- Invariant of the loop over cores. -/
def KI (r np : Nat → Nat) (e : Nat → K) (G : Nat → List K → Prop) (Nm Ne : Nat) (k : Nat)
    (s : Fw K) : Prop :=
  FI r np e G Nm Ne (uo r k) k s ∧ s.indmem = mo r (k - 1)

theorem fwCore_ok (hL : Lay F r np) (hef : EfOk ef r np e F.dim G) (hm : mo r F.dim ≤ Nm)
    (he : uo r F.dim ≤ Ne) (k : Nat) (hk : k < F.dim) (s : Fw K)
    (hs : KI r np e G Nm Ne k s) :
    ∃ s', fwCore F ef k s = .ok s' ∧ KI r np e G Nm Ne (k + 1) s' := by
  rw [fwCore, rd_of_getElem? (hL.ranks k (by omega)), bind_ok,
    rd_of_getElem? (hL.ranks (k + 1) (by omega)), bind_ok]
  cases k with
  | zero =>
    rw [if_neg (by omega)]
    obtain ⟨hFI, hind⟩ := hs
    obtain ⟨s', hs', ⟨g1, g2, g3, g4, g5, g6, g7⟩, gind, gm⟩ := forN_spec
      (I := fun col s => FI r np e G Nm Ne col 0 s ∧ s.indmem = 0 ∧
        ∀ c, c < col → s.mem[c]? = some (e c))
      (n := r 1) (body := fwCol0 F ef) (s := s)
      ⟨hFI, hind, fun c hc => absurd hc (Nat.not_lt_zero c)⟩
      (fun col hcol s hs => fwCol0_ok hL hef hm he col hcol s hs)
    have hu : uo r (0 + 1) = r 1 := by simp [uo, hL.first]
    refine ⟨s', hs', ⟨by rw [hu]; exact g1, by rw [hu]; exact g2, by rw [hu]; exact g3, g4,
      by rw [hu]; exact g5, g6, ?_⟩, gind⟩
    intro k' hk' c hc
    obtain rfl : k' = 0 := by omega
    have : lft r e (0 + 1) c = e c := by
      simp [lft, hL.first, uo]
    rw [this, show mo r 0 + c = c by simp [mo]]
    exact gm c hc
  | succ k =>
    rw [if_pos (by omega)]
    obtain ⟨hFI, hind⟩ := hs
    obtain ⟨s', hs', ⟨g1, g2, g3, g4, g5, g6, g7⟩, gind, gm⟩ := forN_spec
      (I := CI r np e G Nm Ne k)
      (n := r (k + 1 + 1)) (body := fwCol F ef (k + 1) (r (k + 1))) (s := s)
      ⟨by simpa using hFI, by simpa using hind, fun c hc => absurd hc (Nat.not_lt_zero c)⟩
      (fun col hcol s hs => fwCol_ok hL hef hm he k col hk hcol s hs)
    have hu : uo r (k + 1) + r (k + 1 + 1) * r (k + 1) = uo r (k + 1 + 1) := by
      rw [uo_succ r (k + 1)]; ring
    rw [hu] at g1 g2 g3 g5
    rw [hs', bind_ok]
    refine ⟨_, rfl, ⟨g1, g2, g3, g4, g5, g6, ?_⟩, ?_⟩
    · intro k' hk' c hc
      by_cases hkk : k' = k + 1
      · subst hkk; exact gm c hc
      · exact g7 k' (by omega) c hc
    · dsimp only
      rw [gind]
      exact (mo_succ r k).symm

/-- The forward sweep succeeds; afterwards the workspace holds all left products. -/
theorem forward_ok (hL : Lay F r np) (hef : EfOk ef r np e F.dim G) (mem evals gev : List K)
    (hm : mo r F.dim ≤ mem.length) (he : uo r F.dim ≤ evals.length) (hG : G 0 gev) :
    ∃ s', forward F ef ⟨mem, evals, gev, 0, 0, 0⟩ = .ok s' ∧
      KI r np e G mem.length evals.length F.dim s' := by
  refine forN_spec (I := KI r np e G mem.length evals.length) ?_
    (fun k hk s hs => fwCore_ok hL hef hm he k hk s hs)
  refine ⟨⟨rfl, rfl, hG, rfl, fun v hv => absurd hv (Nat.not_lt_zero v), rfl,
    fun k hk => absurd hk (Nat.not_lt_zero k)⟩, rfl⟩

theorem dotAt_ok (n : Nat) (a b : List K) (ao bo : Nat) (ha : ao + n ≤ a.length)
    (hb : bo + n ≤ b.length) :
    dotAt n a ao b bo = .ok (∑ i ∈ Finset.range n, a.getD (ao + i) 0 * b.getD (bo + i) 0) := by
  have := forN_sum (n := n) (s0 := (0 : K))
    (body := fun i s => do
      let x ← rd a (ao + i)
      let y ← rd b (bo + i)
      .ok (s + x * y))
    (fun i => a.getD (ao + i) 0 * b.getD (bo + i) 0) (by
      intro i hi s
      rw [rd_getD 0 (by omega), bind_ok, rd_getD 0 (by omega), bind_ok])
  rw [dotAt, this, zero_add]

/-- Linear parameterisation: the value of function `u` is the inner product of its parameters with
the precomputed derivatives, and the buffer does not change. -/
theorem evLin_ok (hL : Lay F r np) (gev : List K) (hg : po np (uo r F.dim) ≤ gev.length)
    (hp : po np (uo r F.dim) ≤ F.params.length) :
    EfOk (evLin F) r np (fun u => ∑ l ∈ Finset.range (np u),
      gev.getD (po np u + l) 0 * F.params.getD (po np u + l) 0) F.dim
      (fun _ g => g = gev) := by
  intro kk hkk j hj g hG
  subst hG
  have hlt := uo_idx_lt (r := r) hkk hj
  have h1 := po_mono np (show uo r kk + j + 1 ≤ uo r F.dim from hlt)
  rw [po_succ] at h1
  refine ⟨g, ?_, rfl⟩
  rw [evLin, rd_of_getElem? (hL.npu _ hlt), bind_ok, dotAt_ok _ _ _ _ _ (by omega) (by omega),
    bind_ok]

omit [CommRing K] in
theorem putAt_ok (buf l : List K) (off : Nat) (h : off + l.length ≤ buf.length) :
    ∃ b, putAt buf off l = .ok b ∧ b.length = buf.length ∧
      (∀ i, i < l.length → b[off + i]? = l[i]?) ∧
      (∀ p, (∀ i, i < l.length → off + i ≠ p) → b[p]? = buf[p]?) := by
  obtain ⟨b, hb, hlen, h1, h2⟩ := forN_spec
    (I := fun n (b : List K) => b.length = buf.length ∧
      (∀ i, i < n → b[off + i]? = l[i]?) ∧
      (∀ p, (∀ i, i < n → off + i ≠ p) → b[p]? = buf[p]?))
    (n := l.length) (s := buf) (body := fun i b => do
      let v ← rd l i
      wr b (off + i) v) ⟨rfl, fun i hi => absurd hi (Nat.not_lt_zero i), fun _ _ => rfl⟩ (by
      intro i hi b ⟨hlen, h1, h2⟩
      refine ⟨_, by rw [rd_ok hi, bind_ok, wr_ok _ (by omega)], by simp [hlen], ?_, ?_⟩
      · intro i' hi'
        by_cases hii : i' = i
        · subst hii; rw [List.getElem?_set_self (by omega), List.getElem?_eq_getElem hi]
        · rw [List.getElem?_set_ne (by omega)]; exact h1 i' (by omega)
      · intro p hp
        rw [List.getElem?_set_ne (hp i (by omega))]
        exact h2 p (fun i' hi' => hp i' (by omega)))
  exact ⟨b, hb, hlen, h1, h2⟩

/-- General parameterisation: each univariate function reports its value `e u` and the derivatives
`gr` with respect to its own parameters, which end up in the buffer. -/
theorem evNonlin_ok (ge : U → K → K × List K) (x : List K) (gr : Nat → K) (Ng : Nat)
    (hNg : po np (uo r F.dim) ≤ Ng)
    (hge : ∀ k, k < F.dim → ∀ j, j < r k * r (k + 1) → ∃ core u xk,
      F.cores[k]? = some core ∧ core[j]? = some u ∧ x[k]? = some xk ∧
      (ge u xk).1 = e (uo r k + j) ∧ (ge u xk).2.length = np (uo r k + j) ∧
      ∀ l, l < np (uo r k + j) → (ge u xk).2[l]? = some (gr (po np (uo r k + j) + l))) :
    EfOk (evNonlin F ge x) r np e F.dim
      (fun u g => g.length = Ng ∧ ∀ p, p < po np u → g[p]? = some (gr p)) := by
  intro kk hkk j hj g ⟨hlen, hG⟩
  obtain ⟨core, u, xk, hcore, hu, hx, he, hl, hgr⟩ := hge kk hkk j hj
  have hlt := uo_idx_lt (r := r) hkk hj
  have h1 := po_mono np (show uo r kk + j + 1 ≤ uo r F.dim from hlt)
  rw [po_succ] at h1
  obtain ⟨b, hb, hblen, hb1, hb2⟩ := putAt_ok g (ge u xk).2 (po np (uo r kk + j)) (by omega)
  refine ⟨b, ?_, by omega, ?_⟩
  · rw [evNonlin, rd_of_getElem? hcore, bind_ok, rd_of_getElem? hu, bind_ok,
      rd_of_getElem? hx, bind_ok, hb, bind_ok, he]
  · intro p hp
    rw [po_succ] at hp
    by_cases hpp : p < po np (uo r kk + j)
    · rw [hb2 p (fun i _ => by omega)]; exact hG p hpp
    · obtain ⟨l, rfl⟩ : ∃ l, p = po np (uo r kk + j) + l := ⟨p - po np (uo r kk + j), by omega⟩
      rw [hb1 l (by omega)]
      exact hgr l (by omega)

end C3.Sl
