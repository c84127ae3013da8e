/-
Invariant of the alternating least squares run.
-/
import Verif.Sl.AlsCore

namespace C3.Sl

variable {K U : Type} [CommRing K]
variable {F : FTP K U} {r np : Nat → Nat}

/-! ### Parameters of one core -/

theorem Lay.withParams (hL : Lay F r np) (q : List K) : Lay { F with params := q } r np :=
  ⟨hL.dim_pos, hL.ranks, hL.npu, hL.npc, hL.first, hL.last, hL.nparams⟩

/-- Number of parameters of core `c`. -/
def cn (r np : Nat → Nat) (c : Nat) : Nat := po np (uo r (c + 1)) - po np (uo r c)

theorem cn_le (c d : Nat) (hc : c < d) :
    po np (uo r c) + cn r np c = po np (uo r (c + 1)) ∧ po np (uo r (c + 1)) ≤ po np (uo r d) := by
  have h1 := po_mono np (uo_mono r (show c ≤ c + 1 by omega))
  have h2 := po_mono np (uo_mono r (show c + 1 ≤ d by omega))
  exact ⟨by rw [cn]; omega, h2⟩

/-- The parameters `q` are `p0` with the block of core `c` replaced by `p`. -/
def Repl (r np : Nat → Nat) (c : Nat) (p0 p q : List K) : Prop :=
  q.length = p0.length ∧
  (∀ i, i < cn r np c → q[po np (uo r c) + i]? = p[i]?) ∧
  ∀ j, j < po np (uo r c) ∨ po np (uo r (c + 1)) ≤ j → q[j]? = p0[j]?

theorem updateCore_ok (hL : Lay F r np) (hp : F.nparams ≤ F.params.length) (c : Nat)
    (hc : c < F.dim) (p : List K) (hpl : p.length = cn r np c) :
    ∃ q, updateCore F c p = .ok { F with params := q } ∧ Repl r np c F.params p q := by
  obtain ⟨h1, h2⟩ := cn_le (r := r) (np := np) c F.dim hc
  rw [hL.nparams] at hp
  obtain ⟨q, hq, q1, q2, q3⟩ := forN_spec
    (I := fun ii (b : List K) => b.length = F.params.length ∧
      (∀ i, i < ii → b[po np (uo r c) + i]? = p[i]?) ∧
      ∀ j, j < po np (uo r c) ∨ po np (uo r c) + ii ≤ j → b[j]? = F.params[j]?)
    (n := cn r np c) (s := F.params)
    (body := fun i b => do
      let v ← rd p i
      wr b (po np (uo r c) + i) v)
    ⟨rfl, fun i hi => absurd hi (Nat.not_lt_zero i), fun _ _ => rfl⟩ (by
      intro ii hii b ⟨b1, b2, b3⟩
      refine ⟨b.set (po np (uo r c) + ii) (p[ii]'(by omega)), by
        rw [rd_ok (by omega), bind_ok, wr_ok _ (by omega)], by simp [b1], ?_, ?_⟩
      · intro i hi
        by_cases hii' : i = ii
        · subst hii'
          rw [List.getElem?_set_self (by omega), List.getElem?_eq_getElem (by omega)]
        · rw [List.getElem?_set_ne (by omega)]; exact b2 i (by omega)
      · intro j hj
        rw [List.getElem?_set_ne (by omega)]; exact b3 j (by omega))
  refine ⟨q, ?_, q1, q2, fun j hj => q3 j (by omega)⟩
  rw [updateCore, coreStart_ok hL c (by omega), bind_ok, rd_of_getElem? (hL.npc c hc), bind_ok]
  change (forN (cn r np c) _ _ >>= _) = _
  rw [hq, bind_ok]

theorem coreParams_ok (hL : Lay F r np) (hp : F.nparams ≤ F.params.length) (c : Nat)
    (hc : c < F.dim) :
    ∃ g, coreParams F c = .ok g ∧ g.length = cn r np c ∧
      ∀ i, i < cn r np c → g[i]? = F.params[po np (uo r c) + i]? := by
  obtain ⟨h1, h2⟩ := cn_le (r := r) (np := np) c F.dim hc
  rw [hL.nparams] at hp
  obtain ⟨q, hq, q1, q2⟩ := forN_spec
    (I := fun ii (b : List K) => b.length = cn r np c ∧
      (∀ i, i < ii → b[i]? = F.params[po np (uo r c) + i]?))
    (n := cn r np c) (s := List.replicate (cn r np c) 0)
    (body := fun i b => do
      let v ← rd F.params (po np (uo r c) + i)
      wr b i v)
    ⟨by simp, fun i hi => absurd hi (Nat.not_lt_zero i)⟩ (by
      intro ii hii b ⟨b1, b2⟩
      refine ⟨b.set ii (F.params[po np (uo r c) + ii]'(by omega)), by
        rw [rd_ok (by omega), bind_ok, wr_ok _ (by omega)], by simp [b1], ?_⟩
      intro i hi
      by_cases hii' : i = ii
      · subst hii'
        rw [List.getElem?_set_self (by omega), List.getElem?_eq_getElem (by omega)]
      · rw [List.getElem?_set_ne (by omega)]; exact b2 i (by omega))
  refine ⟨q, ?_, q1, q2⟩
  rw [coreParams, coreStart_ok hL c (by omega), bind_ok, rd_of_getElem? (hL.npc c hc), bind_ok]
  exact hq

/-- Replacing a block by its own content changes nothing. -/
theorem repl_self {c d : Nat} {p0 g q : List K} (hc : c < d) (hp : po np (uo r d) ≤ p0.length)
    (hg : ∀ i, i < cn r np c → g[i]? = p0[po np (uo r c) + i]?) (h : Repl r np c p0 g q) :
    q = p0 := by
  obtain ⟨h1, h2⟩ := cn_le (r := r) (np := np) c d hc
  refine List.ext_getElem? (fun j => ?_)
  by_cases hj : j < po np (uo r c) ∨ po np (uo r (c + 1)) ≤ j
  · exact h.2.2 j hj
  · have := h.2.1 (j - po np (uo r c)) (by omega)
    rw [hg _ (by omega), show po np (uo r c) + (j - po np (uo r c)) = j by omega] at this
    exact this

theorem repl_linE {c : Nat} {p0 p q : List K} (h : Repl r np c p0 p q) (gev : List K) (u : Nat)
    (hu : u < uo r c ∨ uo r (c + 1) ≤ u) : linE np gev q u = linE np gev p0 u := by
  refine Finset.sum_congr rfl (fun l hl => ?_)
  have hl' := Finset.mem_range.1 hl
  congr 1
  have hx : q[po np u + l]? = p0[po np u + l]? := by
    apply h.2.2
    rcases hu with hu | hu
    · left
      have := po_mono np (show u + 1 ≤ uo r c from hu)
      rw [po_succ] at this
      omega
    · right
      have := po_mono np hu
      omega
  rw [List.getD_eq_getElem?_getD, List.getD_eq_getElem?_getD, hx]

theorem around_repl {c d : Nat} {p0 p q : List K} (h : Repl r np c p0 p q) (hc : c < d)
    (gev : List K) {lr rl : Option (List K)} (ha : Around r (linE np gev p0) d c lr rl) :
    Around r (linE np gev q) d c lr rl := by
  refine ⟨fun h0 => ?_, fun h0 => ?_⟩
  · obtain ⟨l, hl, hl'⟩ := ha.1 h0
    refine ⟨l, hl, fun k hk => ?_⟩
    rw [hl' k hk, lft_congr r (linE np gev q) (linE np gev p0) c
      (fun u hu => repl_linE h gev u (.inl hu)) k hk]
  · obtain ⟨l, hl, hl'⟩ := ha.2 h0
    refine ⟨l, hl, fun k hk => ?_⟩
    rw [hl' k hk, rgt_congr r (linE np gev q) (linE np gev p0) d (d - (c + 1)) (by omega)
      (fun u hu => repl_linE h gev u (.inr (by rwa [show d - (d - (c + 1)) = c + 1 by omega] at hu)))
      k]

/-! ### The table of running products -/

/-- Entry for core `c` and point `i`. -/
def at2 (a : List (List (List K))) (c i : Nat) : Option (List K) := (a[c]?).bind (·[i]?)

omit [CommRing K] in
theorem rd2_ok {a : List (List (List K))} {c i : Nat} {v : List K} (h : at2 a c i = some v) :
    rd2 a c i = .ok v := by
  unfold at2 at h
  cases hr : a[c]? with
  | none => simp [hr] at h
  | some row =>
    rw [hr] at h
    rw [rd2, rd_of_getElem? hr, bind_ok, rd_of_getElem? (by simpa using h)]

omit [CommRing K] in
theorem wr2_ok {a : List (List (List K))} {c i : Nat} {u : List K} (v : List K)
    (h : at2 a c i = some u) :
    ∃ a', wr2 a c i v = .ok a' ∧ a'.length = a.length ∧ at2 a' c i = some v ∧
      ∀ c' i', c' ≠ c ∨ i' ≠ i → at2 a' c' i' = at2 a c' i' := by
  unfold at2 at h
  cases hr : a[c]? with
  | none => simp [hr] at h
  | some row =>
    rw [hr] at h
    have h' : row[i]? = some u := by simpa using h
    have hil := (List.getElem?_eq_some_iff.1 h').1
    have hcl := (List.getElem?_eq_some_iff.1 hr).1
    refine ⟨a.set c (row.set i v), ?_, by simp, ?_, ?_⟩
    · rw [wr2, rd_of_getElem? hr, bind_ok, wr_ok _ hil, bind_ok, wr_ok _ hcl]
    · rw [at2, List.getElem?_set_self hcl]
      simp [hil]
    · intro c' i' hne
      unfold at2
      by_cases hc : c' = c
      · subst hc
        have hi : i ≠ i' := fun e => by subst e; simp at hne
        rw [List.getElem?_set_self hcl, hr]
        simp [hi]
      · rw [List.getElem?_set_ne (by omega)]

/-- Fixed data of a run. -/
structure Cfg (K : Type) where
  d : Nat
  N : Nat
  gevs : List (List K)

/-- Left product stored at `c` for point `i`. -/
def LrGood (r np : Nat → Nat) (cf : Cfg K) (s : Als K U) (c i : Nat) : Prop :=
  ∀ v, at2 s.lr c i = some v → ∀ k, k < r (c + 1) →
    v[k]? = some (lft r (linE np (cf.gevs.getD i []) s.F.params) (c + 1) k)

/-- Right product stored at `c` for point `i`. -/
def RlGood (r np : Nat → Nat) (cf : Cfg K) (s : Als K U) (c i : Nat) : Prop :=
  ∀ v, at2 s.rl c i = some v → ∀ k, k < r c →
    v[k]? = some (rgt r (linE np (cf.gevs.getD i []) s.F.params) cf.d (cf.d - c) k)

/-- Table sizes. -/
structure Shape (r np : Nat → Nat) (cf : Cfg K) (s : Als K U) : Prop where
  dim : s.F.dim = cf.d
  two : 2 ≤ cf.d
  lay : Lay s.F r np
  par : s.F.nparams ≤ s.F.params.length
  gl : cf.gevs.length = cf.N
  gev : ∀ i, i < cf.N → po np (uo r cf.d) ≤ (cf.gevs.getD i []).length
  lrl : s.lr.length = cf.d
  rll : s.rl.length = cf.d
  lrs : ∀ c, c < cf.d → ∀ i, i < cf.N → ∃ v, at2 s.lr c i = some v ∧ r (c + 1) ≤ v.length
  rls : ∀ c, c < cf.d → ∀ i, i < cf.N → ∃ v, at2 s.rl c i = some v ∧ r c ≤ v.length

/-- Invariant: left products up to core `lo`, right products from core `hi` on are current. -/
structure AI (r np : Nat → Nat) (cf : Cfg K) (lo hi : Nat) (s : Als K U) : Prop where
  sh : Shape r np cf s
  lr : ∀ c, c < lo → c < cf.d → ∀ i, i < cf.N → LrGood r np cf s c i
  rl : ∀ c, hi ≤ c → c < cf.d → ∀ i, i < cf.N → RlGood r np cf s c i

theorem rlAll_ok {cf : Cfg K} {s0 : Als K U} {lo c : Nat} (hc : c < cf.d)
    (h : AI r np cf lo (c + 1) s0) :
    ∃ s, rlAll cf.N cf.gevs c s0 = .ok s ∧ s.F = s0.F ∧ s.calls = s0.calls ∧
      AI r np cf lo c s := by
  have hsh := h.sh
  have hd := hsh.dim
  obtain ⟨s, hs, s1, s2, s3, s4, s5, s6⟩ := forN_spec
    (I := fun ii (s : Als K U) => s.F = s0.F ∧ s.lr = s0.lr ∧ s.calls = s0.calls ∧
      s.rl.length = s0.rl.length ∧
      (∀ c' i', c' ≠ c ∨ ii ≤ i' → at2 s.rl c' i' = at2 s0.rl c' i') ∧
      ∀ i, i < ii → ∃ v, at2 s.rl c i = some v ∧ r c ≤ v.length ∧ ∀ k, k < r c →
        v[k]? = some (rgt r (linE np (cf.gevs.getD i []) s0.F.params) cf.d (cf.d - c) k))
    (n := cf.N) (s := s0)
    (body := fun ii (s : Als K U) => do
      let g ← rd cf.gevs ii
      let up ← rd2 s.rl c ii
      if c = s.F.dim - 1 then do
        let v ← sweepRLLin s.F c g none up
        let rl ← wr2 s.rl c ii v
        .ok { s with rl := rl }
      else do
        let nb ← rd2 s.rl (c + 1) ii
        let v ← sweepRLLin s.F c g (some nb) up
        let rl ← wr2 s.rl c ii v
        .ok { s with rl := rl })
    ⟨rfl, rfl, rfl, rfl, fun _ _ _ => rfl, fun i hi => absurd hi (Nat.not_lt_zero i)⟩ (by
      intro ii hii s ⟨s1, s2, s3, s4, s5, s6⟩
      obtain ⟨up, hup, hupl⟩ := hsh.rls c hc ii hii
      have hup' : at2 s.rl c ii = some up := by rw [s5 c ii (.inr (Nat.le_refl ii))]; exact hup
      have hgl : s0.F.nparams ≤ (cf.gevs.getD ii []).length := by
        rw [hsh.lay.nparams, hd]; exact hsh.gev ii hii
      have hfin : ∀ v : List K, v.length = up.length → (∀ k, k < r c →
          v[k]? = some (rgt r (linE np (cf.gevs.getD ii []) s0.F.params) cf.d (cf.d - c) k)) →
          ∃ s', (do
              let rl ← wr2 s.rl c ii v
              .ok ⟨s0.F, s.lr, rl, s.calls⟩ : C (Als K U)) = .ok s' ∧
            (s'.F = s0.F ∧ s'.lr = s0.lr ∧ s'.calls = s0.calls ∧
              s'.rl.length = s0.rl.length ∧
              (∀ c' i', c' ≠ c ∨ ii + 1 ≤ i' → at2 s'.rl c' i' = at2 s0.rl c' i') ∧
              ∀ i, i < ii + 1 → ∃ v, at2 s'.rl c i = some v ∧ r c ≤ v.length ∧ ∀ k, k < r c →
                v[k]? = some (rgt r (linE np (cf.gevs.getD i []) s0.F.params) cf.d
                  (cf.d - c) k)) := by
        intro v hvl hv
        obtain ⟨rl, hrl, hrll, hself, hoth⟩ := wr2_ok v hup'
        refine ⟨⟨s0.F, s.lr, rl, s.calls⟩, by rw [hrl, bind_ok], rfl, s2, s3, by dsimp only; omega, ?_, ?_⟩
        · intro c' i' hne
          dsimp only
          rw [hoth c' i' (by omega), s5 c' i' (by omega)]
        · intro i hi
          dsimp only
          by_cases hie : i = ii
          · subst hie; exact ⟨v, hself, by omega, hv⟩
          · rw [hoth c i (.inr hie)]; exact s6 i (by omega)
      have hrd : rd cf.gevs ii = .ok (cf.gevs.getD ii []) := rd_getD [] (by rw [hsh.gl]; omega)
      rw [hrd, bind_ok, rd2_ok hup', bind_ok, s1]
      by_cases hl : c = s0.F.dim - 1
      · rw [if_pos hl]
        obtain ⟨v, hv, hvl, hvv⟩ := sweepRLLin_ok hsh.lay hgl hsh.par c (by omega) none
          (fun h => by omega) up hupl
        rw [hv, bind_ok]
        rw [hd] at hvv
        exact hfin v hvl hvv
      · rw [if_neg hl]
        obtain ⟨nb, hnb, _⟩ := hsh.rls (c + 1) (by omega) ii hii
        have hnb' : at2 s.rl (c + 1) ii = some nb := by
          rw [s5 (c + 1) ii (.inl (by omega))]; exact hnb
        rw [rd2_ok hnb', bind_ok]
        obtain ⟨v, hv, hvl, hvv⟩ := sweepRLLin_ok hsh.lay hgl hsh.par c (by omega) (some nb)
          (fun _ => ⟨nb, rfl, by
            rw [hd]; exact h.rl (c + 1) (Nat.le_refl _) (by omega) ii hii nb hnb⟩) up hupl
        rw [hv, bind_ok]
        rw [hd] at hvv
        exact hfin v hvl hvv)
  refine ⟨s, hs, s1, s3, ⟨⟨by rw [s1]; exact hd, hsh.two, by rw [s1]; exact hsh.lay,
    by rw [s1]; exact hsh.par, hsh.gl, hsh.gev, by rw [s2]; exact hsh.lrl,
    by rw [s4]; exact hsh.rll, by rw [s2]; exact hsh.lrs, ?_⟩, ?_, ?_⟩⟩
  · intro c' hc' i hi
    by_cases he : c' = c
    · subst he
      obtain ⟨v, hv, hvl, _⟩ := s6 i hi
      exact ⟨v, hv, hvl⟩
    · rw [s5 c' i (.inl he)]; exact hsh.rls c' hc' i hi
  · intro c' hc' hcd i hi
    have := h.lr c' hc' hcd i hi
    unfold LrGood at this ⊢
    rw [s1, s2]; exact this
  · intro c' hc' hcd i hi v hv k hk
    rw [s1]
    by_cases he : c' = c
    · subst he
      obtain ⟨v', hv', _, hvv⟩ := s6 i hi
      rw [hv] at hv'
      cases hv'
      exact hvv k hk
    · rw [s5 c' i (.inl he)] at hv
      exact h.rl c' (by omega) hcd i hi v hv k hk

theorem lrAll_ok {cf : Cfg K} {s0 : Als K U} {hi c : Nat} (hc : c < cf.d)
    (h : AI r np cf c hi s0) :
    ∃ s, lrAll cf.N cf.gevs c s0 = .ok s ∧ s.F = s0.F ∧ s.calls = s0.calls ∧
      AI r np cf (c + 1) hi s := by
  have hsh := h.sh
  have hd := hsh.dim
  obtain ⟨s, hs, s1, s2, s3, s4, s5, s6⟩ := forN_spec
    (I := fun ii (s : Als K U) => s.F = s0.F ∧ s.rl = s0.rl ∧ s.calls = s0.calls ∧
      s.lr.length = s0.lr.length ∧
      (∀ c' i', c' ≠ c ∨ ii ≤ i' → at2 s.lr c' i' = at2 s0.lr c' i') ∧
      ∀ i, i < ii → ∃ v, at2 s.lr c i = some v ∧ r (c + 1) ≤ v.length ∧ ∀ k, k < r (c + 1) →
        v[k]? = some (lft r (linE np (cf.gevs.getD i []) s0.F.params) (c + 1) k))
    (n := cf.N) (s := s0)
    (body := fun ii (s : Als K U) => do
      let g ← rd cf.gevs ii
      let up ← rd2 s.lr c ii
      if c = 0 then do
        let v ← sweepLRLin s.F c g none up
        let lr ← wr2 s.lr c ii v
        .ok { s with lr := lr }
      else do
        let nb ← rd2 s.lr (c - 1) ii
        let v ← sweepLRLin s.F c g (some nb) up
        let lr ← wr2 s.lr c ii v
        .ok { s with lr := lr })
    ⟨rfl, rfl, rfl, rfl, fun _ _ _ => rfl, fun i hi => absurd hi (Nat.not_lt_zero i)⟩ (by
      intro ii hii s ⟨s1, s2, s3, s4, s5, s6⟩
      obtain ⟨up, hup, hupl⟩ := hsh.lrs c hc ii hii
      have hup' : at2 s.lr c ii = some up := by rw [s5 c ii (.inr (Nat.le_refl ii))]; exact hup
      have hgl : s0.F.nparams ≤ (cf.gevs.getD ii []).length := by
        rw [hsh.lay.nparams, hd]; exact hsh.gev ii hii
      have hfin : ∀ v : List K, v.length = up.length → (∀ k, k < r (c + 1) →
          v[k]? = some (lft r (linE np (cf.gevs.getD ii []) s0.F.params) (c + 1) k)) →
          ∃ s', (do
              let lr ← wr2 s.lr c ii v
              .ok ⟨s0.F, lr, s.rl, s.calls⟩ : C (Als K U)) = .ok s' ∧
            (s'.F = s0.F ∧ s'.rl = s0.rl ∧ s'.calls = s0.calls ∧
              s'.lr.length = s0.lr.length ∧
              (∀ c' i', c' ≠ c ∨ ii + 1 ≤ i' → at2 s'.lr c' i' = at2 s0.lr c' i') ∧
              ∀ i, i < ii + 1 → ∃ v, at2 s'.lr c i = some v ∧ r (c + 1) ≤ v.length ∧
                ∀ k, k < r (c + 1) →
                v[k]? = some (lft r (linE np (cf.gevs.getD i []) s0.F.params) (c + 1) k)) := by
        intro v hvl hv
        obtain ⟨lr, hlr, hlrl, hself, hoth⟩ := wr2_ok v hup'
        refine ⟨⟨s0.F, lr, s.rl, s.calls⟩, by rw [hlr, bind_ok], rfl, s2, s3, by dsimp only; omega, ?_, ?_⟩
        · intro c' i' hne
          dsimp only
          rw [hoth c' i' (by omega), s5 c' i' (by omega)]
        · intro i hi
          dsimp only
          by_cases hie : i = ii
          · subst hie; exact ⟨v, hself, by omega, hv⟩
          · rw [hoth c i (.inr hie)]; exact s6 i (by omega)
      have hrd : rd cf.gevs ii = .ok (cf.gevs.getD ii []) := rd_getD [] (by rw [hsh.gl]; omega)
      rw [hrd, bind_ok, rd2_ok hup', bind_ok, s1]
      by_cases hl : c = 0
      · rw [if_pos hl]
        obtain ⟨v, hv, hvl, hvv⟩ := sweepLRLin_ok hsh.lay hgl hsh.par c (by omega) none
          (fun h => by omega) up hupl
        rw [hv, bind_ok]
        exact hfin v hvl hvv
      · rw [if_neg hl]
        obtain ⟨nb, hnb, _⟩ := hsh.lrs (c - 1) (by omega) ii hii
        have hnb' : at2 s.lr (c - 1) ii = some nb := by
          rw [s5 (c - 1) ii (.inl (by omega))]; exact hnb
        rw [rd2_ok hnb', bind_ok]
        have hg := h.lr (c - 1) (by omega) (by omega) ii hii nb hnb
        rw [show c - 1 + 1 = c by omega] at hg
        obtain ⟨v, hv, hvl, hvv⟩ := sweepLRLin_ok hsh.lay hgl hsh.par c (by omega) (some nb)
          (fun _ => ⟨nb, rfl, hg⟩) up hupl
        rw [hv, bind_ok]
        exact hfin v hvl hvv)
  refine ⟨s, hs, s1, s3, ⟨⟨by rw [s1]; exact hd, hsh.two, by rw [s1]; exact hsh.lay,
    by rw [s1]; exact hsh.par, hsh.gl, hsh.gev, by rw [s4]; exact hsh.lrl,
    by rw [s2]; exact hsh.rll, ?_, by rw [s2]; exact hsh.rls⟩, ?_, ?_⟩⟩
  · intro c' hc' i hi
    by_cases he : c' = c
    · subst he
      obtain ⟨v, hv, hvl, _⟩ := s6 i hi
      exact ⟨v, hv, hvl⟩
    · rw [s5 c' i (.inl he)]; exact hsh.lrs c' hc' i hi
  · intro c' hc' hcd i hi v hv k hk
    rw [s1]
    by_cases he : c' = c
    · subst he
      obtain ⟨v', hv', _, hvv⟩ := s6 i hi
      rw [hv] at hv'
      cases hv'
      exact hvv k hk
    · rw [s5 c' i (.inl he)] at hv
      exact h.lr c' (by omega) hcd i hi v hv k hk
  · intro c' hc' hcd i hi
    have := h.rl c' hc' hcd i hi
    unfold RlGood at this ⊢
    rw [s1, s2]; exact this

/-! ### One core solve -/

/-- An optimizer: problem and initial guess to final parameters. -/
abbrev Optm (K U : Type) :=
  FTP K U → Nat → List (List K) → List (List K) → List K → List K

/-- A recorded problem: the rows handed to the optimizer are the exact products of the cores left
and right of the active one. -/
structure CallOk (r np : Nat → Nat) (cf : Cfg K)
    (q : FTP K U × Nat × List (List K) × List (List K)) : Prop where
  dim : q.1.dim = cf.d
  core : q.2.1 < cf.d
  lay : Lay q.1 r np
  par : q.1.nparams ≤ q.1.params.length
  rows : ∀ i, i < cf.N → ∃ a b, q.2.2.1[i]? = some a ∧ q.2.2.2[i]? = some b ∧
    Around r (linE np (cf.gevs.getD i []) q.1.params) cf.d q.2.1 (some a) (some b)

omit [CommRing K] in
theorem row_at2 {a : List (List (List K))} {c : Nat} (hc : c < a.length) :
    ∃ row, rd a c = .ok row ∧ ∀ i, at2 a c i = row[i]? :=
  ⟨a[c], rd_ok hc, fun i => by simp [at2, hc]⟩

theorem solveCore_ok {cf : Cfg K} {opt : Optm K U}
    (hopt : ∀ F c A B g, (opt F c A B g).length = g.length) {s : Als K U} {c : Nat} (hc : c < cf.d)
    (h : AI r np cf c (c + 1) s) :
    ∃ s' g A B q, solveCore opt c s = .ok s' ∧ AI r np cf c (c + 1) s' ∧
      s'.calls = s.calls ++ [(s.F, c, A, B)] ∧ CallOk r np cf (s.F, c, A, B) ∧
      s'.F = { s.F with params := q } ∧ g.length = cn r np c ∧
      Repl r np c s.F.params (opt s.F c A B g) q ∧
      (∀ i, i < cn r np c → g[i]? = s.F.params[po np (uo r c) + i]?) := by
  have hsh := h.sh
  have hd := hsh.dim
  have htwo := hsh.two
  obtain ⟨g, hg, hgl, hgv⟩ := coreParams_ok hsh.lay hsh.par c (by omega)
  have hrows : ∃ A B, alsRows s.F s.lr s.rl c = .ok (A, B) ∧ CallOk r np cf (s.F, c, A, B) := by
    unfold alsRows
    rw [hd]
    by_cases h1 : 0 < c ∧ c < cf.d - 1
    · rw [if_pos h1]
      obtain ⟨A, hA, hA'⟩ := row_at2 (a := s.lr) (c := c - 1) (by rw [hsh.lrl]; omega)
      obtain ⟨B, hB, hB'⟩ := row_at2 (a := s.rl) (c := c + 1) (by rw [hsh.rll]; omega)
      refine ⟨A, B, by rw [hA, bind_ok, hB, bind_ok], hd, hc, hsh.lay, hsh.par, ?_⟩
      intro i hi
      obtain ⟨a, ha, hal⟩ := hsh.lrs (c - 1) (by omega) i hi
      obtain ⟨b, hb, hbl⟩ := hsh.rls (c + 1) (by omega) i hi
      refine ⟨a, b, by rw [← hA']; exact ha, by rw [← hB']; exact hb,
        fun _ => ⟨a, rfl, ?_⟩, fun _ => ⟨b, rfl, ?_⟩⟩
      · have := h.lr (c - 1) (by omega) (by omega) i hi a ha
        rwa [show c - 1 + 1 = c by omega] at this
      · exact h.rl (c + 1) (Nat.le_refl _) (by omega) i hi b hb
    · rw [if_neg h1]
      by_cases h0 : c = 0
      · rw [if_pos h0]
        obtain ⟨A, hA, hA'⟩ := row_at2 (a := s.lr) (c := c) (by rw [hsh.lrl]; omega)
        obtain ⟨B, hB, hB'⟩ := row_at2 (a := s.rl) (c := c + 1) (by rw [hsh.rll]; omega)
        refine ⟨A, B, by rw [hA, bind_ok, hB, bind_ok], hd, hc, hsh.lay, hsh.par, ?_⟩
        intro i hi
        obtain ⟨a, ha, hal⟩ := hsh.lrs c (by omega) i hi
        obtain ⟨b, hb, hbl⟩ := hsh.rls (c + 1) (by omega) i hi
        refine ⟨a, b, by rw [← hA']; exact ha, by rw [← hB']; exact hb,
          fun hx => absurd hx (by dsimp only; omega), fun _ => ⟨b, rfl, ?_⟩⟩
        exact h.rl (c + 1) (Nat.le_refl _) (by omega) i hi b hb
      · rw [if_neg h0]
        obtain ⟨A, hA, hA'⟩ := row_at2 (a := s.lr) (c := c - 1) (by rw [hsh.lrl]; omega)
        obtain ⟨B, hB, hB'⟩ := row_at2 (a := s.rl) (c := c - 1) (by rw [hsh.rll]; omega)
        refine ⟨A, B, by rw [hA, bind_ok, hB, bind_ok], hd, hc, hsh.lay, hsh.par, ?_⟩
        intro i hi
        obtain ⟨a, ha, hal⟩ := hsh.lrs (c - 1) (by omega) i hi
        obtain ⟨b, hb, hbl⟩ := hsh.rls (c - 1) (by omega) i hi
        refine ⟨a, b, by rw [← hA']; exact ha, by rw [← hB']; exact hb,
          fun _ => ⟨a, rfl, ?_⟩, fun hx => absurd hx (by dsimp only; omega)⟩
        have := h.lr (c - 1) (by omega) (by omega) i hi a ha
        rwa [show c - 1 + 1 = c by omega] at this
  obtain ⟨A, B, hAB, hcall⟩ := hrows
  obtain ⟨q, hq, hrep⟩ := updateCore_ok hsh.lay hsh.par c (by omega) (opt s.F c A B g)
    (by rw [hopt, hgl])
  refine ⟨{ s with F := { s.F with params := q }, calls := s.calls ++ [(s.F, c, A, B)] }, g, A, B, q,
    ?_, ⟨⟨hd, htwo, hsh.lay.withParams q, ?_, hsh.gl, hsh.gev, hsh.lrl, hsh.rll, hsh.lrs, hsh.rls⟩,
      ?_, ?_⟩, rfl, hcall, rfl, hgl, hrep, hgv⟩
  · rw [solveCore, hg, bind_ok, hAB, bind_ok]
    dsimp only
    rw [hq, bind_ok]
  · dsimp only; rw [hrep.1]; exact hsh.par
  · intro c' hc' hcd i hi v hv k hk
    have h1 := h.lr c' hc' hcd i hi v hv k hk
    rw [h1, lft_congr r (linE np (cf.gevs.getD i []) q)
      (linE np (cf.gevs.getD i []) s.F.params) (c' + 1)
      (fun u hu => repl_linE hrep _ u (.inl
        (lt_of_lt_of_le hu (uo_mono r (show c' + 1 ≤ c from hc'))))) k hk]
  · intro c' hc' hcd i hi v hv k hk
    have h1 := h.rl c' hc' hcd i hi v hv k hk
    rw [h1, rgt_congr r (linE np (cf.gevs.getD i []) q)
      (linE np (cf.gevs.getD i []) s.F.params) cf.d (cf.d - c') (by omega)
      (fun u hu => repl_linE hrep _ u (.inr
        (le_trans (uo_mono r hc') (by rwa [show cf.d - (cf.d - c') = c' by omega] at hu)))) k]

/-! ### Sweeps -/

/-- Property of the runs: all recorded problems are exact and a quantity `ob` of the train never
goes up, when no solve lets it go up. -/
def Mono (r np : Nat → Nat) (cf : Cfg K) (opt : Optm K U) (ob : List K → Prop) : Prop :=
  ∀ (F : FTP K U) c A B g q, CallOk r np cf (F, c, A, B) → g.length = cn r np c →
    (∀ i, i < cn r np c → g[i]? = F.params[po np (uo r c) + i]?) →
    Repl r np c F.params (opt F c A B g) q → ob F.params → ob q

/-- What holds along the run. -/
structure RunI (r np : Nat → Nat) (cf : Cfg K) (ob : List K → Prop) (lo hi : Nat)
    (s : Als K U) : Prop where
  ai : AI r np cf lo hi s
  calls : ∀ q ∈ s.calls, CallOk r np cf q
  ob : ob s.F.params

theorem AI.weaken {cf : Cfg K} {lo hi lo' hi' : Nat} {s : Als K U} (h : AI r np cf lo hi s)
    (h1 : lo' ≤ lo) (h2 : hi ≤ hi') : AI r np cf lo' hi' s :=
  ⟨h.sh, fun c hc => h.lr c (by omega), fun c hc => h.rl c (by omega)⟩

theorem solveCore_inv {cf : Cfg K} {opt : Optm K U} {ob : List K → Prop}
    (hopt : ∀ F c A B g, (opt F c A B g).length = g.length) (hm : Mono r np cf opt ob)
    {s : Als K U} {c : Nat} (hc : c < cf.d) (h : RunI r np cf ob c (c + 1) s) :
    ∃ s', solveCore opt c s = .ok s' ∧ RunI r np cf ob c (c + 1) s' := by
  obtain ⟨s', g, A, B, q, h1, h2, h3, h4, h5, h6, h7, h8⟩ := solveCore_ok hopt hc h.ai
  refine ⟨s', h1, h2, ?_, ?_⟩
  · intro x hx
    rw [h3, List.mem_append, List.mem_singleton] at hx
    rcases hx with hx | rfl
    · exact h.calls x hx
    · exact h4
  · rw [h5]
    exact hm s.F c A B g q h4 h6 h8 h7 h.ob

theorem rlAll_inv {cf : Cfg K} {ob : List K → Prop} {s : Als K U} {lo c : Nat} (hc : c < cf.d)
    (h : RunI r np cf ob lo (c + 1) s) :
    ∃ s', rlAll cf.N cf.gevs c s = .ok s' ∧ RunI r np cf ob lo c s' := by
  obtain ⟨s', h1, h2, h3, h4⟩ := rlAll_ok hc h.ai
  exact ⟨s', h1, h4, by rw [h3]; exact h.calls, by rw [h2]; exact h.ob⟩

theorem lrAll_inv {cf : Cfg K} {ob : List K → Prop} {s : Als K U} {hi c : Nat} (hc : c < cf.d)
    (h : RunI r np cf ob c hi s) :
    ∃ s', lrAll cf.N cf.gevs c s = .ok s' ∧ RunI r np cf ob (c + 1) hi s' := by
  obtain ⟨s', h1, h2, h3, h4⟩ := lrAll_ok hc h.ai
  exact ⟨s', h1, h4, by rw [h3]; exact h.calls, by rw [h2]; exact h.ob⟩

theorem RunI.weaken {cf : Cfg K} {ob : List K → Prop} {lo hi lo' hi' : Nat} {s : Als K U}
    (h : RunI r np cf ob lo hi s) (h1 : lo' ≤ lo) (h2 : hi ≤ hi') : RunI r np cf ob lo' hi' s :=
  ⟨h.ai.weaken h1 h2, h.calls, h.ob⟩

theorem alsSweep_inv {cf : Cfg K} {opt : Optm K U} {ob : List K → Prop}
    (hopt : ∀ F c A B g, (opt F c A B g).length = g.length) (hm : Mono r np cf opt ob)
    {s : Als K U} (h : RunI r np cf ob 0 1 s) :
    ∃ s', alsSweep opt cf.N cf.gevs s = .ok s' ∧ RunI r np cf ob 0 1 s' := by
  have htwo := h.ai.sh.two
  obtain ⟨t, ht, hI⟩ := forN_spec
    (I := fun c (s : Als K U) => if c < cf.d then RunI r np cf ob c (c + 1) s
      else RunI r np cf ob (cf.d - 1) cf.d s) (n := cf.d) (s := s)
    (body := fwdStep opt cf.N cf.gevs) (by rw [if_pos (by omega)]; exact h) (by
      intro c hc s hs
      rw [if_pos hc] at hs
      obtain ⟨s1, h1, h2⟩ := solveCore_inv hopt hm hc hs
      rw [fwdStep, h1, bind_ok, h2.ai.sh.dim]
      by_cases hl : c < cf.d - 1
      · rw [if_pos hl]
        obtain ⟨s2, h3, h4⟩ := lrAll_inv hc h2
        refine ⟨s2, h3, ?_⟩
        rw [if_pos (by omega)]
        exact h4.weaken (Nat.le_refl _) (by omega)
      · rw [if_neg hl]
        refine ⟨s1, rfl, ?_⟩
        rw [if_neg (by omega)]
        exact h2.weaken (by omega) (by omega))
  rw [if_neg (by omega)] at hI
  obtain ⟨u, hu, hU⟩ := rlAll_inv (c := cf.d - 1) (by omega)
    (show RunI r np cf ob (cf.d - 1) (cf.d - 1 + 1) t by
      rw [show cf.d - 1 + 1 = cf.d by omega]; exact hI)
  rw [alsSweep, h.ai.sh.dim, ht, bind_ok, hI.ai.sh.dim, hu, bind_ok, hU.ai.sh.dim]
  obtain ⟨v, hv, hV⟩ := forR_spec (a := 1) (b := cf.d - 1) (s := u)
    (I := fun jj (s : Als K U) => RunI r np cf ob (cf.d - jj) (cf.d - jj) s)
    (body := bwdStep opt cf.N cf.gevs) (by omega) hU (by
      intro jj h1 h2 s hs
      have hc : cf.d - 1 - jj < cf.d := by omega
      obtain ⟨s1, h3, h4⟩ := solveCore_inv hopt hm hc (hs.weaken (by omega) (by omega))
      rw [bwdStep]
      rw [hs.ai.sh.dim, h3, bind_ok]
      obtain ⟨s2, h5, h6⟩ := rlAll_inv hc h4
      exact ⟨s2, h5, h6.weaken (by omega) (by omega)⟩)
  exact ⟨v, hv, hV.weaken (by omega) (by omega)⟩

theorem alsInit_inv {cf : Cfg K} {ob : List K → Prop} {s : Als K U} (h : RunI r np cf ob 0 cf.d s) :
    ∃ s', alsInit cf.N cf.gevs s = .ok s' ∧ s'.F = s.F ∧ RunI r np cf ob 0 1 s' := by
  have htwo := h.ai.sh.two
  obtain ⟨u, hu, huF, huc, hU⟩ := rlAll_ok (c := cf.d - 1) (by omega)
    (show AI r np cf 0 (cf.d - 1 + 1) s by
      rw [show cf.d - 1 + 1 = cf.d by omega]; exact h.ai)
  rw [alsInit, h.ai.sh.dim, hu, bind_ok, hU.sh.dim, if_neg (by omega)]
  obtain ⟨v, hv, hvF, hvc, hV⟩ := forN_spec
    (I := fun i (t : Als K U) => t.F = s.F ∧ t.calls = s.calls ∧ AI r np cf 0 (cf.d - 1 - i) t)
    (n := cf.d - 2) (s := u)
    (body := fun i s => rlAll cf.N cf.gevs (s.F.dim - 2 - i) s) ⟨huF, huc, hU⟩ (by
      intro i hi t ⟨t1, t2, t3⟩
      obtain ⟨t', g1, g2, g3, g4⟩ := rlAll_ok (c := cf.d - 2 - i) (by omega)
        (t3.weaken (Nat.le_refl 0) (show cf.d - 1 - i ≤ cf.d - 2 - i + 1 by omega))
      rw [t3.sh.dim]
      exact ⟨t', g1, by rw [g2, t1], by rw [g3, t2], g4.weaken (Nat.le_refl 0) (by omega)⟩)
  exact ⟨v, hv, hvF, hV.weaken (Nat.le_refl 0) (by omega), by rw [hvc]; exact h.calls,
    by rw [hvF]; exact h.ob⟩

theorem alsRun_inv {cf : Cfg K} {opt : Optm K U} {ob : List K → Prop}
    {conv : FTP K U → FTP K U → Bool} {maxSweeps : Nat}
    (hopt : ∀ F c A B g, (opt F c A B g).length = g.length) (hm : Mono r np cf opt ob)
    {s : Als K U} (h : RunI r np cf ob 0 cf.d s) :
    ∃ s', alsRun opt conv cf.N cf.gevs maxSweeps s = .ok s' ∧ RunI r np cf ob 0 1 s' := by
  obtain ⟨u, hu, _, hU⟩ := alsInit_inv h
  obtain ⟨v, hv, hV⟩ := forN_spec
    (I := fun _ (q : Als K U × Bool) => RunI r np cf ob 0 1 q.1) (n := maxSweeps) (s := (u, false))
    (body := fun _ (q : Als K U × Bool) =>
      if q.2 then .ok q
      else do
        let t ← alsSweep opt cf.N cf.gevs q.1
        .ok (t, conv q.1.F t.F)) hU (by
      intro i hi q hq
      by_cases hb : q.2 = true
      · exact ⟨q, by rw [if_pos hb], hq⟩
      · obtain ⟨t, ht, hT⟩ := alsSweep_inv hopt hm hq
        exact ⟨(t, conv q.1.F t.F), by rw [if_neg hb, ht, bind_ok], hT⟩)
  exact ⟨v.1, by rw [alsRun, hu, bind_ok, hv, bind_ok], hV⟩

end C3.Sl
