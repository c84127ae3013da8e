/- Helper lemmas for the algebra of function trains. -/
import Verif.Ft.Alg
import Verif.Ft.Lemmas
import Mathlib.Algebra.BigOperators.Ring.Finset

set_option linter.unusedSectionVars false

namespace C3.Ft
open Finset
variable {K U X : Type} [Field K]

/-- A family of univariate functions per dimension: which functions belong to dimension `k`, and the domain of that
dimension. -/
structure Fam (U X : Type) where
  P : Nat → U → Prop
  D : Nat → X → Prop

/-- Multiplying a function of the family by a constant stays in the family and multiplies the values. -/
def ScaleLaw (e : Ev K U X) (o : Ops K U) (F : Fam U X) : Prop :=
  ∀ k a f, F.P k f → ∃ h, o.scale a f = .ok h ∧ F.P k h ∧ ∀ x, F.D k x → e.ev h x = a * e.ev f x

/-- Products of functions of the family stay in the family and multiply the values. -/
def ProdLaw (e : Ev K U X) (o : Ops K U) (F : Fam U X) : Prop :=
  ∀ k f g, F.P k f → F.P k g → ∃ h, o.prod f g = .ok h ∧ F.P k h ∧ ∀ x, F.D k x → e.ev h x = e.ev f x * e.ev g x

/-- A well-formed train with positive ranks whose core functions belong to the family. -/
structure FT.Ok (F : Fam U X) (ft : FT K U) : Prop where
  wf : ft.WF
  pos : ∀ (k r : Nat), ft.ranks[k]? = some r → 0 < r
  mem : ∀ (k : Nat) Q, ft.cores[k]? = some Q → ∀ f ∈ Q.funcs, F.P k f

/-- The point lies in the domain. -/
structure InDom (F : Fam U X) (d : Nat) (x : List X) : Prop where
  len : d ≤ x.length
  dom : ∀ k < d, ∀ xk, x[k]? = some xk → F.D k xk

/-- `Q` is an `n × m` array of functions of dimension `k` with entries `M`. -/
structure Rep (e : Ev K U X) (F : Fam U X) (k n m : Nat) (M : X → Nat → Nat → K) (Q : Qma U) : Prop where
  nrows : Q.nrows = n
  ncols : Q.ncols = m
  wf : Q.WF
  mem : ∀ f ∈ Q.funcs, F.P k f
  val : ∀ x, F.D k x → ∀ i < n, ∀ j < m, Q.val e x i j = M x i j

def EntryR (e : Ev K U X) (F : Fam U X) (k n : Nat) (M : X → Nat → Nat → K) (p : Nat) (v : U) : Prop :=
  F.P k v ∧ ∀ x, F.D k x → e.ev v x = M x (p % n) (p / n)

theorem rep_of_fill {e : Ev K U X} {F : Fam U X} {k n m : Nat} {M : X → Nat → Nat → K} {l : List U}
    (hl : l.length = n * m) (h : ∀ p < n * m, ∃ v, l[p]? = some v ∧ EntryR e F k n M p v) :
    Rep e F k n m M ⟨n, m, l⟩ := by
  refine ⟨rfl, rfl, hl, ?_, ?_⟩
  · intro f hf
    obtain ⟨p, hp, rfl⟩ := List.getElem_of_mem hf
    obtain ⟨v, hv, hR⟩ := h p (by rw [← hl]; exact hp)
    rw [List.getElem?_eq_getElem hp, Option.some.injEq] at hv
    rw [hv]; exact hR.1
  · intro x hx i hi j hj
    obtain ⟨v, hv, hR⟩ := h _ (cm_idx_lt hi hj)
    have := hR.2 x hx
    rw [cm_mod hi, cm_div hi] at this
    simp only [Qma.val, hv, Option.map_some, Option.getD_some, this]

theorem Qma.WF.get {e : Ev K U X} {Q : Qma U} (h : Q.WF) {i j : Nat} (hi : i < Q.nrows) (hj : j < Q.ncols) :
    ∃ f, rd Q.funcs (j * Q.nrows + i) = .ok f ∧ f ∈ Q.funcs ∧ ∀ x, e.ev f x = Q.val e x i j := by
  have hlt : j * Q.nrows + i < Q.funcs.length := by rw [h]; exact cm_idx_lt hi hj
  refine ⟨Q.funcs[j * Q.nrows + i], rd_ok hlt, List.getElem_mem hlt, fun x => ?_⟩
  rw [Qma.val, List.getElem?_eq_getElem hlt, Option.map_some, Option.getD_some]

theorem entryR_cm {e : Ev K U X} {F : Fam U X} {k n i j : Nat} {M : X → Nat → Nat → K} {v : U} (hi : i < n)
    (hP : F.P k v) (h : ∀ x, F.D k x → e.ev v x = M x i j) : EntryR e F k n M (j * n + i) v :=
  ⟨hP, fun x hx => by rw [cm_mod hi, cm_div hi, h x hx]⟩

/-- `[A B]` -/
def Mh (ma : Nat) (A B : X → Nat → Nat → K) (x : X) (i j : Nat) : K := if j < ma then A x i j else B x i (j - ma)
/-- `[A; B]` -/
def Mv (na : Nat) (A B : X → Nat → Nat → K) (x : X) (i j : Nat) : K := if i < na then A x i j else B x (i - na) j
/-- `[A 0; 0 B]` -/
def Mb (na ma : Nat) (A B : X → Nat → Nat → K) (x : X) (i j : Nat) : K :=
  if i < na then (if j < ma then A x i j else 0) else (if j < ma then 0 else B x (i - na) (j - ma))
/-- `A ⊗ B` -/
def Mk (nb mb : Nat) (A B : X → Nat → Nat → K) (x : X) (i j : Nat) : K :=
  A x (i / nb) (j / mb) * B x (i % nb) (j % mb)

theorem divmod_of_lt {p n m : Nat} (h : p < n * m) : p % n < n ∧ p / n < m ∧ p / n * n + p % n = p := by
  have hn : 0 < n := by rcases Nat.eq_zero_or_pos n with h' | h'; · subst h'; simp at h
                        · exact h'
  exact ⟨Nat.mod_lt _ hn, (Nat.div_lt_iff_lt_mul hn).2 (by rwa [Nat.mul_comm]), Nat.div_add_mod' p n⟩

theorem stackh_ok {e : Ev K U X} {F : Fam U X} {k : Nat} {a b : Qma U} (ha : a.WF) (hb : b.WF)
    (hPa : ∀ f ∈ a.funcs, F.P k f) (hPb : ∀ f ∈ b.funcs, F.P k f) (hr : a.nrows = b.nrows) :
    ∃ Q, stackh a b = .ok Q ∧
      Rep e F k a.nrows (a.ncols + b.ncols) (Mh a.ncols (fun x => a.val e x) (fun x => b.val e x)) Q := by
  have hN : a.nrows * (a.ncols + b.ncols) = a.nrows * a.ncols + b.nrows * b.ncols := by rw [Nat.mul_add, ← hr]
  have f1 : Fills (EntryR e F k a.nrows (Mh a.ncols (fun x => a.val e x) (fun x => b.val e x)))
      (a.nrows * (a.ncols + b.ncols))
      (forN (a.nrows * a.ncols) (fun ii c => do
        let f ← rd a.funcs ii
        wr c ii (some f))) (fun p => ∃ i < a.nrows * a.ncols, p = i) := by
    refine Fills.forN fun p hp => ?_
    obtain ⟨h1, h2, h3⟩ := divmod_of_lt hp
    obtain ⟨f, hf, hm, hv⟩ := ha.get (e := e) h1 h2
    rw [h3] at hf
    refine Fills.bind hf (Fills.wr (by omega) ⟨hPa f hm, fun x _ => ?_⟩)
    rw [Mh, if_pos h2, hv]
  have f2 : Fills (EntryR e F k a.nrows (Mh a.ncols (fun x => a.val e x) (fun x => b.val e x)))
      (a.nrows * (a.ncols + b.ncols))
      (forN (b.nrows * b.ncols) (fun ii c => do
        let f ← rd b.funcs ii
        wr c (ii + a.nrows * a.ncols) (some f)))
      (fun p => ∃ i < b.nrows * b.ncols, p = i + a.nrows * a.ncols) := by
    refine Fills.forN fun p hp => ?_
    obtain ⟨h1, h2, h3⟩ := divmod_of_lt hp
    obtain ⟨f, hf, hm, hv⟩ := hb.get (e := e) h1 h2
    rw [h3] at hf
    have hn : 0 < a.nrows := by omega
    refine Fills.bind hf (Fills.wr (by omega) ⟨hPb f hm, fun x _ => ?_⟩)
    rw [Nat.add_mul_mod_self_left, Nat.add_mul_div_left _ _ hn, Mh, if_neg (Nat.not_lt.2 (Nat.le_add_left _ _)),
      Nat.add_sub_cancel, hv, hr]
  obtain ⟨c, l, h1, h2, h3, h4⟩ := (f1.seq f2).finish (by
    intro p hp
    by_cases h : p < a.nrows * a.ncols
    · exact .inl ⟨p, h, rfl⟩
    · exact .inr ⟨p - a.nrows * a.ncols, by omega, by omega⟩)
  refine ⟨_, ?_, rep_of_fill h3 h4⟩
  rw [stackh, cassert_of (decide_eq_true hr), bind_ok]
  rw [bind_of_bind h1, h2, bind_ok, pure_eq_ok]

theorem cov_two {na nb m p : Nat} (h : p < (na + nb) * m) :
    ∃ j < m, (∃ i < na, p = j * (na + nb) + i) ∨ ∃ i < nb, p = j * (na + nb) + i + na := by
  obtain ⟨h1, h2, h3⟩ := divmod_of_lt h
  refine ⟨p / (na + nb), h2, ?_⟩
  by_cases hi : p % (na + nb) < na
  · exact .inl ⟨_, hi, h3.symm⟩
  · exact .inr ⟨p % (na + nb) - na, by omega, by omega⟩

theorem stackv_ok {e : Ev K U X} {F : Fam U X} {k : Nat} {a b : Qma U} (ha : a.WF) (hb : b.WF)
    (hPa : ∀ f ∈ a.funcs, F.P k f) (hPb : ∀ f ∈ b.funcs, F.P k f) (hr : a.ncols = b.ncols) :
    ∃ Q, stackv a b = .ok Q ∧
      Rep e F k (a.nrows + b.nrows) a.ncols (Mv a.nrows (fun x => a.val e x) (fun x => b.val e x)) Q := by
  have f1 : Fills (EntryR e F k (a.nrows + b.nrows) (Mv a.nrows (fun x => a.val e x) (fun x => b.val e x)))
      ((a.nrows + b.nrows) * a.ncols)
      (forN a.ncols (fun jj c => do
        let c ← forN a.nrows (fun ii c => do
          let f ← rd a.funcs (jj * a.nrows + ii)
          wr c (jj * (a.nrows + b.nrows) + ii) (some f)) c
        forN b.nrows (fun ii c => do
          let f ← rd b.funcs (jj * b.nrows + ii)
          wr c (jj * (a.nrows + b.nrows) + ii + a.nrows) (some f)) c))
      (fun p => ∃ j < a.ncols, (∃ i < a.nrows, p = j * (a.nrows + b.nrows) + i) ∨
        ∃ i < b.nrows, p = j * (a.nrows + b.nrows) + i + a.nrows) := by
    refine Fills.forN fun j hj => Fills.seq (Fills.forN fun i hi => ?_) (Fills.forN fun i hi => ?_)
    · obtain ⟨f, hf, hm, hv⟩ := ha.get (e := e) hi hj
      refine Fills.bind hf (Fills.wr (cm_idx_lt (by omega) hj) (entryR_cm (by omega) (hPa f hm) fun x _ => ?_))
      rw [Mv, if_pos hi, hv]
    · obtain ⟨f, hf, hm, hv⟩ := hb.get (e := e) hi (hr ▸ hj)
      refine Fills.bind hf ?_
      rw [Nat.add_assoc]
      refine Fills.wr (cm_idx_lt (by omega) hj) (entryR_cm (by omega) (hPb f hm) fun x _ => ?_)
      rw [Mv, if_neg (by omega), Nat.add_sub_cancel, hv]
  obtain ⟨c, l, h1, h2, h3, h4⟩ := f1.finish (fun p hp => cov_two hp)
  refine ⟨_, ?_, rep_of_fill h3 h4⟩
  rw [stackv, cassert_of (decide_eq_true hr), bind_ok, h1, bind_ok, h2, bind_ok, pure_eq_ok]

theorem blockdiag_ok {e : Ev K U X} {o : Ops K U} {F : Fam U X} (hs : ScaleLaw e o F) {k : Nat} {a b : Qma U}
    (ha : a.WF) (hb : b.WF) (hPa : ∀ f ∈ a.funcs, F.P k f) (hPb : ∀ f ∈ b.funcs, F.P k f) (hp1 : 0 < a.nrows)
    (hp2 : 0 < a.ncols) :
    ∃ Q, blockdiag o a b = .ok Q ∧ Rep e F k (a.nrows + b.nrows) (a.ncols + b.ncols)
      (Mb a.nrows a.ncols (fun x => a.val e x) (fun x => b.val e x)) Q := by
  obtain ⟨f0, hf0, hm0, -⟩ := ha.get (e := e) hp1 hp2
  rw [Nat.zero_mul] at hf0
  obtain ⟨z, hz, hPz, hvz⟩ := hs k 0 f0 (hPa f0 hm0)
  have f1 : Fills (EntryR e F k (a.nrows + b.nrows) (Mb a.nrows a.ncols (fun x => a.val e x) (fun x => b.val e x)))
      ((a.nrows + b.nrows) * (a.ncols + b.ncols))
      (forN a.ncols (fun jj c => do
        let c ← forN a.nrows (fun ii c => do
          let f ← rd a.funcs (jj * a.nrows + ii)
          wr c (jj * (a.nrows + b.nrows) + ii) (some f)) c
        forN b.nrows (fun ii c => do
          let f ← rd a.funcs 0
          let z ← o.scale 0 f
          wr c (jj * (a.nrows + b.nrows) + ii + a.nrows) (some z)) c))
      (fun p => ∃ j < a.ncols, (∃ i < a.nrows, p = j * (a.nrows + b.nrows) + i) ∨
        ∃ i < b.nrows, p = j * (a.nrows + b.nrows) + i + a.nrows) := by
    refine Fills.forN fun j hj => Fills.seq (Fills.forN fun i hi => ?_) (Fills.forN fun i hi => ?_)
    · obtain ⟨f, hf, hm, hv⟩ := ha.get (e := e) hi hj
      refine Fills.bind hf (Fills.wr (cm_idx_lt (by omega) (by omega)) (entryR_cm (by omega) (hPa f hm) fun x _ => ?_))
      rw [Mb, if_pos hi, if_pos hj, hv]
    · refine Fills.bind hf0 (Fills.bind hz ?_)
      rw [Nat.add_assoc]
      refine Fills.wr (cm_idx_lt (by omega) (by omega)) (entryR_cm (by omega) hPz fun x hx => ?_)
      rw [Mb, if_neg (by omega), if_pos hj, hvz x hx, zero_mul]
  have f2 : Fills (EntryR e F k (a.nrows + b.nrows) (Mb a.nrows a.ncols (fun x => a.val e x) (fun x => b.val e x)))
      ((a.nrows + b.nrows) * (a.ncols + b.ncols))
      (forR a.ncols (a.ncols + b.ncols) (fun jj c => do
        let c ← forN a.nrows (fun ii c => do
          let f ← rd a.funcs 0
          let z ← o.scale 0 f
          wr c (jj * (a.nrows + b.nrows) + ii) (some z)) c
        forN b.nrows (fun ii c => do
          let f ← rd b.funcs ((jj - a.ncols) * b.nrows + ii)
          wr c (jj * (a.nrows + b.nrows) + ii + a.nrows) (some f)) c))
      (fun p => ∃ j, a.ncols ≤ j ∧ j < a.ncols + b.ncols ∧ ((∃ i < a.nrows, p = j * (a.nrows + b.nrows) + i) ∨
        ∃ i < b.nrows, p = j * (a.nrows + b.nrows) + i + a.nrows)) := by
    refine Fills.forR fun j hj1 hj => Fills.seq (Fills.forN fun i hi => ?_) (Fills.forN fun i hi => ?_)
    · refine Fills.bind hf0 (Fills.bind hz ?_)
      refine Fills.wr (cm_idx_lt (by omega) (by omega)) (entryR_cm (by omega) hPz fun x hx => ?_)
      rw [Mb, if_pos hi, if_neg (by omega), hvz x hx, zero_mul]
    · obtain ⟨f, hf, hm, hv⟩ := hb.get (e := e) hi (show j - a.ncols < b.ncols by omega)
      refine Fills.bind hf ?_
      rw [Nat.add_assoc]
      refine Fills.wr (cm_idx_lt (by omega) hj) (entryR_cm (by omega) (hPb f hm) fun x _ => ?_)
      rw [Mb, if_neg (by omega), if_neg (by omega), Nat.add_sub_cancel, hv]
  obtain ⟨c, l, h1, h2, h3, h4⟩ := (f1.seq f2).finish (by
    intro p hp
    obtain ⟨j, hj, h⟩ := cov_two hp
    by_cases hja : j < a.ncols
    · exact .inl ⟨j, hja, h⟩
    · exact .inr ⟨j, by omega, hj, h⟩)
  refine ⟨_, ?_, rep_of_fill h3 h4⟩
  rw [blockdiag, bind_of_bind h1, h2, bind_ok, pure_eq_ok]

theorem kron_ok {e : Ev K U X} {o : Ops K U} {F : Fam U X} (hp : ProdLaw e o F) {k : Nat} {a b : Qma U}
    (ha : a.WF) (hb : b.WF) (hPa : ∀ f ∈ a.funcs, F.P k f) (hPb : ∀ f ∈ b.funcs, F.P k f) :
    ∃ Q, kron o a b = .ok Q ∧ Rep e F k (a.nrows * b.nrows) (a.ncols * b.ncols)
      (Mk b.nrows b.ncols (fun x => a.val e x) (fun x => b.val e x)) Q := by
  have f1 : Fills (EntryR e F k (a.nrows * b.nrows) (Mk b.nrows b.ncols (fun x => a.val e x) (fun x => b.val e x)))
      ((a.nrows * b.nrows) * (a.ncols * b.ncols))
      (forN a.ncols (fun ii => forN a.nrows (fun jj => forN b.ncols (fun kk => forN b.nrows (fun ll c => do
        let f ← rd a.funcs (ii * a.nrows + jj)
        let g ← rd b.funcs (kk * b.nrows + ll)
        let h ← o.prod f g
        wr c ((ii * b.ncols + kk) * (a.nrows * b.nrows) + (jj * b.nrows + ll)) (some h))))))
      (fun p => ∃ ii < a.ncols, ∃ jj < a.nrows, ∃ kk < b.ncols, ∃ ll < b.nrows,
        p = (ii * b.ncols + kk) * (a.nrows * b.nrows) + (jj * b.nrows + ll)) := by
    refine Fills.forN fun ii hii => Fills.forN fun jj hjj => Fills.forN fun kk hkk => Fills.forN fun ll hll => ?_
    obtain ⟨f, hf, hmf, hvf⟩ := ha.get (e := e) hjj hii
    obtain ⟨g, hg, hmg, hvg⟩ := hb.get (e := e) hll hkk
    obtain ⟨h, hh, hPh, hvh⟩ := hp k f g (hPa f hmf) (hPb g hmg)
    have hrow : jj * b.nrows + ll < a.nrows * b.nrows := by rw [Nat.mul_comm a.nrows]; exact cm_idx_lt hll hjj
    have hcol : ii * b.ncols + kk < a.ncols * b.ncols := by rw [Nat.mul_comm a.ncols]; exact cm_idx_lt hkk hii
    refine Fills.bind hf (Fills.bind hg (Fills.bind hh (Fills.wr (cm_idx_lt hrow hcol) (entryR_cm hrow hPh
      fun x hx => ?_))))
    rw [Mk, cm_div hll, cm_mod hll, cm_div hkk, cm_mod hkk, hvh x hx, hvf, hvg]
  obtain ⟨c, l, h1, h2, h3, h4⟩ := f1.finish (by
    intro p hp
    obtain ⟨g1, g2, g3⟩ := divmod_of_lt hp
    obtain ⟨r1, r2, r3⟩ := divmod_of_lt (by rwa [Nat.mul_comm a.nrows] at g1 : _ < b.nrows * a.nrows)
    obtain ⟨c1, c2, c3⟩ := divmod_of_lt (by rwa [Nat.mul_comm a.ncols] at g2 : _ < b.ncols * a.ncols)
    refine ⟨_, c2, _, r2, _, c1, _, r1, ?_⟩
    rw [c3, r3, Nat.mul_comm b.nrows a.nrows, g3])
  refine ⟨_, ?_, rep_of_fill h3 h4⟩
  rw [kron, h1, bind_ok, h2, bind_ok, pure_eq_ok]

/-! ### Trains -/

theorem fits_of_get {cores : List (Qma U)} {s : Nat → Nat} {d : Nat} (hd : cores.length = d)
    (h : ∀ (k : Nat) Q, cores[k]? = some Q → Q.WF ∧ Q.nrows = s k ∧ Q.ncols = s (k + 1)) :
    Fits (s 0) cores (s d) := by
  induction cores generalizing s d with
  | nil => subst hd; exact .nil _
  | cons Q Qs ih =>
    obtain ⟨h1, h2, h3⟩ := h 0 Q rfl
    subst hd
    have := ih (s := fun k => s (k + 1)) (d := Qs.length) rfl (fun k Q' hQ' => h (k + 1) Q' hQ')
    rw [← h2]
    refine .cons Q Qs h1 ?_
    rw [h3]
    exact this

/-- Building a well-formed train from sizes `s`. -/
theorem wf_mk {cores : List (Qma U)} {ranks : List Nat} {s : Nat → Nat} {d : Nat} {x1 x2 x3 : Option (Space K)}
    (hd : cores.length = d) (hpos : 0 < d) (hs0 : s 0 = 1) (hsd : s d = 1)
    (h : ∀ (k : Nat) Q, cores[k]? = some Q → Q.WF ∧ Q.nrows = s k ∧ Q.ncols = s (k + 1)) (hrl : ranks.length = d + 1)
    (hr : ∀ k ≤ d, ranks[k]? = some (s k)) : (⟨d, ranks, cores, x1, x2, x3⟩ : FT K U).WF := by
  refine ⟨hd.symm, ?_, ?_, ?_⟩
  · intro he
    change cores = [] at he
    rw [he] at hd; simp at hd; omega
  · change ranks = 1 :: cores.map (·.ncols)
    apply List.ext_getElem?
    intro k
    by_cases hk : k ≤ d
    · rw [hr k hk]
      rcases k with _ | k
      · simp [hs0]
      · have hk' : k < cores.length := by omega
        have := (h k _ (List.getElem?_eq_getElem hk')).2.2
        simp [hk', this]
    · rw [List.getElem?_eq_none (by omega), List.getElem?_eq_none (by simp; omega)]
  · have := fits_of_get hd h
    rwa [hs0, hsd] at this

theorem forR_set {α : Type} {a0 n : Nat} {body : Nat → List α → C (List α)} {a : List α} (g : Nat → α)
    (hn : n ≤ a.length)
    (hb : ∀ i, a0 ≤ i → i < n → ∀ b : List α, b.length = a.length → body i b = wr b i (g i)) :
    ∃ b, forR a0 n body a = .ok b ∧ b.length = a.length ∧
      ∀ i : Nat, b[i]? = if a0 ≤ i ∧ i < n then some (g i) else a[i]? := by
  obtain ⟨b, h1, h2, h3, h4⟩ := forN_scatter (n := n - a0) (body := fun i => body (a0 + i)) (a := a) (fun i => a0 + i)
    (fun i => g (a0 + i)) (fun i hi => by omega) (fun i _ j _ h => by omega)
    (fun i hi b hl _ _ => hb (a0 + i) (by omega) (by omega) b hl)
  refine ⟨b, h1, h2, fun i => ?_⟩
  by_cases hi : a0 ≤ i ∧ i < n
  · have := h3 (i - a0) (by omega)
    simp only [Nat.add_sub_cancel' hi.1] at this
    rw [if_pos hi, this]
  · rw [if_neg hi, h4]
    intro j hj; omega

/-- The cores of `ft` are described by matrices `M k` of size `s k × s (k+1)`. -/
def CoreRep (e : Ev K U X) (F : Fam U X) (s : Nat → Nat) (M : Nat → X → Nat → Nat → K) (cores : List (Qma U)) : Prop :=
  ∀ k < cores.length, ∃ Q, cores[k]? = some Q ∧ Rep e F k (s k) (s (k + 1)) (M k) Q

/-- One step of the chain for cores described by `M`. -/
theorem chain_rep {e : Ev K U X} {F : Fam U X} {s : Nat → Nat} {M : Nat → X → Nat → Nat → K} {cores : List (Qma U)}
    (h : CoreRep e F s M cores) {x : List X} (hx : InDom F cores.length x) {k : Nat} (hk : k < cores.length) {i : Nat}
    (hi : i < s k) :
    chain ((mats e cores x).drop k) i
      = ∑ c ∈ range (s (k + 1)), M k (x[k]'(by have := hx.len; omega)) i c * chain ((mats e cores x).drop (k + 1)) c := by
  obtain ⟨Q, hQ, hR⟩ := h k hk
  rw [List.getElem?_eq_getElem hk, Option.some.injEq] at hQ
  have hx1 := hx.len
  rw [mats_drop hx.len hk, chain, hQ, hR.ncols]
  refine sum_congr rfl fun c hc => ?_
  show Qma.val e Q _ i c * _ = _
  rw [hR.val _ (hx.dom k hk _ (List.getElem?_eq_getElem (by omega))) i hi c (mem_range.1 hc)]

theorem chain_end {e : Ev K U X} {cores : List (Qma U)} {x : List X} (hx : cores.length ≤ x.length) {i : Nat} :
    chain ((mats e cores x).drop cores.length) i = if i = 0 then 1 else 0 := by
  rw [List.drop_of_length_le (by rw [mats_length hx]), chain]

/-- Sizes of a well-formed train. -/
def FT.rk (ft : FT K U) (k : Nat) : Nat := ft.ranks.getD k 0

theorem FT.Ok.core {e : Ev K U X} {F : Fam U X} {ft : FT K U} (h : ft.Ok F) :
    CoreRep e F ft.rk (fun k x i j => ((ft.cores[k]?).map (fun Q => Q.val e x i j)).getD 0) ft.cores := by
  intro k hk
  refine ⟨_, List.getElem?_eq_getElem hk, ?_, ?_, ?_, ?_, ?_⟩
  · rw [FT.rk, List.getD_eq_getElem?_getD, h.wf.ranks_get hk]; rfl
  · rw [FT.rk, List.getD_eq_getElem?_getD, h.wf.ranks_get' hk]; rfl
  · exact (h.wf.fits.get hk).1
  · exact h.mem k _ (List.getElem?_eq_getElem hk)
  · intro x _ i _ j _
    simp only [List.getElem?_eq_getElem hk, Option.map_some, Option.getD_some]

theorem FT.WF.rk_get {ft : FT K U} (h : ft.WF) {k : Nat} (hk : k ≤ ft.dim) : ft.ranks[k]? = some (ft.rk k) := by
  have : k < ft.ranks.length := by rw [h.ranks_len]; omega
  rw [FT.rk, List.getD_eq_getElem?_getD, List.getElem?_eq_getElem this]; rfl

theorem FT.WF.rk_zero {ft : FT K U} (h : ft.WF) : ft.rk 0 = 1 := by
  have := h.rk_get (Nat.zero_le _)
  rw [h.rank_zero, Option.some.injEq] at this
  exact this.symm

theorem FT.WF.rk_last {ft : FT K U} (h : ft.WF) : ft.rk ft.dim = 1 := by
  have := h.rk_get (Nat.le_refl _)
  rw [h.dim, h.rank_last, Option.some.injEq] at this
  rw [h.dim]; exact this.symm

/-- A core of a good train, with everything known about it. -/
theorem FT.Ok.get {F : Fam U X} {ft : FT K U} (h : ft.Ok F) {k : Nat} (hk : k < ft.dim) :
    ∃ Q, rd ft.cores k = .ok Q ∧ ft.cores[k]? = some Q ∧ Q.WF ∧ Q.nrows = ft.rk k ∧ Q.ncols = ft.rk (k + 1) ∧
      (∀ f ∈ Q.funcs, F.P k f) ∧ 0 < Q.nrows ∧ 0 < Q.ncols := by
  have hk' : k < ft.cores.length := by rw [← h.wf.dim]; exact hk
  have e1 := h.wf.ranks_get hk'
  have e2 := h.wf.ranks_get' hk'
  refine ⟨_, rd_ok hk', List.getElem?_eq_getElem hk', (h.wf.fits.get hk').1, ?_, ?_,
    h.mem k _ (List.getElem?_eq_getElem hk'), h.pos _ _ e1, h.pos _ _ e2⟩
  · rw [FT.rk, List.getD_eq_getElem?_getD, e1]; rfl
  · rw [FT.rk, List.getD_eq_getElem?_getD, e2]; rfl

theorem scratch_none {d : Nat} {ranks : List Nat} {cores : List (Qma U)} :
    (⟨d, ranks, cores, none, none, none⟩ : FT K U).Scratch :=
  ⟨by rintro _ ⟨⟩, by rintro _ ⟨⟩, by rintro _ ⟨⟩⟩

/-- A train built from cores described by `M` with positive sizes. -/
theorem ok_mk {e : Ev K U X} {F : Fam U X} {s : Nat → Nat} {M : Nat → X → Nat → Nat → K} {cores : List (Qma U)}
    {ranks : List Nat} {d : Nat} {x1 x2 x3 : Option (Space K)} (hd : cores.length = d) (hpos : 0 < d) (hs0 : s 0 = 1)
    (hsd : s d = 1) (hsp : ∀ k ≤ d, 0 < s k) (hM : CoreRep e F s M cores) (hrl : ranks.length = d + 1)
    (hr : ∀ k ≤ d, ranks[k]? = some (s k)) : (⟨d, ranks, cores, x1, x2, x3⟩ : FT K U).Ok F := by
  have hg : ∀ (k : Nat) Q, cores[k]? = some Q → Rep e F k (s k) (s (k + 1)) (M k) Q := by
    intro k Q hQ
    obtain ⟨Q', h1, h2⟩ := hM k (List.getElem?_eq_some_iff.1 hQ).1
    rw [hQ, Option.some.injEq] at h1
    rw [h1]; exact h2
  refine ⟨wf_mk hd hpos hs0 hsd (fun k Q hQ => ⟨(hg k Q hQ).wf, (hg k Q hQ).nrows, (hg k Q hQ).ncols⟩) hrl hr, ?_, ?_⟩
  · intro k r hk
    change ranks[k]? = some r at hk
    have hkd : k ≤ d := by have := (List.getElem?_eq_some_iff.1 hk).1; omega
    rw [hr k hkd, Option.some.injEq] at hk
    rw [← hk]; exact hsp k hkd
  · intro k Q hQ
    exact (hg k Q hQ).mem

end C3.Ft
