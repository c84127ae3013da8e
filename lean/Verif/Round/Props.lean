/-
C105: rounding of a function train.
-/
import Verif.Round.Step

set_option linter.unusedSectionVars false

namespace C3.Round
open Finset C3.Ft
variable {U X : Type} {e : Ev ℝ U X} {F : Fam U X} {I : Integ ℝ X}

/-- State of the left-to-right sweep: `Us` are finished, `t.temp` and the cores of `f` after position `core` remain; `E` is
the squared error so far. Whatever the remaining cores will be replaced by (`Bs`), the products with the whole train reduce
to the remaining dimensions. -/
structure RdI (e : Ev ℝ U X) (F : Fam U X) (I : Integ ℝ X) (f : FT ℝ U) (core : Nat) (t : Rst U) (Us : List (Qma U))
    (E : ℝ) : Prop where
  cores : t.cores = Us.map some ++ List.replicate (f.dim - core) none
  ranks : t.ranks = 1 :: Us.map (·.ncols) ++ List.replicate (f.dim - core) 0
  len : Us.length = core
  fits : Fits 1 Us t.temp.nrows
  mem : Mem F 0 Us
  temp : QOk F core t.temp
  pos : 0 < t.temp.nrows
  tcols : t.temp.ncols = f.ranks.getD (core + 1) 0
  upos : ∀ Q ∈ Us, 0 < Q.ncols
  rk : ∀ (j : Nat) (Q : Qma U), Us[j]? = some Q → Q.ncols ≤ f.ranks.getD (j + 1) 0
  cross : ∀ Bs, Bs.length = f.dim - core → Fits t.temp.nrows Bs 1 → Mem F core Bs →
    ichain2 e I 0 f.cores (Us ++ Bs) 0 0
      = ∑ i ∈ range t.temp.nrows, ichain2 e I core (t.temp :: f.cores.drop (core + 1)) Bs i i
  self : ∀ Bs, Bs.length = f.dim - core → Fits t.temp.nrows Bs 1 → Mem F core Bs →
    ichain2 e I 0 (Us ++ Bs) (Us ++ Bs) 0 0 = ∑ i ∈ range t.temp.nrows, ichain2 e I core Bs Bs i i
  full : ichain2 e I 0 f.cores f.cores 0 0
    = E + ∑ i ∈ range t.temp.nrows,
        ichain2 e I core (t.temp :: f.cores.drop (core + 1)) (t.temp :: f.cores.drop (core + 1)) i i

/-- Bookkeeping: how the rank at each position was chosen. -/
structure Choice (f : FT ℝ U) (mr : Option Nat) (delta : ℝ) (core : Nat) (Us : List (Qma U)) (E : ℝ) : Prop where
  nonneg : 0 ≤ E
  small : mr = none → 0 ≤ delta → E ≤ core * delta
  bound : ∀ m, mr = some m → ∀ Q ∈ Us, Q.ncols ≤ m

theorem rdI_start {f : FT ℝ U} (hf : f.Ok F) (h2 : 2 ≤ f.dim) (A : Qma U) (hA : f.cores[0]? = some A) :
    RdI e F I f 0 ⟨1 :: List.replicate f.dim 0, List.replicate f.dim none, A⟩ [] 0 := by
  have hd := hf.wf.dim
  have hk : 0 < f.cores.length := by omega
  obtain ⟨ok1, r1, c1, p1, p2⟩ := core_facts hf hk
  have hA' : f.cores[0] = A := by rw [List.getElem?_eq_getElem hk] at hA; exact Option.some.inj hA
  rw [hA'] at ok1 r1 c1
  have hr0 : f.ranks.getD 0 0 = 1 := by rw [hf.wf.ranks]; rfl
  have hn : A.nrows = 1 := by rw [r1, hr0]
  have hcs : f.cores = A :: f.cores.drop 1 := by
    have := List.drop_eq_getElem_cons hk
    rw [hA'] at this
    simpa using this
  refine ⟨rfl, rfl, rfl, ?_, Mem.nil, ok1, by dsimp only; omega, c1, by simp, by simp, ?_, ?_, ?_⟩
  · dsimp only; rw [hn]; exact .nil 1
  · intro Bs _ _ _
    dsimp only
    rw [hn, sum_range_one, List.nil_append, ← hcs]
  · intro Bs _ _ _
    dsimp only
    rw [hn, sum_range_one, List.nil_append]
  · dsimp only
    rw [hn, sum_range_one, ← hcs, zero_add]

/-- One step of the sweep. -/
theorem rdI_step {o : RdOps U} (hI : IntLaw F.D I) (hm : MemLaw2 e F I) (hL : LinLaw e o.lin F) (hqr : QrLaw e F I o.qr)
    (hsvd : SvdLaw o.svd) {f : FT ℝ U} (hf : f.Ok F)
    (hon : ∀ (p : Nat) (Q : Qma U), 1 ≤ p → f.cores[p]? = some Q → RowON e I p Q)
    {mr : Option Nat} (hmr : ∀ m, mr = some m → 0 < m) (delta : ℝ) {core : Nat} (hcore : core + 1 < f.dim) {t : Rst U}
    {Us : List (Qma U)} {E : ℝ} (h : RdI e F I f core t Us E) (hch : Choice f mr delta core Us E) :
    ∃ d0 d next cs rk T, qmaTsvd o core t.temp delta = .ok d0 ∧ cutOpt mr t.temp.ncols d0 = .ok d ∧
      wr t.cores core (some d.core) = .ok cs ∧ wr t.ranks (core + 1) d.rank = .ok rk ∧
      rd f.cores (core + 1) = .ok next ∧ absorb o d t.temp.ncols next = .ok T ∧
      ∃ E', RdI e F I f (core + 1) ⟨rk, cs, T⟩ (Us ++ [d.core]) E' ∧ Choice f mr delta (core + 1) (Us ++ [d.core]) E' ∧
        0 ≤ ∑ i ∈ range T.nrows, ichain2 e I (core + 1) (T :: f.cores.drop (core + 1 + 1)) (T :: f.cores.drop (core + 1 + 1)) i i := by
  have hd := hf.wf.dim
  have hk : core < f.cores.length := by omega
  have hk1 : core + 1 < f.cores.length := by omega
  obtain ⟨-, -, -, p1, p2⟩ := core_facts hf hk
  obtain ⟨nok, nr, nc, -, np⟩ := core_facts hf hk1
  have hcp : 0 < t.temp.ncols := by rw [h.tcols]; exact p2
  obtain ⟨w, φ, d0, a1, a2, a3⟩ := qmaTsvd_ok hI hm hL hqr hsvd h.temp h.pos hcp delta
  obtain ⟨d, b1, b2, b3⟩ := cutOpt_ok a2 hmr
  have hnr : f.cores[core + 1].nrows = t.temp.ncols := by rw [nr, h.tcols]
  obtain ⟨T, c1, c2⟩ := absorb_ok hL b2 hcp nok hnr
  have hdle : d.rank ≤ d0.rank := by
    rw [b3]; cases mr with
    | none => exact le_rfl
    | some m => exact min_le_right _ _
  have hdn : d.rank ≤ t.temp.ncols := le_trans hdle a3.le
  obtain ⟨m, hm'⟩ : ∃ m, f.dim - core = m + 1 := ⟨f.dim - core - 1, by omega⟩
  have hm'' : f.dim - (core + 1) = m := by omega
  have hwc : wr t.cores core (some d.core) = .ok ((Us ++ [d.core]).map some ++ List.replicate (f.dim - (core + 1)) none) := by
    rw [h.cores, hm', wr_append_replicate (by simp [h.len]), hm'', List.map_append]
    rfl
  have hwr : wr t.ranks (core + 1) d.rank
      = .ok (1 :: (Us ++ [d.core]).map (·.ncols) ++ List.replicate (f.dim - (core + 1)) 0) := by
    rw [h.ranks, hm', wr_append_replicate (by simp [h.len]), hm'', List.map_append, b2.cols.symm]
    rfl
  have hdrop : f.cores.drop (core + 1) = f.cores[core + 1] :: f.cores.drop (core + 1 + 1) := List.drop_eq_getElem_cons hk1
  have hdl : (f.cores.drop (core + 1)).length = f.dim - (core + 1) := by simp; omega
  have hdl2 : (f.cores.drop (core + 1 + 1)).length = f.dim - (core + 1) - 1 := by simp; omega
  have hfd : Fits t.temp.ncols (f.cores.drop (core + 1)) 1 := by
    rw [h.tcols]
    have h1 := fits_of_get (cores := f.cores.drop (core + 1)) (s := fun i => f.ranks.getD (core + 1 + i) 0)
      (d := f.dim - (core + 1)) hdl (fun k Q hQ => by
        rw [List.getElem?_drop] at hQ
        have hlt : core + 1 + k < f.cores.length := by
          by_contra hc; rw [List.getElem?_eq_none (by omega)] at hQ; simp at hQ
        rw [List.getElem?_eq_getElem hlt] at hQ
        have := core_facts hf hlt
        rw [Option.some.inj hQ] at this
        exact ⟨this.1.wf, this.2.1, this.2.2.1⟩)
    rw [show core + 1 + (f.dim - (core + 1)) = f.dim by omega] at h1
    have hlast : f.ranks.getD f.dim 0 = 1 := by
      rw [List.getD_eq_getElem?_getD, hf.wf.ranks, hd, hf.wf.fits.last]; rfl
    rw [hlast] at h1
    exact h1
  have hton : TailON e I (core + 1) t.temp.ncols (f.cores.drop (core + 1)) :=
    tailON_of_rows hfd (fun j Q hQ => by
      rw [List.getElem?_drop] at hQ
      exact hon _ Q (by omega) hQ)
  have hTok : QOk F (core + 1) T := ⟨c2.wf, c2.mem⟩
  -- rows of the new temporary core
  have hlin : ∀ (B : Qma U) (Bs : List (Qma U)), QOk F (core + 1) B → ∀ c < d.rank, ∀ b < B.nrows,
      ichain2 e I (core + 1) (T :: f.cores.drop (core + 1 + 1)) (B :: Bs) c b
        = ∑ j ∈ range t.temp.ncols, (w.s.getD c 0 * ent t.temp.ncols w.vt c j)
          * ichain2 e I (core + 1) (f.cores.drop (core + 1)) (B :: Bs) j b := by
    intro B Bs hB c hc b hb
    rw [hdrop, ← hnr]
    exact ichain2_lin hI hm nok hB c2.ncols hb (fun x hx b' hb' => by rw [c2.val x hx c hc b' hb', hnr])
  have hnew : ∀ c ∈ range d.rank, ichain2 e I (core + 1) (T :: f.cores.drop (core + 1 + 1)) (T :: f.cores.drop (core + 1 + 1)) c c
      = w.s.getD c 0 ^ 2 := by
    intro c hc
    have hc := mem_range.1 hc
    rw [hlin T _ hTok c hc c (by rw [c2.nrows]; exact hc), ← b2.dec.len c (by omega)]
    refine sum_congr rfl fun j hj => ?_
    have hj := mem_range.1 hj
    congr 1
    rw [ichain2_symm (by rw [hdl]; simp; omega)]
    have := hlin f.cores[core + 1] (f.cores.drop (core + 1 + 1)) nok c hc j (by rw [hnr]; exact hj)
    rw [← hdrop] at this
    rw [this, sum_congr rfl fun j' hj' => by rw [hton j' (mem_range.1 hj') j hj]]
    exact sum_delta (f := fun j' => w.s.getD c 0 * ent t.temp.ncols w.vt c j') hj
  refine ⟨d0, d, f.cores[core + 1], _, _, T, a1, b1, hwc, hwr, rd_ok hk1, c1, E + tailSq t.temp.ncols w.s d.rank, ?_, ?_, ?_⟩
  · refine ⟨rfl, rfl, by simp [h.len], ?_, ?_, hTok, ?_, ?_, ?_, ?_, ?_, ?_, ?_⟩
    · refine fits_append h.fits ?_
      dsimp only
      rw [← b2.dec.rows]
      have := Fits.cons d.core [] b2.dec.okC.wf (.nil _)
      rw [c2.nrows, ← b2.cols]
      exact this
    · exact h.mem.append (Mem.cons (by rw [h.len, Nat.zero_add]; exact b2.dec.okC.mem) Mem.nil)
    · dsimp only; rw [c2.nrows]; exact b2.pos
    · dsimp only; rw [c2.ncols, nc]
    · intro Q hQ
      rcases List.mem_append.1 hQ with hQ | hQ
      · exact h.upos Q hQ
      · rw [List.mem_singleton.1 hQ, b2.cols]; exact b2.pos
    · intro j Q hQ
      by_cases hj : j < Us.length
      · rw [List.getElem?_append_left hj] at hQ
        exact h.rk j Q hQ
      · rw [List.getElem?_append_right (by omega)] at hQ
        have hj0 : j - Us.length = 0 := by
          by_contra hne
          obtain ⟨q, hq⟩ : ∃ q, j - Us.length = q + 1 := ⟨j - Us.length - 1, by omega⟩
          rw [hq] at hQ; simp at hQ
        rw [hj0] at hQ
        have hQ : d.core = Q := by simpa using hQ
        rw [← hQ, b2.cols, show j = core by have := h.len; omega, ← h.tcols]
        exact hdn
    · -- cross
      intro Bs hl hfB hmB
      dsimp only at hfB ⊢
      rw [c2.nrows] at hfB ⊢
      rw [List.append_assoc, List.singleton_append]
      rw [h.cross (d.core :: Bs) (by simp; omega)
        (by rw [← b2.dec.rows]; exact Fits.cons _ _ b2.dec.okC.wf (by rw [b2.cols]; exact hfB))
        (Mem.cons b2.dec.okC.mem hmB)]
      rw [b2.dec.cross hI, b2.cols]
      cases Bs with
      | nil => simp at hl; omega
      | cons B Bs =>
        obtain ⟨hBr, hBw⟩ : B.nrows = d.rank ∧ B.WF := by
          generalize d.rank = r at hfB
          cases hfB with
          | cons _ _ hw _ => exact ⟨rfl, hw⟩
        have hBok : QOk F (core + 1) B := ⟨hBw, hmB.head⟩
        exact sum_congr rfl fun c hc => (hlin B Bs hBok c (mem_range.1 hc) c (by rw [hBr]; exact mem_range.1 hc)).symm
    · -- self
      intro Bs hl hfB hmB
      dsimp only at hfB ⊢
      rw [c2.nrows] at hfB ⊢
      rw [List.append_assoc, List.singleton_append]
      rw [h.self (d.core :: Bs) (by simp; omega)
        (by rw [← b2.dec.rows]; exact Fits.cons _ _ b2.dec.okC.wf (by rw [b2.cols]; exact hfB))
        (Mem.cons b2.dec.okC.mem hmB)]
      rw [b2.dec.self hI, b2.cols]
    · -- full
      dsimp only
      rw [c2.nrows, h.full, b2.dec.full hI hton]
      rw [sum_congr rfl hnew, tailSq, add_assoc]
      congr 1
      rw [add_comm, ← sum_range_add_sum_Ico _ hdn]
  · refine ⟨add_nonneg hch.nonneg tailSq_nonneg, ?_, ?_⟩
    · intro hnone hdel
      subst hnone
      have hrk : d.rank = d0.rank := b3
      have htail : tailSq t.temp.ncols w.s d.rank ≤ delta := by
        rw [hrk]
        rcases Nat.lt_or_ge d0.rank t.temp.ncols with hlt | hge
        · exact (a3.small hlt).le
        · rw [show d0.rank = t.temp.ncols from le_antisymm a3.le hge, tailSq_self]; exact hdel
      have := hch.small rfl hdel
      push_cast
      linarith
    · intro m hm0 Q hQ
      rcases List.mem_append.1 hQ with hQ | hQ
      · exact hch.bound m hm0 Q hQ
      · rw [List.mem_singleton.1 hQ, b2.cols, b3, hm0]
        exact min_le_left _ _
  · rw [c2.nrows, sum_congr rfl hnew]
    exact sum_nonneg fun c _ => sq_nonneg _

/-- Integral of the squared difference of two trains. -/
theorem dist_spec (hI : IntLaw F.D I) (hm : MemLaw2 e F I) {a b : FT ℝ U} (ha : a.Ok F) (hb : b.Ok F) (hab : a.dim = b.dim) :
    iint I 0 a.dim (fun x => (value e a.cores x - value e b.cores x) ^ 2)
      = ichain2 e I 0 a.cores a.cores 0 0 - 2 * ichain2 e I 0 a.cores b.cores 0 0 + ichain2 e I 0 b.cores b.cores 0 0 := by
  have i1 := pair_iv hI hm ha ha rfl
  have i2 := pair_iv hI hm ha hb hab
  have i3 := pair_iv hI hm hb hb rfl
  rw [← hab] at i3
  have s1 := inner_spec hI hm (⟨ha, ha, rfl⟩ : Pair F a a)
  have s2 := inner_spec hI hm (⟨ha, hb, hab⟩ : Pair F a b)
  have s3 := inner_spec hI hm (⟨hb, hb, rfl⟩ : Pair F b b)
  rw [← hab] at s3
  obtain ⟨m1, m2⟩ := iint_smul hI (-2) i2
  obtain ⟨n1, n2⟩ := iint_add hI i1 m1
  obtain ⟨o1, o2⟩ := iint_add hI n1 i3
  rw [← s1, ← s2, ← s3]
  have he : (fun x => (value e a.cores x - value e b.cores x) ^ 2)
      = fun x => value e a.cores x * value e a.cores x + -2 * (value e a.cores x * value e b.cores x)
          + value e b.cores x * value e b.cores x := by funext x; ring
  rw [he, o2, n2, m2]
  ring

/-- What rounding delivers, in terms of the represented functions: `f` before, `g` after. -/
structure Rounded (e : Ev ℝ U X) (F : Fam U X) (I : Integ ℝ X) (a b : FT ℝ U) : Prop where
  ok : b.Ok F
  dim : b.dim = a.dim
  ranks : ∀ k, b.ranks.getD k 0 ≤ a.ranks.getD k 0
  proj : iint I 0 a.dim (fun x => (value e a.cores x - value e b.cores x) * value e b.cores x) = 0
  pyth : iint I 0 a.dim (fun x => value e a.cores x ^ 2)
    = iint I 0 a.dim (fun x => value e b.cores x ^ 2)
      + iint I 0 a.dim (fun x => (value e a.cores x - value e b.cores x) ^ 2)
  nonneg : 0 ≤ iint I 0 a.dim (fun x => (value e a.cores x - value e b.cores x) ^ 2)

/-- The whole computation after the zero test. -/
theorem roundMain_ok {o : RdOps U} (hI : IntLaw F.D I) (hm : MemLaw2 e F I) (hL : LinLaw e o.lin F)
    (hin : InnerLaw e F I o.inner) (hqr : QrLaw e F I o.qr) (hlq : LqLaw e F I o.lq) (hsvd : SvdLaw o.svd) {a : FT ℝ U}
    (ha : a.Ok F) (h2 : 2 ≤ a.dim) {mr : Option Nat} (hmr : ∀ m, mr = some m → 0 < m) (eps : ℝ) :
    ∃ b, roundMain o mr a eps = .ok b ∧ Rounded e F I a b ∧
      (mr = none → 0 ≤ eps → iint I 0 a.dim (fun x => (value e a.cores x - value e b.cores x) ^ 2)
        ≤ Real.sqrt (a.dim - 1) * Real.sqrt (iint I 0 a.dim (fun x => value e a.cores x ^ 2)) * eps) ∧
      (∀ m, mr = some m → ∀ k, b.ranks.getD k 0 ≤ m) := by
  obtain ⟨a', ha'def⟩ : ∃ a' : FT ℝ U, a' = { a with sp1 := none, sp2 := none, sp3 := none } := ⟨_, rfl⟩
  have ha' : a'.Ok F := by
    subst ha'def
    exact ⟨⟨ha.wf.dim, ha.wf.pos, ha.wf.ranks, ha.wf.fits⟩, ha.pos, ha.mem⟩
  have hcopy : ftCopy a = .ok a' := by rw [ha'def]; exact copy_ok ha.wf
  have hd' : a'.dim = a.dim := by rw [ha'def]
  have hr' : a'.ranks = a.ranks := by rw [ha'def]
  have hc' : a'.cores = a.cores := by rw [ha'def]
  have hnorm := norm2_value hI hL hm hin ha'
  rw [hd', hc'] at hnorm
  obtain ⟨N, hN⟩ : ∃ N, N = iint I 0 a.dim (fun x => value e a.cores x ^ 2) := ⟨_, rfl⟩
  obtain ⟨delta, hdelta⟩ : ∃ δ, δ = Real.sqrt |N| * eps / Real.sqrt ((a.dim - 1 : Nat) : ℝ) := ⟨_, rfl⟩
  obtain ⟨f, f1, f2, f3, f4, f5, f6⟩ := orthor_ok (I := I) hL hlq ha' (by omega)
  rw [hd'] at f3 f5
  rw [hr'] at f4
  rw [hc'] at f5
  have hfd := f2.wf.dim
  have hk0 : 0 < f.cores.length := by omega
  -- first core
  have hstart := rdI_start (e := e) (I := I) f2 (by omega) _ (List.getElem?_eq_getElem hk0)
  obtain ⟨d0, d, next, cs, rk, T, s1, s2, s3, s4, s5, s6, E, s7, s8, s9⟩ := rdI_step hI hm hL hqr hsvd f2 f6 hmr delta (by omega)
    hstart ⟨le_refl 0, by simp, by simp⟩
  have hfirst : roundFirst o mr f a.dim delta = .ok ⟨rk, cs, T⟩ := by
    have hw : wr (List.replicate (a.dim + 1) 0) 0 1 = .ok (1 :: List.replicate f.dim 0) := by
      rw [wr_ok _ (by simp), List.replicate_succ, f3]; rfl
    dsimp only at s3 s4
    rw [f3] at s3
    rw [roundFirst, hw, bind_ok, rd_ok hk0, bind_ok, s1, bind_ok, s2, bind_ok, s3, bind_ok, s4, bind_ok, s5, bind_ok, s6,
      bind_ok, pure_eq_ok]
  -- the loop
  obtain ⟨t, l1, Us, E', l2, l3, l4⟩ := forR_spec (a := 1) (b := a.dim - 1) (body := roundStep o mr a' f delta) (s := ⟨rk, cs, T⟩)
    (I := fun core t => ∃ Us E, RdI e F I f core t Us E ∧ Choice f mr delta core Us E ∧
      0 ≤ ∑ i ∈ range t.temp.nrows, ichain2 e I core (t.temp :: f.cores.drop (core + 1)) (t.temp :: f.cores.drop (core + 1)) i i) (by omega)
    ⟨_, _, s7, s8, s9⟩
    (by
      rintro core h1 h3 t ⟨Us, E, i1, i2, -⟩
      obtain ⟨d0, d, next, cs, rk, T, s1, s2, s3, s4, s5, s6, E', s7, s8, s9⟩ := rdI_step hI hm hL hqr hsvd f2 f6 hmr delta
        (by omega) i1 i2
      refine ⟨⟨rk, cs, T⟩, ?_, _, _, s7, s8, s9⟩
      have hw : rd a'.ranks (core + 1) = .ok t.temp.ncols := by
        rw [rd_getD 0 (by rw [ha'.wf.ranks]; simp; have := ha'.wf.dim; omega), hr', ← f4, i1.tcols]
      rw [roundStep, s1, bind_ok, s2, bind_ok, s3, bind_ok, s4, bind_ok, hw, bind_ok, s5, bind_ok, s6, bind_ok, pure_eq_ok])
  -- the result
  have hd1 : f.dim - (a.dim - 1) = 1 := by omega
  have hdropn : f.cores.drop (a.dim - 1 + 1) = [] := List.drop_eq_nil_of_le (by omega)
  have hlast : f.ranks.getD f.dim 0 = 1 := by
    rw [List.getD_eq_getElem?_getD, f2.wf.ranks, hfd, f2.wf.fits.last]; rfl
  have htc : t.temp.ncols = 1 := by rw [l2.tcols, show a.dim - 1 + 1 = f.dim by omega, hlast]
  have hwc : wr t.cores (a.dim - 1) (some t.temp) = .ok ((Us ++ [t.temp]).map some) := by
    rw [l2.cores, hd1, wr_append_replicate (m := 0) (by simp [l2.len])]
    simp
  have hwr : wr t.ranks a.dim 1 = .ok (1 :: (Us ++ [t.temp]).map (·.ncols)) := by
    rw [l2.ranks, hd1, wr_append_replicate (m := 0) (by simp [l2.len]; omega)]
    simp [htc]
  have hfitT : Fits t.temp.nrows [t.temp] 1 := by
    have := Fits.cons t.temp [] l2.temp.wf (.nil _)
    rwa [htc] at this
  have hmemT : Mem F (a.dim - 1) [t.temp] := Mem.cons l2.temp.mem Mem.nil
  obtain ⟨b, hb⟩ : ∃ b : FT ℝ U, b = ⟨a.dim, 1 :: (Us ++ [t.temp]).map (·.ncols), Us ++ [t.temp], none, none, none⟩ := ⟨_, rfl⟩
  have hbc : b.cores = Us ++ [t.temp] := by rw [hb]
  have hbd : b.dim = a.dim := by rw [hb]
  have hbr : b.ranks = 1 :: (Us ++ [t.temp]).map (·.ncols) := by rw [hb]
  have hbok : b.Ok F := by
    refine ⟨⟨by rw [hbc, hbd]; simp [l2.len]; omega, by rw [hbc]; simp, by rw [hbr, hbc], ?_⟩, ?_, ?_⟩
    · rw [hbc]; exact fits_append l2.fits hfitT
    · intro k r hr
      rw [hbr] at hr
      have hmem := List.mem_of_getElem? hr
      rcases List.mem_cons.1 hmem with h | h
      · omega
      · obtain ⟨Q, hQ, rfl⟩ := List.mem_map.1 h
        rcases List.mem_append.1 hQ with hQ | hQ
        · exact l2.upos Q hQ
        · rw [List.mem_singleton.1 hQ, htc]; exact Nat.one_pos
    · intro k Q hQ
      rw [hbc] at hQ
      have := l2.mem.append (Bs := [t.temp]) (by rw [l2.len, Nat.zero_add]; exact hmemT) k Q hQ
      rwa [Nat.zero_add] at this
  have hrun : roundMain o mr a eps = .ok b := by
    rw [roundMain, hcopy, bind_ok, hnorm, bind_ok]
    dsimp only
    rw [hd', ← hN, ← hdelta, f1, bind_ok, hfirst, bind_ok, l1, bind_ok, hwc, bind_ok, hwr, bind_ok, ftDone, allSome_map, bind_ok,
      pure_eq_ok, hb]
  -- values
  have hx := l2.cross [t.temp] (by simp; omega) hfitT hmemT
  have hs := l2.self [t.temp] (by simp; omega) hfitT hmemT
  have hfull := l2.full
  rw [hdropn] at hx hfull
  rw [← hbc] at hx hs
  have hfb : f.dim = b.dim := by rw [f3, hbd]
  have hdist := dist_spec hI hm f2 hbok hfb
  have hE : iint I 0 f.dim (fun x => (value e f.cores x - value e b.cores x) ^ 2) = E' := by
    rw [hdist, hx, hs, hfull]; ring
  have hInD : ∀ xs : List X, xs.length = a.dim → (∀ (i : Nat) x, xs[i]? = some x → F.D (0 + i) x) → InDom F a.dim xs :=
    fun xs hl hD => ⟨by rw [hl], fun k _ x hx => by have := hD k x hx; rwa [Nat.zero_add] at this⟩
  have iff := pair_iv hI hm f2 f2 rfl
  have ifb := pair_iv hI hm f2 hbok hfb
  have ibb := pair_iv hI hm hbok hbok rfl
  rw [f3] at iff ifb
  rw [hbd] at ibb
  have sff := inner_spec hI hm (⟨f2, f2, rfl⟩ : Pair F f f)
  have sfb := inner_spec hI hm (⟨f2, hbok, hfb⟩ : Pair F f b)
  have sbb := inner_spec hI hm (⟨hbok, hbok, rfl⟩ : Pair F b b)
  rw [f3] at sff sfb
  rw [hbd] at sbb
  have hdiff : iint I 0 a.dim (fun x => (value e a.cores x - value e b.cores x) ^ 2) = E' := by
    rw [← hE, f3]
    obtain ⟨m1, m2⟩ := iint_smul hI (-2) ifb
    obtain ⟨n1, -⟩ := iint_add hI iff m1
    obtain ⟨o1, -⟩ := iint_add hI n1 ibb
    have o2 := (iint_congr hI (h := fun x => (value e f.cores x - value e b.cores x) ^ 2) (fun xs _ _ => by ring) o1).1
    exact ((iint_congr hI (h := fun x => (value e a.cores x - value e b.cores x) ^ 2)
      (fun xs hl hD => by rw [f5 xs (hInD xs hl hD)]) o2).2).symm
  have hself : iint I 0 a.dim (fun x => value e a.cores x ^ 2) = ichain2 e I 0 f.cores f.cores 0 0 := by
    rw [← sff]
    exact ((iint_congr hI (h := fun x => value e a.cores x ^ 2)
      (fun xs hl hD => by rw [f5 xs (hInD xs hl hD)]; ring) iff).2).symm
  have hbself : iint I 0 a.dim (fun x => value e b.cores x ^ 2) = ichain2 e I 0 b.cores b.cores 0 0 := by
    rw [← sbb]
    exact ((iint_congr hI (h := fun x => value e b.cores x ^ 2) (fun xs hl hD => by ring) ibb).2).symm
  refine ⟨b, hrun, ⟨hbok, hbd, ?_, ?_, ?_, by rw [hdiff]; exact l3.nonneg⟩, ?_, ?_⟩
  · intro k
    rw [hbr, ← f4]
    rcases k with _ | k
    · rw [f2.wf.ranks]; simp
    · rw [List.getD_cons_succ, List.getD_eq_getElem?_getD, List.getElem?_map]
      rcases hQ : (Us ++ [t.temp])[k]? with _ | Q
      · simp
      · simp only [Option.map_some, Option.getD_some]
        by_cases hk : k < Us.length
        · rw [List.getElem?_append_left hk] at hQ
          exact l2.rk k Q hQ
        · rw [List.getElem?_append_right (by omega)] at hQ
          have hk0 : k - Us.length = 0 := by
            by_contra hne
            obtain ⟨q, hq⟩ : ∃ q, k - Us.length = q + 1 := ⟨k - Us.length - 1, by omega⟩
            rw [hq] at hQ; simp at hQ
          rw [hk0] at hQ
          have hQ : t.temp = Q := by simpa using hQ
          have hlen := l2.len
          rw [← hQ, l2.tcols, show k = a.dim - 1 by omega]
  · obtain ⟨m1, m2⟩ := iint_smul hI (-1) ibb
    obtain ⟨n1, n2⟩ := iint_add hI ifb m1
    have := (iint_congr hI (h := fun x => (value e a.cores x - value e b.cores x) * value e b.cores x)
      (fun xs hl hD => by rw [f5 xs (hInD xs hl hD)]; ring) n1).2
    rw [← this, n2, m2, sfb, sbb, hx, hs]; ring
  · rw [hdiff, hself, hbself, hs, hfull]; ring
  · intro hnone heps
    have hd1 : ((a.dim - 1 : Nat) : ℝ) = (a.dim : ℝ) - 1 := by
      rw [Nat.cast_sub (by omega), Nat.cast_one]
    have hNn : 0 ≤ N := by
      rw [hN, hself, l2.full]
      exact add_nonneg l3.nonneg l4
    have hdpos : 0 < (a.dim : ℝ) - 1 := by rw [← hd1]; exact_mod_cast (by omega : 0 < a.dim - 1)
    have hsq : Real.sqrt ((a.dim : ℝ) - 1) * Real.sqrt ((a.dim : ℝ) - 1) = (a.dim : ℝ) - 1 := Real.mul_self_sqrt hdpos.le
    have hsp : 0 < Real.sqrt ((a.dim : ℝ) - 1) := Real.sqrt_pos.2 hdpos
    have hdel : delta = Real.sqrt N * eps / Real.sqrt ((a.dim : ℝ) - 1) := by rw [hdelta, abs_of_nonneg hNn, hd1]
    have := l3.small hnone (by rw [hdel]; positivity)
    rw [hdiff, ← hN]
    refine le_trans this (le_of_eq ?_)
    rw [hd1, hdel]
    rw [← mul_div_assoc, div_eq_iff hsp.ne']
    linear_combination (-(Real.sqrt N * eps)) * hsq
  · intro m hmm k
    have hm0 := hmr m hmm
    rw [hbr]
    rcases k with _ | k
    · exact hm0
    · rw [List.getD_cons_succ, List.getD_eq_getElem?_getD, List.getElem?_map]
      rcases hQ : (Us ++ [t.temp])[k]? with _ | Q
      · simp
      · simp only [Option.map_some, Option.getD_some]
        rcases List.mem_append.1 (List.mem_of_getElem? hQ) with hQ | hQ
        · exact l3.bound m hmm Q hQ
        · rw [List.mem_singleton.1 hQ, htc]; exact hm0

end C3.Round
