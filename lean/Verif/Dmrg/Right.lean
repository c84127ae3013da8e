/-
The right-to-left sweep.
-/
import Verif.Dmrg.Left

set_option linter.unusedSectionVars false

namespace C3.Dmrg
open Finset C3.Ft C3.Round
variable {U X : Type} {e : Ev ℝ U X} {F : Fam U X} {I : Integ ℝ X}

/-- The new core of the right-to-left sweep, and what is carried on. -/
theorem newCoreR {o : DmOps U} (hL : LinLaw e o.lin F) {k n : Nat} {p q : QRs U} (hq : ROk F k n q) (hn : 0 < n) {eps : ℝ}
    {t : Tsvd} (ht : DecOk n p.mat q.mat eps t) :
    ∃ Cc, mqma o.lin t.vt q.Q t.rank = .ok Cc ∧ QOk F k Cc ∧ Cc.nrows = t.rank ∧ Cc.ncols = q.Q.ncols ∧
      (eps ≤ 0 → ∀ x, F.D k x → ∀ i < n, ∀ h : Nat → ℝ,
        ∑ c ∈ range t.rank, (∑ a ∈ range n, ent n q.mat i a * ent t.rank t.vt c a) * (∑ j ∈ range Cc.ncols, Cc.val e x c j * h j)
          = ∑ j ∈ range q.Q.ncols, (∑ c ∈ range n, ent n q.mat i c * q.Q.val e x c j) * h j) := by
  obtain ⟨Cc, c1, c2⟩ := mqma_value hL hq.ok (R := t.vt) (b := t.rank) (by rw [hq.rows]; exact hn) (by rw [ht.lvt, hq.rows])
  refine ⟨Cc, c1, c2.qok, c2.nrows, c2.ncols, fun he x hx i hi h => ?_⟩
  have hr := ht.full he
  rw [ap_mm (n := n) (m := q.Q.ncols), c2.ncols]
  have h1 : ∀ c ∈ range t.rank, (∑ a ∈ range n, ent n q.mat i a * ent t.rank t.vt c a) * (∑ j ∈ range q.Q.ncols, Cc.val e x c j * h j)
      = (∑ a ∈ range n, ent n q.mat i a * ent n t.vt c a) * (∑ a ∈ range n, ent n t.vt c a * ∑ j ∈ range q.Q.ncols, q.Q.val e x a j * h j) := by
    intro c hc
    have hc := mem_range.1 hc
    rw [← ap_mm, hr]
    congr 1
    refine sum_congr rfl fun j hj => ?_
    rw [c2.val x hx c hc j (mem_range.1 hj), hq.rows, hr]
  rw [sum_congr rfl h1, hr]
  exact proj_id (u := fun a c => ent n t.vt c a) (ht.vv he) _ _

/-- State of the right-to-left sweep before step `jj`, with `ii = d-2-jj`. -/
structure RI (e : Ev ℝ U X) (F : Fam U X) (d : Nat) (s : Nat → Nat) (Y : Nat → X → Nat → Nat → ℝ) (phil : List (Option (QRs U)))
    (eps : ℝ) (jj ii : Nat) (w : Swp U) (Qs : List (Qma U)) (p q : QRs U) : Prop where
  idx : ii + jj + 2 = d
  len : Qs.length = jj + 1
  cores : w.cores = List.replicate (ii + 1) none ++ Qs.map some
  ranks : w.ranks = (1 :: List.replicate ii 0) ++ (Qs.map (·.nrows) ++ [1])
  fits : Fits w.t.rank Qs 1
  mem : Mem F (ii + 1) Qs
  small : ∀ (k : Nat) Q, Qs[k]? = some Q → 1 ≤ Q.nrows ∧ Q.nrows ≤ s (ii + 1 + k)
  psi : PsiOk e F d s Y w.ph
  nrows : w.nrows = s (ii + 1)
  hp : phil[ii]? = some (some p)
  lq : w.ph[ii]? = some (some q)
  rq : ROk F (ii + 1) (s (ii + 1)) q
  dec : DecOk (s (ii + 1)) p.mat q.mat eps w.t
  val : eps ≤ 0 → ∀ xs, xs.length = jj + 1 → DomFrom F (ii + 1) (jj + 1) xs → ∀ i < s (ii + 1),
    chain (ym s Y (ii + 1) xs) i
      = ∑ c ∈ range w.t.rank, (∑ a ∈ range (s (ii + 1)), ent (s (ii + 1)) q.mat i a * ent w.t.rank w.t.vt c a) * chain (mats e Qs xs) c

theorem chain_mm {n m : Nat} (Yr : Nat → ℝ) (B : Nat → Nat → ℝ) (h : Nat → ℝ) :
    ∑ t ∈ range n, Yr t * ∑ c ∈ range m, B t c * h c = ∑ c ∈ range m, (∑ t ∈ range n, Yr t * B t c) * h c :=
  (ap_mm Yr B h).symm

theorem rlStep_ok {o : DmOps U} (hL : LinLaw e o.lin F) (hlq : LqLaw e F I o.lqF) (hsvd : SvdLaw o.svd) {d : Nat} {s : Nat → Nat}
    {Y : Nat → X → Nat → Nat → ℝ} {f : Sup U} (hT : Target e F d s Y f) {phil : List (Option (QRs U))}
    (hphi : PhiOut e F d s Y phil) {eps : ℝ} {jj ii : Nat} {w : Swp U} {Qs : List (Qma U)} {p q : QRs U}
    (h : RI e F d s Y phil eps jj (ii + 1) w Qs p q) :
    ∃ w' Qs' p' q', rlStep o f d phil eps jj w = .ok w' ∧ RI e F d s Y phil eps (jj + 1) ii w' Qs' p' q' := by
  have hidx := h.idx
  have hii : d - 3 - jj = ii := by omega
  have hsi : 0 < s (ii + 1) := hT.pos (ii + 1) (by omega)
  have hsj : 0 < s (ii + 1 + 1) := hT.pos (ii + 1 + 1) (by omega)
  have e1 := dgemmNT_ok (m := s (ii + 1 + 1)) (n := w.t.rank) (k := s (ii + 1 + 1)) (A := q.mat) (B := w.t.vt)
    (c := List.replicate (s (ii + 1 + 1) * w.t.rank) 0) (by rw [h.rq.len]) (by rw [h.dec.lvt]) (by simp)
  obtain ⟨A, a1, a2⟩ := hT.right (ii + 1) w.t.rank
    (cm (s (ii + 1 + 1)) w.t.rank (fun i j => ∑ t ∈ range (s (ii + 1 + 1)), ent (s (ii + 1 + 1)) q.mat i t * ent w.t.rank w.t.vt j t))
    (by omega) (by omega) h.dec.pos (by simp)
  obtain ⟨q', q1, q2, q3, q4⟩ := qrLeft_ok hlq a2 hsi h.dec.pos
  obtain ⟨p', p1, p2⟩ := hphi.ph ii (by omega)
  obtain ⟨t', t1, t2⟩ := decomp_ok hsvd hsi p2.mr p2.mc q2.mc p2.len q2.len eps
  obtain ⟨Cc, c1, c2, c3, c4, c5⟩ := newCoreR hL q2 hsi t2
  have hwl := h.psi.len
  have w1 : wr w.ph ii (some q') = .ok (w.ph.set ii (some q')) := wr_ok _ (by rw [hwl]; omega)
  have w2 : wr w.ranks (ii + 1) t'.rank
      = .ok ((1 :: List.replicate ii 0) ++ ((Cc :: Qs).map (·.nrows) ++ [1])) := by
    rw [h.ranks, List.replicate_succ', ← List.cons_append, List.append_assoc, List.singleton_append,
      wr_at (by simp), List.map_cons, c3]
    rfl
  have w3 : wr w.cores (ii + 1) (some Cc) = .ok (List.replicate (ii + 1) none ++ (Cc :: Qs).map some) := by
    rw [h.cores, List.replicate_succ', List.append_assoc, List.singleton_append, wr_at (by simp)]
    rfl
  refine ⟨⟨(1 :: List.replicate ii 0) ++ ((Cc :: Qs).map (·.nrows) ++ [1]),
    List.replicate (ii + 1) none ++ (Cc :: Qs).map some, w.ph.set ii (some q'), p'.mr, p'.mc, q'.mc, t'⟩,
    Cc :: Qs, p', q', ?_, ?_⟩
  · rw [rlStep, hii, rdp_ok h.lq, bind_ok, h.rq.mr, h.rq.mc, e1, bind_ok, a1, bind_ok, q1, bind_ok, w1, bind_ok,
      rdp_ok p1, bind_ok, t1, bind_ok, w2, bind_ok, c1, bind_ok, w3, bind_ok, pure_eq_ok]
  · have hset : ∀ k, k ≠ ii → (w.ph.set ii (some q'))[k]? = w.ph[k]? := fun k hk => List.getElem?_set_ne (Ne.symm hk)
    have hself : (w.ph.set ii (some q'))[ii]? = some (some q') := List.getElem?_set_self (by rw [hwl]; omega)
    refine ⟨by omega, by simp [h.len], rfl, rfl, ?_, Mem.cons c2.mem h.mem, ?_, ⟨by simp [hwl], ?_, ?_⟩, p2.mr, p1, hself, q2, t2, ?_⟩
    · have := Fits.cons Cc Qs c2.wf (s := 1) (by rw [c4, q3]; exact h.fits)
      rwa [c3] at this
    · intro k Q hQ
      rcases k with _ | k
      · simp at hQ
        subst hQ
        rw [c3]
        exact ⟨t2.pos, t2.le⟩
      · rw [List.getElem?_cons_succ] at hQ
        have := h.small k Q hQ
        rw [show ii + 1 + (k + 1) = ii + 1 + 1 + k by omega]
        exact this
    · intro k hk
      dsimp only
      by_cases hki : k = ii
      · subst hki; exact ⟨q', hself, q2⟩
      · rw [hset k hki]; exact h.psi.ps k hk
    · dsimp only
      rw [hset _ (by omega)]; exact h.psi.last
    · intro he xs hl hD i hi
      cases xs with
      | nil => simp at hl
      | cons x xs =>
      obtain ⟨_, _, hcons, hx, hD'⟩ := hD.uncons
      cases hcons
      have hl' : xs.length = jj + 1 := by simpa using hl
      show ∑ c ∈ range (s (ii + 1 + 1)), Y (ii + 1) x i c * chain (ym s Y (ii + 1 + 1) xs) c = _
      rw [sum_congr rfl fun c hc => by rw [h.val he xs hl' hD' c (mem_range.1 hc)]]
      rw [chain_mm]
      show _ = ∑ c ∈ range t'.rank, _ * ∑ j ∈ range Cc.ncols, Cc.val e x c j * chain (mats e Qs xs) j
      rw [c5 he x hx i hi, q3]
      refine sum_congr rfl fun c hc => ?_
      rw [← q4 x hx i hi c (mem_range.1 hc)]
      congr 1
      refine sum_congr rfl fun t ht => ?_
      rw [ent_cm _ (mem_range.1 ht) (mem_range.1 hc)]

theorem sweepRL_ok {o : DmOps U} (hL : LinLaw e o.lin F) (hlq : LqLaw e F I o.lqF) (hsvd : SvdLaw o.svd) {d : Nat} {s : Nat → Nat}
    {Y : Nat → X → Nat → Nat → ℝ} {f : Sup U} (hT : Target e F d s Y f) {phil psir : List (Option (QRs U))}
    (hphi : PhiOut e F d s Y phil) (hpsi : PsiOk e F d s Y psir) (eps : ℝ) :
    ∃ na ps, sweepRL o f d phil psir eps = .ok (na, ps) ∧ Swept e F d s Y eps na ∧ PsiOk e F d s Y ps := by
  have h2 := hT.two
  obtain ⟨q, q1, q2⟩ := hpsi.last
  obtain ⟨p, p1, p2⟩ := hphi.ph (d - 2) (by omega)
  rw [show d - 2 + 1 = d - 1 by omega] at p2
  have hsd : 0 < s (d - 1) := hT.pos (d - 1) (by omega)
  obtain ⟨t, t1, t2⟩ := decomp_ok hsvd hsd p2.mr p2.mc q2.rok.mc p2.len q2.rok.len eps
  obtain ⟨Cc, c1, c2, c3, c4, c5⟩ := newCoreR hL q2.rok hsd t2
  have hlast : lastR o f d psir = .ok psir := by
    rw [lastR, rd_of_getElem? q1, bind_ok]; rfl
  have r0 : wr (List.replicate (d + 1) 0) 0 1 = .ok (1 :: List.replicate d 0) := rfl
  have r1 : wr (1 :: List.replicate d 0) d 1 = .ok ((1 :: List.replicate (d - 1) 0) ++ [1]) := by
    have : (1 :: List.replicate d 0) = (1 :: List.replicate (d - 1) 0) ++ [0] := by
      rw [List.cons_append, ← List.replicate_succ', show d - 1 + 1 = d by omega]
    rw [this, wr_at (by simp; omega)]
  have r2 : wr ((1 :: List.replicate (d - 1) 0) ++ [1]) (d - 1) t.rank
      = .ok ((1 :: List.replicate (d - 2) 0) ++ ([Cc].map (·.nrows) ++ [1])) := by
    have : (1 :: List.replicate (d - 1) 0) ++ [1] = (1 :: List.replicate (d - 2) 0) ++ 0 :: [1] := by
      rw [show d - 1 = (d - 2) + 1 by omega, List.replicate_succ', ← List.cons_append, List.append_assoc]; rfl
    rw [this, wr_at (by simp; omega), List.map_cons, List.map_nil, c3]
    rfl
  have r3 : wr (List.replicate d (none : Option (Qma U))) (d - 1) (some Cc) = .ok (List.replicate (d - 2 + 1) none ++ [Cc].map some) := by
    have : List.replicate d (none : Option (Qma U)) = List.replicate (d - 2 + 1) none ++ none :: [] := by
      rw [← List.replicate_succ', show d - 2 + 1 + 1 = d by omega]
    rw [this, wr_at (by simp; omega)]
    rfl
  have e1 : d - 2 + 1 = d - 1 := by omega
  have base : RI e F d s Y phil eps 0 (d - 2) ⟨(1 :: List.replicate (d - 2) 0) ++ ([Cc].map (·.nrows) ++ [1]),
      List.replicate (d - 2 + 1) none ++ [Cc].map some, psir, p.mr, p.mc, q.mc, t⟩ [Cc] p q := by
    refine ⟨by omega, rfl, rfl, rfl, ?_, ?_, ?_, hpsi, ?_, p1, q1, ?_, ?_, ?_⟩
    · have := Fits.cons Cc [] c2.wf (Fits.nil _)
      rwa [c3, c4, q2.one] at this
    · rw [e1]; exact Mem.cons c2.mem Mem.nil
    · intro k Q hQ
      rcases k with _ | k
      · simp at hQ; subst hQ; rw [c3, e1]; exact ⟨t2.pos, t2.le⟩
      · simp at hQ
    · rw [e1]; exact p2.mr
    · rw [e1]; exact q2.rok
    · rw [e1]; exact t2
    · rw [e1]
      intro he xs hl hD i hi
      obtain ⟨x, rfl⟩ := List.length_eq_one_iff.1 hl
      have hx : F.D (d - 1) x := by
        have := hD.2 0 Nat.one_pos x rfl
        rwa [Nat.add_zero] at this
      show ∑ c ∈ range (s (d - 1 + 1)), Y (d - 1) x i c * (if c = 0 then 1 else 0)
        = ∑ c ∈ range t.rank, _ * ∑ j ∈ range Cc.ncols, Cc.val e x c j * (if j = 0 then 1 else 0)
      rw [c5 he x hx i hi, show d - 1 + 1 = d by omega, hT.fin, q2.one, sum_range_one, sum_range_one, if_pos rfl, mul_one, mul_one,
        q2.val x hx i hi]
  obtain ⟨w, w1, ii, Qs, p', q', w2⟩ := forN_spec (n := d - 2) (body := rlStep o f d phil eps)
    (s := ⟨(1 :: List.replicate (d - 2) 0) ++ ([Cc].map (·.nrows) ++ [1]),
      List.replicate (d - 2 + 1) none ++ [Cc].map some, psir, p.mr, p.mc, q.mc, t⟩)
    (I := fun jj w => ∃ ii Qs p q, RI e F d s Y phil eps jj ii w Qs p q) ⟨d - 2, [Cc], p, q, base⟩
    (by
      rintro jj hj w ⟨ii, Qs, p, q, h⟩
      obtain ⟨ii, rfl⟩ : ∃ k, ii = k + 1 := ⟨ii - 1, by have := h.idx; omega⟩
      obtain ⟨w', Qs', p', q', a1, a2⟩ := rlStep_ok hL hlq hsvd hT hphi h
      exact ⟨w', a1, ii, Qs', p', q', a2⟩)
  have hi0 : ii = 0 := by have := w2.idx; omega
  subst hi0
  -- the first core
  obtain ⟨z, z1, z2⟩ := hphi.first
  have hzp : p' = z := by
    have := w2.hp
    rw [z1] at this
    simp only [Option.some.injEq] at this
    exact this.symm
  have hdec := w2.dec
  rw [Nat.zero_add] at hdec
  have hsr : scaleCols (s 1) w.t.rank w.t.s w.t.u = .ok (cm (s 1) w.t.rank (fun i p => ent (s 1) w.t.u i p * w.t.s.getD p 0)) :=
    scaleCols_ok hdec.ls hdec.lu
  obtain ⟨Z, g1, g2⟩ := qmam_value hL z2.lok.ok (b := w.t.rank)
    (R := cm (s 1) w.t.rank (fun i p => ent (s 1) w.t.u i p * w.t.s.getD p 0))
    (by rw [z2.lok.cols]; exact hT.pos _ (by omega)) (by rw [z2.lok.cols]; simp)
  have hZr : Z.nrows = 1 := by rw [g2.nrows, z2.one]
  have hZc := g2.ncols
  have hlen : (Z :: Qs).length = d := by simp [w2.len]; omega
  have wc : wr w.cores 0 (some Z) = .ok ((Z :: Qs).map some) := by
    rw [w2.cores]; rfl
  have hrk' : w.ranks = 1 :: (Qs.map (·.nrows) ++ [1]) := by
    rw [w2.ranks]; rfl
  have hrk : w.ranks = 1 :: (Z :: Qs).map (·.ncols) := by
    rw [hrk', ← fits_shift w2.fits, List.map_cons, hZc]
  have hfits : Fits 1 (Z :: Qs) 1 := by
    have := Fits.cons Z Qs g2.wf (s := 1) (by rw [hZc]; exact w2.fits)
    rwa [hZr] at this
  have hsmall : ∀ k r, w.ranks[k]? = some r → 1 ≤ r ∧ r ≤ s k := by
    intro k r hr
    rw [hrk'] at hr
    rcases k with _ | k
    · simp at hr; subst hr; rw [hT.zero]; exact ⟨le_rfl, le_rfl⟩
    · rw [List.getElem?_cons_succ] at hr
      rcases Nat.lt_or_ge k Qs.length with hk | hk
      · rw [List.getElem?_append_left (by simpa using hk), List.getElem?_map, List.getElem?_eq_getElem hk] at hr
        simp at hr
        have := w2.small k _ (List.getElem?_eq_getElem hk)
        rw [hr] at this
        rw [show k + 1 = 0 + 1 + k by omega]
        exact this
      · have hk1 : k = Qs.length := by
          have := (List.getElem?_eq_some_iff.1 hr).1
          simp at this; omega
        rw [List.getElem?_append_right (by simpa using hk)] at hr
        simp [hk1] at hr
        subst hr
        rw [hk1, show Qs.length + 1 = d by simpa using hlen, hT.fin]
        exact ⟨le_rfl, le_rfl⟩
  refine ⟨⟨d, w.ranks, Z :: Qs, none, none, none⟩, w.ph, ?_, ?_, w2.psi⟩
  · rw [sweepRL, r0, bind_ok, r1, bind_ok, hlast, bind_ok, rdp_ok p1, bind_ok, rdp_ok q1, bind_ok, t1, bind_ok, r2, bind_ok,
      c1, bind_ok, r3, bind_ok, w1, bind_ok, w2.nrows, Nat.zero_add, hsr, bind_ok, rdp_ok z1, bind_ok, g1, bind_ok, wc, bind_ok, ftDone,
      allSome_map, bind_ok, pure_eq_ok]
    rfl
  · refine ⟨⟨⟨hlen.symm, by simp, hrk, hfits⟩, fun k r hr => (hsmall k r hr).1, ?_⟩, rfl, ?_, ?_⟩
    · intro k Q hQ
      have := Mem.cons (F := F) (k := 0) g2.mem w2.mem k Q hQ
      rwa [Nat.zero_add] at this
    · intro k hk
      show w.ranks.getD k 0 ≤ s k
      have hl : k < w.ranks.length := by rw [hrk]; simp only [List.length_cons, List.length_map] at hlen ⊢; omega
      rw [List.getD_eq_getElem?_getD, List.getElem?_eq_getElem hl]
      exact (hsmall k _ (List.getElem?_eq_getElem hl)).2
    · intro he xs hxs
      have hxl := hxs.len
      have hD : DomFrom F 0 d (xs.take d) := by
        refine ⟨by simp; omega, fun i hi x hx => ?_⟩
        rw [Nat.zero_add]
        rw [List.getElem?_take_of_lt (by omega)] at hx
        exact hxs.dom i (by omega) x hx
      obtain ⟨y, ys, hys⟩ : ∃ y ys, xs.take d = y :: ys := by
        cases hx : xs.take d with
        | nil => have := congrArg List.length hx; rw [List.length_take, List.length_nil] at this; omega
        | cons y ys => exact ⟨y, ys, rfl⟩
      have hyl : ys.length = d - 2 + 1 := by
        have := congrArg List.length hys; simp at this; omega
      rw [hys, show d = (d - 2 + 1) + 1 by omega] at hD
      obtain ⟨_, _, hcons, d1, d2⟩ := hD.uncons
      cases hcons
      show value e (Z :: Qs) xs = tval s Y d xs
      rw [value, tval, ← mats_take (n := d) (le_of_eq hlen), hys]
      show ∑ c ∈ range Z.ncols, Z.val e y 0 c * chain (mats e Qs ys) c = ∑ c ∈ range (s (0 + 1)), Y 0 y 0 c * chain (ym s Y (0 + 1) ys) c
      rw [sum_congr (s₁ := range (s (0 + 1))) rfl fun c hc => by rw [w2.val he ys hyl d2 c (mem_range.1 hc)]]
      rw [chain_mm, hZc]
      refine sum_congr rfl fun c hc => ?_
      have hc := mem_range.1 hc
      have hr := hdec.full he
      congr 1
      rw [g2.val y d1 0 (by rw [z2.one]; exact Nat.one_pos) c hc, z2.lok.cols]
      simp only [Nat.zero_add]
      rw [sum_congr (s₁ := range (s 1)) (f := fun t => Y 0 y 0 t * ∑ a ∈ range (s 1), ent (s 1) q'.mat t a * ent w.t.rank w.t.vt c a)
        (g := fun t => (∑ b ∈ range (s 1), z.Q.val e y 0 b * ent (s 1) z.mat b t) *
        ∑ a ∈ range (s 1), ent (s 1) q'.mat t a * ent w.t.rank w.t.vt c a) rfl fun t ht => by rw [z2.val y d1 t (mem_range.1 ht)]]
      rw [ap_mm]
      refine sum_congr rfl fun a ha => ?_
      congr 1
      rw [ent_cm _ (mem_range.1 ha) hc, hdec.us he a (mem_range.1 ha) c (by omega), hzp, hr, ap_mm]

end C3.Dmrg
