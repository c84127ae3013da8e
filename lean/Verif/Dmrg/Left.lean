/-
The left-to-right sweep.
-/
import Verif.Dmrg.Lemmas

set_option linter.unusedSectionVars false

namespace C3.Dmrg
open Finset C3.Ft C3.Round
variable {U X : Type} {e : Ev ℝ U X} {F : Fam U X} {I : Integ ℝ X}

/-- The routine `f` multiplies the cores of a train of dimension `d` with sizes `s` and core entries `Y` by matrices. -/
structure Target (e : Ev ℝ U X) (F : Fam U X) (d : Nat) (s : Nat → Nat) (Y : Nat → X → Nat → Nat → ℝ) (f : Sup U) : Prop where
  two : 2 ≤ d
  pos : ∀ k ≤ d, 0 < s k
  zero : s 0 = 1
  fin : s d = 1
  first : ∃ A, f true 0 1 none = .ok A ∧ Rep e F 0 1 (s 1) (Y 0) A
  left : ∀ k r M, 0 < k → k + 1 < d → 0 < r → M.length = r * s k → ∃ A, f true k r (some M) = .ok A ∧
    Rep e F k r (s (k + 1)) (fun x i j => ∑ t ∈ range (s k), ent r M i t * Y k x t j) A
  last : ∃ A, f false (d - 1) 1 none = .ok A ∧ Rep e F (d - 1) (s (d - 1)) 1 (Y (d - 1)) A
  right : ∀ k r M, 0 < k → k + 1 < d → 0 < r → M.length = s (k + 1) * r → ∃ A, f false k r (some M) = .ok A ∧
    Rep e F k (s k) r (fun x i j => ∑ t ∈ range (s (k + 1)), Y k x i t * ent (s (k + 1)) M t j) A

/-- A left multiplier of core `k`. -/
structure LOk (F : Fam U X) (k n : Nat) (p : QRs U) : Prop where
  mr : p.mr = n
  mc : p.mc = n
  len : p.mat.length = n * n
  ok : QOk F k p.Q
  cols : p.Q.ncols = n
  rows : 0 < p.Q.nrows

/-- A right multiplier of core `k`. -/
structure ROk (F : Fam U X) (k n : Nat) (p : QRs U) : Prop where
  mr : p.mr = n
  mc : p.mc = n
  len : p.mat.length = n * n
  ok : QOk F k p.Q
  rows : p.Q.nrows = n
  cols : 0 < p.Q.ncols

/-- The first left multiplier: a decomposition of the first core of the target. -/
structure FirstOk (e : Ev ℝ U X) (F : Fam U X) (s : Nat → Nat) (Y : Nat → X → Nat → Nat → ℝ) (p : QRs U) : Prop where
  lok : LOk F 0 (s 1) p
  one : p.Q.nrows = 1
  val : ∀ x, F.D 0 x → ∀ j < s 1, Y 0 x 0 j = ∑ c ∈ range (s 1), p.Q.val e x 0 c * ent (s 1) p.mat c j

/-- The last right multiplier: a decomposition of the last core of the target. -/
structure LastOk (e : Ev ℝ U X) (F : Fam U X) (d : Nat) (s : Nat → Nat) (Y : Nat → X → Nat → Nat → ℝ) (p : QRs U) : Prop where
  rok : ROk F (d - 1) (s (d - 1)) p
  one : p.Q.ncols = 1
  val : ∀ x, F.D (d - 1) x → ∀ i < s (d - 1), Y (d - 1) x i 0
    = ∑ c ∈ range (s (d - 1)), ent (s (d - 1)) p.mat i c * p.Q.val e x c 0

theorem qrRight_ok {o : DmOps U} (hq : QrLaw e F I o.qrF) {k n m : Nat} {M : X → Nat → Nat → ℝ} {A : Qma U}
    (hA : Rep e F k n m M A) (hn : 0 < n) (hm : 0 < m) : ∃ p, qrRight o k A = .ok p ∧ LOk F k m p ∧ p.Q.nrows = n ∧
      ∀ x, F.D k x → ∀ i < n, ∀ j < m, M x i j = ∑ c ∈ range m, p.Q.val e x i c * ent m p.mat c j := by
  obtain ⟨q, q1, q2⟩ := hq k A hA.qok (by rw [hA.nrows]; exact hn) (by rw [hA.ncols]; exact hm)
  have hr := hA.nrows
  have hc := hA.ncols
  refine ⟨⟨A.ncols, A.ncols, q.2, q.1⟩, by rw [qrRight, q1, bind_ok, pure_eq_ok], ⟨hc, hc, by rw [q2.len, hc], q2.ok, ?_, ?_⟩, ?_, ?_⟩
  · dsimp only; rw [q2.ncols, hc]
  · dsimp only; rw [q2.nrows, hr]; exact hn
  · dsimp only; rw [q2.nrows, hr]
  · intro x hx i hi j hj
    rw [← hA.val x hx i hi j hj, q2.val x hx i (by omega) j (by omega), hc]

theorem qrLeft_ok {o : DmOps U} (hq : LqLaw e F I o.lqF) {k n m : Nat} {M : X → Nat → Nat → ℝ} {A : Qma U}
    (hA : Rep e F k n m M A) (hn : 0 < n) (hm : 0 < m) : ∃ p, qrLeft o k A = .ok p ∧ ROk F k n p ∧ p.Q.ncols = m ∧
      ∀ x, F.D k x → ∀ i < n, ∀ j < m, M x i j = ∑ c ∈ range n, ent n p.mat i c * p.Q.val e x c j := by
  obtain ⟨q, q1, q2⟩ := hq k A hA.qok (by rw [hA.nrows]; exact hn) (by rw [hA.ncols]; exact hm)
  have hr := hA.nrows
  have hc := hA.ncols
  refine ⟨⟨A.nrows, A.nrows, q.2, q.1⟩, by rw [qrLeft, q1, bind_ok, pure_eq_ok], ⟨hr, hr, by rw [q2.len, hr], q2.ok, ?_, ?_⟩, ?_, ?_⟩
  · dsimp only; rw [q2.nrows, hr]
  · dsimp only; rw [q2.ncols, hc]; exact hm
  · dsimp only; rw [q2.ncols, hc]
  · intro x hx i hi j hj
    rw [← hA.val x hx i hi j hj, q2.val x hx i (by omega) j (by omega), hr]

/-- The new core of the left-to-right sweep, and what is carried on. -/
theorem newCore {o : DmOps U} (hL : LinLaw e o.lin F) {k n : Nat} {p q : QRs U} (hp : LOk F k n p) (hn : 0 < n) {eps : ℝ}
    {t : Tsvd} (ht : DecOk n p.mat q.mat eps t) :
    ∃ Cc, qmam o.lin p.Q t.u t.rank = .ok Cc ∧ QOk F k Cc ∧ Cc.nrows = p.Q.nrows ∧ Cc.ncols = t.rank ∧
      (eps ≤ 0 → ∀ x, F.D k x → ∀ i < p.Q.nrows, ∀ v : Nat → ℝ,
        ∑ c ∈ range Cc.ncols, Cc.val e x i c * (∑ j ∈ range n, (∑ a ∈ range n, ent n t.u a c * ent n p.mat a j) * v j)
          = ∑ j ∈ range n, (∑ c ∈ range n, p.Q.val e x i c * ent n p.mat c j) * v j) := by
  obtain ⟨Cc, c1, c2⟩ := qmam_value hL hp.ok (R := t.u) (b := t.rank) (by rw [hp.cols]; exact hn) (by rw [ht.lu, hp.cols])
  refine ⟨Cc, c1, c2.qok, c2.nrows, c2.ncols, fun he x hx i hi v => ?_⟩
  have hr := ht.full he
  rw [c2.ncols, hr, ap_mm]
  have h1 : ∀ c ∈ range n, Cc.val e x i c * (∑ j ∈ range n, (∑ a ∈ range n, ent n t.u a c * ent n p.mat a j) * v j)
      = (∑ a ∈ range n, p.Q.val e x i a * ent n t.u a c) * (∑ a ∈ range n, ent n t.u a c * ∑ j ∈ range n, ent n p.mat a j * v j) := by
    intro c hc
    have hc := mem_range.1 hc
    rw [c2.val x hx i hi c (by omega), hp.cols, ap_mm]
  rw [sum_congr rfl h1]
  exact proj_id (u := ent n t.u) (ht.uu he) _ _

/-- State of the left-to-right sweep before core `ii`. -/
structure LI (e : Ev ℝ U X) (F : Fam U X) (d : Nat) (s : Nat → Nat) (Y : Nat → X → Nat → Nat → ℝ) (psir : List (Option (QRs U)))
    (eps : ℝ) (ii : Nat) (w : Swp U) (news : List (Qma U)) (p q : QRs U) : Prop where
  len : news.length = ii
  cores : w.cores = news.map some ++ List.replicate (d - ii) none
  ranks : w.ranks = (1 :: news.map (·.ncols)) ++ (List.replicate (d - 1 - ii) 0 ++ [1])
  fits : Fits 1 news w.t.rank
  mem : Mem F 0 news
  small : ∀ (k : Nat) Q, news[k]? = some Q → 1 ≤ Q.ncols ∧ Q.ncols ≤ s (k + 1)
  phl : w.ph.length = d - 1
  ph : ∀ k < ii, ∃ p, w.ph[k]? = some (some p) ∧ LOk F k (s (k + 1)) p
  first : ∃ p, w.ph[0]? = some (some p) ∧ FirstOk e F s Y p
  nrows : w.nrows = s ii
  nmult : w.nmult = s ii
  ncols : w.ncols = s ii
  hp : w.ph[ii - 1]? = some (some p)
  lp : LOk F (ii - 1) (s ii) p
  hq : psir[ii - 1]? = some (some q)
  dec : DecOk (s ii) p.mat q.mat eps w.t
  val : eps ≤ 0 → ∀ xs, xs.length = ii → DomFrom F 0 ii xs → ∀ v : Nat → ℝ,
    chainV (mats e news xs) (fun c => ∑ j ∈ range (s ii), (∑ a ∈ range (s ii), ent (s ii) w.t.u a c * ent (s ii) p.mat a j) * v j) 0
      = chainV (ym s Y 0 xs) v 0

theorem DomFrom.take' {k n : Nat} {xs : List X} {x : X} (h : DomFrom F k (n + 1) (xs ++ [x])) (hl : xs.length = n) :
    DomFrom F k n xs ∧ F.D (k + n) x := by
  refine ⟨⟨by omega, fun i hi y hy => h.2 i (by omega) y (by rw [List.getElem?_append_left (by omega)]; exact hy)⟩,
    h.2 n (by omega) x (by rw [List.getElem?_append_right (by omega)]; simp [hl])⟩

theorem exists_snoc {xs : List X} {n : Nat} (h : xs.length = n + 1) : ∃ ys y, xs = ys ++ [y] ∧ ys.length = n := by
  rcases List.eq_nil_or_concat xs with rfl | ⟨ys, y, rfl⟩
  · simp at h
  · exact ⟨ys, y, by simp, by simpa using h⟩

theorem fits_snoc {news : List (Qma U)} : ∀ {r m n : Nat} {Q : Qma U}, Fits r news m → Q.WF → Q.nrows = m → Q.ncols = n →
    Fits r (news ++ [Q]) n := by
  intro r m n Q h hw h1 h2
  refine fits_append h ?_
  subst h1
  subst h2
  exact Fits.cons Q [] hw (Fits.nil _)

theorem chainV_congr {e : Ev ℝ U X} {As : List (Qma U)} : ∀ {xs : List X} {r m i : Nat} {v w : Nat → ℝ}, Fits r As m →
    As.length ≤ xs.length → i < r → (∀ c < m, v c = w c) → chainV (mats e As xs) v i = chainV (mats e As xs) w i := by
  induction As with
  | nil => intro xs r m i v w h _ hi hv; cases h; exact hv i hi
  | cons A As ih =>
    intro xs r m i v w h hl hi hv
    cases h with
    | cons _ _ _ h =>
    cases xs with
    | nil => simp at hl
    | cons x xs =>
      show ∑ c ∈ range A.ncols, A.val e x i c * chainV (mats e As xs) v c = ∑ c ∈ range A.ncols, A.val e x i c * chainV (mats e As xs) w c
      exact sum_congr rfl fun c hc => by rw [ih h (by simpa using hl) (mem_range.1 hc) hv]

theorem lrStep_ok {o : DmOps U} (hL : LinLaw e o.lin F) (hq : QrLaw e F I o.qrF) (hsvd : SvdLaw o.svd) {d : Nat} {s : Nat → Nat}
    {Y : Nat → X → Nat → Nat → ℝ} {f : Sup U} (hT : Target e F d s Y f) {psir : List (Option (QRs U))}
    (hpsi : ∀ k < d - 1, ∃ p, psir[k]? = some (some p) ∧ ROk F (k + 1) (s (k + 1)) p) {eps : ℝ} {ii : Nat} (h1 : 1 ≤ ii)
    (h2 : ii < d - 1) {w : Swp U} {news : List (Qma U)} {p q : QRs U} (h : LI e F d s Y psir eps ii w news p q) :
    ∃ w' news' p' q', lrStep o f psir eps ii w = .ok w' ∧ LI e F d s Y psir eps (ii + 1) w' news' p' q' := by
  have hsi : 0 < s ii := hT.pos ii (by omega)
  have hsj : 0 < s (ii + 1) := hT.pos (ii + 1) (by omega)
  have e1 := dgemmTN_ok (m := w.t.rank) (n := s ii) (k := s ii) (A := w.t.u) (B := p.mat)
    (c := List.replicate (w.t.rank * s ii) 0) (by rw [h.dec.lu]) (by rw [h.lp.len]) (by simp)
  obtain ⟨A, a1, a2⟩ := hT.left ii w.t.rank (cm w.t.rank (s ii) (fun i j => ∑ t ∈ range (s ii), ent (s ii) w.t.u t i * ent (s ii) p.mat t j))
    (by omega) (by omega) h.dec.pos (by simp)
  obtain ⟨p', p1, p2, p3, p4⟩ := qrRight_ok hq a2 h.dec.pos hsj
  obtain ⟨q', q1, q2⟩ := hpsi ii h2
  obtain ⟨t', t1, t2⟩ := decomp_ok hsvd hsj p2.mr p2.mc q2.mc p2.len q2.len eps
  obtain ⟨Cc, c1, c2, c3, c4, c5⟩ := newCore hL p2 hsj t2
  have w1 : wr w.ph ii (some p') = .ok (w.ph.set ii (some p')) := wr_ok _ (by rw [h.phl]; exact h2)
  have w2 : wr w.ranks (ii + 1) t'.rank
      = .ok ((1 :: (news ++ [Cc]).map (·.ncols)) ++ (List.replicate (d - 1 - (ii + 1)) 0 ++ [1])) := by
    rw [h.ranks, show d - 1 - ii = (d - 1 - (ii + 1)) + 1 by omega, List.replicate_succ, List.cons_append (as := List.replicate _ 0),
      wr_at (by simp [h.len]), List.map_append, List.map_cons, List.map_nil, c4]
    simp
  have w3 : wr w.cores ii (some Cc) = .ok ((news ++ [Cc]).map some ++ List.replicate (d - (ii + 1)) none) := by
    rw [h.cores, show d - ii = (d - (ii + 1)) + 1 by omega, wr_append_replicate (by simp [h.len])]
    simp
  refine ⟨⟨(1 :: (news ++ [Cc]).map (·.ncols)) ++ (List.replicate (d - 1 - (ii + 1)) 0 ++ [1]),
    (news ++ [Cc]).map some ++ List.replicate (d - (ii + 1)) none, w.ph.set ii (some p'), p'.mr, p'.mc, q'.mc, t'⟩,
    news ++ [Cc], p', q', ?_, ?_⟩
  · rw [lrStep, rdp_ok h.hp, bind_ok, h.nmult, h.nrows, h.lp.mc, e1, bind_ok, a1, bind_ok, p1, bind_ok, w1, bind_ok,
      rdp_ok q1, bind_ok, t1, bind_ok, w2, bind_ok, c1, bind_ok, w3, bind_ok, pure_eq_ok]
  · have hset : ∀ k, k ≠ ii → (w.ph.set ii (some p'))[k]? = w.ph[k]? := fun k hk => List.getElem?_set_ne (Ne.symm hk)
    have hself : (w.ph.set ii (some p'))[ii]? = some (some p') := List.getElem?_set_self (by rw [h.phl]; exact h2)
    refine ⟨by simp [h.len], rfl, rfl, ?_, ?_, ?_, by simp [h.phl], ?_, ?_, p2.mr, p2.mc, q2.mc, ?_, ?_, ?_, t2, ?_⟩
    · exact fits_snoc h.fits c2.wf (by rw [c3, p3]) c4
    · refine Mem.append h.mem (Mem.cons ?_ Mem.nil)
      rw [h.len, Nat.zero_add]
      exact c2.mem
    · intro k Q hQ
      rcases Nat.lt_or_ge k ii with hk | hk
      · rw [List.getElem?_append_left (by rw [h.len]; exact hk)] at hQ
        exact h.small k Q hQ
      · rw [List.getElem?_append_right (by rw [h.len]; exact hk), h.len] at hQ
        have hk0 : k - ii = 0 := by
          by_contra hne
          rw [List.getElem?_eq_none (by simp; omega)] at hQ
          cases hQ
        rw [hk0] at hQ
        simp at hQ
        subst hQ
        rw [c4, show k = ii by omega]
        exact ⟨t2.pos, t2.le⟩
    · intro k hk
      dsimp only
      by_cases hki : k = ii
      · subst hki; exact ⟨p', hself, p2⟩
      · rw [hset k hki]; exact h.ph k (by omega)
    · dsimp only
      rw [hset 0 (by omega)]; exact h.first
    · dsimp only; rw [Nat.add_sub_cancel]; exact hself
    · rw [Nat.add_sub_cancel]; exact p2
    · rw [Nat.add_sub_cancel]; exact q1
    · intro he xs hl hD v
      obtain ⟨ys, y, rfl, hy⟩ := exists_snoc hl
      obtain ⟨d1, d2⟩ := DomFrom.take' hD hy
      rw [Nat.zero_add] at d2
      rw [mats_append (by rw [h.len, hy]), chainV_append, ym_append, chainV_append, ← h.val he ys hy d1, hy, Nat.zero_add]
      refine chainV_congr h.fits (by rw [h.len, hy]) Nat.one_pos fun c hc => ?_
      dsimp only
      rw [c5 he y d2 c (by rw [p3]; exact hc) v, sum_congr rfl fun j hj => by
        rw [← p4 y d2 c hc j (mem_range.1 hj)], ap_mm]
      refine sum_congr rfl fun t ht => ?_
      rw [ent_cm _ hc (mem_range.1 ht)]

/-- The left multipliers before a sweep: none made, or the first one from a decomposition of the first core. -/
def PhiIn (e : Ev ℝ U X) (F : Fam U X) (d : Nat) (s : Nat → Nat) (Y : Nat → X → Nat → Nat → ℝ) (phil : List (Option (QRs U))) : Prop :=
  phil.length = d - 1 ∧ ∀ p, phil[0]? = some (some p) → FirstOk e F s Y p

/-- The left multipliers after a sweep. -/
structure PhiOut (e : Ev ℝ U X) (F : Fam U X) (d : Nat) (s : Nat → Nat) (Y : Nat → X → Nat → Nat → ℝ) (phil : List (Option (QRs U))) :
    Prop where
  len : phil.length = d - 1
  ph : ∀ k < d - 1, ∃ p, phil[k]? = some (some p) ∧ LOk F k (s (k + 1)) p
  first : ∃ p, phil[0]? = some (some p) ∧ FirstOk e F s Y p

theorem PhiOut.toIn {d : Nat} {s : Nat → Nat} {Y : Nat → X → Nat → Nat → ℝ} {phil : List (Option (QRs U))}
    (h : PhiOut e F d s Y phil) : PhiIn e F d s Y phil := by
  refine ⟨h.len, fun p hp => ?_⟩
  obtain ⟨p', h1, h2⟩ := h.first
  rw [hp] at h1
  simp only [Option.some.injEq] at h1
  rw [h1]; exact h2

/-- The right multipliers between sweeps. -/
structure PsiOk (e : Ev ℝ U X) (F : Fam U X) (d : Nat) (s : Nat → Nat) (Y : Nat → X → Nat → Nat → ℝ) (psir : List (Option (QRs U))) :
    Prop where
  len : psir.length = d - 1
  ps : ∀ k < d - 1, ∃ p, psir[k]? = some (some p) ∧ ROk F (k + 1) (s (k + 1)) p
  last : ∃ p, psir[d - 2]? = some (some p) ∧ LastOk e F d s Y p

theorem first_ok {o : DmOps U} (hq : QrLaw e F I o.qrF) {d : Nat} {s : Nat → Nat} {Y : Nat → X → Nat → Nat → ℝ} {f : Sup U}
    (hT : Target e F d s Y f) {phil : List (Option (QRs U))} (h : PhiIn e F d s Y phil) :
    ∃ ph p, first o f phil = .ok ph ∧ ph.length = d - 1 ∧ ph[0]? = some (some p) ∧ FirstOk e F s Y p := by
  have h2 := hT.two
  have hlen : 0 < phil.length := by rw [h.1]; omega
  rw [first, rd_ok hlen, bind_ok]
  cases hp : phil[0] with
  | some p =>
    refine ⟨phil, p, rfl, h.1, by rw [List.getElem?_eq_getElem hlen, hp], h.2 p (by rw [List.getElem?_eq_getElem hlen, hp])⟩
  | none =>
    obtain ⟨A, a1, a2⟩ := hT.first
    obtain ⟨p, p1, p2, p3, p4⟩ := qrRight_ok hq a2 Nat.one_pos (hT.pos 1 (by omega))
    refine ⟨phil.set 0 (some p), p, ?_, by simp [h.1], List.getElem?_set_self hlen, p2, p3, fun x hx j hj => ?_⟩
    · dsimp only
      rw [a1, bind_ok, p1, bind_ok, wr_ok _ hlen]
    · exact p4 x hx 0 Nat.one_pos j hj

/-- The target function. -/
noncomputable def tval (s : Nat → Nat) (Y : Nat → X → Nat → Nat → ℝ) (d : Nat) (xs : List X) : ℝ := chain (ym s Y 0 (xs.take d)) 0

/-- What a sweep returns. -/
structure Swept (e : Ev ℝ U X) (F : Fam U X) (d : Nat) (s : Nat → Nat) (Y : Nat → X → Nat → Nat → ℝ) (eps : ℝ) (na : FT ℝ U) : Prop where
  ok : na.Ok F
  dim : na.dim = d
  ranks : ∀ k ≤ d, na.rk k ≤ s k
  val : eps ≤ 0 → ∀ xs, InDom F d xs → value e na.cores xs = tval s Y d xs

theorem mem_ranks_pos {l : List (Qma U)} {k r : Nat} (h : (1 :: l.map (·.ncols))[k]? = some r)
    (hl : ∀ Q ∈ l, 1 ≤ Q.ncols) : 0 < r := by
  have := List.mem_of_getElem? h
  rcases List.mem_cons.1 this with rfl | h
  · exact Nat.one_pos
  · obtain ⟨Q, hQ, rfl⟩ := List.mem_map.1 h
    exact hl Q hQ

theorem sweepLR_ok {o : DmOps U} (hL : LinLaw e o.lin F) (hq : QrLaw e F I o.qrF) (hsvd : SvdLaw o.svd) {d : Nat} {s : Nat → Nat}
    {Y : Nat → X → Nat → Nat → ℝ} {f : Sup U} (hT : Target e F d s Y f) {phil psir : List (Option (QRs U))}
    (hphi : PhiIn e F d s Y phil) (hpsi : PsiOk e F d s Y psir) (eps : ℝ) :
    ∃ na ph, sweepLR o f d phil psir eps = .ok (na, ph) ∧ Swept e F d s Y eps na ∧ PhiOut e F d s Y ph := by
  have h2 := hT.two
  obtain ⟨ph, p, p1, p2, p3, p4⟩ := first_ok hq hT hphi
  obtain ⟨q, q1, q2⟩ := hpsi.ps 0 (by omega)
  have hs1 : 0 < s 1 := hT.pos 1 (by omega)
  obtain ⟨t, t1, t2⟩ := decomp_ok hsvd hs1 p4.lok.mr p4.lok.mc q2.mc p4.lok.len q2.len eps
  obtain ⟨Cc, c1, c2, c3, c4, c5⟩ := newCore hL p4.lok hs1 t2
  have r0 : wr (List.replicate (d + 1) 0) 0 1 = .ok (1 :: List.replicate d 0) := rfl
  have r1 : wr (1 :: List.replicate d 0) d 1 = .ok ((1 :: List.replicate (d - 1) 0) ++ [1]) := by
    have : (1 :: List.replicate d 0) = (1 :: List.replicate (d - 1) 0) ++ [0] := by
      rw [List.cons_append, ← List.replicate_succ', show d - 1 + 1 = d by omega]
    rw [this, wr_at (by simp; omega)]
  have r2 : wr ((1 :: List.replicate (d - 1) 0) ++ [1]) 1 t.rank
      = .ok ((1 :: [Cc].map (·.ncols)) ++ (List.replicate (d - 1 - 1) 0 ++ [1])) := by
    have : (1 :: List.replicate (d - 1) 0) ++ [1] = [1] ++ 0 :: (List.replicate (d - 1 - 1) 0 ++ [1]) := by
      rw [show d - 1 = (d - 1 - 1) + 1 by omega, List.replicate_succ]; rfl
    rw [this, wr_at (by simp), List.map_cons, List.map_nil, c4]
    rfl
  have r3 : wr (List.replicate d (none : Option (Qma U))) 0 (some Cc) = .ok ([Cc].map some ++ List.replicate (d - 1) none) := by
    have : List.replicate d (none : Option (Qma U)) = [] ++ none :: List.replicate (d - 1) none := by
      rw [List.nil_append, ← List.replicate_succ, show d - 1 + 1 = d by omega]
    rw [this, wr_at (by simp)]
    rfl
  have base : LI e F d s Y psir eps 1 ⟨(1 :: [Cc].map (·.ncols)) ++ (List.replicate (d - 1 - 1) 0 ++ [1]),
      [Cc].map some ++ List.replicate (d - 1) none, ph, p.mr, p.mc, q.mc, t⟩ [Cc] p q := by
    refine ⟨rfl, rfl, rfl, ?_, Mem.cons c2.mem Mem.nil, ?_, p2, ?_, ⟨p, p3, p4⟩, p4.lok.mr, p4.lok.mc, q2.mc, p3, p4.lok, q1, t2, ?_⟩
    · have := Fits.cons Cc [] c2.wf (Fits.nil _)
      rwa [c3, p4.one, c4] at this
    · intro k Q hQ
      rcases k with _ | k
      · simp at hQ; subst hQ; rw [c4]; exact ⟨t2.pos, t2.le⟩
      · simp at hQ
    · intro k hk
      have : k = 0 := by omega
      subst this
      exact ⟨p, p3, p4.lok⟩
    · intro he xs hl hD v
      obtain ⟨x, rfl⟩ := List.length_eq_one_iff.1 hl
      have hx : F.D 0 x := hD.2 0 Nat.one_pos x rfl
      show ∑ c ∈ range Cc.ncols, Cc.val e x 0 c * _ = ∑ c ∈ range (s (0 + 1)), Y 0 x 0 c * v c
      have := c5 he x hx 0 (by rw [p4.one]; exact Nat.one_pos) v
      refine Eq.trans this (sum_congr rfl fun j hj => ?_)
      rw [p4.val x hx j (mem_range.1 hj)]
  obtain ⟨w, w1, news, p', q', w2⟩ := forR_spec (a := 1) (b := d - 1) (body := lrStep o f psir eps)
    (s := ⟨(1 :: [Cc].map (·.ncols)) ++ (List.replicate (d - 1 - 1) 0 ++ [1]),
      [Cc].map some ++ List.replicate (d - 1) none, ph, p.mr, p.mc, q.mc, t⟩)
    (I := fun ii w => ∃ news p q, LI e F d s Y psir eps ii w news p q) (by omega) ⟨[Cc], p, q, base⟩
    (by
      rintro ii h1 h3 w ⟨news, p, q, h⟩
      obtain ⟨w', news', p', q', a1, a2⟩ := lrStep_ok hL hq hsvd hT hpsi.ps h1 h3 h
      exact ⟨w', a1, news', p', q', a2⟩)
  -- the last core
  obtain ⟨z, z1, z2⟩ := hpsi.last
  have hzq : q' = z := by
    have := w2.hq
    rw [show d - 1 - 1 = d - 2 by omega, z1] at this
    simp only [Option.some.injEq] at this
    exact this.symm
  have hdec := w2.dec
  have hsr : scaleRows (s (d - 1)) w.t.rank w.t.s w.t.vt = .ok (cm w.t.rank (s (d - 1)) (fun p j => ent w.t.rank w.t.vt p j * w.t.s.getD p 0)) :=
    scaleRows_ok hdec.ls hdec.lvt
  obtain ⟨Z, g1, g2⟩ := mqma_value hL z2.rok.ok (b := w.t.rank)
    (R := cm w.t.rank (s (d - 1)) (fun p j => ent w.t.rank w.t.vt p j * w.t.s.getD p 0))
    (by rw [z2.rok.rows]; exact hT.pos _ (by omega)) (by rw [z2.rok.rows]; simp)
  have hZc : Z.ncols = 1 := by rw [g2.ncols, z2.one]
  have hlen : (news ++ [Z]).length = d := by simp [w2.len]; omega
  have wc : wr w.cores (d - 1) (some Z) = .ok ((news ++ [Z]).map some) := by
    rw [w2.cores, show d - (d - 1) = 0 + 1 by omega, wr_append_replicate (by simp [w2.len])]
    simp
  have hrk : w.ranks = 1 :: (news ++ [Z]).map (·.ncols) := by
    rw [w2.ranks, List.map_append, List.map_cons, hZc]; simp
  have hfits : Fits 1 (news ++ [Z]) 1 := fits_snoc w2.fits g2.wf g2.nrows hZc
  have hsmall : ∀ (k : Nat) Q, (news ++ [Z])[k]? = some Q → 1 ≤ Q.ncols ∧ Q.ncols ≤ s (k + 1) := by
    intro k Q hQ
    rcases Nat.lt_or_ge k (d - 1) with hk | hk
    · rw [List.getElem?_append_left (by rw [w2.len]; exact hk)] at hQ
      exact w2.small k Q hQ
    · have hk' : k < d := by rw [← hlen]; exact (List.getElem?_eq_some_iff.1 hQ).1
      have : k = d - 1 := by omega
      subst this
      rw [List.getElem?_append_right (by rw [w2.len]), w2.len, Nat.sub_self] at hQ
      simp at hQ
      subst hQ
      rw [hZc, show d - 1 + 1 = d by omega, hT.fin]
      exact ⟨le_rfl, le_rfl⟩
  refine ⟨⟨d, w.ranks, news ++ [Z], none, none, none⟩, w.ph, ?_, ?_, ⟨w2.phl, w2.ph, w2.first⟩⟩
  · rw [sweepLR, r0, bind_ok, r1, bind_ok, p1, bind_ok, rdp_ok p3, bind_ok, rdp_ok q1, bind_ok, t1, bind_ok, r2, bind_ok,
      c1, bind_ok, r3, bind_ok, w1, bind_ok, w2.ncols, hsr, bind_ok, rdp_ok z1, bind_ok, g1, bind_ok, wc, bind_ok, ftDone,
      allSome_map, bind_ok, pure_eq_ok]
    rfl
  · refine ⟨⟨⟨hlen.symm, by simp, hrk, hfits⟩, ?_, ?_⟩, rfl, ?_, ?_⟩
    · intro k r hr
      dsimp only at hr
      rw [hrk] at hr
      refine mem_ranks_pos hr fun Q hQ => ?_
      obtain ⟨k, hk⟩ := List.getElem?_of_mem hQ
      exact (hsmall k Q hk).1
    · intro k Q hQ
      have := Mem.append w2.mem (Bs := [Z]) (by
        rw [w2.len, Nat.zero_add]; exact Mem.cons g2.mem Mem.nil) k Q hQ
      rwa [Nat.zero_add] at this
    · intro k hk
      show w.ranks.getD k 0 ≤ s k
      rw [hrk]
      rcases k with _ | k
      · rw [hT.zero]; exact le_rfl
      · have hk' : k < (news ++ [Z]).length := by omega
        rw [List.getD_cons_succ, List.getD_eq_getElem?_getD, List.getElem?_map, List.getElem?_eq_getElem hk']
        exact (hsmall k _ (List.getElem?_eq_getElem hk')).2
    · intro he xs hxs
      have hxl := hxs.len
      obtain ⟨ys, y, hys, hyl⟩ := exists_snoc (xs := xs.take d) (n := d - 1) (by simp; omega)
      have hD : DomFrom F 0 (d - 1 + 1) (ys ++ [y]) := by
        rw [← hys]
        refine ⟨by simp; omega, fun i hi x hx => ?_⟩
        rw [Nat.zero_add]
        rw [List.getElem?_take_of_lt (by omega)] at hx
        exact hxs.dom i (by omega) x hx
      obtain ⟨d1, d2⟩ := DomFrom.take' hD hyl
      rw [Nat.zero_add] at d2
      show value e (news ++ [Z]) xs = tval s Y d xs
      rw [value, tval, ← mats_take (n := d) (le_of_eq hlen), hys, mats_append (by rw [w2.len, hyl]), ym_append,
        chain_eq_chainV, chainV_append, chain_eq_chainV, chainV_append, ← w2.val he ys hyl d1]
      refine chainV_congr w2.fits (by rw [w2.len, hyl]) Nat.one_pos fun c hc => ?_
      have hr := hdec.full he
      dsimp only
      rw [hZc, sum_range_one, if_pos rfl, mul_one, g2.val y d2 c hc 0 (by rw [z2.one]; exact Nat.one_pos), z2.rok.rows]
      have hfin : s (0 + ys.length + 1) = 1 := by rw [hyl, show 0 + (d - 1) + 1 = d by omega, hT.fin]
      rw [hfin]
      simp only [sum_range_one, if_true, mul_one]
      rw [hyl, Nat.zero_add]
      have hY : ∀ j ∈ range (s (d - 1)), (∑ a ∈ range (s (d - 1)), ent (s (d - 1)) w.t.u a c * ent (s (d - 1)) p'.mat a j) * Y (d - 1) y j 0
          = (∑ a ∈ range (s (d - 1)), ent (s (d - 1)) w.t.u a c * ent (s (d - 1)) p'.mat a j)
            * ∑ b ∈ range (s (d - 1)), ent (s (d - 1)) z.mat j b * z.Q.val e y b 0 := fun j hj => by
        rw [z2.val y d2 j (mem_range.1 hj)]
      rw [sum_congr rfl hY, ap_mm]
      have hZv : ∀ j ∈ range (s (d - 1)), ent w.t.rank (cm w.t.rank (s (d - 1)) fun p j => ent w.t.rank w.t.vt p j * w.t.s.getD p 0) c j * z.Q.val e y j 0
          = (∑ i ∈ range (s (d - 1)), ent (s (d - 1)) w.t.u i c * ∑ b ∈ range (s (d - 1)), ent (s (d - 1)) p'.mat i b * ent (s (d - 1)) z.mat b j) * z.Q.val e y j 0 := fun j hj => by
        have hj := mem_range.1 hj
        rw [ent_cm _ hc hj]
        have := hdec.sv he c (by omega) j hj
        rw [hzq] at this
        rw [← this, hr, mul_comm (ent _ _ _ _)]
      rw [sum_congr rfl hZv, ap_mm]
      refine sum_congr rfl fun a _ => ?_
      congr 1
      exact ap_mm _ _ _

end C3.Dmrg
