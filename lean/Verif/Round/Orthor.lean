/-
Right-orthogonalisation of a train: same function, same ranks, orthonormal rows in all cores but the first.
-/
import Verif.Round.Svd
import Verif.Ft.SubsetProps

set_option linter.unusedSectionVars false

namespace C3.Round
open Finset C3.Ft
variable {U X : Type} {e : Ev ℝ U X} {F : Fam U X} {I : Integ ℝ X}

/-- `A = L Q` with orthonormal rows of `Q`. -/
structure LqGood (e : Ev ℝ U X) (F : Fam U X) (I : Integ ℝ X) (k : Nat) (A Q : Qma U) (L : List ℝ) : Prop where
  ok : QOk F k Q
  nrows : Q.nrows = A.nrows
  ncols : Q.ncols = A.ncols
  len : L.length = A.nrows * A.nrows
  val : ∀ x, F.D k x → ∀ i < A.nrows, ∀ j < A.ncols,
    A.val e x i j = ∑ c ∈ range A.nrows, ent A.nrows L i c * Q.val e x c j
  on : RowON e I k Q

/-- `A = Q R` with orthonormal columns of `Q`. -/
structure QrGood (e : Ev ℝ U X) (F : Fam U X) (I : Integ ℝ X) (k : Nat) (A Q : Qma U) (R : List ℝ) : Prop where
  ok : QOk F k Q
  nrows : Q.nrows = A.nrows
  ncols : Q.ncols = A.ncols
  len : R.length = A.ncols * A.ncols
  val : ∀ x, F.D k x → ∀ i < A.nrows, ∀ j < A.ncols,
    A.val e x i j = ∑ c ∈ range A.ncols, Q.val e x i c * ent A.ncols R c j
  on : ColON e I k Q

/-- Contract of `qmarray_householder_simple("LQ",...)`. -/
def LqLaw (e : Ev ℝ U X) (F : Fam U X) (I : Integ ℝ X) (lq : Nat → Qma U → C (Qma U × List ℝ)) : Prop :=
  ∀ k A, QOk F k A → 0 < A.nrows → 0 < A.ncols → ∃ q, lq k A = .ok q ∧ LqGood e F I k A q.1 q.2

/-- Contract of `qmarray_householder_simple("QR",...)`. -/
def QrLaw (e : Ev ℝ U X) (F : Fam U X) (I : Integ ℝ X) (qr : Nat → Qma U → C (Qma U × List ℝ)) : Prop :=
  ∀ k A, QOk F k A → 0 < A.nrows → 0 < A.ncols → ∃ q, qr k A = .ok q ∧ QrGood e F I k A q.1 q.2

/-- Points for the dimensions from `k` on. -/
def DomFrom (F : Fam U X) (k n : Nat) (xs : List X) : Prop := n ≤ xs.length ∧ ∀ i < n, ∀ x, xs[i]? = some x → F.D (k + i) x

theorem DomFrom.uncons {k n : Nat} {xs : List X} (h : DomFrom F k (n + 1) xs) :
    ∃ x ys, xs = x :: ys ∧ F.D k x ∧ DomFrom F (k + 1) n ys := by
  cases xs with
  | nil => exact absurd h.1 (by simp)
  | cons x ys =>
    refine ⟨x, ys, rfl, h.2 0 (by omega) x rfl, by have := h.1; simp at this; exact this, fun i hi y hy => ?_⟩
    have := h.2 (i + 1) (by omega) y (by simpa using hy)
    rwa [show k + (i + 1) = k + 1 + i by omega] at this

theorem chain_cons {Q : Qma U} {Qs : List (Qma U)} {x : X} {xs : List X} {i : Nat} :
    chain (mats e (Q :: Qs) (x :: xs)) i = ∑ c ∈ range Q.ncols, Q.val e x i c * chain (mats e Qs xs) c := rfl

/-- Pulling the triangular factor out of the first core. -/
theorem chain_lq {k : Nat} {A Q : Qma U} {L : List ℝ} (h : LqGood e F I k A Q L) {Qs : List (Qma U)} {x : X} {xs : List X}
    (hx : F.D k x) {i : Nat} (hi : i < A.nrows) :
    chain (mats e (A :: Qs) (x :: xs)) i = ∑ c ∈ range A.nrows, ent A.nrows L i c * chain (mats e (Q :: Qs) (x :: xs)) c := by
  rw [chain_cons, sum_congr rfl fun j hj => by rw [h.val x hx i hi j (mem_range.1 hj), sum_mul], sum_comm]
  refine sum_congr rfl fun c _ => ?_
  rw [chain_cons, mul_sum, h.ncols]
  exact sum_congr rfl fun j _ => by ring

/-- Multiplying the triangular factor into the core on the left. -/
theorem chain_qmam {k r : Nat} {A T : Qma U} {L : List ℝ} (hA : A.ncols = r)
    (hT : Rep e F k A.nrows r (fun x i j => ∑ t ∈ range A.ncols, A.val e x i t * ent A.ncols L t j) T)
    {As Qs : List (Qma U)} {x : X} {xs : List X} (hx : F.D k x)
    (hv : ∀ i < r, chain (mats e As xs) i = ∑ j ∈ range r, ent r L i j * chain (mats e Qs xs) j) {i : Nat}
    (hi : i < A.nrows) :
    chain (mats e (A :: As) (x :: xs)) i = chain (mats e (T :: Qs) (x :: xs)) i := by
  rw [chain_cons, chain_cons, hT.ncols]
  have hsum : ∑ j ∈ range r, T.val e x i j * chain (mats e Qs xs) j
      = ∑ j ∈ range r, ∑ t ∈ range A.ncols, A.val e x i t * ent A.ncols L t j * chain (mats e Qs xs) j :=
    sum_congr rfl fun j hj => by rw [hT.val x hx i hi j (mem_range.1 hj), sum_mul]
  rw [hsum, sum_comm]
  refine sum_congr rfl fun c hc => ?_
  rw [hv c (by rw [← hA]; exact mem_range.1 hc), mul_sum, hA]
  exact sum_congr rfl fun j _ => by ring

theorem wr_replicate {α : Type} {p : Nat} {d v : α} {l : List α} :
    wr (List.replicate (p + 1) d ++ l) p v = .ok (List.replicate p d ++ v :: l) := by
  rw [wr_ok v (by simp; omega)]
  congr 1
  rw [List.set_append_left _ _ (by simp)]
  rw [show List.replicate (p + 1) d = List.replicate p d ++ [d] from List.replicate_succ', List.set_append_right _ _ (by simp)]
  simp

theorem wr_append_replicate {α : Type} {p m : Nat} {d v : α} {l : List α} (hl : l.length = p) :
    wr (l ++ List.replicate (m + 1) d) p v = .ok (l ++ [v] ++ List.replicate m d) := by
  rw [wr_ok v (by simp [hl])]
  congr 1
  rw [List.set_append_right _ _ (by omega), hl, Nat.sub_self, List.replicate_succ]
  simp

/-- State of the sweep: cores from `p` on are done, `L` is what is left of them. -/
structure OrI (e : Ev ℝ U X) (F : Fam U X) (I : Integ ℝ X) (a : FT ℝ U) (p : Nat) (t : Osc U) (Qs : List (Qma U)) : Prop where
  cores : t.cores = List.replicate p none ++ Qs.map some
  len : t.L.length = a.ranks.getD p 0 * a.ranks.getD p 0
  fits : Fits (a.ranks.getD p 0) Qs 1
  mem : Mem F p Qs
  cols : Qs.map (·.ncols) = (a.cores.drop p).map (·.ncols)
  on : ∀ (j : Nat) (Q : Qma U), Qs[j]? = some Q → RowON e I (p + j) Q
  val : ∀ xs, DomFrom F p (a.dim - p) xs → ∀ i < a.ranks.getD p 0,
    chain (mats e (a.cores.drop p) xs) i
      = ∑ j ∈ range (a.ranks.getD p 0), ent (a.ranks.getD p 0) t.L i j * chain (mats e Qs xs) j

theorem core_facts {a : FT ℝ U} (ha : a.Ok F) {k : Nat} (hk : k < a.cores.length) :
    QOk F k a.cores[k] ∧ a.cores[k].nrows = a.ranks.getD k 0 ∧ a.cores[k].ncols = a.ranks.getD (k + 1) 0 ∧
      0 < a.ranks.getD k 0 ∧ 0 < a.ranks.getD (k + 1) 0 := by
  have h1 := ha.wf.ranks_get hk
  have h2 := ha.wf.ranks_get' hk
  refine ⟨⟨(ha.wf.fits.get hk).1, ha.mem k _ (List.getElem?_eq_getElem hk)⟩, ?_, ?_, ?_, ?_⟩
  · rw [List.getD_eq_getElem?_getD, h1]; rfl
  · rw [List.getD_eq_getElem?_getD, h2]; rfl
  · rw [List.getD_eq_getElem?_getD, h1]; exact ha.pos _ _ h1
  · rw [List.getD_eq_getElem?_getD, h2]; exact ha.pos _ _ h2

/-- One decomposition extends the finished part by one core; `T` is the core to decompose. -/
theorem OrI.extend {a : FT ℝ U} (ha : a.Ok F) {q : Nat} (hq : q < a.cores.length) {T Q : Qma U}
    {L : List ℝ} (hg : LqGood e F I q T Q L) (hr : T.nrows = a.ranks.getD q 0) {Qs : List (Qma U)}
    (hc : T.ncols = a.ranks.getD (q + 1) 0) (hfits : Fits (a.ranks.getD (q + 1) 0) Qs 1) (hmem : Mem F (q + 1) Qs)
    (hcols : Qs.map (·.ncols) = (a.cores.drop (q + 1)).map (·.ncols))
    (hon : ∀ (j : Nat) (Q : Qma U), Qs[j]? = some Q → RowON e I (q + 1 + j) Q)
    (hval : ∀ x xs, F.D q x → DomFrom F (q + 1) (a.dim - (q + 1)) xs → ∀ i < T.nrows,
      chain (mats e (a.cores.drop q) (x :: xs)) i = chain (mats e (T :: Qs) (x :: xs)) i) :
    OrI e F I a q ⟨List.replicate q none ++ some Q :: Qs.map some, L⟩ (Q :: Qs) where
  cores := by simp
  len := by rw [← hr]; exact hg.len
  fits := by
    rw [← hr, ← hg.nrows]
    exact Fits.cons Q Qs hg.ok.wf (by rw [hg.ncols, hc]; exact hfits)
  mem := Mem.cons hg.ok.mem hmem
  cols := by
    rw [List.drop_eq_getElem_cons hq, List.map_cons, List.map_cons, hcols, hg.ncols, hc, (core_facts ha hq).2.2.1]
  on := by
    rintro (_ | j) P hP
    · simp at hP; subst hP; exact hg.on
    · have := hon j P (by simpa using hP)
      rwa [show q + 1 + j = q + (j + 1) by omega] at this
  val := by
    intro xs hxs i hi
    obtain ⟨x, ys, rfl, hx, hys⟩ := DomFrom.uncons (n := a.dim - (q + 1)) (by
      rw [ha.wf.dim] at hxs ⊢
      rwa [show a.cores.length - (q + 1) + 1 = a.cores.length - q by omega])
    rw [hval x ys hx hys i (by rw [hr]; exact hi), chain_lq hg hx (by rw [hr]; exact hi), hr]

theorem orthor_ok {o : RdOps U} (hL : LinLaw e o.lin F) (hlq : LqLaw e F I o.lq) {a : FT ℝ U} (ha : a.Ok F)
    (h2 : 2 ≤ a.dim) :
    ∃ f, orthor o a = .ok f ∧ f.Ok F ∧ f.dim = a.dim ∧ f.ranks = a.ranks ∧
      (∀ xs, InDom F a.dim xs → value e f.cores xs = value e a.cores xs) ∧
      ∀ (p : Nat) (Q : Qma U), 1 ≤ p → f.cores[p]? = some Q → RowON e I p Q := by
  have hd := ha.wf.dim
  have hlast : a.ranks.getD a.dim 0 = 1 := by
    rw [List.getD_eq_getElem?_getD, ha.wf.ranks, hd, ha.wf.fits.last]; rfl
  -- last core
  have hk : a.dim - 1 < a.cores.length := by omega
  obtain ⟨ok1, r1, c1, p1, p2⟩ := core_facts ha hk
  obtain ⟨⟨Q, L⟩, q1, q2⟩ := hlq (a.dim - 1) _ ok1 (by omega) (by omega)
  have hds : a.dim - 1 + 1 = a.dim := by omega
  have hdrop : a.cores.drop (a.dim - 1 + 1) = [] := List.drop_eq_nil_of_le (by omega)
  have base : OrI e F I a (a.dim - 1) ⟨List.replicate (a.dim - 1) none ++ some Q :: ([] : List (Qma U)).map some, L⟩ [Q] := by
    refine OrI.extend ha hk q2 r1 c1 ?_ Mem.nil (by rw [hdrop]) (fun j Q h => by simp at h) ?_
    · rw [hds, hlast]; exact .nil 1
    · intro x xs _ _ i _
      rw [List.drop_eq_getElem_cons hk, hdrop]
  have hw1 : wr (List.replicate a.dim (none : Option (Qma U))) (a.dim - 1) (some Q)
      = .ok (List.replicate (a.dim - 1) none ++ some Q :: ([] : List (Qma U)).map some) := by
    have := wr_replicate (p := a.dim - 1) (d := (none : Option (Qma U))) (v := some Q) (l := [])
    rwa [hds, List.append_nil] at this
  -- the step
  have hstep : ∀ q, q + 1 < a.dim → ∀ t Qs, OrI e F I a (q + 1) t Qs →
      ∃ T, (rd a.cores q >>= fun A => rd a.ranks (q + 1) >>= fun r => qmam o.lin A t.L r) = .ok T ∧
        QOk F q T ∧ T.nrows = a.ranks.getD q 0 ∧ T.ncols = a.ranks.getD (q + 1) 0 ∧
        ∀ x xs, F.D q x → DomFrom F (q + 1) (a.dim - (q + 1)) xs → ∀ i < T.nrows,
          chain (mats e (a.cores.drop q) (x :: xs)) i = chain (mats e (T :: Qs) (x :: xs)) i := by
    intro q hq t Qs hI
    have hk : q < a.cores.length := by omega
    obtain ⟨ok1, r1, c1, p1, p2⟩ := core_facts ha hk
    obtain ⟨T, t1, t2⟩ := qmam_value hL ok1 (R := t.L) (b := a.ranks.getD (q + 1) 0) (by omega)
      (by rw [hI.len, c1])
    refine ⟨T, ?_, ⟨t2.wf, t2.mem⟩, by rw [t2.nrows, r1], t2.ncols, ?_⟩
    · rw [rd_ok hk, bind_ok, rd_of_getElem? (ha.wf.ranks_get' hk), bind_ok, ← t1, c1]
    · intro x xs hx hxs i hi
      rw [List.drop_eq_getElem_cons hk]
      exact chain_qmam c1 t2 hx (fun i hi => hI.val xs hxs i hi) (by rw [t2.nrows] at hi; exact hi)
  obtain ⟨t, l1, Qs, l2⟩ := forR_spec (a := 2) (b := a.dim) (body := orthorStep o a)
    (s := ⟨List.replicate (a.dim - 1) none ++ some Q :: ([] : List (Qma U)).map some, L⟩)
    (I := fun ii t => ∃ Qs, OrI e F I a (a.dim + 1 - ii) t Qs) h2
    ⟨[Q], by rw [show a.dim + 1 - 2 = a.dim - 1 by omega]; exact base⟩
    (by
      rintro ii h1 h3 t ⟨Qs, hO⟩
      obtain ⟨q, hq⟩ : ∃ q, a.dim - ii = q := ⟨_, rfl⟩
      rw [show a.dim + 1 - ii = q + 1 by omega] at hO
      obtain ⟨T, t1, t2, t3, t4, t5⟩ := hstep q (by omega) t Qs hO
      have hk : q < a.cores.length := by omega
      obtain ⟨-, -, -, p1, p2⟩ := core_facts ha hk
      obtain ⟨⟨Q', L'⟩, g1, g2⟩ := hlq q T t2 (by omega) (by omega)
      refine ⟨⟨List.replicate q none ++ some Q' :: Qs.map some, L'⟩, ?_, Q' :: Qs, ?_⟩
      · rw [rd_ok hk, bind_ok, rd_of_getElem? (ha.wf.ranks_get' hk), bind_ok] at t1
        rw [orthorStep]
        simp only [hq]
        rw [rd_ok hk, bind_ok, rd_of_getElem? (ha.wf.ranks_get' hk), bind_ok, t1, bind_ok, g1, bind_ok, hO.cores,
          wr_replicate, bind_ok, pure_eq_ok]
      · rw [show a.dim + 1 - (ii + 1) = q by omega]
        exact OrI.extend ha hk g2 t3 t4 hO.fits hO.mem hO.cols hO.on t5)
  rw [show a.dim + 1 - a.dim = 1 by omega] at l2
  obtain ⟨T, t1, t2, t3, t4, t5⟩ := hstep 0 (by omega) t Qs l2
  have hk0 : 0 < a.cores.length := by omega
  have hr0 : a.ranks.getD 0 0 = 1 := by rw [ha.wf.ranks]; rfl
  have hfits : Fits 1 (T :: Qs) 1 := by
    have := Fits.cons T Qs t2.wf (by rw [t4]; exact l2.fits)
    rwa [t3, hr0] at this
  have hcols : a.ranks = 1 :: (T :: Qs).map (·.ncols) := by
    rw [ha.wf.ranks, List.map_cons, l2.cols, t4, ← (core_facts ha hk0).2.2.1, ← List.map_cons]
    congr 2
    exact (List.drop_eq_getElem_cons hk0)
  have hlen : a.dim = (T :: Qs).length := by
    have := congrArg List.length hcols
    rw [ha.wf.ranks] at this
    simp at this
    simp; omega
  refine ⟨⟨a.dim, a.ranks, T :: Qs, none, none, none⟩, ?_, ⟨⟨hlen, List.cons_ne_nil _ _, hcols, hfits⟩, ha.pos, ?_⟩, rfl, rfl, ?_, ?_⟩
  · rw [rd_ok hk0, bind_ok, rd_of_getElem? (ha.wf.ranks_get' hk0), bind_ok] at t1
    rw [orthor, rd_ok hk, bind_ok, q1, bind_ok, hw1, bind_ok, l1, bind_ok, rd_ok hk0, bind_ok,
      rd_of_getElem? (ha.wf.ranks_get' hk0), bind_ok, t1, bind_ok, l2.cores, wr_replicate, bind_ok, ftDone,
      show List.replicate 0 (none : Option (Qma U)) ++ some T :: Qs.map some = (T :: Qs).map some from rfl,
      allSome_map, bind_ok, pure_eq_ok]
  · intro k P hP
    have := Mem.cons t2.mem l2.mem k P hP
    rwa [Nat.zero_add] at this
  · intro xs hxs
    have hdom : DomFrom F 0 (a.dim - (0 + 1) + 1) xs := by
      rw [show a.dim - (0 + 1) + 1 = a.dim by omega]
      exact ⟨hxs.len, fun i hi x hx => by rw [Nat.zero_add]; exact hxs.dom i hi x hx⟩
    obtain ⟨x, ys, rfl, hx, hys⟩ := hdom.uncons
    exact (t5 x ys hx hys 0 (by rw [t3, hr0]; exact Nat.one_pos)).symm
  · rintro (_ | p) P hp hP
    · omega
    · have := l2.on p P (by simpa using hP)
      rwa [Nat.add_comm] at this

/-- Orthonormal rows in all cores make the rows of the chain orthonormal. -/
theorem tailON_of_rows {Qs : List (Qma U)} : ∀ {k r : Nat}, Fits r Qs 1 →
    (∀ (j : Nat) (Q : Qma U), Qs[j]? = some Q → RowON e I (k + j) Q) → TailON e I k r Qs := by
  induction Qs with
  | nil =>
    intro k r hf _
    cases hf
    exact tailON_nil
  | cons Q Qs ih =>
    intro k r hf h
    cases hf with
    | cons _ _ hQ hf =>
    exact tailON_cons (h 0 Q rfl) (ih hf fun j P hP => by
      have := h (j + 1) P (by simpa using hP)
      rwa [show k + (j + 1) = k + 1 + j by omega] at this)

end C3.Round
