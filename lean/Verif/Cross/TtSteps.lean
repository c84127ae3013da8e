/- Lemmas for C140: the steps of the sweeps of `tt_cross` and their spans. -/
import Verif.Cross.TtLemmas

set_option linter.unusedSectionVars false

namespace C3.Tc
open C3.Cross C3.Sk C3.Arr Finset

theorem getD_set {α : Type} {l : List α} {i j : Nat} {v d : α} (hi : i < l.length) :
    (l.set i v).getD j d = if i = j then v else l.getD j d := by
  by_cases e : i = j
  · subst e
    rw [if_pos rfl, List.getD_eq_getElem?_getD, List.getElem?_set_self hi]; rfl
  · rw [if_neg e, List.getD_eq_getElem?_getD, List.getElem?_set_ne e, ← List.getD_eq_getElem?_getD]

theorem getD_map_rows {β : Type} {rows : List Nat} {f : Nat → β} {d : β} {a : Nat} (h : a < rows.length) :
    (rows.map f).getD a d = f (rows.getD a 0) := by
  simp [List.getD_eq_getElem?_getD, List.getElem?_eq_getElem h]

theorem transp_ok {r n r' : Nat} {At dst : List ℝ} (hA : At.length = r' * n * r) (hd : dst.length = r * n * r') :
    ∃ G, transp r n r' At dst = .ok G ∧ G.length = r * n * r' ∧
      ∀ i < r, ∀ z < n, ∀ l < r', G.getD (i + z * r + l * r * n) 0 = At.getD (l + z * r' + i * r' * n) 0 := by
  let g : Nat → ℝ := fun q => At.getD (q / (r * n) + q / r % n * r' + q % r * r' * n) 0
  have hg : ∀ i < r, ∀ z < n, ∀ l, g (i + z * r + l * r * n) = At.getD (l + z * r' + i * r' * n) 0 := fun i hi z hz l => by
    obtain ⟨h1, h2, h3⟩ := Tt.idx3_inv (j := l) hi hz
    simp only [g]; rw [h1, h2, h3]
  have hf : FillsV g (r * n * r') (transp r n r' At) (fun q => ∃ i < r, ∃ z < n, ∃ l < r', q = i + z * r + l * r * n) := by
    refine FillsV.forN fun i hi => FillsV.forN fun z hz => FillsV.forN fun l hl => ?_
    refine FillsV.bind (rd_getD 0 (by rw [hA]; exact Tt.idx3_lt hl hz hi)) ?_
    exact FillsV.wr (Tt.idx3_lt hi hz hl) (hg i hi z hz l).symm
  refine ⟨(List.range (r * n * r')).map g, hf.finish (fun q hq => ?_) hd, by simp, fun i hi z hz l hl => ?_⟩
  · obtain ⟨h1, h2, h3, h4⟩ := Tt.idx3_cov hq
    exact ⟨_, h1, _, h2, _, h3, h4.symm⟩
  · have := Tt.idx3_lt (s := r') hi hz hl
    rw [List.getD_eq_getElem?_getD, List.getElem?_map, List.getElem?_range this]
    exact hg i hi z hz l

section Step
variable {T : List Nat → ℝ} {A : Nat → List Nat → List ℝ} {p : P}

/-! ## Spans -/

/-- The next left set. -/
def newL (p : P) (k : Nat) (L : List (List Nat)) (rows : List Nat) : List (List Nat) :=
  rows.map fun row => L.getD (row % p.R k) [] ++ [row / p.R k]

/-- The next right set. -/
def newR (p : P) (k : Nat) (Rt : List (List Nat)) (rows : List Nat) : List (List Nat) :=
  rows.map fun row => (row / p.R (k + 1)) :: Rt.getD (row % p.R (k + 1)) []

theorem newL_set {k : Nat} {L : List (List Nat)} (hk : k < p.nvals.length) (hl : LSet p k L) {rows : List Nat}
    (h1 : rows.length = p.R (k + 1)) (h2 : ∀ x ∈ rows, x < p.R k * p.N k) : LSet p (k + 1) (newL p k L rows) := by
  refine ⟨by rw [newL, List.length_map, h1], fun x hx => ?_⟩
  obtain ⟨row, hrow, rfl⟩ := List.mem_map.1 hx
  obtain ⟨-, a1, a2⟩ := row_split (h2 row hrow)
  exact (hl.get a1).snoc hk a2

theorem newR_set {k : Nat} {Rt : List (List Nat)} (hk : k + 1 < p.nvals.length) (hr : RSet p (k + 1) Rt) {rows : List Nat}
    (h1 : rows.length = p.R (k + 1)) (h2 : ∀ x ∈ rows, x < p.R (k + 1 + 1) * p.N (k + 1)) : RSet p k (newR p (k + 1) Rt rows) := by
  refine ⟨by rw [newR, List.length_map, h1], fun x hx => ?_⟩
  obtain ⟨row, hrow, rfl⟩ := List.mem_map.1 hx
  obtain ⟨-, a1, a2⟩ := row_split (h2 row hrow)
  exact (hr.get a1).cons hk a2

theorem newL_span {k : Nat} {L Rt : List (List Nat)} (hk : k < p.nvals.length) (hl : LSet p k L)
    (hsl : SpanL T p k L) (hsr : SpanRt T p k Rt) {rows : List Nat} {W : Nat → Nat → ℝ} (h1 : rows.length = p.R (k + 1))
    (h2 : ∀ i < p.R (k + 1), rows.getD i 0 < p.R k * p.N k)
    (hsel : ∀ (x : Nat → ℝ) (row : Nat), row < p.R k * p.N k → ∑ j ∈ range (p.R (k + 1)), fibL T p k L Rt row j * x j =
      ∑ b ∈ range (p.R (k + 1)), W row b * ∑ j ∈ range (p.R (k + 1)), fibL T p k L Rt (rows.getD b 0) j * x j) :
    SpanL T p (k + 1) (newL p k L rows) := by
  intro l hlp
  obtain ⟨l0, e, rfl, he, hl0⟩ := hlp.unsnoc hk
  obtain ⟨y, hy⟩ := hsl l0 hl0
  refine ⟨fun b => ∑ a ∈ range (p.R k), W (a + e * p.R k) b * y a, fun s hs => ?_⟩
  obtain ⟨x, hx⟩ := hsr s hs
  have hrow : ∀ row < p.R k * p.N k, T (L.getD (row % p.R k) [] ++ (row / p.R k) :: s) = ∑ j ∈ range (p.R (k + 1)), fibL T p k L Rt row j * x j :=
    fun row hr => by
      obtain ⟨-, a1, a2⟩ := row_split hr
      have := hx _ ((hl.get a1).snoc hk a2)
      simp only [List.append_assoc, List.singleton_append] at this
      exact this
  have hy' := hy (e :: s) (hs.cons hk he)
  rw [List.append_assoc, List.singleton_append, hy']
  have ha : ∀ a ∈ range (p.R k), T (L.getD a [] ++ e :: s) * y a =
      ∑ b ∈ range (p.R (k + 1)), T ((newL p k L rows).getD b [] ++ s) * (W (a + e * p.R k) b * y a) := fun a ha => by
    have ha' := mem_range.1 ha
    have hlt : a + e * p.R k < p.R k * p.N k := by rw [Nat.add_comm]; exact cm_idx_lt ha' he
    have e1 : (a + e * p.R k) % p.R k = a := by rw [Nat.add_mul_mod_self_right, Nat.mod_eq_of_lt ha']
    have e2 : (a + e * p.R k) / p.R k = e := by
      rw [Nat.add_mul_div_right _ _ (by omega), Nat.div_eq_of_lt ha', Nat.zero_add]
    have := hrow _ hlt
    rw [e1, e2] at this
    rw [this, hsel x _ hlt, Finset.sum_mul]
    refine Finset.sum_congr rfl fun b hb => ?_
    have hb' := mem_range.1 hb
    rw [← hrow _ (h2 b hb'), newL, getD_map_rows (by omega)]
    simp only [List.append_assoc, List.singleton_append]
    ring
  rw [Finset.sum_congr rfl ha, Finset.sum_comm]
  refine Finset.sum_congr rfl fun b _ => ?_
  rw [Finset.mul_sum]

/-- What the cores of a right-to-left sweep satisfy. -/
def CoreGood (T : List Nat → ℝ) (p : P) (k : Nat) (Rp Rt : List (List Nat)) (G : List ℝ) : Prop :=
  ∀ l, Pre p k l → ∀ e < p.N k, ∀ j < p.R (k + 1), T (l ++ e :: Rt.getD j []) =
    ∑ b ∈ range (p.R k), T (l ++ Rp.getD b []) * G.getD (b + e * p.R k + j * p.R k * p.N k) 0

theorem newR_core {k : Nat} {L Rt : List (List Nat)} (hk : k + 1 < p.nvals.length) (hr : RSet p (k + 1) Rt)
    (hsl : SpanL T p (k + 1) L) {rows : List Nat} {W : Nat → Nat → ℝ} (h1 : rows.length = p.R (k + 1))
    (h2 : ∀ i < p.R (k + 1), rows.getD i 0 < p.R (k + 1 + 1) * p.N (k + 1))
    (hsel : ∀ (x : Nat → ℝ) (row : Nat), row < p.R (k + 1 + 1) * p.N (k + 1) → ∑ j ∈ range (p.R (k + 1)), fibR T p (k + 1) L Rt row j * x j =
      ∑ b ∈ range (p.R (k + 1)), W row b * ∑ j ∈ range (p.R (k + 1)), fibR T p (k + 1) L Rt (rows.getD b 0) j * x j)
    {G : List ℝ} (hG : ∀ b < p.R (k + 1), ∀ e < p.N (k + 1), ∀ j < p.R (k + 1 + 1),
      G.getD (b + e * p.R (k + 1) + j * p.R (k + 1) * p.N (k + 1)) 0 = W (j + e * p.R (k + 1 + 1)) b) :
    CoreGood T p (k + 1) (newR p (k + 1) Rt rows) Rt G := by
  intro l hl e he j hj
  obtain ⟨y, hy⟩ := hsl l hl
  have hrow : ∀ row < p.R (k + 1 + 1) * p.N (k + 1), T (l ++ (row / p.R (k + 1 + 1)) :: Rt.getD (row % p.R (k + 1 + 1)) []) =
      ∑ a ∈ range (p.R (k + 1)), fibR T p (k + 1) L Rt row a * y a := fun row hrow => by
    obtain ⟨-, a1, a2⟩ := row_split hrow
    exact hy _ ((hr.get a1).cons hk a2)
  have hlt : j + e * p.R (k + 1 + 1) < p.R (k + 1 + 1) * p.N (k + 1) := by rw [Nat.add_comm]; exact cm_idx_lt hj he
  have e1 : (j + e * p.R (k + 1 + 1)) % p.R (k + 1 + 1) = j := by rw [Nat.add_mul_mod_self_right, Nat.mod_eq_of_lt hj]
  have e2 : (j + e * p.R (k + 1 + 1)) / p.R (k + 1 + 1) = e := by
    rw [Nat.add_mul_div_right _ _ (by omega), Nat.div_eq_of_lt hj, Nat.zero_add]
  have := hrow _ hlt
  rw [e1, e2] at this
  rw [this, hsel y _ hlt]
  refine Finset.sum_congr rfl fun b hb => ?_
  have hb' := mem_range.1 hb
  rw [← hrow _ (h2 b hb'), newR, getD_map_rows (by omega), hG b hb' e he j hj]
  ring

theorem core_span {k : Nat} {Rp Rt : List (List Nat)} {G : List ℝ} (hk : k + 1 < p.nvals.length) (hsr : SpanRt T p (k + 1) Rt)
    (hg : CoreGood T p (k + 1) Rp Rt G) : SpanRt T p k Rp := by
  intro s hs
  obtain ⟨e, s0, rfl, he, hs0⟩ := hs.uncons hk
  obtain ⟨x, hx⟩ := hsr s0 hs0
  refine ⟨fun b => ∑ j ∈ range (p.R (k + 1 + 1)), G.getD (b + e * p.R (k + 1) + j * p.R (k + 1) * p.N (k + 1)) 0 * x j, fun l hl => ?_⟩
  have := hx _ (hl.snoc hk he)
  simp only [List.append_assoc, List.singleton_append] at this
  rw [this]
  have hj : ∀ j ∈ range (p.R (k + 1 + 1)), T (l ++ e :: Rt.getD j []) * x j =
      ∑ b ∈ range (p.R (k + 1)), T (l ++ Rp.getD b []) * (G.getD (b + e * p.R (k + 1) + j * p.R (k + 1) * p.N (k + 1)) 0 * x j) := fun j hj => by
    rw [hg l hl e he j (mem_range.1 hj), Finset.sum_mul]
    exact Finset.sum_congr rfl fun b _ => by ring
  rw [Finset.sum_congr rfl hj, Finset.sum_comm]
  refine Finset.sum_congr rfl fun b _ => ?_
  rw [Finset.mul_sum]

/-! ## States -/

theorem WS.setLeft {s : S} (h : WS A p s) {k : Nat} (hk : k < p.dim) {L : List (List Nat)} (hL : LSet p k L) :
    WS A p { s with left := s.left.set k L } := by
  refine ⟨by simpa using h.left, h.right, h.cache, h.cores, fun j hj => ?_, h.rset, h.inv, h.csz⟩
  show LSet p j ((s.left.set k L).getD j [])
  rw [getD_set (by rw [h.left]; exact hk)]
  by_cases e : k = j
  · subst e; rw [if_pos rfl]; exact hL
  · rw [if_neg e]; exact h.lset j hj

theorem WS.setRight {s : S} (h : WS A p s) {k : Nat} (hk : k < p.dim) {L : List (List Nat)} (hL : RSet p k L) :
    WS A p { s with right := s.right.set k L } := by
  refine ⟨h.left, by simpa using h.right, h.cache, h.cores, h.lset, fun j hj => ?_, h.inv, h.csz⟩
  show RSet p j ((s.right.set k L).getD j [])
  rw [getD_set (by rw [h.right]; exact hk)]
  by_cases e : k = j
  · subst e; rw [if_pos rfl]; exact hL
  · rw [if_neg e]; exact h.rset j hj

theorem WS.setCore {s : S} (h : WS A p s) {k : Nat} (hk : k < p.dim) {G : List ℝ} (hG : G.length = p.R k * p.N k * p.R (k + 1)) :
    WS A p { s with cores := s.cores.set k G } := by
  refine ⟨h.left, h.right, h.cache, by simpa using h.cores, h.lset, h.rset, h.inv, fun j hj => ?_⟩
  show ((s.cores.set k G).getD j []).length = _
  rw [getD_set (by rw [h.cores]; exact hk)]
  by_cases e : k = j
  · subst e; rw [if_pos rfl]; exact hG
  · rw [if_neg e]; exact h.csz j hj

/-- The outcome of a left-to-right step: only the left set of the next core and one core change. -/
structure LrPost (T : List Nat → ℝ) (A : Nat → List Nat → List ℝ) (p : P) (k : Nat) (s s' : S) : Prop where
  ws : WS A p s'
  right : s'.right = s.right
  left : ∀ j, j ≠ k + 1 → s'.left.getD j [] = s.left.getD j []
  span : SpanL T p (k + 1) (s'.left.getD (k + 1) [])

section Lr
variable {qr : Nat → Nat → List ℝ → List ℝ} {mv : List ℝ → Nat → Nat → List Nat → List ℝ → C (Int × List Nat × List ℝ)} {rnd : ℚ → ℚ}

theorem lr_post {s : S} {cs : List (Cache ℝ)} (hw : WS A p { s with cache := cs }) (hd : p.nvals.length = p.dim) {k : Nat} (hk : k + 1 < p.dim)
    (hsl : SpanL T p k (s.left.getD k [])) (hsr : SpanRt T p k (s.right.getD k [])) {rows : List Nat} {W : Nat → Nat → ℝ}
    (h1 : rows.length = p.R (k + 1)) (h2 : ∀ x ∈ rows, x < p.R k * p.N k) (h3 : ∀ i < p.R (k + 1), rows.getD i 0 < p.R k * p.N k)
    (hsel : ∀ (x : Nat → ℝ) (row : Nat), row < p.R k * p.N k →
      ∑ j ∈ range (p.R (k + 1)), fibL T p k (s.left.getD k []) (s.right.getD k []) row j * x j =
      ∑ b ∈ range (p.R (k + 1)), W row b * ∑ j ∈ range (p.R (k + 1)), fibL T p k (s.left.getD k []) (s.right.getD k []) (rows.getD b 0) j * x j)
    {G : List ℝ} (hG : G.length = p.R k * p.N k * p.R (k + 1)) :
    LrPost T A p k s ⟨s.left.set (k + 1) (newL p k (s.left.getD k []) rows), s.right, cs, s.cores.set k G⟩ := by
  have hl : LSet p k (s.left.getD k []) := hw.lset k (by omega)
  have hl' : k + 1 < s.left.length := by rw [show s.left.length = p.dim from hw.left]; exact hk
  refine ⟨(hw.setCore (by omega) hG).setLeft hk (newL_set (by omega) hl h1 h2), rfl, fun j hj => ?_, ?_⟩
  · show (s.left.set (k + 1) _).getD j [] = _
    rw [getD_set hl', if_neg (Ne.symm hj)]
  · show SpanL T p (k + 1) ((s.left.set (k + 1) _).getD (k + 1) [])
    rw [getD_set hl', if_pos rfl]
    exact newL_span (by omega) hl hsl hsr h1 h3 hsel

theorem firstLr_ok (hL : Law T A p) (hqr : QrLaw qr) (hmv : MvAll T qr mv p) {s : S} (h : WS A p s)
    (hsl : SpanL T p 0 (s.left.getD 0 [])) (hsr : SpanRt T p 0 (s.right.getD 0 [])) :
    ∃ s', firstLr qr mv A p s = .ok s' ∧ LrPost T A p 0 s s' := by
  have hd := hL.d2
  have hk : 0 + 1 < p.dim := by omega
  obtain ⟨cs, h1, hw⟩ := setupCore_ok hL h (k := 0) (by omega) true
  obtain ⟨rows, V, m1, m2, m3, m3', m4, m5, m6⟩ := sel_ok hqr (hL.up 0 hk)
    ((hmv 0 (by omega) _ _ (h.lset 0 (by omega)) (h.rset 0 (by omega)) hsl hsr).1 hk)
  rw [if_pos rfl] at h1
  obtain ⟨G, hgem, hGl⟩ : ∃ G, dgemmNN (p.R 0 * p.N 0) (p.R (0 + 1)) (p.R (0 + 1)) (qr (p.R 0 * p.N 0) (p.R (0 + 1)) (cm (p.R 0 * p.N 0) (p.R (0 + 1)) (fibL T p 0 (s.left.getD 0 []) (s.right.getD 0 []))))
      (p.R 0 * p.N 0) V (p.R (0 + 1)) (s.cores.getD 0 []) (p.R 0 * p.N 0) = .ok G ∧ G.length = p.R 0 * p.N 0 * p.R (0 + 1) :=
    ⟨_, dgemmNN_ok m5.ge m4.ge (h.csz 0 (by omega)), by rw [cm_length]⟩
  refine ⟨_, ?_, lr_post hw hL.nv hk hsl hsr m2 m3 m3' m6 hGl⟩
  have hl0 : s.left.getD 0 [] = [[]] := by
    have := h.lset 0 (by omega)
    obtain ⟨x, hx⟩ := List.length_eq_one_iff.1 (this.1.trans hL.r0)
    rw [hx] at this ⊢
    have := this.2 x (by simp)
    rw [List.length_eq_zero_iff.1 (this.length (Nat.zero_le _))]
  have hnew : newL p 0 (s.left.getD 0 []) rows = rows.map fun row => [row] := by
    rw [newL, hl0, hL.r0]
    refine List.map_congr_left fun row _ => ?_
    rw [Nat.mod_one, Nat.div_one]; rfl
  have hl1 := h.lset 1 (by omega)
  rw [firstLr, h1, bind_ok]
  simp only []
  rw [rd_R hL (by omega), bind_ok, rd_N hL (by omega), bind_ok, rd_R hL (by omega), bind_ok, m1, bind_ok,
    rd_getD [] (by rw [h.cores]; omega), bind_ok, hgem, bind_ok, wr_ok _ (by rw [h.cores]; omega), bind_ok,
    rd_getD [] (by rw [h.left]; omega), bind_ok, setFirst_ok m2 hl1.1 (fun x hx => (hl1.2 x hx).length (by rw [hL.nv]; omega)), bind_ok,
    wr_ok _ (by rw [h.left]; omega), bind_ok, hnew]

theorem coresLr_ok (hL : Law T A p) (hqr : QrLaw qr) (hmv : MvAll T qr mv p) (hr : RoundNearest rnd) {s : S} (h : WS A p s) {k : Nat}
    (hk : k + 1 < p.dim) (hsl : SpanL T p k (s.left.getD k [])) (hsr : SpanRt T p k (s.right.getD k [])) :
    ∃ s', coresLr qr mv rnd A p k s = .ok s' ∧ LrPost T A p k s s' := by
  obtain ⟨cs, h1, hw⟩ := setupCore_ok hL h (k := k) (by omega) true
  obtain ⟨rows, V, m1, m2, m3, m3', m4, m5, m6⟩ := sel_ok hqr (hL.up k hk)
    ((hmv k (by omega) _ _ (h.lset k (by omega)) (h.rset k (by omega)) hsl hsr).1 hk)
  rw [if_pos rfl] at h1
  obtain ⟨G, hgem, hGl⟩ : ∃ G, dgemmNN (p.R k * p.N k) (p.R (k + 1)) (p.R (k + 1)) (qr (p.R k * p.N k) (p.R (k + 1)) (cm (p.R k * p.N k) (p.R (k + 1)) (fibL T p k (s.left.getD k []) (s.right.getD k []))))
      (p.R k * p.N k) V (p.R (k + 1)) (s.cores.getD k []) (p.R k * p.N k) = .ok G ∧ G.length = p.R k * p.N k * p.R (k + 1) :=
    ⟨_, dgemmNN_ok m5.ge m4.ge (h.csz k (by omega)), by rw [cm_length]⟩
  refine ⟨_, ?_, lr_post hw hL.nv hk hsl hsr m2 m3 m3' m6 hGl⟩
  have hl0 := h.lset k (by omega)
  have hl1 := h.lset (k + 1) hk
  obtain ⟨b1, b2, b3⟩ := hL.small k (by omega)
  rw [coresLr, h1, bind_ok]
  simp only []
  rw [rd_R hL (by omega), bind_ok, rd_N hL (by omega), bind_ok, rd_R hL (by omega), bind_ok, m1, bind_ok,
    rd_getD [] (by rw [h.cores]; omega), bind_ok, hgem, bind_ok, wr_ok _ (by rw [h.cores]; omega), bind_ok,
    rd_getD [] (by rw [h.left]; omega), bind_ok, rd_getD [] (by rw [h.left]; omega), bind_ok,
    updateLeft_value hr b1 b2 b3 hl0.1 (fun x hx => (hl0.2 x hx).length (by rw [hL.nv]; omega)) m2 m3 hl1.1
      (fun x hx => (hl1.2 x hx).length (by rw [hL.nv]; omega)), bind_ok, wr_ok _ (by rw [h.left]; omega), bind_ok]
  rfl

/-- The outcome of a right-to-left step at core `k+1`. -/
structure RlPost (T : List Nat → ℝ) (A : Nat → List Nat → List ℝ) (p : P) (k : Nat) (s s' : S) : Prop where
  ws : WS A p s'
  left : s'.left = s.left
  right : ∀ j, j ≠ k → s'.right.getD j [] = s.right.getD j []
  cores : ∀ j, j ≠ k + 1 → s'.cores.getD j [] = s.cores.getD j []
  core : CoreGood T p (k + 1) (s'.right.getD k []) (s'.right.getD (k + 1) []) (s'.cores.getD (k + 1) [])
  span : SpanRt T p k (s'.right.getD k [])

theorem selRl_ok (hL : Law T A p) (hqr : QrLaw qr) (hmv : MvAll T qr mv p) {s : S} (h : WS A p s) {k : Nat}
    (hk : k + 1 < p.dim) (hsl : SpanL T p (k + 1) (s.left.getD (k + 1) [])) (hsr : SpanRt T p (k + 1) (s.right.getD (k + 1) [])) :
    ∃ rows cs G, selRl qr mv A p (k + 1) s = .ok (rows, { s with cache := cs, cores := s.cores.set (k + 1) G }) ∧
      rows.length = p.R (k + 1) ∧ (∀ x ∈ rows, x < p.R (k + 1 + 1) * p.N (k + 1)) ∧
      RlPost T A p k s ⟨s.left, s.right.set k (newR p (k + 1) (s.right.getD (k + 1) []) rows), cs, s.cores.set (k + 1) G⟩ := by
  obtain ⟨cs, h1, hw⟩ := setupCore_ok hL h (k := k + 1) hk false
  obtain ⟨rows, V, m1, m2, m3, m3', m4, m5, m6⟩ := sel_ok hqr (hL.down (k + 1) (by omega) hk)
    ((hmv (k + 1) hk _ _ (h.lset _ hk) (h.rset _ hk) hsl hsr).2 (by omega))
  rw [if_neg (by simp)] at h1
  have hgem := dgemmNN_ok (m := p.R (k + 1 + 1) * p.N (k + 1)) (n := p.R (k + 1)) (k := p.R (k + 1)) (B := V)
    (c := List.replicate (p.N (k + 1) * p.R (k + 1) * p.R (k + 1 + 1)) 0) m5.ge m4.ge (by rw [List.length_replicate]; ring)
  obtain ⟨G, g1, g2, g3⟩ := transp_ok (r := p.R (k + 1)) (n := p.N (k + 1)) (r' := p.R (k + 1 + 1)) (dst := s.cores.getD (k + 1) [])
    (At := cm (p.R (k + 1 + 1) * p.N (k + 1)) (p.R (k + 1)) (wt (p.R (k + 1 + 1) * p.N (k + 1)) (p.R (k + 1)) (qr (p.R (k + 1 + 1) * p.N (k + 1)) (p.R (k + 1))
      (cm (p.R (k + 1 + 1) * p.N (k + 1)) (p.R (k + 1)) (fibR T p (k + 1) (s.left.getD (k + 1) []) (s.right.getD (k + 1) [])))) V))
    (by rw [cm_length]) (h.csz _ hk)
  have hcore : CoreGood T p (k + 1) (newR p (k + 1) (s.right.getD (k + 1) []) rows) (s.right.getD (k + 1) []) G :=
    newR_core (by rw [hL.nv]; omega) (h.rset _ hk) hsl m2 m3' m6 (fun b hb e he j hj => by
      rw [g3 b hb e he j hj, show j + e * p.R (k + 1 + 1) + b * p.R (k + 1 + 1) * p.N (k + 1) =
        b * (p.R (k + 1 + 1) * p.N (k + 1)) + (j + e * p.R (k + 1 + 1)) by ring,
        getD_cm _ _ (by rw [Nat.add_comm]; exact cm_idx_lt hj he) hb])
  have hr' : k < s.right.length := by rw [h.right]; omega
  have hc' : k + 1 < s.cores.length := by rw [h.cores]; omega
  have e1 : (s.right.set k (newR p (k + 1) (s.right.getD (k + 1) []) rows)).getD k [] = newR p (k + 1) (s.right.getD (k + 1) []) rows := by
    rw [getD_set hr', if_pos rfl]
  refine ⟨rows, cs, G, ?_, m2, m3, (hw.setCore hk g2).setRight (by omega) (newR_set (by rw [hL.nv]; omega) (h.rset _ hk) m2 m3), rfl,
    fun j hj => ?_, fun j hj => ?_, ?_, ?_⟩
  · rw [selRl, h1, bind_ok]
    simp only []
    rw [rd_R hL (by omega), bind_ok, rd_N hL (by omega), bind_ok, rd_R hL (by omega), bind_ok, m1, bind_ok, hgem, bind_ok,
      rd_getD [] (by rw [h.cores]; omega), bind_ok]
    have g1' := g1
    unfold wt at g1'
    rw [g1', bind_ok, wr_ok _ hc', bind_ok]
  · show (s.right.set k _).getD j [] = _
    rw [getD_set hr', if_neg (Ne.symm hj)]
  · show (s.cores.set (k + 1) _).getD j [] = _
    rw [getD_set hc', if_neg (Ne.symm hj)]
  · show CoreGood T p (k + 1) ((s.right.set k _).getD k []) ((s.right.set k _).getD (k + 1) []) ((s.cores.set (k + 1) _).getD (k + 1) [])
    rw [e1, getD_set hr', if_neg (by omega), getD_set hc', if_pos rfl]
    exact hcore
  · show SpanRt T p k ((s.right.set k _).getD k [])
    rw [e1]
    exact core_span (by rw [hL.nv]; omega) hsr hcore

theorem lastRl_ok (hL : Law T A p) (hqr : QrLaw qr) (hmv : MvAll T qr mv p) {s : S} (h : WS A p s) {k : Nat}
    (hk : k + 2 = p.dim) (hsl : SpanL T p (k + 1) (s.left.getD (k + 1) [])) (hsr : SpanRt T p (k + 1) (s.right.getD (k + 1) [])) :
    ∃ s', lastRl qr mv A p s = .ok s' ∧ RlPost T A p k s s' := by
  obtain ⟨rows, cs, G, h1, h2, h3, h4⟩ := selRl_ok hL hqr hmv h (by omega) hsl hsr
  refine ⟨_, ?_, h4⟩
  have hrl : p.R (k + 1 + 1) = 1 := by rw [show k + 1 + 1 = p.dim by omega]; exact hL.rlast
  have hl0 : s.right.getD (k + 1) [] = [[]] := by
    have := h.rset (k + 1) (by omega)
    obtain ⟨x, hx⟩ := List.length_eq_one_iff.1 (this.1.trans hrl)
    rw [hx] at this ⊢
    have := this.2 x (by simp)
    rw [List.length_eq_zero_iff.1 (this.length.trans (by rw [hL.nv]; omega))]
  have hnew : newR p (k + 1) (s.right.getD (k + 1) []) rows = rows.map fun row => [row] := by
    rw [newR, hl0, hrl]
    refine List.map_congr_left fun row _ => ?_
    rw [Nat.mod_one, Nat.div_one]; rfl
  have hr1 := h.rset k (by omega)
  have ed : p.dim - 1 = k + 1 := by omega
  rw [lastRl, if_neg (by omega), bind_ok, ed, h1, bind_ok]
  simp only [Nat.add_sub_cancel]
  rw [rd_getD [] (by rw [h.right]; omega), bind_ok, setFirst_ok (by rw [h2, hr1.1]) rfl (fun x hx => by rw [(hr1.2 x hx).length, hL.nv]; omega),
    bind_ok, wr_ok _ (by rw [h.right]; omega), bind_ok, hnew]

theorem coresRl_ok (hL : Law T A p) (hqr : QrLaw qr) (hmv : MvAll T qr mv p) (hr : RoundNearest rnd) {s : S} (h : WS A p s) {k : Nat}
    (hk : k + 2 < p.dim) (hsl : SpanL T p (k + 1) (s.left.getD (k + 1) [])) (hsr : SpanRt T p (k + 1) (s.right.getD (k + 1) [])) :
    ∃ s', coresRl qr mv rnd A p (k + 1) s = .ok s' ∧ RlPost T A p k s s' := by
  obtain ⟨rows, cs, G, h1, h2, h3, h4⟩ := selRl_ok hL hqr hmv h (by omega) hsl hsr
  refine ⟨_, ?_, h4⟩
  have hr0 := h.rset (k + 1) (by omega)
  have hr1 := h.rset k (by omega)
  obtain ⟨b1, b2, b3⟩ := hL.small (k + 1) (by omega)
  have hin := hL.inner (k + 1) (by omega) (by omega)
  rw [coresRl, h1, bind_ok]
  simp only [Nat.add_sub_cancel]
  rw [rd_R hL (by omega), bind_ok, rd_N hL (by omega), bind_ok, rd_getD [] (by rw [h.right]; omega), bind_ok,
    rd_getD [] (by rw [h.right]; omega), bind_ok,
    updateRight_value_partial hr (rr := p.R (k + 1 + 1)) hin.symm b1 (by rw [← hin]; exact b2) (by rw [← hin]; exact b3) hr0.1
      (fun x hx => by rw [(hr0.2 x hx).length, hL.nv]; omega) (by rw [h2, hr1.1]) h3 rfl
      (fun x hx => by rw [(hr1.2 x hx).length, hL.nv]; omega), bind_ok, wr_ok _ (by rw [h.right]; omega), bind_ok]
  rfl

theorem rawCore_ok (hL : Law T A p) {s : S} (h : WS A p s) {k : Nat} (hk : k < p.dim) :
    ∃ cs, rawCore A p k s = .ok ⟨s.left, s.right, cs, s.cores.set k (cm (p.R k * p.N k) (p.R (k + 1)) (fibL T p k (s.left.getD k []) (s.right.getD k [])))⟩ ∧
      WS A p ⟨s.left, s.right, cs, s.cores.set k (cm (p.R k * p.N k) (p.R (k + 1)) (fibL T p k (s.left.getD k []) (s.right.getD k [])))⟩ := by
  obtain ⟨cs, h1, hw⟩ := setupCore_ok hL h hk true
  rw [if_pos rfl] at h1
  refine ⟨cs, ?_, hw.setCore hk (by rw [cm_length])⟩
  have hc := h.csz k hk
  rw [rawCore, h1, bind_ok]
  simp only []
  rw [rd_R hL (by omega), bind_ok, rd_N hL (by omega), bind_ok, rd_R hL (by omega), bind_ok, rd_getD [] (by rw [h.cores]; omega), bind_ok,
    Tt.blit_ok (by rw [hc]; omega) (by rw [cm_length]; omega), bind_ok, wr_ok _ (by rw [h.cores]; omega), bind_ok]
  congr 3
  rw [List.take_zero, List.drop_zero, List.nil_append, List.drop_of_length_le (by rw [hc]; omega), List.append_nil,
    List.take_of_length_le (by rw [cm_length])]

end Lr
end Step
end C3.Tc
