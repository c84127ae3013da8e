/-
C107: one core of a sweep.
-/
import Verif.Xapp.Prep
import Verif.Mv.Law
import Verif.Round.Main
import Verif.Ft.ArrProps

set_option linter.unusedSectionVars false

namespace C3.Xa
open Finset C3.Ft C3.Round C3.Mv C3.Fw C3.Ind
variable {U X : Type} [Zero X] {e : Ev ℝ U X} {F : Fam U X} {I : Integ ℝ X}

/-- Every row of the array is the combination of the rows at the pivots with the coefficients of the product with the
inverse. -/
theorem interp {k : Nat} {A : Qma U} {piv : List Nat} {px : List X} {inv : List ℝ}
    (h : mat A.ncols inv * sub e A piv px = 1) (w : Nat → ℝ) (x : X) (i : Nat) (xs : Nat → X)
    (hxs : ∀ z < A.ncols, px[z]? = some (xs z)) :
    ∑ c ∈ range A.ncols, A.val e x i c * w c = ∑ z ∈ range A.ncols, prodAt e A inv x i z *
      ∑ c ∈ range A.ncols, A.val e (xs z) (piv.getD z 0) c * w c := by
  have h1 : ∀ c : Fin A.ncols, A.val e x i c = ∑ z : Fin A.ncols, prodAt e A inv x i z * A.val e (xs z) (piv.getD z 0) c := by
    intro c
    have h2 : Matrix.vecMul (Matrix.vecMul (rowAt e A x i) (mat A.ncols inv)) (sub e A piv px) c = rowAt e A x i c := by
      rw [Matrix.vecMul_vecMul, h, Matrix.vecMul_one]
    rw [← show rowAt e A x i c = A.val e x i c from rfl, ← h2]
    conv_lhs => rw [Matrix.vecMul, dotProduct]
    refine sum_congr rfl fun z _ => ?_
    rw [prodAt_vecMul, sub, Matrix.of_apply, hxs z z.2]
    rfl
  rw [Finset.sum_range, Finset.sum_range]
  have h3 : ∀ z : Fin A.ncols, prodAt e A inv x i z * ∑ c ∈ range A.ncols, A.val e (xs z) (piv.getD z 0) c * w c
      = ∑ c : Fin A.ncols, prodAt e A inv x i z * A.val e (xs z) (piv.getD z 0) c * w c := by
    intro z
    rw [Finset.sum_range, mul_sum]
    exact sum_congr rfl fun c _ => by rw [mul_assoc]
  rw [sum_congr rfl fun z _ => h3 z, Finset.sum_comm]
  refine sum_congr rfl fun c _ => ?_
  rw [h1 c, sum_mul]

/-- At the pivots the product with the inverse is the identity. -/
theorem prodAt_delta {k : Nat} {A : Qma U} {piv : List Nat} {px : List X} (hp : Piv F k A.nrows A.ncols piv px) {inv : List ℝ}
    (h : mat A.ncols inv * sub e A piv px = 1) {i j : Nat} (hi : i < A.ncols) (hj : j < A.ncols) {x : X} (hx : px[i]? = some x) :
    prodAt e A inv x (piv.getD i 0) j = if j = i then 1 else 0 := by
  rw [prod_piv hp h ⟨i, hi⟩ ⟨j, hj⟩ hx, Matrix.one_apply]
  by_cases hij : i = j
  · subst hij; rw [if_pos rfl, if_pos rfl]
  · rw [if_neg (fun h => hij (Fin.mk.inj h)), if_neg (fun h => hij h.symm)]

/-- The points of the pivots. -/
theorem Piv.pts {k nr n : Nat} {piv : List Nat} {px : List X} (hp : Piv F k nr n piv px) :
    ∃ xs : Nat → X, ∀ z < n, px[z]? = some (xs z) ∧ F.D k (xs z) := by
  refine ⟨fun z => px.getD z 0, fun z hz => ?_⟩
  obtain ⟨x, h1, -, h3, -⟩ := hp.at hz
  dsimp only
  rw [List.getD_eq_getElem?_getD, h1]
  exact ⟨rfl, h3⟩

theorem singles_ok {n : Nat} {px : List X} (h : px.length = n) : singles n px = .ok (Ind.mk 1 (px.map fun x => [x])) := by
  have := forN_traj (fun i => Ind.mk 1 ((px.map fun x => [x]).take i)) (n := n)
    (body := fun zz (ci : CIndex X) => addIndex ci 1 (px.drop zz)) (by
      intro i hi
      have hi' : i < px.length := by omega
      rw [addIndex_mk 1 _ _ (by rw [List.length_drop]; omega), List.drop_eq_getElem_cons hi']
      rw [List.take_add_one (l := px.map _), List.getElem?_map, List.getElem?_eq_getElem hi']
      rfl)
  rw [singles]
  refine this.trans ?_
  rw [List.take_of_length_le (by rw [List.length_map]; omega)]

/-- New left index set: the old nodes at the pivot rows, followed by the pivot points. -/
theorem newLeft_ok {k n : Nat} {l : Option (CIndex X)} {L : List (List X)} (hL : Ix F 0 k l L) {piv : List Nat} {px : List X}
    (hp : Piv F k L.length n piv px) :
    ∃ c L', newLeft k n piv px l = .ok c ∧ Ix F 0 (k + 1) (some c) L' ∧ L'.length = n ∧
      ∀ z < n, ∀ x, px[z]? = some x → L'.getD z [] = L.getD (piv.getD z 0) [] ++ [x] := by
  have fin : ∀ rows : List (List X), rows.length = n →
      (∀ z < n, ∀ x, px[z]? = some x → rows.getD z [] = L.getD (piv.getD z 0) [] ++ [x]) →
      Ix F 0 (k + 1) (some (Ind.mk (k + 1) rows)) rows := by
    intro rows hl hr
    have hmem : ∀ r ∈ rows, ∃ a < L.length, ∃ x, F.D k x ∧ r = L.getD a [] ++ [x] := by
      intro r hr'
      obtain ⟨z, hz, rfl⟩ := List.getElem_of_mem hr'
      obtain ⟨x, h1, -, h3, -, h5⟩ := hp.at (i := z) (by omega)
      refine ⟨_, h5, x, h3, ?_⟩
      rw [← hr z (by omega) x h1, List.getD_eq_getElem?_getD, List.getElem?_eq_getElem hz]; rfl
    refine ⟨fun r hr' => ?_, fun r hr' => ?_, Or.inr ⟨by omega, rfl⟩⟩
    · obtain ⟨a, ha, x, -, rfl⟩ := hmem r hr'
      rw [List.length_append, hL.len _ (getD_mem ha)]; rfl
    · obtain ⟨a, ha, x, hx, rfl⟩ := hmem r hr'
      rw [On.append, hL.len _ (getD_mem ha), Nat.zero_add, On.cons]
      exact ⟨hL.on _ (getD_mem ha), hx, On.nil⟩
  rcases hL.ptr with ⟨h1, h2, h3⟩ | ⟨h1, h2⟩
  · subst h1 h2 h3
    have hrow : ∀ z < n, ∀ x, px[z]? = some x →
        (px.map fun x => [x]).getD z [] = ([[]] : List (List X)).getD (piv.getD z 0) [] ++ [x] := by
      intro z hz x hx
      have : piv.getD z 0 = 0 := by have := hp.row z hz; simp only [List.length_singleton] at this; omega
      rw [this, List.getD_eq_getElem?_getD, List.getElem?_map, hx]
      rfl
    exact ⟨_, _, by rw [newLeft, if_neg (lt_irrefl 0), singles_ok hp.lx], fin _ (by rw [List.length_map, hp.lx]) hrow,
      by rw [List.length_map, hp.lx], hrow⟩
  · subst h2
    obtain ⟨rows, r1, r2, r3⟩ := create_nested_ind_spec k 0 n piv px L hL.len hp.lp.ge hp.lx.ge (fun i hi => by
      obtain ⟨z, hz, rfl⟩ := List.getElem_of_mem hi
      have := hp.row z (by rw [← hp.lp]; exact hz)
      rwa [List.getD_eq_getElem?_getD, List.getElem?_eq_getElem hz] at this)
    have hrow : ∀ z < n, ∀ x, px[z]? = some x → rows.getD z [] = L.getD (piv.getD z 0) [] ++ [x] := by
      intro z hz x hx
      obtain ⟨a, o, v, h1, h2, h3, h4⟩ := r3 z hz
      rw [hx] at h3
      rw [List.getD_eq_getElem?_getD, h4, if_pos rfl, List.getD_eq_getElem?_getD, List.getD_eq_getElem?_getD (l := piv), h1,
        Option.some.inj h3]
      dsimp only [Option.getD_some]
      rw [h2]
      rfl
    exact ⟨_, rows, by rw [newLeft, if_pos h1, notNull, bind_ok, r1], fin rows r2 hrow, r2, hrow⟩

/-- New right index set: the pivot points, followed by the old nodes at the pivot columns. -/
theorem newRight_ok {d k n : Nat} (hk : k < d) (hk0 : 0 < k) {r : Option (CIndex X)} {S : List (List X)} (hS : Ix F (k + 1) (d - 1 - k) r S) {piv : List Nat}
    {px : List X} (hp : Piv F k S.length n piv px) :
    ∃ c S', newRight k d n piv px r = .ok c ∧ Ix F k (d - k) (some c) S' ∧ S'.length = n ∧
      ∀ z < n, ∀ x, px[z]? = some x → S'.getD z [] = x :: S.getD (piv.getD z 0) [] := by
  have fin : ∀ rows : List (List X), rows.length = n →
      (∀ z < n, ∀ x, px[z]? = some x → rows.getD z [] = x :: S.getD (piv.getD z 0) []) →
      Ix F k (d - k) (some (Ind.mk (d - k) rows)) rows := by
    intro rows hl hr
    have hmem : ∀ r ∈ rows, ∃ a < S.length, ∃ x, F.D k x ∧ r = x :: S.getD a [] := by
      intro r hr'
      obtain ⟨z, hz, rfl⟩ := List.getElem_of_mem hr'
      obtain ⟨x, h1, -, h3, -, h5⟩ := hp.at (i := z) (by omega)
      refine ⟨_, h5, x, h3, ?_⟩
      rw [← hr z (by omega) x h1, List.getD_eq_getElem?_getD, List.getElem?_eq_getElem hz]; rfl
    refine ⟨fun r hr' => ?_, fun r hr' => ?_, Or.inr ⟨by omega, rfl⟩⟩
    · obtain ⟨a, ha, x, -, rfl⟩ := hmem r hr'
      rw [List.length_cons, hS.len _ (getD_mem ha)]; omega
    · obtain ⟨a, ha, x, hx, rfl⟩ := hmem r hr'
      rw [On.cons]
      exact ⟨hx, hS.on _ (getD_mem ha)⟩
  rcases hS.ptr with ⟨h1, h2, h3⟩ | ⟨h1, h2⟩
  · subst h2 h3
    have hrow : ∀ z < n, ∀ x, px[z]? = some x →
        (px.map fun x => [x]).getD z [] = x :: ([[]] : List (List X)).getD (piv.getD z 0) [] := by
      intro z hz x hx
      have : piv.getD z 0 = 0 := by have := hp.row z hz; simp only [List.length_singleton] at this; omega
      rw [this, List.getD_eq_getElem?_getD, List.getElem?_map, hx]
      rfl
    refine ⟨_, _, by rw [newRight, if_neg (by omega), singles_ok hp.lx], ?_, by rw [List.length_map, hp.lx], hrow⟩
    have := fin _ (by rw [List.length_map, hp.lx]) hrow
    rw [show d - k = 1 by omega] at this ⊢
    exact this
  · subst h2
    obtain ⟨rows, r1, r2, r3⟩ := create_nested_ind_spec (d - 1 - k) 1 n piv px S hS.len hp.lp.ge hp.lx.ge (fun i hi => by
      obtain ⟨z, hz, rfl⟩ := List.getElem_of_mem hi
      have := hp.row z (by rw [← hp.lp]; exact hz)
      rwa [List.getD_eq_getElem?_getD, List.getElem?_eq_getElem hz] at this)
    have hrow : ∀ z < n, ∀ x, px[z]? = some x → rows.getD z [] = x :: S.getD (piv.getD z 0) [] := by
      intro z hz x hx
      obtain ⟨a, o, v, h1, h2, h3, h4⟩ := r3 z hz
      rw [hx] at h3
      rw [List.getD_eq_getElem?_getD, h4, if_neg one_ne_zero, List.getD_eq_getElem?_getD, List.getD_eq_getElem?_getD (l := piv), h1,
        Option.some.inj h3]
      dsimp only [Option.getD_some]
      rw [h2]
      rfl
    refine ⟨_, rows, by rw [newRight, if_pos (by omega), notNull, bind_ok, r1], ?_, r2, hrow⟩
    have := fin rows r2 hrow
    rw [show d - k = d - 1 - k + 1 by omega] at this ⊢
    exact this

/-- A core of the sweep from left to right, `L'` the new left index set. -/
structure LrC (e : Ev ℝ U X) (F : Fam U X) (f : List X → ℝ) (k : Nat) (L L' S : List (List X)) (Q : Qma U) : Prop where
  ok : QOk F k Q
  nrows : Q.nrows = L.length
  ncols : Q.ncols = L'.length
  eq : ∀ x, F.D k x → ∀ a < L.length, ∀ b < S.length,
    f (L.getD a [] ++ x :: S.getD b []) = ∑ z ∈ range L'.length, Q.val e x a z * f (L'.getD z [] ++ S.getD b [])
  nest : ∀ z < L'.length, ∃ a x, a < L.length ∧ F.D k x ∧ L'.getD z [] = L.getD a [] ++ [x] ∧
    ∀ z' < L'.length, Q.val e x a z' = if z' = z then 1 else 0

/-- A core of the sweep from right to left, `S'` the new right index set. -/
structure RlC (e : Ev ℝ U X) (F : Fam U X) (f : List X → ℝ) (k : Nat) (L S S' : List (List X)) (Q : Qma U) : Prop where
  ok : QOk F k Q
  nrows : Q.nrows = S'.length
  ncols : Q.ncols = S.length
  eq : ∀ x, F.D k x → ∀ a < L.length, ∀ b < S.length,
    f (L.getD a [] ++ x :: S.getD b []) = ∑ z ∈ range S'.length, f (L.getD a [] ++ S'.getD z []) * Q.val e x z b
  nest : ∀ z < S'.length, ∃ b x, b < S.length ∧ F.D k x ∧ S'.getD z [] = x :: S.getD b [] ∧
    ∀ z' < S'.length, Q.val e x z' b = if z' = z then 1 else 0

/-- Contracts of everything cross approximation calls, in exact arithmetic. -/
structure XLaws (e : Ev ℝ U X) (F : Fam U X) (I : Integ ℝ X) (o : XOps U X) : Prop where
  rd : Laws e F I o.rd
  mv : MvLaws e F o.mv
  approx : ApproxLaw e F o.approx

theorem checkInfo_ok {r : MvRes X} (h : r.info ≤ 0) : checkInfo r = .ok () := by rw [checkInfo, if_neg (not_lt.2 h)]

theorem lrStep_ok {o : XOps U X} (h : XLaws e F I o) {d k : Nat} {f : List X → ℝ} (hf : Fib e F d f) (hk : k < d)
    {ranks : List Nat} {s : Xs U X} (hfw : FwOk f d s.fw) {l r : Option (CIndex X)} {L S : List (List X)}
    (hl : s.left[k]? = some l) (hr : s.right[k]? = some r) (hL : Ix F 0 k l L) (hS : Ix F (k + 1) (d - 1 - k) r S)
    (h1 : ranks[k]? = some L.length) (h2 : ranks[k + 1]? = some S.length) (hL0 : 0 < L.length) (hS0 : 0 < S.length)
    (hll : k + 1 < s.left.length) (hcl : k < s.cores.length) :
    ∃ w c L' Q, lrStep e o ranks k s = .ok ⟨w, s.left.set (k + 1) (some c), s.right, s.cores.set k (some Q)⟩ ∧ FwOk f d w ∧
      w.fiberApprox = false ∧ Ix F 0 (k + 1) (some c) L' ∧ L'.length = S.length ∧ LrC e F f k L L' S Q := by
  obtain ⟨T, w, p1, p2, p3, p4⟩ := prepCore_ok h.approx hf hk hfw hl hr hL hS
  have hT : QOk F k T := ⟨p4.wf, p4.mem⟩
  obtain ⟨q, q1, q2⟩ := h.rd.qr k T hT (by rw [p4.nrows]; exact hL0) (by rw [p4.ncols]; exact hS0)
  have hQr : q.1.nrows = L.length := by rw [q2.nrows, p4.nrows]
  have hQc : q.1.ncols = S.length := by rw [q2.ncols, p4.ncols]
  have hind : ColInd e F k q.1 := colInd_of_on h.rd.int h.rd.mem q2.ok q2.on
  obtain ⟨lu, m, -, m1, m2, m3⟩ := maxvol_exact h.mv q2.ok (by rw [hQr]; exact hL0) (by rw [hQc]; exact hS0) hind q.2
  have hp : Piv F k L.length S.length m.piv m.px := by
    have := m3.piv
    rwa [hQr, hQc] at this
  obtain ⟨c, L', c1, c2, c3, c4⟩ := newLeft_ok hL hp
  obtain ⟨B, b1, b2⟩ := qmam_value (e := e) h.rd.lin q2.ok (R := m.inv) (b := T.ncols) (by rw [hQc]; exact hS0)
    (by rw [m3.len, hQc, p4.ncols])
  obtain ⟨xs, hxs⟩ := Piv.pts hp
  have hbv : ∀ x, F.D k x → ∀ a < L.length, ∀ z < S.length, B.val e x a z = prodAt e q.1 m.inv x a z := by
    intro x hx a ha z hz
    exact b2.val x hx a (by rw [hQr]; exact ha) z (by rw [p4.ncols]; exact hz)
  have hTv : ∀ x, F.D k x → ∀ a < L.length, ∀ b < S.length,
      f (L.getD a [] ++ x :: S.getD b []) = ∑ c ∈ range q.1.ncols, q.1.val e x a c * ent T.ncols q.2 c b := by
    intro x hx a ha b hb
    rw [← p4.val x hx a ha b hb, q2.val x hx a (by rw [p4.nrows]; exact ha) b (by rw [p4.ncols]; exact hb), q2.ncols]
  refine ⟨w, c, L', B, ?_, p2, p3, c2, c3, ⟨b2.wf, b2.mem⟩, by rw [b2.nrows, hQr], by rw [b2.ncols, p4.ncols, c3], ?_, ?_⟩
  · rw [lrStep, rd_of_getElem? h1, bind_ok, rd_of_getElem? h2, bind_ok, p1, bind_ok]
    dsimp only
    rw [q1, bind_ok, m1, bind_ok, checkInfo_ok m2, bind_ok, rd_of_getElem? hl, bind_ok, c1, bind_ok,
      wr_ok (a := s.left) _ hll, bind_ok, b1, bind_ok, wr_ok (a := s.cores) _ hcl, bind_ok, pure_eq_ok]
  · intro x hx a ha b hb
    rw [hTv x hx a ha b hb, interp (k := k) m3.inv (fun c => ent T.ncols q.2 c b) x a xs (fun z hz => (hxs z (by rw [← hQc]; exact hz)).1),
      hQc, c3]
    refine sum_congr rfl fun z hz => ?_
    have hz' := mem_range.1 hz
    rw [hbv x hx a ha z hz', c4 z hz' _ (hxs z hz').1, List.append_assoc, List.singleton_append,
      hTv _ (hxs z hz').2 _ (hp.row z hz') b hb, hQc]
  · intro z hz
    rw [c3] at hz ⊢
    refine ⟨_, xs z, hp.row z hz, (hxs z hz).2, c4 z hz _ (hxs z hz).1, fun z' hz' => ?_⟩
    rw [hbv _ (hxs z hz).2 _ (hp.row z hz) z' hz', prodAt_delta m3.piv m3.inv (by rw [hQc]; exact hz) (by rw [hQc]; exact hz')
      (hxs z hz).1]

theorem rlStep_ok {o : XOps U X} (h : XLaws e F I o) {d k : Nat} {f : List X → ℝ} (hf : Fib e F d f) (hk : k < d) (hk0 : 0 < k)
    {ranks : List Nat} {s : Xs U X} (hfw : FwOk f d s.fw) {l r : Option (CIndex X)} {L S : List (List X)}
    (hl : s.left[k]? = some l) (hr : s.right[k]? = some r) (hL : Ix F 0 k l L) (hS : Ix F (k + 1) (d - 1 - k) r S)
    (h1 : ranks[k]? = some L.length) (h2 : ranks[k + 1]? = some S.length) (hL0 : 0 < L.length) (hS0 : 0 < S.length)
    (hcl : k < s.cores.length) :
    ∃ w c S' Q, rlStep e o d ranks k s = .ok ⟨w, s.left, s.right.set (k - 1) (some c), s.cores.set k (some Q)⟩ ∧ FwOk f d w ∧
      w.fiberApprox = false ∧ Ix F k (d - k) (some c) S' ∧ S'.length = L.length ∧ RlC e F f k L S S' Q := by
  obtain ⟨T, w, p1, p2, p3, p4⟩ := prepCore_ok h.approx hf hk hfw hl hr hL hS
  have hT : QOk F k T := ⟨p4.wf, p4.mem⟩
  obtain ⟨q, q1, q2⟩ := h.rd.lq k T hT (by rw [p4.nrows]; exact hL0) (by rw [p4.ncols]; exact hS0)
  have hQr : q.1.nrows = L.length := by rw [q2.nrows, p4.nrows]
  have hQc : q.1.ncols = S.length := by rw [q2.ncols, p4.ncols]
  obtain ⟨Qt, t1, t2⟩ := transpose_value (e := e) q2.ok
  have hQt : QOk F k Qt := ⟨t2.wf, t2.mem⟩
  have hTr : Qt.nrows = S.length := by rw [t2.nrows, hQc]
  have hTc : Qt.ncols = L.length := by rw [t2.ncols, hQr]
  have hon : ColON e I k Qt := by
    intro c hc c' hc'
    rw [hTc] at hc hc'
    have := q2.on c (by rw [hQr]; exact hc) c' (by rw [hQr]; exact hc')
    rw [← this, t2.nrows]
    refine sum_congr rfl fun i hi => ?_
    have hi' := mem_range.1 hi
    refine ((h.rd.int.congr k _ _ (fun x hx => ?_) (val_mem2 h.rd.mem q2.ok.wf q2.ok.mem q2.ok.wf q2.ok.mem
      (by rw [hQr]; exact hc) hi' (by rw [hQr]; exact hc') hi')).2).symm
    rw [t2.val x hx i hi' c (by rw [hQr]; exact hc), t2.val x hx i hi' c' (by rw [hQr]; exact hc')]
  have hind : ColInd e F k Qt := colInd_of_on h.rd.int h.rd.mem hQt hon
  obtain ⟨lu, m, -, m1, m2, m3⟩ := maxvol_exact h.mv hQt (by rw [hTr]; exact hS0) (by rw [hTc]; exact hL0) hind q.2
  have hp : Piv F k S.length L.length m.piv m.px := by
    have := m3.piv
    rwa [hTr, hTc] at this
  obtain ⟨c, S', c1, c2, c3, c4⟩ := newRight_ok hk hk0 hS hp
  obtain ⟨B, b1, b2⟩ := qmam_value (e := e) h.rd.lin hQt (R := m.inv) (b := T.nrows) (by rw [hTc]; exact hL0)
    (by rw [m3.len, hTc, p4.nrows])
  obtain ⟨Bt, s1, s2⟩ := transpose_value (e := e) (F := F) (k := k) (a := B) ⟨b2.wf, b2.mem⟩
  obtain ⟨xs, hxs⟩ := Piv.pts hp
  have hbv : ∀ x, F.D k x → ∀ b < S.length, ∀ z < L.length, Bt.val e x z b = prodAt e Qt m.inv x b z := by
    intro x hx b hb z hz
    rw [s2.val x hx z (by rw [b2.ncols, p4.nrows]; exact hz) b (by rw [b2.nrows, hTr]; exact hb)]
    exact b2.val x hx b (by rw [hTr]; exact hb) z (by rw [p4.nrows]; exact hz)
  have hTv : ∀ x, F.D k x → ∀ a < L.length, ∀ b < S.length,
      f (L.getD a [] ++ x :: S.getD b []) = ∑ c ∈ range Qt.ncols, Qt.val e x b c * ent T.nrows q.2 a c := by
    intro x hx a ha b hb
    rw [← p4.val x hx a ha b hb, q2.val x hx a (by rw [p4.nrows]; exact ha) b (by rw [p4.ncols]; exact hb), hTc, p4.nrows]
    refine sum_congr rfl fun c hc => ?_
    rw [t2.val x hx b (by rw [hQc]; exact hb) c (by rw [hQr]; exact mem_range.1 hc), mul_comm]
  refine ⟨w, c, S', Bt, ?_, p2, p3, c2, c3, ⟨s2.wf, s2.mem⟩, by rw [s2.nrows, b2.ncols, p4.nrows, c3], by rw [s2.ncols, b2.nrows, hTr],
    ?_, ?_⟩
  · rw [rlStep, rd_of_getElem? h1, bind_ok, rd_of_getElem? h2, bind_ok, p1, bind_ok]
    dsimp only
    rw [q1, bind_ok, t1, bind_ok, m1, bind_ok, checkInfo_ok m2, bind_ok, b1, bind_ok, s1, bind_ok,
      wr_ok (a := s.cores) _ hcl, bind_ok, rd_of_getElem? hr, bind_ok, c1, bind_ok,
      wr_ok (a := s.right) _ (show k - 1 < s.right.length by
        have := (List.getElem?_eq_some_iff.1 hr).1
        omega), bind_ok, pure_eq_ok]
  · intro x hx a ha b hb
    rw [hTv x hx a ha b hb, interp (k := k) m3.inv (fun c => ent T.nrows q.2 a c) x b xs (fun z hz => (hxs z (by rw [← hTc]; exact hz)).1),
      hTc, c3]
    refine sum_congr rfl fun z hz => ?_
    have hz' := mem_range.1 hz
    rw [hbv x hx b hb z hz', c4 z hz' _ (hxs z hz').1, hTv _ (hxs z hz').2 a ha _ (hp.row z hz'), hTc, mul_comm]
  · intro z hz
    rw [c3] at hz ⊢
    refine ⟨_, xs z, hp.row z hz, (hxs z hz).2, c4 z hz _ (hxs z hz).1, fun z' hz' => ?_⟩
    rw [hbv _ (hxs z hz).2 _ (hp.row z hz) z' hz', prodAt_delta m3.piv m3.inv (by rw [hTc]; exact hz) (by rw [hTc]; exact hz')
      (hxs z hz).1]

end C3.Xa
