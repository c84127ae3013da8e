/- Forward and backward sweeps of the gradient evaluation. -/
import Verif.Ft.Grad
import Verif.Ft.Prefix
import Mathlib.Algebra.Order.BigOperators.Group.Finset

set_option linter.unusedSectionVars false

namespace C3.Ft
open Finset
variable {K U X : Type} [Field K]

/-- Entry of a core under an evaluator of functions. -/
def Qma.vd (d : U → X → K) (Q : Qma U) (x : X) (i j : Nat) : K := Q.val ⟨d, fun _ => false⟩ x i j

theorem Qma.WF.rd {Q : Qma U} (h : Q.WF) (e : Ev K U X) (d : U → X → K) (x : X) {i j : Nat} (hi : i < Q.nrows) (hj : j < Q.ncols) :
    ∃ f, C3.rd Q.funcs (i + j * Q.nrows) = .ok f ∧ e.ev f x = Q.val e x i j ∧ d f x = Q.vd d x i j := by
  have hlt : i + j * Q.nrows < Q.funcs.length := by
    rw [h]; have := cm_idx_lt hi hj; omega
  refine ⟨_, rd_ok hlt, ?_, ?_⟩
  · have hidx : j * Q.nrows + i = i + j * Q.nrows := by omega
    simp [Qma.val, hidx, hlt]
  · have hidx : j * Q.nrows + i = i + j * Q.nrows := by omega
    simp [Qma.vd, Qma.val, hidx, hlt]

section fwd
variable {e : Ev K U X} {d : U → X → K} {Q : Qma U} {x : X}

/-- Sizes of the buffers. -/
structure GLen (NL NE : Nat) (s : GSt K) : Prop where
  lr : s.lr.length = NL
  gr : s.gr.length = NL
  ev : s.ev.length = NE
  gd : s.gd.length = NE

theorem gradRows {NL NE r col : Nat} {s : GSt K} (hW : Q.WF) (hr : Q.nrows = r) (hc : col < Q.ncols) (hlen : GLen NL NE s)
    (hNL : s.indmem + r + col < NL) (hNE : s.onuni + r ≤ NE)
    (hz : s.lr.getD (s.indmem + r + col) 0 = 0) (hz' : s.gr.getD (s.indmem + r + col) 0 = 0) :
    ∃ s', forN r (gradRow e d Q x r col) s = .ok s' ∧ GLen NL NE s' ∧ s'.indmem = s.indmem ∧ s'.onuni = s.onuni + r ∧
      (∀ p, p ≠ s.indmem + r + col → s'.lr.getD p 0 = s.lr.getD p 0 ∧ s'.gr.getD p 0 = s.gr.getD p 0) ∧
      s'.lr.getD (s.indmem + r + col) 0 = ∑ i ∈ range r, s.lr.getD (s.indmem + i) 0 * Q.val e x i col ∧
      s'.gr.getD (s.indmem + r + col) 0 = ∑ i ∈ range r, s.lr.getD (s.indmem + i) 0 * Q.vd d x i col ∧
      (∀ p < s.onuni, s'.ev.getD p 0 = s.ev.getD p 0) ∧
      (∀ i < r, s'.ev.getD (s.onuni + i) 0 = Q.val e x i col) := by
  refine forN_spec (n := r) (s := s) (body := gradRow e d Q x r col) (I := fun k s' => GLen NL NE s' ∧ s'.indmem = s.indmem ∧ s'.onuni = s.onuni + k ∧
      (∀ p, p ≠ s.indmem + r + col → s'.lr.getD p 0 = s.lr.getD p 0 ∧ s'.gr.getD p 0 = s.gr.getD p 0) ∧
      s'.lr.getD (s.indmem + r + col) 0 = ∑ i ∈ range k, s.lr.getD (s.indmem + i) 0 * Q.val e x i col ∧
      s'.gr.getD (s.indmem + r + col) 0 = ∑ i ∈ range k, s.lr.getD (s.indmem + i) 0 * Q.vd d x i col ∧
      (∀ p < s.onuni, s'.ev.getD p 0 = s.ev.getD p 0) ∧
      (∀ i < k, s'.ev.getD (s.onuni + i) 0 = Q.val e x i col)) ?_ ?_
  · exact ⟨hlen, rfl, rfl, fun _ _ => ⟨rfl, rfl⟩, by simpa using hz, by simpa using hz', fun _ _ => rfl, by simp⟩
  · rintro k hk s' ⟨hl, him, hon, hsame, hlr, hgr, hev, hev2⟩
    obtain ⟨f, hf1, hf2, hf3⟩ := hW.rd e d x (i := k) (j := col) (by omega) hc
    rw [hr] at hf1
    have h1 : s'.onuni < s'.ev.length := by rw [hl.ev]; omega
    have h2 : s'.onuni < s'.gd.length := by rw [hl.gd]; omega
    have h3 : s'.indmem + r + col < s'.lr.length := by rw [hl.lr]; omega
    have h4 : s'.indmem + r + col < s'.gr.length := by rw [hl.gr]; omega
    have h5 : s'.indmem + k < s'.lr.length := by rw [hl.lr]; omega
    have hne : s'.indmem + r + col ≠ s'.indmem + k := by omega
    refine ⟨⟨s'.lr.set (s'.indmem + r + col) (s'.lr.getD (s'.indmem + r + col) 0 + s'.lr.getD (s'.indmem + k) 0 * Q.val e x k col),
      s'.gr.set (s'.indmem + r + col) (s'.gr.getD (s'.indmem + r + col) 0 + s'.lr.getD (s'.indmem + k) 0 * Q.vd d x k col),
      s'.ev.set s'.onuni (Q.val e x k col), s'.gd.set s'.onuni (Q.vd d x k col), s'.onuni + 1, s'.indmem⟩, ?_, ?_⟩
    · rw [gradRow, hf1, bind_ok, wr_ok _ h1, bind_ok, wr_ok _ h2, bind_ok, rd_getD 0 (by simpa using h1), bind_ok,
        rd_getD 0 (by simpa using h2), bind_ok, rd_getD 0 h3, bind_ok, rd_getD 0 h5, bind_ok, wr_ok _ h3, bind_ok,
        rd_getD 0 h4, bind_ok, rd_getD 0 (by simpa using h5), bind_ok, wr_ok _ h4, bind_ok, pure_eq_ok, hf2, hf3,
        getD_set_self _ _ h1, getD_set_self _ _ h2, getD_set_ne _ _ hne]
    · rw [him] at h3 h4 h5 hne
      rw [hon] at h1 h2
      simp only [him, hon]
      have hk0 : s'.lr.getD (s.indmem + k) 0 = s.lr.getD (s.indmem + k) 0 := (hsame _ hne.symm).1
      refine ⟨⟨by simp [hl.lr], by simp [hl.gr], by simp [hl.ev], by simp [hl.gd]⟩, trivial, by omega, ?_, ?_, ?_, ?_, ?_⟩
      · intro p hp
        rw [getD_set_ne _ _ hp.symm, getD_set_ne _ _ hp.symm]
        exact hsame p hp
      · rw [getD_set_self _ _ h3, hlr, sum_range_succ, hk0]
      · rw [getD_set_self _ _ h4, hgr, sum_range_succ, hk0]
      · intro p hp
        rw [getD_set_ne _ _ (by omega)]
        exact hev p hp
      · intro i hi
        by_cases hik : i = k
        · subst hik
          rw [getD_set_self _ _ h1]
        · rw [getD_set_ne _ _ (by omega)]
          exact hev2 i (by omega)

theorem gradCols {NL NE r : Nat} {s : GSt K} (hW : Q.WF) (hr : Q.nrows = r) (hlen : GLen NL NE s)
    (hNL : s.indmem + r + Q.ncols ≤ NL) (hNE : s.onuni + Q.ncols * r ≤ NE) :
    ∃ s', forN Q.ncols (gradCol e d Q x r) s = .ok s' ∧ GLen NL NE s' ∧ s'.indmem = s.indmem ∧ s'.onuni = s.onuni + Q.ncols * r ∧
      (∀ p < s.indmem + r, s'.lr.getD p 0 = s.lr.getD p 0 ∧ s'.gr.getD p 0 = s.gr.getD p 0) ∧
      (∀ c < Q.ncols, s'.lr.getD (s.indmem + r + c) 0 = ∑ i ∈ range r, s.lr.getD (s.indmem + i) 0 * Q.val e x i c ∧
        s'.gr.getD (s.indmem + r + c) 0 = ∑ i ∈ range r, s.lr.getD (s.indmem + i) 0 * Q.vd d x i c) ∧
      (∀ p < s.onuni, s'.ev.getD p 0 = s.ev.getD p 0) ∧
      (∀ c < Q.ncols, ∀ i < r, s'.ev.getD (s.onuni + (c * r + i)) 0 = Q.val e x i c) := by
  refine forN_spec (n := Q.ncols) (s := s) (body := gradCol e d Q x r) (I := fun k s' => GLen NL NE s' ∧ s'.indmem = s.indmem ∧ s'.onuni = s.onuni + k * r ∧
      (∀ p < s.indmem + r, s'.lr.getD p 0 = s.lr.getD p 0 ∧ s'.gr.getD p 0 = s.gr.getD p 0) ∧
      (∀ c < k, s'.lr.getD (s.indmem + r + c) 0 = ∑ i ∈ range r, s.lr.getD (s.indmem + i) 0 * Q.val e x i c ∧
        s'.gr.getD (s.indmem + r + c) 0 = ∑ i ∈ range r, s.lr.getD (s.indmem + i) 0 * Q.vd d x i c) ∧
      (∀ p < s.onuni, s'.ev.getD p 0 = s.ev.getD p 0) ∧
      (∀ c < k, ∀ i < r, s'.ev.getD (s.onuni + (c * r + i)) 0 = Q.val e x i c)) ?_ ?_
  · exact ⟨hlen, rfl, by simp, fun _ _ => ⟨rfl, rfl⟩, by simp, fun _ _ => rfl, by simp⟩
  · rintro k hk s' ⟨hl, him, hon, hsame, hcol, hev, hev2⟩
    have h3 : s'.indmem + r + k < s'.lr.length := by rw [hl.lr]; omega
    have h4 : s'.indmem + r + k < s'.gr.length := by rw [hl.gr]; omega
    have hkr : k * r + r ≤ Q.ncols * r := by
      have : (k + 1) * r ≤ Q.ncols * r := Nat.mul_le_mul_right r hk
      rwa [Nat.succ_mul] at this
    obtain ⟨s'', g1, gl, gim, gon, gsame, glr, ggr, gev, gev2⟩ := gradRows (e := e) (d := d) (x := x) (NL := NL) (NE := NE)
      (s := { s' with lr := s'.lr.set (s'.indmem + r + k) 0, gr := s'.gr.set (s'.indmem + r + k) 0 }) hW hr hk
      ⟨by simp [hl.lr], by simp [hl.gr], hl.ev, hl.gd⟩ (by show s'.indmem + r + k < NL; omega)
      (by show s'.onuni + r ≤ NE; omega) (getD_set_self _ _ h3) (getD_set_self _ _ h4)
    simp only [him, hon] at h3 h4 gim gon gsame glr ggr gev gev2
    have hpre : ∀ i < r, (s'.lr.set (s.indmem + r + k) 0).getD (s.indmem + i) 0 = s.lr.getD (s.indmem + i) 0 := by
      intro i hi
      rw [getD_set_ne _ _ (by omega)]
      exact (hsame _ (by omega)).1
    refine ⟨s'', ?_, gl, gim, by rw [gon, Nat.succ_mul]; omega, ?_, ?_, ?_, ?_⟩
    · rw [gradCol, wr_ok _ (by rw [him]; exact h3), bind_ok, wr_ok _ (by rw [him]; exact h4), bind_ok]; exact g1
    · intro p hp
      obtain ⟨a, b⟩ := gsame p (by omega)
      rw [a, b, getD_set_ne _ _ (by omega), getD_set_ne _ _ (by omega)]
      exact hsame p hp
    · intro c hc
      by_cases hck : c = k
      · subst hck
        rw [glr, ggr]
        exact ⟨sum_congr rfl fun i hi => by rw [hpre i (mem_range.1 hi)], sum_congr rfl fun i hi => by rw [hpre i (mem_range.1 hi)]⟩
      · obtain ⟨a, b⟩ := gsame (s.indmem + r + c) (by omega)
        rw [a, b, getD_set_ne _ _ (by omega), getD_set_ne _ _ (by omega)]
        exact hcol c (by omega)
    · intro p hp
      rw [gev p (by omega)]; exact hev p hp
    · intro c hc i hi
      by_cases hck : c = k
      · subst hck
        rw [← Nat.add_assoc]
        exact gev2 i hi
      · have hcr : c * r + r ≤ k * r := by
          have : (c + 1) * r ≤ k * r := Nat.mul_le_mul_right r (by omega)
          rwa [Nat.succ_mul] at this
        rw [gev _ (by omega)]
        exact hev2 c (by omega) i hi

end fwd

section sweep
variable {e : Ev K U X} {d : U → X → K} {ft : FT K U} {x : List X}

/-- Offset of the left products of core `k` in `evals_lr`. -/
def goff (ft : FT K U) (k : Nat) : Nat := ∑ j ∈ Ico 1 k, ft.rk j
/-- Offset of the entries of core `k` in `evals`. -/
def guo (ft : FT K U) (k : Nat) : Nat := ft.rk 1 + ∑ j ∈ Ico 1 k, ft.rk (j + 1) * ft.rk j

theorem goff_succ {k : Nat} (hk : 1 ≤ k) : goff ft (k + 1) = goff ft k + ft.rk k := by rw [goff, sum_Ico_succ_top hk, goff]
theorem guo_succ {k : Nat} (hk : 1 ≤ k) : guo ft (k + 1) = guo ft k + ft.rk (k + 1) * ft.rk k := by
  rw [guo, sum_Ico_succ_top hk, guo]; omega
@[simp] theorem goff_one : goff ft 1 = 0 := by simp [goff]
@[simp] theorem guo_one : guo ft 1 = ft.rk 1 := by simp [guo]

theorem goff_mono {j k : Nat} (hj : 1 ≤ j) (hjk : j < k) : goff ft j + ft.rk j ≤ goff ft k := by
  rw [← goff_succ hj, goff, goff]
  exact sum_le_sum_of_subset (Ico_subset_Ico_right hjk)

theorem guo_mono {j k : Nat} (hj : 1 ≤ j) (hjk : j < k) : guo ft j + ft.rk (j + 1) * ft.rk j ≤ guo ft k := by
  rw [← guo_succ hj, guo, guo]
  exact Nat.add_le_add_left (sum_le_sum_of_subset (Ico_subset_Ico_right hjk)) _

theorem goff_le {mr : Nat} (hmr : ∀ k ≤ ft.dim, ft.rk k ≤ mr) : ∀ {k : Nat}, 1 ≤ k → k ≤ ft.dim → goff ft k + mr ≤ mr * k
  | 0, h, _ => by omega
  | 1, _, _ => by simp
  | k + 2, _, h => by
    rw [goff_succ (by omega), Nat.mul_succ]
    have := goff_le hmr (k := k + 1) (by omega) (by omega)
    have := hmr (k + 1) (by omega)
    omega

theorem guo_le {mr : Nat} (h1 : 1 ≤ mr) (hmr : ∀ k ≤ ft.dim, ft.rk k ≤ mr) : ∀ {k : Nat}, 1 ≤ k → k ≤ ft.dim →
    guo ft k ≤ mr * mr * k
  | 0, h, _ => by omega
  | 1, _, h => by
    have := hmr 1 h
    have : mr ≤ mr * mr := Nat.le_mul_of_pos_left mr h1
    simp; omega
  | k + 2, _, h => by
    rw [guo_succ (by omega), Nat.mul_succ]
    have := guo_le h1 hmr (k := k + 1) (by omega) (by omega)
    have := Nat.mul_le_mul (hmr (k + 1 + 1) (by omega)) (hmr (k + 1) (by omega))
    omega

/-- Left product of the cores before `k`, times the derivative of core `k - 1` in place of its value. -/
def gradL (e : Ev K U X) (d : U → X → K) (ft : FT K U) (x : List X) (k c : Nat) : K :=
  ∑ r ∈ range (ft.rk (k - 1)), preL e ft x (k - 1) r *
    match ft.cores[k - 1]?, x[k - 1]? with
    | some Q, some xk => Q.vd d xk r c
    | _, _ => 0

theorem gradL_succ {k : Nat} {Q : Qma U} (hQ : ft.cores[k]? = some Q) {xk : X} (hxk : x[k]? = some xk) (c : Nat) :
    gradL e d ft x (k + 1) c = ∑ r ∈ range (ft.rk k), preL e ft x k r * Q.vd d xk r c := by
  simp only [gradL, Nat.add_sub_cancel, hQ, hxk]

/-- What the forward sweep has stored when core `kk` is next. -/
structure GInv (e : Ev K U X) (d : U → X → K) (ft : FT K U) (x : List X) (NL NE kk : Nat) (s : GSt K) : Prop where
  len : GLen NL NE s
  im : s.indmem = goff ft kk
  on : s.onuni = guo ft kk
  left : ∀ k, 1 ≤ k → k ≤ kk → ∀ c < ft.rk k, s.lr.getD (goff ft k + c) 0 = preL e ft x k c ∧
    s.gr.getD (goff ft k + c) 0 = gradL e d ft x k c
  ent : ∀ k, 1 ≤ k → k < kk → ∀ Q xk, ft.cores[k]? = some Q → x[k]? = some xk → ∀ c < ft.rk (k + 1), ∀ i < ft.rk k,
    s.ev.getD (guo ft k + (c * ft.rk k + i)) 0 = Q.val e xk i c

theorem gradCore_ok {NL NE kk : Nat} {s : GSt K} (h : ft.WF) (hx : ft.dim ≤ x.length) (h1 : 1 ≤ kk) (hk : kk < ft.dim)
    (hI : GInv e d ft x NL NE kk s) (hNL : goff ft (kk + 1) + ft.rk (kk + 1) ≤ NL) (hNE : guo ft (kk + 1) ≤ NE) :
    ∃ s', gradCore e d ft x kk s = .ok s' ∧ GInv e d ft x NL NE (kk + 1) s' := by
  obtain ⟨Q, hQ1, hQ2, hW, hr, hc, hr1, hr2⟩ := h.get hk
  have hxk : x[kk]? = some x[kk] := List.getElem?_eq_getElem (by omega)
  rw [goff_succ h1] at hNL
  rw [guo_succ h1] at hNE
  obtain ⟨s', g1, gl, gim, gon, gsame, gcol, gev, gev2⟩ := gradCols (e := e) (d := d) (x := x[kk]) hW hr hI.len
    (by rw [hI.im, hc]; omega) (by rw [hI.on, hc]; omega)
  rw [hI.im, hI.on, hc] at *
  refine ⟨{ s' with indmem := s'.indmem + ft.rk kk }, ?_, ⟨gl.lr, gl.gr, gl.ev, gl.gd⟩, ?_, ?_, ?_, ?_⟩
  · rw [gradCore, hQ1, bind_ok, rd_of_getElem? hxk, bind_ok, hr1, bind_ok, hr2, bind_ok, g1, bind_ok, pure_eq_ok]
  · show s'.indmem + ft.rk kk = _
    rw [gim, goff_succ h1]
  · show s'.onuni = _
    rw [gon, guo_succ h1]
  · intro k hk1 hk2 c hcc
    by_cases hkk : k = kk + 1
    · subst hkk
      obtain ⟨a, b⟩ := gcol c hcc
      rw [goff_succ h1]
      refine ⟨a.trans ?_, b.trans ?_⟩
      · rw [preL_succ h hx hk hQ2 hxk]
        refine sum_congr rfl fun i hi => ?_
        rw [(hI.left kk h1 (Nat.le_refl _) i (mem_range.1 hi)).1, mul_comm]
      · rw [gradL_succ hQ2 hxk]
        refine sum_congr rfl fun i hi => ?_
        rw [(hI.left kk h1 (Nat.le_refl _) i (mem_range.1 hi)).1]
    · have hlt : goff ft k + c < goff ft kk + ft.rk kk := by
        by_cases hkk' : k = kk
        · subst hkk'; omega
        · have := goff_mono (ft := ft) hk1 (show k < kk by omega); omega
      obtain ⟨a, b⟩ := gsame _ hlt
      obtain ⟨a', b'⟩ := hI.left k hk1 (by omega) c hcc
      exact ⟨a.trans a', b.trans b'⟩
  · intro k hk1 hk2 Q' xk hQ' hxk' c hcc i hi
    by_cases hkk : k = kk
    · subst hkk
      rw [hQ2, Option.some.injEq] at hQ'
      rw [hxk, Option.some.injEq] at hxk'
      subst hQ' hxk'
      exact gev2 c hcc i hi
    · have := guo_mono (ft := ft) hk1 (show k < kk by omega)
      have h' : c * ft.rk k + ft.rk k ≤ ft.rk (k + 1) * ft.rk k := by
        have : (c + 1) * ft.rk k ≤ ft.rk (k + 1) * ft.rk k := Nat.mul_le_mul_right _ (by omega)
        rwa [Nat.succ_mul] at this
      exact (gev _ (by omega)).trans (hI.ent k hk1 (by omega) Q' xk hQ' hxk' c hcc i hi)

theorem gradFirst_ok {NL NE : Nat} {s : GSt K} (h : ft.WF) (hx : ft.dim ≤ x.length) {Q : Qma U} (hQ : ft.cores[0]? = some Q)
    {x0 : X} (hx0 : x[0]? = some x0) (hlen : GLen NL NE s) (him : s.indmem = 0) (hon : s.onuni = 0) (hNL : ft.rk 1 ≤ NL) :
    ∃ s', forN (ft.rk 1) (gradFirst e d Q x0) s = .ok s' ∧ GInv e d ft x NL NE 1 s' := by
  have hd : 0 < ft.dim := by rw [h.dim]; exact h.len_pos
  obtain ⟨Q', -, hQ', hW, hr, hc, -⟩ := h.get hd
  rw [hQ, Option.some.injEq] at hQ'
  subst hQ'
  rw [h.rk_zero] at hr
  obtain ⟨s', g1, gl, gim, gon, gv⟩ := forN_spec (n := ft.rk 1) (s := s) (body := gradFirst e d Q x0)
    (I := fun k s' => GLen NL NE s' ∧ s'.indmem = 0 ∧ s'.onuni = k ∧ ∀ c < k, s'.lr.getD c 0 = Q.val e x0 0 c ∧
      s'.gr.getD c 0 = Q.vd d x0 0 c) ⟨hlen, him, hon, by simp⟩ (by
    rintro k hk s' ⟨hl, him, hon, hv⟩
    obtain ⟨f, hf1, hf2, hf3⟩ := hW.rd e d x0 (i := 0) (j := k) (by omega) (by rw [hc]; exact hk)
    rw [hr, Nat.mul_one, Nat.zero_add] at hf1
    have h3 : k < s'.lr.length := by rw [hl.lr]; omega
    have h4 : k < s'.gr.length := by rw [hl.gr]; omega
    refine ⟨_, by rw [gradFirst, hf1, bind_ok, wr_ok _ h3, bind_ok, wr_ok _ h4, bind_ok, pure_eq_ok], ?_⟩
    refine ⟨⟨by simp [hl.lr], by simp [hl.gr], hl.ev, hl.gd⟩, him, by simp [hon], ?_⟩
    intro c hcc
    by_cases hck : c = k
    · subst hck
      exact ⟨(getD_set_self _ _ h3).trans hf2, (getD_set_self _ _ h4).trans hf3⟩
    · exact ⟨(getD_set_ne _ _ (Ne.symm hck)).trans (hv c (by omega)).1, (getD_set_ne _ _ (Ne.symm hck)).trans (hv c (by omega)).2⟩)
  refine ⟨s', g1, gl, by simp [gim], by simp [gon], ?_, ?_⟩
  · intro k hk1 hk2 c hcc
    obtain rfl : k = 1 := by omega
    obtain ⟨a, b⟩ := gv c hcc
    rw [goff_one, Nat.zero_add, a, b, preL_one h hx hQ hx0, gradL_succ hQ hx0, h.rk_zero, sum_range_one]
    exact ⟨rfl, by simp [preL, pre]⟩
  · intro k hk1 hk2; omega

end sweep
end C3.Ft
