/-
One step of the left-to-right sweep of rounding.
-/
import Verif.Round.Orthor

set_option linter.unusedSectionVars false

namespace C3.Round
open Finset C3.Ft
variable {U X : Type} {e : Ev ℝ U X} {F : Fam U X} {I : Integ ℝ X}

theorem ichain2_symm {As : List (Qma U)} : ∀ {Bs : List (Qma U)} {k i j : Nat}, As.length = Bs.length →
    ichain2 e I k As Bs i j = ichain2 e I k Bs As j i := by
  induction As with
  | nil =>
    intro Bs k i j h
    have : Bs = [] := List.length_eq_zero_iff.1 (by simpa using h.symm)
    subst this
    simp only [ichain2]
    exact mul_comm _ _
  | cons A As ih =>
    intro Bs k i j h
    cases Bs with
    | nil => simp at h
    | cons B Bs =>
      simp only [ichain2]
      rw [sum_comm]
      refine sum_congr rfl fun d _ => sum_congr rfl fun c _ => ?_
      rw [ih (by simpa using h)]
      simp only [mul_comm]

/-- The decomposition `t` of `A`, as the truncation of an exact decomposition. -/
structure TGood (e : Ev ℝ U X) (F : Fam U X) (I : Integ ℝ X) (k : Nat) (A : Qma U) (w : Svd) (φ : Nat → Nat → X → ℝ)
    (t : QTsvd U) : Prop where
  dec : Dec e F I k A t.core (fun p => w.s.getD p 0) (fun p j => w.s.getD p 0 * ent A.ncols w.vt p j) φ
  cols : t.core.ncols = t.rank
  pos : 1 ≤ t.rank
  ls : t.rank ≤ t.s.length
  s : ∀ p < t.rank, t.s.getD p 0 = w.s.getD p 0
  lvt : t.vt.length = t.rank * A.ncols
  vt : ∀ p < t.rank, ∀ j < A.ncols, ent t.rank t.vt p j = ent A.ncols w.vt p j

/-- C105: the truncated decomposition of an array of functions. -/
theorem qmaTsvd_ok {o : RdOps U} (hI : IntLaw F.D I) (hm : MemLaw2 e F I) (hL : LinLaw e o.lin F) (hqr : QrLaw e F I o.qr)
    (hsvd : SvdLaw o.svd) {k : Nat} {A : Qma U} (hA : QOk F k A) (hr : 0 < A.nrows) (hc : 0 < A.ncols) (delta : ℝ) :
    ∃ w φ t, qmaTsvd o k A delta = .ok t ∧ TGood e F I k A w φ t ∧ RankSpec A.ncols w.s delta t.rank := by
  obtain ⟨⟨Q, R⟩, q1, q2⟩ := hqr k A hA hr hc
  obtain ⟨w, t, t1, t2, t3⟩ := truncSvd_ok hsvd hc q2.len delta
  have hrk := t3.rank
  obtain ⟨Cc, c1, c2⟩ := qmam_value hL q2.ok (R := t.u) (b := t.rank) (by rw [q2.ncols]; exact hc)
    (by rw [t3.lu, q2.ncols])
  rw [q2.nrows, q2.ncols] at c2
  have hQV : ∀ i < A.nrows, ∀ c < A.ncols, ∀ c' < A.ncols, I.V k (fun x => Q.val e x i c * Q.val e x i c') :=
    fun i hi c hc c' hc' => val_mem2 hm q2.ok.wf q2.ok.mem q2.ok.wf q2.ok.mem (by rw [q2.nrows]; exact hi)
      (by rw [q2.ncols]; exact hc) (by rw [q2.nrows]; exact hi) (by rw [q2.ncols]; exact hc')
  have hon : ∀ c < A.ncols, ∀ c' < A.ncols,
      ∑ i ∈ range A.nrows, I.J k (fun x => Q.val e x i c * Q.val e x i c') = if c = c' then 1 else 0 := by
    have := q2.on
    rw [ColON, q2.nrows, q2.ncols] at this
    exact this
  -- integrals of products of rotated columns
  have hφ : ∀ i < A.nrows, ∀ p < A.ncols, ∀ q < A.ncols,
      I.V k (fun x => (∑ c ∈ range A.ncols, Q.val e x i c * ent A.ncols w.u c p)
        * (∑ c ∈ range A.ncols, Q.val e x i c * ent A.ncols w.u c q)) ∧
      I.J k (fun x => (∑ c ∈ range A.ncols, Q.val e x i c * ent A.ncols w.u c p)
        * (∑ c ∈ range A.ncols, Q.val e x i c * ent A.ncols w.u c q))
        = ∑ c ∈ range A.ncols, ∑ c' ∈ range A.ncols,
          (ent A.ncols w.u c p * ent A.ncols w.u c' q) * I.J k (fun x => Q.val e x i c * Q.val e x i c') := by
    intro i hi p hp q hq
    have := J_sum2 hI (k := k) A.ncols A.ncols (w := fun c c' => ent A.ncols w.u c p * ent A.ncols w.u c' q)
      (g := fun c c' x => Q.val e x i c * Q.val e x i c') (hQV i hi)
    have he : (fun x => (∑ c ∈ range A.ncols, Q.val e x i c * ent A.ncols w.u c p)
        * (∑ c ∈ range A.ncols, Q.val e x i c * ent A.ncols w.u c q))
        = fun x => ∑ c ∈ range A.ncols, ∑ c' ∈ range A.ncols,
          ent A.ncols w.u c p * ent A.ncols w.u c' q * (Q.val e x i c * Q.val e x i c') := by
      funext x
      rw [sum_mul_sum]
      exact sum_congr rfl fun c _ => sum_congr rfl fun c' _ => by ring
    rw [he]
    exact this
  refine ⟨w, fun i p x => ∑ c ∈ range A.ncols, Q.val e x i c * ent A.ncols w.u c p, ⟨Cc, t.rank, t.s, t.vt⟩, ?_, ?_, hrk⟩
  · rw [qmaTsvd, q1, bind_ok]
    dsimp only
    rw [t1, bind_ok, c1, bind_ok, pure_eq_ok]
  · refine ⟨⟨hA, ⟨c2.wf, c2.mem⟩, c2.nrows, by rw [c2.ncols]; exact hrk.le, ?_, ?_, fun i hi p hp q hq => (hφ i hi p hp q hq).1,
      ?_, ?_⟩, c2.ncols, hrk.pos, le_of_eq t3.ls.symm, t3.s, t3.lvt, t3.vt⟩
    · intro x hx i hi j hj
      rw [q2.val x hx i hi j hj]
      dsimp only
      simp only [mul_sum]
      rw [sum_comm]
      refine sum_congr rfl fun c hc' => ?_
      rw [t2.prod c (mem_range.1 hc') j hj, mul_sum]
      exact sum_congr rfl fun p _ => by ring
    · intro x hx i hi p hp
      have hp' : p < t.rank := by rw [← c2.ncols]; exact hp
      rw [c2.val x hx i hi p hp']
      exact sum_congr rfl fun c hc' => by rw [t3.u c (mem_range.1 hc') p hp']
    · intro p hp q hq
      rw [sum_congr rfl fun i hi => (hφ i (mem_range.1 hi) p hp q hq).2, sum_comm]
      rw [← t2.uon p hp q hq]
      refine sum_congr rfl fun c hc' => ?_
      rw [sum_comm]
      have := sum_delta (n := A.ncols) (f := fun c' => ent A.ncols w.u c p * ent A.ncols w.u c' q) (mem_range.1 hc')
      rw [← this]
      refine sum_congr rfl fun c' hc'' => ?_
      rw [← mul_sum, hon c (mem_range.1 hc') c' (mem_range.1 hc'')]
      simp only [eq_comm]
    · intro p hp
      have := t2.von p hp p hp
      rw [if_pos rfl] at this
      calc _ = ∑ j ∈ range A.ncols, w.s.getD p 0 ^ 2 * (ent A.ncols w.vt p j * ent A.ncols w.vt p j) :=
            sum_congr rfl fun j _ => by ring
        _ = _ := by rw [← mul_sum, this, mul_one]

theorem collect_take {α : Type} {l : List α} {n : Nat} (h : n ≤ l.length) : collect n (fun i => rd l i) = .ok (l.take n) := by
  have := forN_traj (fun i => l.take i) (n := n) (body := fun i acc => rd l i >>= fun v => pure (acc ++ [v]))
    (fun i hi => by
      rw [rd_ok (by omega), bind_ok, pure_eq_ok, List.take_add_one, List.getElem?_eq_getElem (by omega)]
      rfl)
  exact this

/-- C105: the cut to a rank bound keeps a truncation of the same exact decomposition. -/
theorem cutOpt_ok {k : Nat} {A : Qma U} {w : Svd} {φ : Nat → Nat → X → ℝ} {t : QTsvd U} (h : TGood e F I k A w φ t)
    {mr : Option Nat} (hmr : ∀ m, mr = some m → 0 < m) :
    ∃ t', cutOpt mr A.ncols t = .ok t' ∧ TGood e F I k A w φ t' ∧ t'.rank = (mr.elim t.rank (fun m => min m t.rank)) := by
  cases mr with
  | none => exact ⟨t, rfl, h, rfl⟩
  | some m =>
    have hm := hmr m rfl
    rw [cutOpt, cutTo]
    by_cases hlt : t.rank > m
    · rw [if_pos hlt]
      have hwf : t.core.funcs.length = t.core.nrows * t.core.ncols := h.dec.okC.wf
      have hle : t.core.nrows * m ≤ t.core.funcs.length := by
        rw [hwf, h.cols]; exact Nat.mul_le_mul_left _ (by omega)
      have e1 : firstCols t.core m = .ok ⟨t.core.nrows, m, t.core.funcs.take (t.core.nrows * m)⟩ := by
        rw [firstCols, cassert, if_pos (decide_eq_true (by rw [h.cols]; omega)), bind_ok, collect_take hle, bind_ok, pure_eq_ok]
      have e2 : forN A.ncols (fun jj => forN m (fun ii vt => do
          let x ← rd t.vt (jj * t.rank + ii)
          wr vt (jj * m + ii) x)) (List.replicate (m * A.ncols) 0) = .ok (cm m A.ncols (fun p j => ent t.rank t.vt p j)) := by
        refine forN_fill_cm _ (by simp) ?_
        intro j hj p hp b hb
        rw [rd_getD 0 (by rw [h.lvt]; exact cm_idx_lt (by omega) hj), bind_ok]
        rfl
      have hsub : ∀ f ∈ t.core.funcs.take (t.core.nrows * m), F.P k f := fun f hf =>
        h.dec.okC.mem f (List.mem_of_mem_take hf)
      refine ⟨⟨⟨t.core.nrows, m, t.core.funcs.take (t.core.nrows * m)⟩, m, t.s, cm m A.ncols (fun p j => ent t.rank t.vt p j)⟩,
        ?_, ⟨⟨h.dec.okA, ⟨by simp [Qma.WF, hle], hsub⟩, h.dec.rows, ?_, h.dec.valA, ?_, h.dec.mem, h.dec.on, h.dec.len⟩, rfl, hm,
          ?_, ?_, by simp, ?_⟩, ?_⟩
      · rw [e1, bind_ok, e2, bind_ok, pure_eq_ok]
      · have := h.dec.rank; have := h.cols; dsimp only; omega
      · intro x hx i hi p hp
        dsimp only at hp
        have := h.dec.valC x hx i hi p (by rw [h.cols]; omega)
        rw [← this, Qma.val, Qma.val]
        dsimp only
        rw [List.getElem?_take, if_pos (cm_idx_lt (by rw [h.dec.rows]; exact hi) hp)]
      · have := h.ls; dsimp only; omega
      · intro p hp; dsimp only at hp; exact h.s p (by omega)
      · intro p hp j hj
        dsimp only at hp ⊢
        rw [ent, getD_cm _ _ hp hj, h.vt p (by omega) j hj]
      · dsimp only [Option.elim]; omega
    · rw [if_neg hlt]
      refine ⟨t, rfl, h, ?_⟩
      dsimp only [Option.elim]; omega

/-- C105: what is multiplied into the next core. -/
theorem absorb_ok {o : RdOps U} (hL : LinLaw e o.lin F) {k : Nat} {A : Qma U} {w : Svd} {φ : Nat → Nat → X → ℝ} {t : QTsvd U}
    (h : TGood e F I k A w φ t) (hc : 0 < A.ncols) {next : Qma U} (hn : QOk F (k + 1) next) (hr : next.nrows = A.ncols) :
    ∃ T, absorb o t A.ncols next = .ok T ∧
      Rep e F (k + 1) t.rank next.ncols
        (fun x c b => ∑ j ∈ range next.nrows, (w.s.getD c 0 * ent A.ncols w.vt c j) * next.val e x j b) T := by
  obtain ⟨sd, d1, d2, d3⟩ := Arr.diag_value h.ls
  have e1 := dgemmNN_ok (m := t.rank) (n := A.ncols) (k := t.rank) (A := sd) (B := t.vt)
    (c := List.replicate (t.rank * A.ncols) 0) (by rw [d2]) (by rw [h.lvt]) (by simp)
  obtain ⟨T, t1, t2⟩ := mqma_value hL hn (b := t.rank)
    (R := cm t.rank A.ncols (fun i j => ∑ q ∈ range t.rank, sd.getD (q * t.rank + i) 0 * t.vt.getD (j * t.rank + q) 0))
    (by omega) (by rw [hr]; simp)
  refine ⟨T, by rw [absorb, d1, bind_ok, e1, bind_ok, t1], t2.nrows, t2.ncols, t2.wf, t2.mem, ?_⟩
  intro x hx c hc' b hb
  rw [t2.val x hx c hc' b hb]
  refine sum_congr rfl fun j hj => ?_
  have hj := mem_range.1 hj
  rw [hr] at hj
  congr 1
  rw [ent, getD_cm _ _ hc' hj]
  have hdg : ∀ q ∈ range t.rank, sd.getD (q * t.rank + c) 0 * t.vt.getD (j * t.rank + q) 0
      = (w.s.getD q 0 * ent A.ncols w.vt q j) * (if q = c then 1 else 0) := by
    intro q hq
    have hq := mem_range.1 hq
    rw [← h.vt q hq j hj, ← h.s q hq, ent]
    have := d3 c hc' q hq
    rw [List.getD_eq_getElem?_getD, this]
    by_cases hqc : q = c
    · subst hqc; simp
    · simp [hqc, Ne.symm hqc]
  rw [sum_congr rfl hdg]
  exact sum_delta (f := fun q => w.s.getD q 0 * ent A.ncols w.vt q j) hc'

end C3.Round
