/-
The property of optimizer objects (C134).
-/
import Verif.Opt.ObjProps

namespace C3.Oo

variable {K F G A : Type} [Field K]

/-! ## The copy -/

theorem copyTrace_ok {flag : Int} {n : Nat} {b : Option (List K)} (h : flag = 1 → ∃ l, b = some l ∧ n ≤ l.length) :
    ∃ c, copyTrace flag n b = .ok c ∧ (flag = 1 → (∃ l, c = some l ∧ n ≤ l.length) ∧ ∀ i, i < n → at' c i = at' b i) := by
  by_cases hf : flag = 1
  · obtain ⟨l, rfl, hl⟩ := h hf
    obtain ⟨l', e, e'⟩ := move_some (a := List.replicate (8 * n) (0 : K)) (b := l) (n := n) (by simp; omega) hl
    refine ⟨some l', by simp only [copyTrace, if_pos hf, e], fun _ => ⟨⟨l', rfl, by rw [e']; simp; omega⟩, ?_⟩⟩
    intro i hi
    rw [e']
    exact at_take hl hi
  · exact ⟨none, by simp only [copyTrace, if_neg hf], fun h => absurd h hf⟩

/-- The workspace and the parameters of the algorithm, lines 546-562. -/
theorem copy_ok {o : Opt K F G A} (h : Inv o) (ht : TInv o) (hb : o.alg = .batchgrad → o.d = 0) :
    ∃ c, copy o = .ok c ∧ Same o c ∧ Inv c ∧ TInv c ∧ c.fsgd = none := by
  obtain ⟨lb, hlb, elb, llb⟩ := move_fresh (a := List.replicate o.d (-(10 ^ 30 : K))) (by simp) h.lb
  obtain ⟨ub, hub, eub, lub⟩ := move_fresh (a := List.replicate o.d (10 ^ 30 : K)) (by simp) h.ub
  obtain ⟨sg, hsg, eg⟩ := copyTrace_ok (flag := o.stGrad) (n := o.d * o.maxiter) (b := o.sGrad) ht.g
  obtain ⟨sx, hsx, ex⟩ := copyTrace_ok (flag := o.stX) (n := o.d * o.maxiter) (b := o.sX) ht.x
  obtain ⟨sf, hsf, ef⟩ := copyTrace_ok (flag := o.stFunc) (n := o.maxiter) (b := o.sFunc) ht.f
  have fin : ∀ m : Opt K F G A, m.alg = o.alg → m.d = o.d → m.nlocs = o.nlocs → m.ws.getD [] = o.ws.getD [] →
      (HasLs o.alg → m.ls = o.ls) → (o.alg = .sgd → m.sgd = o.sgd) → m.fsgd = none →
      ((m.alg = .bfgs ∨ m.alg = .lbfgs ∨ m.alg = .sgd → Buf m.ws (4 * m.d)) ∧
        (m.alg = .batchgrad → Buf m.ws (2 * m.d)) ∧
        (m.alg = .bruteforce → ∃ k, m.nlocs = some k ∧ Buf m.ws (k * m.d))) →
      (∃ c, (.ok { m with
        f := o.f, farg := o.farg, lb := some lb, ub := some ub, verbose := o.verbose, maxiter := o.maxiter,
        relxtol := o.relxtol,
        absxtol := o.absxtol, relftol := o.relftol, gtol := o.gtol,
        nevals := o.nevals, ngvals := o.ngvals, niters := o.niters, prev := o.prev, nvec := o.nvec, scale := o.scale,
        stGrad := o.stGrad, stFunc := o.stFunc, stX := o.stX, sGrad := sg, sFunc := sf, sX := sx } :
          C (Opt K F G A)) = .ok c ∧ Same o c ∧ Inv c ∧ TInv c ∧ c.fsgd = none) := by
    intro m ha hd hn hw hl hs hf hB
    refine ⟨_, rfl, ⟨ha, hd, rfl, rfl, by simpa using elb, by simpa using eub, hl, hs, hn, hw, rfl, ⟨rfl, rfl, rfl, rfl⟩, rfl,
      ⟨rfl, rfl, rfl⟩, rfl, ⟨rfl, rfl⟩, ⟨rfl, rfl, rfl⟩, fun h1 => (eg h1).2, fun h1 => (ef h1).2, fun h1 => (ex h1).2⟩,
      ⟨Or.inl ⟨lb, rfl, ?_⟩, Or.inl ⟨ub, rfl, ?_⟩, hB.1, hB.2.1, hB.2.2, ?_, ?_⟩,
      ⟨fun h1 => ?_, fun h1 => (ef h1).1, fun h1 => ?_⟩, hf⟩
    · exact llb.trans hd.symm
    · exact lub.trans hd.symm
    · intro h1
      have h1' : HasLs o.alg := by rw [← ha]; exact h1
      obtain ⟨l, e⟩ := h.ls h1'
      exact ⟨l, (hl h1').trans e⟩
    · intro h1
      have h1' : o.alg = .sgd := by rw [← ha]; exact h1
      obtain ⟨l, e⟩ := h.sgd h1'
      exact ⟨l, (hs h1').trans e⟩
    · obtain ⟨l, e, e'⟩ := (eg h1).1
      exact ⟨l, e, by show m.d * o.maxiter ≤ _; rw [hd]; exact e'⟩
    · obtain ⟨l, e, e'⟩ := (ex h1).1
      exact ⟨l, e, by show m.d * o.maxiter ≤ _; rw [hd]; exact e'⟩
  cases ha : o.alg with
  | bfgs =>
    obtain ⟨w, hw, ew, lw⟩ := move_fresh (a := List.replicate (4 * o.d) (0 : K)) (by simp) (h.newton (Or.inl ha))
    obtain ⟨l, hl⟩ := h.ls (Or.inl ha)
    obtain ⟨c, hc, hr⟩ := fin { (alloc .bfgs o.d : Opt K F G A) with nlocs := o.nlocs, grad := 1, ws := some w, ls := some l }
      ha.symm rfl rfl ew (fun _ => hl.symm) (fun h1 => by rw [ha] at h1; cases h1) rfl
      ⟨fun _ => Or.inl ⟨w, rfl, lw⟩, (by simp [alloc]), (by simp [alloc])⟩
    refine ⟨c, ?_, hr⟩
    rw [← hc]
    simp only [copy, ha, alloc, algWs, hlb, hub, bind_ok, hw, hl, lsCopy_eq, hsg, hsx, hsf]
  | lbfgs =>
    obtain ⟨w, hw, ew, lw⟩ := move_fresh (a := List.replicate (4 * o.d) (0 : K)) (by simp) (h.newton (Or.inr (Or.inl ha)))
    obtain ⟨l, hl⟩ := h.ls (Or.inr (Or.inl ha))
    obtain ⟨c, hc, hr⟩ := fin { (alloc .lbfgs o.d : Opt K F G A) with nlocs := o.nlocs, grad := 1, ws := some w, ls := some l }
      ha.symm rfl rfl ew (fun _ => hl.symm) (fun h1 => by rw [ha] at h1; cases h1) rfl
      ⟨fun _ => Or.inl ⟨w, rfl, lw⟩, (by simp [alloc]), (by simp [alloc])⟩
    refine ⟨c, ?_, hr⟩
    rw [← hc]
    simp only [copy, ha, alloc, algWs, hlb, hub, bind_ok, hw, hl, lsCopy_eq, hsg, hsx, hsf]
  | batchgrad =>
    have hd := hb ha
    have hB := h.batch ha
    rw [hd] at hB
    have hw0 : o.ws.getD [] = [] := List.eq_nil_of_length_eq_zero hB.getD
    obtain ⟨l, hl⟩ := h.ls (Or.inr (Or.inr ha))
    obtain ⟨c, hc, hr⟩ := fin { (alloc .batchgrad o.d : Opt K F G A) with
        nlocs := o.nlocs, grad := 1, ws := some (List.replicate (2 * o.d) 0), ls := some l }
      ha.symm rfl rfl (by rw [hw0, hd]; rfl) (fun _ => hl.symm) (fun h1 => by rw [ha] at h1; cases h1) rfl
      ⟨(by simp [alloc]), fun _ => Buf.rep _ _, (by simp [alloc])⟩
    have hm : move (some (List.replicate (2 * o.d) (0 : K))) o.ws (4 * o.d) = .ok (some (List.replicate (2 * o.d) 0)) := by
      rw [hd]; rfl
    refine ⟨c, ?_, hr⟩
    rw [← hc]
    simp only [copy, ha, alloc, algWs, hlb, hub, bind_ok, hm, hl, lsCopy_eq, hsg, hsx, hsf]
  | sgd =>
    obtain ⟨w, hw, ew, lw⟩ := move_fresh (a := List.replicate (4 * o.d) (0 : K)) (by simp) (h.newton (Or.inr (Or.inr ha)))
    obtain ⟨l, hl⟩ := h.sgd ha
    obtain ⟨c, hc, hr⟩ := fin { (alloc .sgd o.d : Opt K F G A) with nlocs := o.nlocs, ws := some w, sgd := some l }
      ha.symm rfl rfl ew (fun h1 => by rw [ha] at h1; simp [HasLs] at h1) (fun _ => hl.symm) rfl
      ⟨fun _ => Or.inl ⟨w, rfl, lw⟩, (by simp [alloc]), (by simp [alloc])⟩
    refine ⟨c, ?_, hr⟩
    rw [← hc]
    simp only [copy, ha, alloc, algWs, hlb, hub, bind_ok, hw, hl, sgdCopy_eq, hsg, hsx, hsf]
  | bruteforce =>
    obtain ⟨k, hk, hB⟩ := h.brute ha
    rw [Nat.mul_comm] at hB
    obtain ⟨w, hw, ew, lw⟩ := move_fresh (a := List.replicate (k * o.d) (0 : K)) (n := o.d * k)
      (by simp [Nat.mul_comm]) hB
    obtain ⟨c, hc, hr⟩ := fin { (alloc .bruteforce o.d : Opt K F G A) with nlocs := some k, ws := some w }
      ha.symm rfl hk.symm ew (fun h1 => by rw [ha] at h1; simp [HasLs] at h1) (fun h1 => by rw [ha] at h1; cases h1) rfl
      ⟨(by simp [alloc]), (by simp [alloc]), fun _ => ⟨k, rfl, Or.inl ⟨w, rfl, by show _ = k * o.d; rw [Nat.mul_comm]; exact lw⟩⟩⟩
    refine ⟨c, ?_, hr⟩
    rw [← hc]
    simp only [copy, ha, alloc, algWs, hlb, hub, bind_ok, bruteVals, hw, hk, hsg, hsx, hsf]

/-! ## Traces -/

section Trace
variable {K F G A : Type}

/-- Room for `R` iterates in the buffers that are switched on. -/
structure Room (o : Opt K F G A) (R : Nat) : Prop where
  g : o.stGrad = 1 → ∃ l, o.sGrad = some l ∧ R * o.d ≤ l.length
  f : o.stFunc = 1 → ∃ l, o.sFunc = some l ∧ R ≤ l.length
  x : o.stX = 1 → ∃ l, o.sX = some l ∧ R * o.d ≤ l.length

/-- The buffers hold the iterate `it` (value, gradient, point) in row `i`. -/
structure Row (o : Opt K F G A) (i : Nat) (it : K × List K × List K) : Prop where
  f : o.stFunc = 1 → at' o.sFunc i = .ok it.1
  g : o.stGrad = 1 → ∀ j v, j < o.d → it.2.1[j]? = some v → at' o.sGrad (i * o.d + j) = .ok v
  x : o.stX = 1 → ∀ j v, j < o.d → it.2.2[j]? = some v → at' o.sX (i * o.d + j) = .ok v

theorem putRow_ok {b : List K} {d r : Nat} {v : List K} (hb : r * d + d ≤ b.length) (hv : d ≤ v.length) :
    ∃ b', putRow (some b) d r v = .ok (some b') ∧ b'.length = b.length ∧
      (∀ j w, j < d → v[j]? = some w → at' (some b') (r * d + j) = .ok w) ∧
      (∀ k, k < r * d → at' (some b') k = at' (some b) k) := by
  by_cases h0 : d = 0
  · subst h0
    exact ⟨b, rfl, rfl, fun j w hj => by omega, fun k hk => by omega⟩
  · refine ⟨b.take (r * d) ++ v.take d ++ b.drop (r * d + d), by simp only [putRow, if_neg h0, if_pos hb, if_pos hv], ?_, ?_, ?_⟩
    · simp; omega
    · intro j w hj hw
      refine rd_of_getElem? ?_
      rw [List.append_assoc, List.getElem?_append_right (by simp), List.getElem?_append_left (by simp; omega), List.length_take,
        Nat.min_eq_left (by omega), List.getElem?_take, if_pos (by omega), Nat.add_sub_cancel_left]
      exact hw
    · intro k hk
      have hk' : k < b.length := by omega
      simp only [at']
      rw [rd_ok hk', rd_of_getElem? (v := b[k])]
      rw [List.append_assoc, List.getElem?_append_left (by simp; omega), List.getElem?_take, if_pos hk,
        List.getElem?_eq_getElem hk']

theorem record_ok {o : Opt K F G A} {R r : Nat} (hR : Room o R) (hr : r < R) (it : K × List K × List K)
    (hg : o.d ≤ it.2.1.length) (hx : o.d ≤ it.2.2.length) :
    ∃ o', record o r it.1 it.2.1 it.2.2 = .ok o' ∧ o'.d = o.d ∧ o'.niters = o.niters ∧ o'.maxiter = o.maxiter ∧
      (o'.stFunc = o.stFunc ∧ o'.stGrad = o.stGrad ∧ o'.stX = o.stX) ∧ Room o' R ∧ Row o' r it ∧
      ∀ i, i < r → ∀ jt, Row o i jt → Row o' i jt := by
  have hrd : r * o.d + o.d ≤ R * o.d := by
    rw [← Nat.succ_mul]; exact Nat.mul_le_mul_right _ hr
  have key : ∀ (flag : Int) (buf : Option (List K)) (d : Nat) (v : List K), r * d + d ≤ R * d → d ≤ v.length →
      (flag = 1 → ∃ l, buf = some l ∧ R * d ≤ l.length) →
      ∃ b', putIf flag buf d r v = .ok b' ∧
        (flag = 1 → ∃ l, b' = some l ∧ R * d ≤ l.length) ∧
        (flag = 1 → ∀ j w, j < d → v[j]? = some w → at' b' (r * d + j) = .ok w) ∧
        (flag = 1 → ∀ k, k < r * d → at' b' k = at' buf k) := by
    intro flag buf d v h1 h2 h3
    by_cases hf : flag = 1
    · obtain ⟨l, rfl, hl⟩ := h3 hf
      obtain ⟨b', e, e1, e2, e3⟩ := putRow_ok (b := l) (d := d) (r := r) (v := v) (by omega) h2
      exact ⟨some b', by rw [putIf, if_pos hf, e], fun _ => ⟨b', rfl, by omega⟩, fun _ => e2, fun _ => e3⟩
    · exact ⟨buf, by rw [putIf, if_neg hf], fun h => absurd h hf, fun h => absurd h hf, fun h => absurd h hf⟩
  obtain ⟨bf, ef, f1, f2, f3⟩ := key o.stFunc o.sFunc 1 [it.1] (by omega) (by simp)
    (fun h => by obtain ⟨l, e, e'⟩ := hR.f h; exact ⟨l, e, by omega⟩)
  obtain ⟨bg, eg, g1, g2, g3⟩ := key o.stGrad o.sGrad o.d it.2.1 hrd hg hR.g
  obtain ⟨bx, ex, x1, x2, x3⟩ := key o.stX o.sX o.d it.2.2 hrd hx hR.x
  have hlow : ∀ i, i < r → ∀ j, j < o.d → i * o.d + j < r * o.d := by
    intro i hi j hj
    calc i * o.d + j < i * o.d + o.d := by omega
      _ = (i + 1) * o.d := by rw [Nat.succ_mul]
      _ ≤ r * o.d := Nat.mul_le_mul_right _ hi
  refine ⟨{ o with sFunc := bf, sGrad := bg, sX := bx }, ?_, rfl, rfl, rfl, ⟨rfl, rfl, rfl⟩,
    ⟨g1, fun h => ?_, x1⟩, ⟨fun h => ?_, g2, x2⟩, ?_⟩
  · simp only [record, ef, eg, ex, bind_ok]
  · obtain ⟨l, e, e'⟩ := f1 h
    exact ⟨l, e, by omega⟩
  · have := f2 h 0 it.1 (by omega) rfl
    rwa [Nat.mul_one, Nat.add_zero] at this
  · intro i hi jt hrow
    refine ⟨fun h => ?_, fun h j v hj hv => ?_, fun h j v hj hv => ?_⟩
    · show at' bf i = _
      rw [f3 h i (by omega)]
      exact hrow.f h
    · show at' bg (i * o.d + j) = _
      rw [g3 h _ (hlow i hi j hj)]
      exact hrow.g h j v hj hv
    · show at' bx (i * o.d + j) = _
      rw [x3 h _ (hlow i hi j hj)]
      exact hrow.x h j v hj hv

theorem recordRest_ok (R : Nat) (rest : List (K × List K × List K)) : ∀ {o : Opt K F G A} {done : List (K × List K × List K)},
    Room o R → o.niters = done.length → done.length + rest.length ≤ R →
    (∀ it ∈ rest, o.d ≤ it.2.1.length ∧ o.d ≤ it.2.2.length) → (∀ i it, done[i]? = some it → Row o i it) →
    ∃ o', rest.foldlM (fun (p : Opt K F G A) j => do
        let q ← record p p.niters j.1 j.2.1 j.2.2
        .ok { q with niters := p.niters + 1 }) o = (.ok o' : C _) ∧
      o'.d = o.d ∧ o'.maxiter = o.maxiter ∧ (o'.stFunc = o.stFunc ∧ o'.stGrad = o.stGrad ∧ o'.stX = o.stX) ∧ Room o' R ∧
      o'.niters = done.length + rest.length ∧ ∀ i it, (done ++ rest)[i]? = some it → Row o' i it := by
  induction rest with
  | nil =>
    intro o done hR hn _ _ hrow
    exact ⟨o, rfl, rfl, rfl, ⟨rfl, rfl, rfl⟩, hR, by simpa using hn, by simpa using hrow⟩
  | cons it rest ih =>
    intro o done hR hn hlen hok hrow
    have hlen' : done.length + (rest.length + 1) ≤ R := hlen
    obtain ⟨q, hq, qd, qn, qm, ⟨q1, q2, q3⟩, qR, qrow, qold⟩ := record_ok hR (r := o.niters) (by omega) it
      (hok it (by simp)).1 (hok it (by simp)).2
    obtain ⟨o', ho', pd, pm, ⟨p1, p2, p3⟩, pR, pn, prow⟩ := ih (o := { q with niters := o.niters + 1 }) (done := done ++ [it])
      ⟨qR.g, qR.f, qR.x⟩ (by simp [hn]) (by simp; omega)
      (fun jt hj => by
        have := hok jt (List.mem_cons_of_mem _ hj)
        show q.d ≤ _ ∧ q.d ≤ _
        rw [qd]; exact this)
      (by
        intro i jt hi
        have : Row q i jt := by
          by_cases h1 : i < done.length
          · rw [List.getElem?_append_left h1] at hi
            exact qold i (by omega) jt (hrow i jt hi)
          · rw [List.getElem?_append_right (by omega)] at hi
            have h0 : i - done.length = 0 := by
              by_contra hne
              rw [List.getElem?_eq_none (by simp; omega)] at hi
              cases hi
            rw [h0] at hi
            have hi' : it = jt := by simpa using hi
            subst hi'
            have : i = o.niters := by omega
            rw [this]; exact qrow
        exact ⟨this.f, this.g, this.x⟩)
    refine ⟨o', ?_, pd.trans qd, pm.trans qm, ⟨p1.trans q1, p2.trans q2, p3.trans q3⟩, pR, ?_, ?_⟩
    · rw [List.foldlM_cons, hq]
      exact ho'
    · rw [pn]; simp; omega
    · intro i jt hi
      exact prow i jt (by rw [List.append_assoc]; exact hi)

theorem recordAll_ok {o : Opt K F G A} {its : List (K × List K × List K)} (hne : its ≠ []) (hR : Room o its.length)
    (hok : ∀ it ∈ its, o.d ≤ it.2.1.length ∧ o.d ≤ it.2.2.length) :
    ∃ o', recordAll o its = .ok o' ∧ o'.d = o.d ∧ o'.maxiter = o.maxiter ∧
      (o'.stFunc = o.stFunc ∧ o'.stGrad = o.stGrad ∧ o'.stX = o.stX) ∧
      Room o' its.length ∧ o'.niters = its.length ∧ ∀ i it, its[i]? = some it → Row o' i it := by
  cases its with
  | nil => exact absurd rfl hne
  | cons it rest =>
    obtain ⟨q, hq, qd, qn, qm, ⟨q1, q2, q3⟩, qR, qrow, qold⟩ := record_ok (o := { o with niters := 1 }) (R := (it :: rest).length)
      ⟨hR.g, hR.f, hR.x⟩ (r := 0) (by simp) it (hok it (by simp)).1 (hok it (by simp)).2
    obtain ⟨o', ho', pd, pm, ⟨p1, p2, p3⟩, pR, pn, prow⟩ := recordRest_ok (it :: rest).length rest (o := q) (done := [it]) qR qn
      (by simp; omega)
      (fun jt hj => by
        have := hok jt (List.mem_cons_of_mem _ hj)
        rw [qd]; exact this)
      (by
        intro i jt hi
        cases i with
        | zero =>
          have hi' : it = jt := by simpa using hi
          subst hi'
          exact qrow
        | succ i => simp at hi)
    refine ⟨o', ?_, pd.trans qd, pm.trans qm, ⟨p1.trans q1, p2.trans q2, p3.trans q3⟩, pR, ?_, prow⟩
    · simp only [recordAll, hq, bind_ok]
      exact ho'
    · rw [pn]; simp; omega

end Trace

end C3.Oo
