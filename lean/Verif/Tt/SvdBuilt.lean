/-
A train under construction by successive decompositions, and its error when the last core is set.
-/
import Verif.Tt.SvdErr
import Verif.Tt.SvdModel
import Verif.Ft.Prefix

set_option linter.unusedSectionVars false

namespace C3.Tt
open Finset C3.Round

theorem set_getD_self {α : Type} {l : List α} {i : Nat} (v d : α) (h : i < l.length) : (l.set i v).getD i d = v :=
  C3.Ft.getD_set_self v d h

theorem set_getD_ne {α : Type} {l : List α} {i j : Nat} (v d : α) (h : i ≠ j) : (l.set i v).getD j d = l.getD j d :=
  C3.Ft.getD_set_ne v d h

/-- `k` cores have been set. `R j` is the tensor left to be represented after `j` cores, `E j` the squared error of cutting
core `j`; `P` is a bound on the ranks. -/
structure Built (d : Nat) (ns : List Nat) (delta : ℝ) (P : Nat → Nat → Nat → Prop) (k : Nat) (rk : List Nat)
    (cs : List (Option (T3 ℝ))) (R : Nat → Nat → List Nat → ℝ) (E : Nat → ℝ) : Prop where
  rlen : rk.length = d + 1
  clen : cs.length = d
  r0 : rk.getD 0 0 = 1
  rpos : ∀ j ≤ k, 0 < rk.getD j 0
  rb : ∀ j < k, P j (rk.getD j 0) (rk.getD (j + 1) 0)
  core : ∀ j < k, ∃ Q, cs[j]? = some (some Q) ∧ Q.Is (rk.getD j 0) (ns.getD j 0) (rk.getD (j + 1) 0) Q.get ∧
    Split (ns.getD j 0) (rk.getD j 0) (rk.getD (j + 1) 0) (ns.drop (j + 1)) Q.get (R j) (R (j + 1)) (E j)
  bd : ∀ j < k, 0 ≤ E j ∧ (E j = 0 ∨ E j < delta)

theorem Built.step {d : Nat} {ns : List Nat} {delta : ℝ} {P : Nat → Nat → Nat → Prop} {k : Nat} {rk : List Nat}
    {cs : List (Option (T3 ℝ))} {R : Nat → Nat → List Nat → ℝ} {E : Nat → ℝ} (h : Built d ns delta P k rk cs R E) (hk : k < d)
    {r' : Nat} (hr' : 0 < r') {Q : T3 ℝ} (hQ : Q.Is (rk.getD k 0) (ns.getD k 0) r' Q.get) {R' : Nat → List Nat → ℝ} {E' : ℝ}
    (hS : Split (ns.getD k 0) (rk.getD k 0) r' (ns.drop (k + 1)) Q.get (R k) R' E') (hP : P k (rk.getD k 0) r')
    (hE : 0 ≤ E' ∧ (E' = 0 ∨ E' < delta)) :
    Built d ns delta P (k + 1) (rk.set (k + 1) r') (cs.set k (some Q)) (fun j => if j ≤ k then R j else R')
      (fun j => if j < k then E j else E') := by
  have hl : k + 1 < rk.length := by rw [h.rlen]; omega
  have hs : (rk.set (k + 1) r').getD (k + 1) 0 = r' := set_getD_self _ _ hl
  have hn : ∀ j, j ≤ k → (rk.set (k + 1) r').getD j 0 = rk.getD j 0 := fun j hj => set_getD_ne _ _ (by omega)
  refine ⟨by rw [List.length_set, h.rlen], by rw [List.length_set, h.clen], by rw [hn 0 (by omega), h.r0], ?_, ?_, ?_, ?_⟩
  · intro j hj
    by_cases hjk : j = k + 1
    · subst hjk; rw [hs]; exact hr'
    · rw [hn j (by omega)]; exact h.rpos j (by omega)
  · intro j hj
    by_cases hjk : j = k
    · subst hjk; rw [hs, hn _ (le_refl _)]; exact hP
    · rw [hn j (by omega), hn (j + 1) (by omega)]; exact h.rb j (by omega)
  · intro j hj
    by_cases hjk : j = k
    · subst hjk
      refine ⟨Q, List.getElem?_set_self (by rw [h.clen]; exact hk), ?_⟩
      rw [hs, hn _ (le_refl _), if_pos (le_refl _), if_neg (by omega), if_neg (by omega)]
      exact ⟨hQ, hS⟩
    · obtain ⟨Q', h1, h2, h3⟩ := h.core j (by omega)
      refine ⟨Q', by rw [List.getElem?_set_ne (by omega)]; exact h1, ?_⟩
      rw [hn j (by omega), hn (j + 1) (by omega), if_pos (by omega), if_pos (by omega), if_pos (by omega)]
      exact ⟨h2, h3⟩
  · intro j hj
    by_cases hjk : j = k
    · subst hjk; rw [if_neg (by omega)]; exact hE
    · rw [if_pos (by omega)]; exact h.bd j (by omega)

theorem Built.finish {d : Nat} {ns : List Nat} {delta : ℝ} {P : Nat → Nat → Nat → Prop} {rk : List Nat}
    {cs : List (Option (T3 ℝ))} {R : Nat → Nat → List Nat → ℝ} {E : Nat → ℝ} (hd : 1 ≤ d) (hns : ns.length = d)
    (h : Built d ns delta P (d - 1) rk cs R E) {Q : T3 ℝ} (hQ : Q.Is (rk.getD (d - 1) 0) (ns.getD (d - 1) 0) 1 Q.get)
    (hR : ∀ i < rk.getD (d - 1) 0, ∀ e < ns.getD (d - 1) 0, R (d - 1) i [e] = Q.get i e 0) :
    ∃ l, allSome (cs.set (d - 1) (some Q)) = .ok l ∧ (⟨d, ns, rk.set d 1, l⟩ : TT ℝ).WF ∧
      (∀ j < d, (⟨d, ns, rk.set d 1, l⟩ : TT ℝ).rk j = rk.getD j 0) ∧
      msum ns (fun es => (R 0 0 es - (⟨d, ns, rk.set d 1, l⟩ : TT ℝ).elem es) ^ 2) = ∑ k ∈ range (d - 1), E k := by
  have hset : ∀ j < d, ∃ Qj, (cs.set (d - 1) (some Q))[j]? = some (some Qj) ∧
      Qj.Is (rk.getD j 0) (ns.getD j 0) (if j = d - 1 then 1 else rk.getD (j + 1) 0) Qj.get ∧
      (j = d - 1 → Qj = Q) ∧ (j < d - 1 → cs[j]? = some (some Qj)) := by
    intro j hj
    by_cases hjd : j = d - 1
    · subst hjd
      refine ⟨Q, List.getElem?_set_self (by rw [h.clen]; omega), by rw [if_pos rfl]; exact hQ, fun _ => rfl, fun h => by omega⟩
    · obtain ⟨Q', h1, h2, -⟩ := h.core j (by omega)
      refine ⟨Q', by rw [List.getElem?_set_ne (by omega)]; exact h1, by rw [if_neg hjd]; exact h2, fun h => absurd h hjd, fun _ => h1⟩
  obtain ⟨l, hl1, hl2, hl3⟩ := allSome_ok (b := cs.set (d - 1) (some Q)) (fun p hp => by
    rw [List.length_set, h.clen] at hp
    obtain ⟨Qj, h1, -⟩ := hset p hp
    exact ⟨Qj, h1⟩)
  rw [List.length_set, h.clen] at hl2
  have hlj : ∀ j < d, ∃ Qj, l[j]? = some Qj ∧
      Qj.Is (rk.getD j 0) (ns.getD j 0) (if j = d - 1 then 1 else rk.getD (j + 1) 0) Qj.get ∧
      (j = d - 1 → Qj = Q) ∧ (j < d - 1 → cs[j]? = some (some Qj)) := by
    intro j hj
    obtain ⟨Qj, h1, h2⟩ := hset j hj
    have := hl3 j
    rw [h1, List.getElem?_eq_getElem (by omega)] at this
    simp only [Option.map_some, Option.some.injEq] at this
    exact ⟨Qj, by rw [List.getElem?_eq_getElem (by omega), this], h2⟩
  have hrd : ∀ j < d, (rk.set d 1).getD j 0 = rk.getD j 0 := fun j hj => set_getD_ne _ _ (by omega)
  have hrl : (rk.set d 1).getD d 0 = 1 := set_getD_self _ _ (by rw [h.rlen]; omega)
  refine ⟨l, hl1, ?_⟩
  generalize htt : (⟨d, ns, rk.set d 1, l⟩ : TT ℝ) = t
  have e1 : t.dim = d := by rw [← htt]
  have e2 : ∀ j, t.rk j = (rk.set d 1).getD j 0 := fun j => by rw [← htt]; rfl
  have e3 : t.cores = l := by rw [← htt]
  have e4 : ∀ j, t.nv j = ns.getD j 0 := fun j => by rw [← htt]; rfl
  have hsucc : ∀ j < d, (if j = d - 1 then 1 else rk.getD (j + 1) 0) = t.rk (j + 1) := by
    intro j hj
    rw [e2]
    by_cases hjd : j = d - 1
    · rw [if_pos hjd, show j + 1 = d by omega, hrl]
    · rw [if_neg hjd, hrd (j + 1) (by omega)]
  have hG : ∀ j < d, ∃ Qj, t.G j = Qj.get ∧ (j = d - 1 → Qj = Q) ∧ (j < d - 1 → cs[j]? = some (some Qj)) := by
    intro j hj
    obtain ⟨Qj, h1, -, h3, h4⟩ := hlj j hj
    exact ⟨Qj, TT.G_eq (by rw [e3]; exact h1), h3, h4⟩
  refine ⟨?_, fun j hj => by rw [e2, hrd j hj], ?_⟩
  · refine ⟨by omega, by rw [e3, hl2, e1], by rw [e1, ← htt]; show (rk.set d 1).length = _; rw [List.length_set, h.rlen],
      by rw [e1, ← htt]; exact hns, ?_, ?_, ?_, ?_⟩
    · rw [e2, hrd 0 (by omega), h.r0]
    · rw [e1, e2, hrl]
    · intro k hk
      rw [e2]
      by_cases hkd : k = d
      · rw [hkd, hrl]; exact Nat.one_pos
      · rw [hrd k (by omega)]; exact h.rpos k (by omega)
    · intro k Qk hQk
      rw [e3] at hQk
      have hkd : k < d := by rw [← hl2]; exact (List.getElem?_eq_some_iff.1 hQk).1
      obtain ⟨Q', h1, h2, -⟩ := hlj k hkd
      rw [hQk, Option.some.injEq] at h1
      subst h1
      exact ⟨h2.wf, by rw [h2.n0, e2, hrd k hkd], by rw [h2.n1, e4], by rw [h2.n2, hsucc k hkd]⟩
  · have hch := err_chain (s := t.rk) (G := t.G) (ns := ns) (R := R) (E := E) (q := d - 1) (by omega) (by
      intro k hk
      obtain ⟨Qk, g1, -, g3⟩ := hG k (by omega)
      obtain ⟨Q', h1, h2, h3⟩ := h.core k hk
      rw [g3 hk, Option.some.injEq, Option.some.injEq] at h1
      subst h1
      rw [g1, e2, e2, hrd k (by omega), hrd (k + 1) (by omega)]
      exact h3)
    have h0 : errAt t.rk t.G ns R (d - 1) = 0 := by
      rw [errAt]
      refine sum_eq_zero fun i hi => ?_
      have hi := mem_range.1 hi
      rw [e2, hrd (d - 1) (by omega)] at hi
      rw [drop_cons (k := d - 1) (by omega), show d - 1 + 1 = d by omega, List.drop_of_length_le (by omega)]
      simp only [msum]
      refine sum_eq_zero fun e he => ?_
      obtain ⟨Qk, g1, g2, -⟩ := hG (d - 1) (by omega)
      rw [hR i hi e (mem_range.1 he), ← g2 rfl]
      simp only [tail]
      rw [show d - 1 + 1 = d by omega, e2, hrl, sum_range_one, g1, if_pos rfl]
      ring
    rw [h0, zero_add] at hch
    rw [← hch, errAt, e2, hrd 0 (by omega), h.r0, sum_range_one, List.drop_zero]
    rfl

/-- Consequences of the error formula. -/
theorem built_le {d : Nat} {delta : ℝ} {E : Nat → ℝ} (h : ∀ j < d, 0 ≤ E j ∧ (E j = 0 ∨ E j < delta)) (hd : 0 ≤ delta) :
    ∑ k ∈ range d, E k ≤ d * delta := by
  calc ∑ k ∈ range d, E k ≤ ∑ _k ∈ range d, delta := sum_le_sum fun k hk => by
        rcases (h k (mem_range.1 hk)).2 with h | h
        · rw [h]; exact hd
        · exact le_of_lt h
    _ = d * delta := by simp

theorem built_zero {d : Nat} {delta : ℝ} {E : Nat → ℝ} (h : ∀ j < d, 0 ≤ E j ∧ (E j = 0 ∨ E j < delta)) (hd : delta ≤ 0) :
    ∑ k ∈ range d, E k = 0 := by
  refine sum_eq_zero fun k hk => ?_
  obtain ⟨h1, h2 | h2⟩ := h k (mem_range.1 hk)
  · exact h2
  · linarith

theorem msum_eq_zero {ns : List Nat} {f : List Nat → ℝ} (h0 : ∀ es, 0 ≤ f es) (h : msum ns f = 0) :
    ∀ es : List Nat, es.length = ns.length → (∀ m < ns.length, es.getD m 0 < ns.getD m 0) → f es = 0 := by
  induction ns generalizing f with
  | nil =>
    intro es hl _
    have : es = [] := List.length_eq_zero_iff.1 (by simpa using hl)
    subst this
    exact h
  | cons n ns ih =>
    intro es hl hlt
    obtain ⟨e, es, rfl⟩ : ∃ e es', es = e :: es' := by
      cases es with
      | nil => simp at hl
      | cons e es => exact ⟨e, es, rfl⟩
    rw [msum] at h
    have he : e < n := by simpa using hlt 0 (by simp)
    have := (sum_eq_zero_iff_of_nonneg (fun e _ => msum_nonneg ns fun es => h0 (e :: es))).1 h e (mem_range.2 he)
    exact ih (fun es => h0 (e :: es)) this es (by simpa using hl) (fun m hm => by simpa using hlt (m + 1) (by simpa using hm))

end C3.Tt
