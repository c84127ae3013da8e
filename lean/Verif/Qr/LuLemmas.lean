/- The loops of the cross LU factorizations establish the relations of `LRun`. -/
import Verif.Qr.LuModel
import Verif.Qr.LuTheory
import Verif.Qr.Lemmas
import Verif.Lin.Lemmas

set_option linter.unusedSectionVars false

namespace C3.Qr.Lu
open Finset
open C3.Lin (dv dv_ok)

/-- A loop with an invariant whose steps may fail in a described way, together with the states it runs through. -/
theorem forN_chain_err {σ : Type} {n : Nat} {body : Nat → σ → C σ} {s : σ} (I : Nat → σ → Prop) (S : Nat → σ → σ → Prop) (B : Err → Prop) (h0 : I 0 s)
    (hs : ∀ i < n, ∀ s, I i s → (∃ e, body i s = .error e ∧ B e) ∨ ∃ s', body i s = .ok s' ∧ I (i + 1) s' ∧ S i s s') :
    (∃ e, forN n body s = .error e ∧ B e) ∨
    ∃ t : Nat → σ, t 0 = s ∧ forN n body s = .ok (t n) ∧ (∀ i ≤ n, I i (t i)) ∧ ∀ i < n, S i (t i) (t (i + 1)) := by
  induction n with
  | zero => exact Or.inr ⟨fun _ => s, rfl, rfl, fun i hi => by obtain rfl : i = 0 := by omega
                                                               exact h0, fun i hi => by omega⟩
  | succ n ih =>
    rcases ih (fun i hi => hs i (by omega)) with ⟨e, he, hb⟩ | ⟨t, t0, e, hI, hS⟩
    · exact Or.inl ⟨e, by rw [forN_succ, he]; rfl, hb⟩
    · rcases hs n (by omega) (t n) (hI n le_rfl) with ⟨e', he', hb⟩ | ⟨s', e', hI', hS'⟩
      · exact Or.inl ⟨e', by rw [forN_succ, e]; exact he', hb⟩
      · refine Or.inr ⟨fun i => if i ≤ n then t i else s', by simp [t0], ?_, ?_, ?_⟩
        · rw [forN_succ, e]; simpa using e'
        · intro i hi
          dsimp only
          split
          · exact hI i (by omega)
          · obtain rfl : i = n + 1 := by omega
            exact hI'
        · intro i hi
          dsimp only
          by_cases h : i = n
          · subst h; simpa using hS'
          · rw [if_pos (by omega), if_pos (by omega)]; exact hS i (by omega)

theorem getD_setG {α : Type} {d : α} {l : List α} {i : Nat} (hi : i < l.length) (v : α) (k : Nat) : (l.set i v).getD k d = if k = i then v else l.getD k d := by
  rw [List.getD_eq_getElem?_getD, List.getElem?_set, List.getD_eq_getElem?_getD]
  by_cases hk : i = k
  · subst hk; simp [hi]
  · simp [hk, Ne.symm hk]

/-- A loop that replaces the entry at each position `q i`. -/
theorem updG {F : Type} (d : F) {n : Nat} {q : Nat → Nat} {y : List F} {body : Nat → List F → C (List F)} (h : Nat → F → F)
    (hq : ∀ i < n, q i < y.length) (hinj : ∀ i < n, ∀ j < n, q i = q j → i = j)
    (hb : ∀ i < n, ∀ z : List F, z.length = y.length → body i z = .ok (z.set (q i) (h i (z.getD (q i) d)))) :
    ∃ z, forN n body y = .ok z ∧ z.length = y.length ∧ (∀ i < n, z.getD (q i) d = h i (y.getD (q i) d)) ∧
      ∀ k, (∀ i < n, q i ≠ k) → z.getD k d = y.getD k d := by
  obtain ⟨z, e, h1, h2, h3⟩ := forN_spec (n := n) (s := y) (body := body)
    (I := fun m z => z.length = y.length ∧ (∀ i < m, z.getD (q i) d = h i (y.getD (q i) d)) ∧
      ∀ k, (∀ i < m, q i ≠ k) → z.getD k d = y.getD k d)
    ⟨rfl, fun i hi => absurd hi (Nat.not_lt_zero _), fun _ _ => rfl⟩
    (by
      rintro i hi z ⟨h1, h2, h3⟩
      have hz : q i < z.length := by rw [h1]; exact hq i hi
      refine ⟨_, hb i hi z h1, by rw [List.length_set, h1], ?_, ?_⟩
      · intro k hk
        rw [getD_setG hz]
        by_cases hki : k = i
        · subst hki; rw [if_pos rfl, h3 _ (fun j hj c => by have := hinj j (by omega) k hi c; omega)]
        · rw [if_neg (fun c => hki (hinj k (by omega) i hi c)), h2 k (by omega)]
      · intro k hk
        rw [getD_setG hz, if_neg (fun c => hk i (by omega) c.symm), h3 k (fun j hj => hk j (by omega))])
  exact ⟨z, e, h1, h2, h3⟩

section
variable {K : Type} [Field K] {P : Type}

/-- One step, in terms of the columns. -/
structure SR (n k : Nat) (reg : Prop) (A A' L L' : Nat → P → K) (p p' : Nat → P) (u u' : Nat → Nat → K) : Prop where
  upd : ∀ j < n, ∀ x, A' j x = A j x - u' j k * L' k x
  row : ∀ j < n, j ≠ k → u' j k = A j (p' k)
  rcol : reg → u' k k ≠ 0 ∧ u' k k = A k (p' k) ∧ ∀ x, L' k x = (u' k k)⁻¹ * A k x
  keepL : ∀ i < n, i ≠ k → L' i = L i
  keepp : ∀ i < n, i ≠ k → p' i = p i
  keepu : ∀ j < n, ∀ i < n, i ≠ k → u' j i = u j i

theorem chain_keep {α : Type} {n : Nat} {f : Nat → Nat → α} (h : ∀ k < n, ∀ i < n, i ≠ k → f (k + 1) i = f k i) {i : Nat} (hi : i < n) :
    f n i = f (i + 1) i := by
  have hd : ∀ d, i + 1 + d ≤ n → f (i + 1 + d) i = f (i + 1) i := by
    intro d
    induction d with
    | zero => intro _; rfl
    | succ d ih => intro hd; rw [← ih (by omega)]; exact h (i + 1 + d) (by omega) i hi (by omega)
  have := hd (n - (i + 1)) (by omega)
  rwa [show i + 1 + (n - (i + 1)) = n by omega] at this

theorem lrun_of_chain {n : Nat} {A L : Nat → Nat → P → K} {p : Nat → Nat → P} {u : Nat → Nat → Nat → K} {reg : Nat → Prop}
    (h : ∀ k < n, SR n k (reg k) (A k) (A (k + 1)) (L k) (L (k + 1)) (p k) (p (k + 1)) (u k) (u (k + 1))) :
    LRun n A (L n) (p n) (u n) reg := by
  have hL : ∀ k < n, L n k = L (k + 1) k := fun k hk => chain_keep (fun k hk i hi hik => (h k hk).keepL i hi hik) hk
  have hp : ∀ k < n, p n k = p (k + 1) k := fun k hk => chain_keep (fun k hk i hi hik => (h k hk).keepp i hi hik) hk
  have hu : ∀ j < n, ∀ k < n, u n j k = u (k + 1) j k := fun j hj k hk =>
    chain_keep (f := fun k i => u k j i) (fun k hk i hi hik => (h k hk).keepu j hj i hi hik) hk
  refine ⟨fun k hk j hj x => ?_, fun k hk j hj hjk => ?_, fun k hk hr => ?_⟩
  · rw [hL k hk, hu j hj k hk]; exact (h k hk).upd j hj x
  · rw [hp k hk, hu j hj k hk]; exact (h k hk).row j hj hjk
  · rw [hL k hk, hp k hk, hu k hk k hk]; exact (h k hk).rcol hr

end

section
variable {K : Type} [Field K] [LinearOrder K] [IsStrictOrderedRing K]

/-- The returned code counts the small diagonal entries. -/
theorem info_ok {thr : K} {n : Nat} {u : List K} (hu : u.length = n * n) :
    info thr n u = .ok (-(((range n).filter fun k => |u.getD (k * n + k) 0| < thr).card : Int)) := by
  obtain ⟨i, e, h⟩ := forN_spec (n := n) (s := (0 : Int))
    (body := fun kk i => do
      let d ← rd u (kk * n + kk)
      pure (if |d| < thr then i - 1 else i))
    (I := fun m i => i = -(((range m).filter fun k => |u.getD (k * n + k) 0| < thr).card : Int))
    (by simp)
    (by
      intro k hk i hi
      have hl : k * n + k < u.length := by rw [hu]; exact (Lay.cols n n).lt k hk k hk
      refine ⟨_, by rw [rd_getD 0 hl, bind_ok]; rfl, ?_⟩
      rw [range_add_one, filter_insert]
      split
      · rw [card_insert_of_notMem (by simp), hi]; push_cast; ring
      · exact hi)
  rw [info, e, h]

/-! ### Quasimatrices -/

theorem qrows_ok {n kk : Nat} (hkk : kk < n) {lk : K → K} {loc : K} {A : List (K → K)} {u : List K} (hA : A.length = n) (hu : u.length = n * n) :
    ∃ A' u', forN n (qrow n kk lk loc) (A, u) = .ok (A', u') ∧ A'.length = n ∧ u'.length = n * n ∧
      (∀ j < n, ∀ x, A'.getD j 0 x = A.getD j 0 x - A.getD j 0 loc * lk x) ∧
      (∀ j < n, u'.getD (j * n + kk) 0 = A.getD j 0 loc) ∧
      ∀ j < n, ∀ i < n, i ≠ kk → u'.getD (j * n + i) 0 = u.getD (j * n + i) 0 := by
  obtain ⟨⟨A', u'⟩, e, h1, h2, h3, h4, h5, h6⟩ := forN_spec (n := n) (s := (A, u)) (body := qrow n kk lk loc)
    (I := fun m s => s.1.length = n ∧ s.2.length = n * n ∧ (∀ j < m, ∀ x, s.1.getD j 0 x = A.getD j 0 x - A.getD j 0 loc * lk x) ∧
      (∀ j, m ≤ j → s.1.getD j 0 = A.getD j 0) ∧ (∀ j < m, s.2.getD (j * n + kk) 0 = A.getD j 0 loc) ∧
      ∀ j < n, ∀ i < n, i ≠ kk → s.2.getD (j * n + i) 0 = u.getD (j * n + i) 0)
    ⟨hA, hu, fun j hj => by omega, fun _ _ => rfl, fun j hj => by omega, fun _ _ _ _ _ => rfl⟩
    (by
      rintro m hm ⟨B, v⟩ ⟨h1, h2, h3, h4, h5, h6⟩
      dsimp only at h1 h2 h3 h4 h5 h6
      have hB : m < B.length := by omega
      have hv : m * n + kk < v.length := by rw [h2]; exact (Lay.cols n n).lt m hm kk hkk
      refine ⟨(B.set m (fun x => 1 * B.getD m 0 x + (-(B.getD m 0 loc)) * lk x), v.set (m * n + kk) (B.getD m 0 loc)), ?_, ?_, ?_, ?_, ?_, ?_, ?_⟩
      · unfold qrow
        dsimp only
        rw [rd_getD 0 hB, bind_ok, wr_ok _ hv, bind_ok, rd_getD 0 (by rw [List.length_set]; exact hv), bind_ok, getD_setG hv, if_pos rfl,
          wr_ok _ hB, bind_ok]
        rfl
      · dsimp only; rw [List.length_set, h1]
      · dsimp only; rw [List.length_set, h2]
      · intro j hj x
        dsimp only
        rw [getD_setG hB]
        by_cases hjm : j = m
        · rw [if_pos hjm, hjm, h4 m le_rfl]; ring
        · rw [if_neg hjm]; exact h3 j (by omega) x
      · intro j hj
        dsimp only
        rw [getD_setG hB, if_neg (by omega)]; exact h4 j (by omega)
      · intro j hj
        dsimp only
        rw [getD_setG hv]
        by_cases hjm : j = m
        · rw [hjm, if_pos rfl, h4 m le_rfl]
        · rw [if_neg (fun c => hjm ((Lay.cols n n).inj j (by omega) kk hkk m hm kk hkk c).1)]; exact h5 j (by omega)
      · intro j hj i hi hik
        dsimp only
        rw [getD_setG hv, if_neg (fun c => hik ((Lay.cols n n).inj j hj i hi m hm kk hkk c).2)]; exact h6 j hj i hi hik)
  exact ⟨A', u', e, h1, h2, h3, h5, h6⟩

/-- Sizes. -/
def QShape (n : Nat) (s : QS K) : Prop := s.A.length = n ∧ s.L.length = n ∧ s.u.length = n * n ∧ s.p.length = n

theorem qstep_ok {thr : K} (ht : 0 < thr) {am : (K → K) → K} {n kk : Nat} (hkk : kk < n) {s : QS K} (hs : QShape n s) :
    ∃ s', qstep thr am n kk s = .ok s' ∧ QShape n s' ∧
      SR n kk (2 * thr ≤ |s'.u.getD (kk * n + kk) 0|) (fun j => s.A.getD j 0) (fun j => s'.A.getD j 0) (fun j => s.L.getD j 0) (fun j => s'.L.getD j 0)
        (fun k => s.p.getD k 0) (fun k => s'.p.getD k 0) (fun j k => s.u.getD (j * n + k) 0) (fun j k => s'.u.getD (j * n + k) 0) ∧
      s'.p.getD kk 0 = am (s.A.getD kk 0) := by
  obtain ⟨hA, hL, hu, hp⟩ := hs
  set a := s.A.getD kk 0 with ha
  set val := a (am a) with hval
  have hlk : ∃ lk, qcol thr val a = .ok lk ∧ (2 * thr ≤ |val| → val ≠ 0 ∧ ∀ x, lk x = val⁻¹ * a x) := by
    unfold qcol
    by_cases h : |val| < 2 * thr
    · exact ⟨_, if_pos h, fun c => absurd h (not_lt.2 c)⟩
    · have h0 : val ≠ 0 := by
        intro c
        rw [c, abs_zero] at h
        exact h (by linarith)
      exact ⟨_, by rw [if_neg h, dv_ok h0, bind_ok]; rfl, fun _ => ⟨h0, fun x => by rw [one_div]⟩⟩
  obtain ⟨lk, e1, h1⟩ := hlk
  obtain ⟨A', u', e2, k1, k2, k3, k4, k5⟩ := qrows_ok (lk := lk) (loc := am a) hkk hA hu
  have hkA : kk < s.A.length := by omega
  have hkL : kk < s.L.length := by omega
  have hkp : kk < s.p.length := by omega
  refine ⟨⟨A', s.L.set kk lk, u', s.p.set kk (am a)⟩, ?_, ⟨k1, by rw [List.length_set, hL], k2, by rw [List.length_set, hp]⟩, ?_, ?_⟩
  · unfold qstep
    rw [rd_getD 0 hkA, bind_ok, ← ha, wr_ok _ hkp, bind_ok, ← hval, e1, bind_ok, wr_ok _ hkL, bind_ok, e2, bind_ok]
    rfl
  · refine ⟨fun j hj x => ?_, fun j hj hjk => ?_, fun hr => ?_, fun i hi hik => ?_, fun i hi hik => ?_, fun j hj i hi hik => ?_⟩
    · dsimp only
      rw [getD_setG hkL, if_pos rfl, k4 j hj]; exact k3 j hj x
    · dsimp only
      rw [getD_setG hkp, if_pos rfl]; exact k4 j hj
    · dsimp only at hr ⊢
      rw [k4 kk hkk, ← ha, ← hval] at hr
      rw [k4 kk hkk, ← ha, ← hval, getD_setG hkp, if_pos rfl, getD_setG hkL, if_pos rfl]
      exact ⟨(h1 hr).1, rfl, (h1 hr).2⟩
    · dsimp only; rw [getD_setG hkL, if_neg hik]
    · dsimp only; rw [getD_setG hkp, if_neg hik]
    · exact k5 j hj i hi hik
  · dsimp only; rw [getD_setG hkp, if_pos rfl]

end

end C3.Qr.Lu
