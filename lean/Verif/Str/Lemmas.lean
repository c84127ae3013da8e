import Verif.Str.Model
import Mathlib.Data.Nat.Digits.Defs
import Mathlib.Data.Nat.Digits.Lemmas

namespace C3.Str

theorem strlen_cstr {s : Buf} (hs : (0 : UInt8) ∉ s) (t : Buf) :
    strlen (s ++ 0 :: t) = .ok s.length := by
  induction s with
  | nil => simp [strlen]
  | cons a s ih =>
    simp only [List.mem_cons, not_or] at hs
    simp [strlen, ih hs.2, Except.map, Ne.symm hs.1]

theorem memmove_ok {buf : Buf} {d s n : Nat} (h1 : s + n ≤ buf.length) (h2 : d + n ≤ buf.length) :
    memmove buf d s n = .ok (buf.take d ++ (buf.drop s).take n ++ buf.drop (d + n)) := by
  simp [memmove, h1, h2]

theorem dupN_ok {buf : Buf} {s n : Nat} (h : s + n ≤ buf.length) :
    dupN buf s n = .ok ((buf.drop s).take n ++ [0]) := by simp [dupN, h]

theorem rd_append_cons {α : Type} (a : List α) (x : α) (b : List α) :
    rd (a ++ x :: b) a.length = .ok x := by
  apply rd_of_getElem?
  simp

/-! bite_string -/

theorem biteLoop_found (tok : UInt8) (n : Nat) (pre : Buf) : ∀ (done post : Buf) (fuel : Nat),
    tok ∉ pre → pre.length < fuel → done.length + pre.length ≤ n →
    biteLoop (done ++ pre ++ tok :: post) tok n fuel done.length
      = .ok (some (done.length + pre.length)) := by
  induction pre with
  | nil =>
    intro done post fuel _ hf _
    cases fuel with
    | zero => simp at hf
    | succ f => simp [biteLoop, rd_append_cons]
  | cons a pre ih =>
    intro done post fuel hp hf hn
    simp only [List.mem_cons, not_or] at hp
    simp only [List.length_cons] at hf hn
    cases fuel with
    | zero => simp at hf
    | succ f =>
      have h := ih (done ++ [a]) post f hp.2 (by omega) (by simp; omega)
      simp only [List.length_append, List.length_singleton, List.append_assoc,
        List.cons_append, List.nil_append] at h
      have hr : rd (done ++ (a :: pre) ++ tok :: post) done.length = .ok a := by
        rw [List.append_assoc]; exact rd_append_cons done a _
      simp only [biteLoop, hr, bind_ok, if_neg (Ne.symm hp.1)]
      rw [if_neg (by omega)]
      simp only [List.append_assoc, List.cons_append]
      rw [h]
      simp [Nat.add_comm, Nat.add_left_comm]

theorem biteLoop_none (tok : UInt8) (htok : tok ≠ 0) (s : Buf) : ∀ (done post : Buf) (fuel : Nat),
    tok ∉ s → s.length < fuel →
    biteLoop (done ++ s ++ 0 :: post) tok (done.length + s.length) fuel done.length = .ok none := by
  induction s with
  | nil =>
    intro done post fuel _ hf
    cases fuel with
    | zero => simp at hf
    | succ f => simp [biteLoop, rd_append_cons, Ne.symm htok]
  | cons a s ih =>
    intro done post fuel hp hf
    simp only [List.mem_cons, not_or] at hp
    simp only [List.length_cons] at hf
    cases fuel with
    | zero => simp at hf
    | succ f =>
      have h := ih (done ++ [a]) post f hp.2 (by omega)
      simp only [List.length_append, List.length_singleton, List.append_assoc,
        List.cons_append, List.nil_append] at h
      have hr : rd (done ++ (a :: s) ++ 0 :: post) done.length = .ok a := by
        rw [List.append_assoc]; exact rd_append_cons done a _
      simp only [biteLoop, hr, bind_ok, if_neg (Ne.symm hp.1)]
      rw [if_neg (by simp)]
      simp only [List.append_assoc, List.cons_append, List.length_cons]
      rw [show done.length + (s.length + 1) = done.length + 1 + s.length by omega, h]

/-! bite_string2 -/

/-- Invariant of the matcher: the last `k` bytes read are the first `k` bytes of the token. -/
theorem bite2Loop_sound (s t post tpost : Buf) : ∀ (fuel ii k : Nat),
    ii + fuel = s.length → k < t.length → k ≤ ii →
    (s.drop (ii - k)).take k = t.take k →
    ∃ cut jj, bite2Loop (s ++ post) (t ++ tpost) s.length t.length fuel ii k = .ok (cut, jj) ∧
      (0 < cut → jj < s.length ∧ cut + t.length = jj + 1 ∧
        (s.drop cut).take t.length = t) := by
  intro fuel
  induction fuel with
  | zero => intro ii k _ _ _ _; exact ⟨0, ii, rfl, by simp⟩
  | succ f ih =>
    intro ii k hii hk hki hm
    have hlt : ii < s.length := by omega
    have hr : rd (s ++ post) ii = .ok s[ii] := by
      rw [rd_ok (by simp; omega)]; simp [List.getElem_append_left hlt]
    have hr2 : rd (t ++ tpost) k = .ok t[k] := by
      rw [rd_ok (by simp; omega)]; simp [List.getElem_append_left hk]
    simp only [bite2Loop, hr, hr2, bind_ok]
    by_cases he : s[ii] = t[k]
    · have hm' : (s.drop (ii - k)).take (k + 1) = t.take (k + 1) := by
        rw [List.take_add_one, hm, List.take_add_one, List.getElem?_drop,
          show ii - k + k = ii by omega, List.getElem?_eq_getElem hlt,
          List.getElem?_eq_getElem hk, he]
      simp only [he, if_true]
      by_cases hf : k + 1 = t.length
      · rw [if_pos hf]
        refine ⟨_, _, rfl, fun hc => ⟨hlt, by omega, ?_⟩⟩
        rw [← hf, show ii + 1 - (k + 1) = ii - k by omega, hm', hf, List.take_length]
      · rw [if_neg hf]
        exact ih (ii + 1) (k + 1) (by omega) (by omega) (by omega)
          (by rw [show ii + 1 - (k + 1) = ii - k by omega]; exact hm')
    · simp only [if_neg he]
      rw [if_neg (by omega)]
      exact ih (ii + 1) 0 (by omega) (by omega) (by omega) (by simp)

/-- A full match from the current state. -/
theorem bite2Loop_match (n : Nat) (tpost : Buf) : ∀ (t2 t1 done post : Buf) (fuel : Nat),
    t2 ≠ [] → t2.length ≤ fuel → t1.length ≤ done.length →
    bite2Loop (done ++ t2 ++ post) (t1 ++ t2 ++ tpost) n (t1 ++ t2).length fuel done.length t1.length
      = .ok (done.length - t1.length, done.length + t2.length - 1) := by
  intro t2
  induction t2 with
  | nil => intro _ _ _ _ h; exact absurd rfl h
  | cons a t2 ih =>
    intro t1 done post fuel _ hf hl
    cases fuel with
    | zero => simp at hf
    | succ f =>
      have hr : rd (done ++ (a :: t2) ++ post) done.length = .ok a := by
        rw [List.append_assoc]; exact rd_append_cons done a _
      have hr2 : rd (t1 ++ (a :: t2) ++ tpost) t1.length = .ok a := by
        rw [List.append_assoc]; exact rd_append_cons t1 a _
      simp only [bite2Loop, hr, hr2, bind_ok, if_true]
      by_cases ht : t2 = []
      · subst ht
        simp only [List.length_append, List.length_singleton, if_true, pure_eq_ok,
          Except.ok.injEq, Prod.mk.injEq]
        omega
      · rw [if_neg (by
          simp only [List.length_append, List.length_cons]
          have := List.length_pos_iff.mpr ht
          omega)]
        have h := ih (t1 ++ [a]) (done ++ [a]) post f ht (by simpa using hf) (by simpa using hl)
        simp only [List.append_assoc, List.length_append,
          List.length_singleton, List.cons_append, List.nil_append] at h
        simp only [List.append_assoc, List.length_append, List.cons_append]
        simp only [List.length_cons] at *
        rw [h]
        simp only [Except.ok.injEq, Prod.mk.injEq]
        omega

/-- Bytes different from the first byte of the token leave the matcher in its initial state. -/
theorem bite2Loop_skip (n m : Nat) (a : UInt8) (tpost : Buf) (hm : 0 < m) :
    ∀ (pre done post : Buf) (fuel : Nat), a ∉ pre →
    bite2Loop (done ++ pre ++ post) (a :: tpost) n m (pre.length + fuel) done.length 0 =
      bite2Loop (done ++ pre ++ post) (a :: tpost) n m fuel (done.length + pre.length) 0 := by
  intro pre
  induction pre with
  | nil => intro done post fuel _; simp
  | cons b pre ih =>
    intro done post fuel hp
    simp only [List.mem_cons, not_or] at hp
    have hr : rd (done ++ (b :: pre) ++ post) done.length = .ok b := by
      rw [List.append_assoc]; exact rd_append_cons done b _
    have hr2 : rd (a :: tpost) 0 = .ok a := rfl
    rw [show (b :: pre).length + fuel = (pre.length + fuel) + 1 by simp; omega]
    conv_lhs => unfold bite2Loop
    simp only [hr, hr2, bind_ok, if_neg (Ne.symm hp.1)]
    rw [if_neg (by omega)]
    have h := ih (done ++ [b]) post fuel hp.2
    simp only [List.append_assoc, List.cons_append, List.nil_append, List.length_append,
      List.length_singleton] at h
    simp only [List.append_assoc, List.cons_append, List.length_cons]
    rw [h]
    congr 1
    omega

/-! parse_string -/

theorem countTok_eq (s post : Buf) (tok : UInt8) :
    countTok (s ++ post) tok s.length = .ok (s.count tok) := by
  have h := forN_traj (fun i => (s.take i).count tok) (n := s.length)
    (body := fun ii N => do
      let c ← rd (s ++ post) ii
      pure (if c = tok then N + 1 else N)) (by
      intro i hi
      have hr : rd (s ++ post) i = .ok s[i] := by
        rw [rd_ok (by simp; omega)]; simp [List.getElem_append_left hi]
      simp only [hr, bind_ok, pure_eq_ok]
      rw [← List.take_append_getElem hi, List.count_append, List.count_singleton]
      by_cases hc : s[i] = tok <;> simp [hc])
  simpa [countTok] using h

/-! itoa -/

theorem swapLoop_spec : ∀ (k : Nat) (mid A B : Buf) (fuel : Nat), mid.length = k → k < fuel →
    mid ≠ [] →
    swapLoop fuel (A ++ mid ++ B) A.length (A.length + mid.length - 1)
      = .ok (A ++ mid.reverse ++ B) := by
  intro k
  induction k using Nat.strong_induction_on with
  | _ k ih =>
    intro mid A B fuel hk hf hne
    cases fuel with
    | zero => omega
    | succ f =>
      cases mid with
      | nil => exact absurd rfl hne
      | cons x m =>
        rcases List.eq_nil_or_concat m with hm | ⟨m', y, hm⟩
        · subst hm
          simp [swapLoop]
        · subst hm
          simp only [List.concat_eq_append] at *
          have hlen : (x :: (m' ++ [y])).length = m'.length + 2 := by simp
          rw [hlen, show A.length + (m'.length + 2) - 1 = A.length + (m'.length + 1) by omega]
          have h1 : rd (A ++ x :: (m' ++ [y]) ++ B) (A.length + (m'.length + 1)) = .ok y := by
            apply rd_of_getElem?
            rw [List.append_assoc, List.getElem?_append_right (by omega)]
            simp
          have h2 : rd (A ++ x :: (m' ++ [y]) ++ B) A.length = .ok x := by
            rw [List.append_assoc]; exact rd_append_cons A x _
          have h3 : wr (A ++ x :: (m' ++ [y]) ++ B) (A.length + (m'.length + 1)) x
              = .ok (A ++ x :: (m' ++ [x]) ++ B) := by
            rw [wr_ok _ (by simp)]
            congr 1
            rw [List.append_assoc, List.set_append_right _ _ (by omega)]
            simp
          have h4 : wr (A ++ x :: (m' ++ [x]) ++ B) A.length y
              = .ok (A ++ y :: (m' ++ [x]) ++ B) := by
            rw [wr_ok _ (by simp), List.append_assoc, List.set_append_right _ _ (by omega)]
            simp
          simp only [swapLoop]
          rw [if_pos (by omega)]
          simp only [h1, h2, h3, h4, bind_ok]
          by_cases hm : m' = []
          · subst hm
            cases f with
            | zero => simp at hk; omega
            | succ f => simp [swapLoop]
          · have h := ih m'.length (by simp at hk; omega) m' (A ++ [y]) ([x] ++ B) f rfl
              (by simp at hk; omega) hm
            have hp := List.length_pos_iff.mpr hm
            simp only [List.append_assoc, List.length_append, List.length_singleton,
              List.cons_append, List.nil_append] at h ⊢
            rw [show A.length + (m'.length + 1) - 1 = A.length + 1 + m'.length - 1 by omega, h]
            simp

/-- The character `itoa` uses for the digit `k`. -/
def digitChar (k : Nat) : UInt8 := if k < 10 then UInt8.ofNat (48 + k) else UInt8.ofNat (87 + k)

theorem digitTable_pos : ∀ k, k < 36 →
    rd digitTable (35 + k) = .ok (digitChar k) ∧ rd digitTable (35 - k) = .ok (digitChar k) := by
  decide

theorem digitTable_tmod (v b : Int) (hb : 2 ≤ b) (hb2 : b ≤ 36) :
    0 ≤ 35 + (v - v.tdiv b * b) ∧
    rd digitTable (35 + (v - v.tdiv b * b)).toNat = .ok (digitChar (v.natAbs % b.natAbs)) := by
  have h1 : v - v.tdiv b * b = v.tmod b := by
    have := Int.tmod_add_tdiv_mul v b
    omega
  rw [h1]
  have h2 : (v.tmod b).natAbs = v.natAbs % b.natAbs := Int.natAbs_tmod v b
  have h3 : v.natAbs % b.natAbs < 36 := by
    have : b.natAbs ≤ 36 := by omega
    have h := Nat.mod_lt v.natAbs (show b.natAbs > 0 by omega)
    omega
  refine ⟨by omega, ?_⟩
  obtain ⟨p1, p2⟩ := digitTable_pos _ h3
  rcases Int.le_total 0 (v.tmod b) with h | h
  · rw [show (35 + v.tmod b).toNat = 35 + v.natAbs % b.natAbs by omega, p1]
  · rw [show (35 + v.tmod b).toNat = 35 - v.natAbs % b.natAbs by omega, p2]

/-- Digits, least significant first, as written by the loop. -/
def lsbDigits (b n : Nat) : List Nat := if n = 0 then [0] else Nat.digits b n

theorem itoaDigits_spec (b : Int) (hb : 2 ≤ b) (hb2 : b ≤ 36) :
    ∀ (fuel : Nat) (A R : Buf) (v : Int), v.natAbs < fuel →
    (lsbDigits b.natAbs v.natAbs).length ≤ R.length →
    ∃ tmp, itoaDigits b fuel (A ++ R) A.length v =
        .ok (A ++ (lsbDigits b.natAbs v.natAbs).map digitChar
              ++ R.drop (lsbDigits b.natAbs v.natAbs).length,
            A.length + (lsbDigits b.natAbs v.natAbs).length, tmp) ∧ (tmp < 0 ↔ v < 0) := by
  intro fuel
  induction fuel with
  | zero => intro _ _ _ h; omega
  | succ f ih =>
    intro A R v hf hR
    obtain ⟨hpos, hrd⟩ := digitTable_tmod v b hb hb2
    have hq : (v.tdiv b).natAbs = v.natAbs / b.natAbs := Int.natAbs_tdiv v b
    have hb' : 2 ≤ b.natAbs := by omega
    have hRpos : 0 < R.length := by
      have : 0 < (lsbDigits b.natAbs v.natAbs).length := by
        unfold lsbDigits
        split
        · simp
        · rename_i hne; exact List.length_pos_iff.mpr (Nat.digits_ne_nil_iff_ne_zero.mpr hne)
      omega
    obtain ⟨r, R', rfl⟩ := List.exists_cons_of_length_pos hRpos
    simp only [itoaDigits]
    rw [if_neg (by omega)]
    simp only [hrd, bind_ok]
    have hw : ∀ x, wr (A ++ r :: R') A.length x = .ok (A ++ x :: R') := by
      intro x
      rw [wr_ok _ (by simp), List.set_append_right _ _ (by omega)]
      simp
    simp only [hw, bind_ok]
    by_cases hz : v.tdiv b = 0
    · rw [if_neg (by simpa using hz)]
      have hlt : v.natAbs < b.natAbs := by
        have : v.natAbs / b.natAbs = 0 := by rw [← hq, hz]; rfl
        rcases Nat.div_eq_zero_iff.mp this with h | h
        · omega
        · exact h
      have hd : lsbDigits b.natAbs v.natAbs = [v.natAbs] := by
        unfold lsbDigits
        split
        · simp [*]
        · rename_i hne; exact Nat.digits_of_lt _ _ hne hlt
      refine ⟨v, ?_, Iff.rfl⟩
      rw [hd, Nat.mod_eq_of_lt hlt]
      simp
    · rw [if_pos (by simpa using hz)]
      have hne : v.natAbs ≠ 0 := by
        intro h
        have : v = 0 := by omega
        subst this
        simp at hz
      have hqne : v.natAbs / b.natAbs ≠ 0 := by
        rw [← hq]; omega
      have hd : lsbDigits b.natAbs v.natAbs
          = v.natAbs % b.natAbs :: lsbDigits b.natAbs (v.tdiv b).natAbs := by
        unfold lsbDigits
        rw [if_neg hne, hq, if_neg hqne]
        exact Nat.digits_def' (by omega) (by omega)
      rw [hd] at hR ⊢
      have hlt : (v.tdiv b).natAbs < f := by
        rw [hq]
        have := Nat.div_lt_self (show 0 < v.natAbs by omega) (show 1 < b.natAbs by omega)
        omega
      obtain ⟨tmp, h1, h2⟩ := ih (A ++ [digitChar (v.natAbs % b.natAbs)]) R' (v.tdiv b) hlt
        (by simpa using hR)
      simp only [List.append_assoc, List.length_append, List.length_singleton,
        List.singleton_append] at h1
      refine ⟨tmp, ?_, ?_⟩
      · rw [h1]
        simp [show A.length + 1 + (lsbDigits b.natAbs (v.natAbs.div b.natAbs)).length = A.length + ((lsbDigits b.natAbs (v.natAbs.div b.natAbs)).length + 1) by omega]
      · rw [h2]
        constructor
        · intro h
          by_contra hv
          have := Int.tdiv_nonneg (show 0 ≤ v by omega) (show 0 ≤ b by omega)
          omega
        · intro h
          have h3 : 0 ≤ (-v).tdiv b := Int.tdiv_nonneg (by omega) (by omega)
          rw [Int.neg_tdiv] at h3
          omega

end C3.Str
