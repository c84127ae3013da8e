/-
C02-C05, C49, C50: string helpers.

A C string with content `s` (no NUL inside) in an allocation with `t` spare bytes is `s ++ 0 :: t`.
-/
import Verif.Str.Lemmas

namespace C3.Str

/-! ### C02 parse_string -/

/-- Specification: the pieces `ps` of `s` at delimiter `tok`. -/
structure IsSplit (tok : UInt8) (s : Buf) (ps : List Buf) : Prop where
  count : ps.length = s.count tok + 1
  clean : ∀ p ∈ ps, tok ∉ p
  join : List.intercalate [tok] ps = s

theorem intercalate_snoc (tok : UInt8) (ps : List Buf) (p : Buf) :
    List.intercalate [tok] (ps ++ [p]) = (ps.map (· ++ [tok])).flatten ++ p := by
  induction ps with
  | nil => simp
  | cons a ps ih =>
    cases ps with
    | nil => simp [List.intercalate, List.intersperse] at ih ⊢
    | cons b ps =>
      have : List.intercalate [tok] (a :: b :: ps ++ [p])
          = a ++ [tok] ++ List.intercalate [tok] (b :: ps ++ [p]) := by
        simp [List.intercalate, List.intersperse]
      rw [this, ih]; simp

/-- C02: pieces, count, and rejoining. -/
theorem parse_string_split (s : Buf) (hs : 0 ∉ s) (t : Buf) (tok : UInt8) :
    ∃ ps, parseString (s ++ 0 :: t) tok = .ok (ps.map (· ++ [0]), ps.length) ∧
      IsSplit tok s ps := by
  unfold parseString
  rw [strlen_cstr hs]
  simp only [bind_ok]
  rw [countTok_eq]
  simp only [bind_ok]
  obtain ⟨⟨out, track⟩, hrun, ps, hout, hlen, hcl, hjoin, htr, hnot⟩ := forN_spec
    (fun jj (st : List Buf × Nat) => ∃ ps : List Buf, st.1 = ps.map (· ++ [0]) ∧
      ps.length = (s.take jj).count tok ∧ (∀ p ∈ ps, tok ∉ p) ∧
      (ps.map (· ++ [tok])).flatten = s.take st.2 ∧ st.2 ≤ jj ∧
      tok ∉ (s.drop st.2).take (jj - st.2))
    (n := s.length) (s := (([] : List Buf), 0))
    (body := fun jj (st : List Buf × Nat) => do
      let c ← rd (s ++ 0 :: t) jj
      if c = tok then do
        let p ← dupN (s ++ 0 :: t) st.2 (jj - st.2)
        let out ← pushSlot (s.count tok + 1) st.1 p
        pure (out, jj + 1)
      else pure st)
    ⟨[], by simp⟩ (by
      rintro i hi ⟨out, track⟩ ⟨ps, hout, hlen, hcl, hjoin, htr, hnot⟩
      simp only at hout hjoin htr hnot
      subst hout
      have hr : rd (s ++ 0 :: t) i = .ok s[i] := by
        rw [rd_ok (by simp; omega)]; simp [List.getElem_append_left hi]
      have htk : (s.drop track).take (i - track) ++ [s[i]]
          = (s.drop track).take (i + 1 - track) := by
        rw [show i + 1 - track = i - track + 1 by omega, List.take_add_one, List.getElem?_drop,
          show track + (i - track) = i by omega, List.getElem?_eq_getElem hi]
        rfl
      simp only [hr, bind_ok]
      by_cases hc : s[i] = tok
      · simp only [hc, if_true]
        rw [dupN_ok (by simp; omega)]
        have hd : ((s ++ 0 :: t).drop track).take (i - track) = (s.drop track).take (i - track) := by
          rw [List.drop_append_of_le_length (by omega), List.take_append_of_le_length (by simp; omega)]
        have hcnt : (s.take (i + 1)).count tok = (s.take i).count tok + 1 := by
          rw [← List.take_append_getElem hi, List.count_append, hc]; simp
        have hle : (s.take (i + 1)).count tok ≤ s.count tok :=
          List.Sublist.count_le _ (List.take_sublist _ _)
        simp only [bind_ok, hd, pushSlot]
        rw [if_pos (by simp; omega)]
        simp only [bind_ok, pure_eq_ok]
        refine ⟨_, rfl, ps ++ [(s.drop track).take (i - track)], by simp, by simp [hlen, hcnt], ?_, ?_,
          by simp, by simp⟩
        · intro p hp
          rcases List.mem_append.mp hp with h | h
          · exact hcl p h
          · simp at h; subst h; exact hnot
        · simp only [List.map_append, List.map_cons, List.map_nil, List.flatten_append, hjoin,
            List.flatten_cons, List.flatten_nil, List.append_nil]
          rw [← hc, htk, show i + 1 = track + (i + 1 - track) by omega, List.take_add]
          simp
      · simp only [if_neg hc, pure_eq_ok]
        refine ⟨_, rfl, ps, rfl, ?_, hcl, hjoin, by simp only; omega, ?_⟩
        · rw [← List.take_append_getElem hi, List.count_append, hlen]; simp [hc]
        · simp only
          rw [← htk]; simp [hnot, Ne.symm hc])
  simp only at hout hjoin htr hnot
  rw [hrun]
  simp only [bind_ok]
  rw [dupN_ok (by simp; omega)]
  have hd : ((s ++ 0 :: t).drop track).take (s.length - track) = s.drop track := by
    rw [List.drop_append_of_le_length (by omega), List.take_append_of_le_length (by simp)]
    rw [List.take_of_length_le (by simp)]
  rw [List.take_length] at hlen
  rw [List.take_of_length_le (by simp)] at hnot
  simp only [bind_ok, hd, pushSlot]
  rw [if_pos (by rw [hout]; simp; omega)]
  refine ⟨ps ++ [s.drop track], by simp [hout, hlen], by simp [hlen], ?_, ?_⟩
  · intro p hp
    rcases List.mem_append.mp hp with h | h
    · exact hcl p h
    · simp at h; subst h; exact hnot
  · rw [intercalate_snoc, hjoin, List.take_append_drop]

/-- "a,,b" (leading piece, empty piece). -/
example : parseString [97, 44, 44, 98, 0] 44 = .ok ([[97, 0], [0], [98, 0]], 3) := by decide
example : (0 : UInt8) ∉ ([97, 44, 44, 98] : Buf) := by decide

/-! ### C03 bite_string -/

/-- C03: the token occurs. -/
theorem bite_string_found (pre post t : Buf) (tok : UInt8) (hs : 0 ∉ pre ++ tok :: post)
    (hpre : tok ∉ pre) :
    ∃ t', biteString (pre ++ tok :: post ++ 0 :: t) tok = .ok (some (pre ++ [0]), post ++ 0 :: t') ∧
      t'.length = t.length + pre.length + 1 := by
  unfold biteString
  rw [strlen_cstr hs]
  simp only [bind_ok]
  have h := biteLoop_found tok (pre ++ tok :: post).length pre [] (post ++ 0 :: t)
    ((pre ++ tok :: post).length + 2) hpre (by simp; omega) (by simp)
  simp only [List.nil_append, List.length_nil, Nat.zero_add] at h
  rw [List.append_assoc, List.cons_append, h]
  simp only [bind_ok]
  rw [dupN_ok (by simp), memmove_ok (by simp; omega) (by simp; omega)]
  refine ⟨(pre ++ tok :: (post ++ 0 :: t)).drop (post.length + 1), ?_, by simp; omega⟩
  have hn : (pre ++ tok :: post).length + 1 - pre.length - 1 = post.length + 1 := by
    simp; omega
  simp [hn, List.drop_append]
  rw [show pre.length + (post.length + 1) + 1 - pre.length - 1 = post.length + 1 by omega]
  simp [List.take_append, List.take_of_length_le]

/-- C03: the token does not occur: NULL, and the string is untouched. -/
theorem bite_string_absent (s t : Buf) (tok : UInt8) (hs : 0 ∉ s) (htok : tok ≠ 0) (h : tok ∉ s) :
    biteString (s ++ 0 :: t) tok = .ok (none, s ++ 0 :: t) := by
  unfold biteString
  rw [strlen_cstr hs]
  have h := biteLoop_none tok htok s [] t (s.length + 2) h (by omega)
  simp only [List.nil_append, List.length_nil, Nat.zero_add] at h
  simp [h]

example : biteString [97, 98, 58, 99, 58, 0] 58 = .ok (some [97, 98, 0], [99, 58, 0, 99, 58, 0]) := by
  decide

/-- With the NUL character as token the whole string is returned and left in place. -/
theorem bite_string_nul (s t : Buf) (hs : 0 ∉ s) :
    biteString (s ++ 0 :: t) 0 = .ok (some (s ++ [0]), s ++ 0 :: t) := by
  unfold biteString
  rw [strlen_cstr hs]
  have h := biteLoop_found 0 s.length s [] t (s.length + 2) hs (by omega) (by simp)
  simp only [List.nil_append, List.length_nil, Nat.zero_add] at h
  simp only [bind_ok, h]
  rw [dupN_ok (by simp), memmove_ok (by simp) (by simp)]
  simp

/-! ### C04 bite_string2 -/

/-- C04, soundness: a successful bite splits the string at an occurrence of the token. -/
theorem bite_string2_sound (s t tok tt out s' : Buf) (hs : 0 ∉ s) (htok : 0 ∉ tok) (hne : tok ≠ [])
    (h : biteString2 (s ++ 0 :: t) (tok ++ 0 :: tt) = .ok (some out, s')) :
    ∃ pre post t', out = pre ++ [0] ∧ s' = post ++ 0 :: t' ∧ pre ≠ [] ∧ s = pre ++ tok ++ post := by
  unfold biteString2 at h
  rw [strlen_cstr hs, strlen_cstr htok] at h
  simp only [bind_ok] at h
  obtain ⟨cut, jj, hl, hc⟩ := bite2Loop_sound s tok (0 :: t) (0 :: tt) s.length 0 0 (by omega)
    (List.length_pos_iff.mpr hne) (by omega) (by simp)
  rw [hl] at h
  simp only [bind_ok] at h
  by_cases hcut : 0 < cut
  · obtain ⟨h1, h2, h3⟩ := hc hcut
    rw [if_pos hcut, dupN_ok (by simp; omega), memmove_ok (by simp; omega) (by simp; omega)] at h
    simp only [bind_ok, pure_eq_ok, Except.ok.injEq, Prod.mk.injEq, Option.some.injEq] at h
    obtain ⟨ho, hs'⟩ := h
    refine ⟨s.take cut, s.drop (cut + tok.length), (s ++ 0 :: t).drop (s.length + 1 - jj - 1), ?_, ?_, ?_, ?_⟩
    · rw [← ho]
      simp [List.take_append_of_le_length (show cut ≤ s.length by omega)]
    · rw [← hs']
      have hl : (s.drop (cut + tok.length)).length = s.length - (cut + tok.length) := by simp
      rw [List.drop_append_of_le_length (by omega)]
      simp only [List.take_zero, List.nil_append, Nat.zero_add]
      rw [List.take_append, List.take_of_length_le (by simp; omega),
        show s.length + 1 - jj - 1 - (s.drop (cut + tok.length)).length = 1 by omega]
      simp
    · intro hh
      have := congrArg List.length hh
      rcases (by simpa using this : cut = 0 ∨ s = []) with h0 | h0
      · omega
      · subst h0; simp at h1
    · conv_lhs => rw [← List.take_append_drop cut s]
      rw [List.append_assoc]
      congr 1
      conv_lhs => rw [← List.take_append_drop tok.length (s.drop cut), h3]
      simp
  · rw [if_neg hcut] at h
    simp at h

/-- C04: when the bite fails the string is untouched. -/
theorem bite_string2_none (s t tok tt s' : Buf) (hs : 0 ∉ s) (htok : 0 ∉ tok) (hne : tok ≠ [])
    (h : biteString2 (s ++ 0 :: t) (tok ++ 0 :: tt) = .ok (none, s')) : s' = s ++ 0 :: t := by
  unfold biteString2 at h
  rw [strlen_cstr hs, strlen_cstr htok] at h
  simp only [bind_ok] at h
  obtain ⟨cut, jj, hl, hc⟩ := bite2Loop_sound s tok (0 :: t) (0 :: tt) s.length 0 0 (by omega)
    (List.length_pos_iff.mpr hne) (by omega) (by simp)
  rw [hl] at h
  simp only [bind_ok] at h
  by_cases hcut : 0 < cut
  · obtain ⟨h1, h2, h3⟩ := hc hcut
    rw [if_pos hcut, dupN_ok (by simp; omega), memmove_ok (by simp; omega) (by simp; omega)] at h
    simp at h
  · rw [if_neg hcut] at h
    simpa using (by simpa using h : s ++ 0 :: t = s').symm

/-- C04: for NUL-free string and token the call always returns normally. -/
theorem bite_string2_total (s t tok tt : Buf) (hs : 0 ∉ s) (htok : 0 ∉ tok) (hne : tok ≠ []) :
    ∃ r, biteString2 (s ++ 0 :: t) (tok ++ 0 :: tt) = .ok r := by
  unfold biteString2
  rw [strlen_cstr hs, strlen_cstr htok]
  simp only [bind_ok]
  obtain ⟨cut, jj, hl, hc⟩ := bite2Loop_sound s tok (0 :: t) (0 :: tt) s.length 0 0 (by omega)
    (List.length_pos_iff.mpr hne) (by omega) (by simp)
  rw [hl]
  simp only [bind_ok]
  by_cases hcut : 0 < cut
  · obtain ⟨h1, h2, h3⟩ := hc hcut
    rw [if_pos hcut, dupN_ok (by simp; omega), memmove_ok (by simp; omega) (by simp; omega)]
    exact ⟨_, rfl⟩
  · rw [if_neg hcut]
    exact ⟨_, rfl⟩

/-- C04, completeness, partial: the token is found when its first character does not occur in the (non-empty)
text before it. Missing: arbitrary text before the token (false, see the counterexample). -/
theorem bite_string2_complete_partial (pre post t tt : Buf) (a : UInt8) (tok : Buf)
    (hs : 0 ∉ pre ++ (a :: tok) ++ post) (hpre : pre ≠ []) (ha : a ∉ pre) :
    ∃ t', biteString2 (pre ++ (a :: tok) ++ post ++ 0 :: t) (a :: tok ++ 0 :: tt)
      = .ok (some (pre ++ [0]), post ++ 0 :: t') := by
  have htok : (0 : UInt8) ∉ a :: tok := fun h => hs (by simp at h ⊢; tauto)
  have hp := List.length_pos_iff.mpr hpre
  unfold biteString2
  rw [strlen_cstr hs, strlen_cstr htok]
  simp only [bind_ok]
  have h1 := bite2Loop_skip (pre ++ (a :: tok) ++ post).length (a :: tok).length a (tok ++ 0 :: tt)
    (by simp) pre [] ((a :: tok) ++ (post ++ 0 :: t)) ((a :: tok) ++ post).length ha
  have h2 := bite2Loop_match (pre ++ (a :: tok) ++ post).length (0 :: tt) (a :: tok) [] pre
    (post ++ 0 :: t) ((a :: tok) ++ post).length (by simp) (by simp) (by simp)
  simp only [List.nil_append, List.append_assoc, List.cons_append, List.length_nil,
    Nat.zero_add, List.length_append, List.length_cons] at h1 h2 ⊢
  rw [h1, h2]
  simp only [bind_ok, Nat.sub_zero, if_pos hp]
  rw [dupN_ok (by simp), memmove_ok (by simp; omega) (by simp; omega)]
  refine ⟨(pre ++ a :: (tok ++ (post ++ 0 :: t))).drop (post.length + 1), ?_⟩
  have e1 : pre.length + (tok.length + post.length + 1) + 1 - (pre.length + (tok.length + 1) - 1) - 1
      = post.length + 1 := by omega
  simp only [e1, bind_ok, pure_eq_ok, Except.ok.injEq, Prod.mk.injEq, Option.some.injEq]
  refine ⟨by simp, ?_⟩
  have e2 : (pre ++ a :: (tok ++ (post ++ 0 :: t))).drop (pre.length + (tok.length + 1))
      = post ++ 0 :: t := by
    rw [show pre ++ a :: (tok ++ (post ++ 0 :: t)) = (pre ++ a :: tok) ++ (post ++ 0 :: t) by simp]
    rw [List.drop_append_of_le_length (by simp), List.drop_of_length_le (by simp)]
    simp
  rw [e2]
  simp [List.take_append]

example : biteString2 [120, 97, 98, 99, 0] [97, 98, 0] = .ok (some [120, 0], [99, 0, 98, 99, 0]) := by
  decide

/-- C04 fails as stated: in "aab" the token "ab" occurs after the non-empty prefix "a" and is missed. -/
theorem bite_string2_complete_counterexample :
    ∃ pre tok post : Buf, pre ≠ [] ∧ tok ≠ [] ∧ (0 : UInt8) ∉ pre ++ tok ++ post ∧
      biteString2 (pre ++ tok ++ post ++ [0]) (tok ++ [0]) = .ok (none, pre ++ tok ++ post ++ [0]) :=
  ⟨[97], [97, 98], [], by decide, by decide, by decide, by decide⟩

/-! ### C05 itoa -/

/-- Specification of digits: the value of one character. -/
def digitVal (c : UInt8) : Option Nat :=
  if 48 ≤ c ∧ c ≤ 57 then some (c.toNat - 48)
  else if 97 ≤ c ∧ c ≤ 122 then some (c.toNat - 97 + 10)
  else none

/-- Specification: the number a digit string denotes in base `b` (most significant digit first);
`none` if some character is not a digit below `b`. -/
def denote (b : Nat) : List UInt8 → Option Nat
  | s => s.foldl (fun acc c => do
      let a ← acc
      let d ← digitVal c
      if d < b then some (a * b + d) else none) (some 0)

theorem digitVal_digitChar : ∀ k, k < 36 → digitVal (digitChar k) = some k := by decide

theorem digitChar_ne_zero : ∀ k, k < 36 → digitChar k ≠ 0 := by decide

theorem digitChar_eq_48 : ∀ k, k < 36 → (digitChar k = 48 ↔ k = 0) := by decide

theorem denote_reverse_map (b : Nat) (hb : b ≤ 36) (L : List Nat) (hL : ∀ d ∈ L, d < b) :
    denote b (L.map digitChar).reverse = some (Nat.ofDigits b L) := by
  induction L with
  | nil => rfl
  | cons d L ih =>
    have h := ih (fun d hd => hL d (by simp [hd]))
    have hd := hL d (by simp)
    unfold denote at h ⊢
    simp only [List.map_cons, List.reverse_cons, List.foldl_append, List.foldl_cons, List.foldl_nil]
    rw [h]
    simp only [Option.bind_eq_bind, Option.bind_some, digitVal_digitChar d (by omega), if_pos hd,
      Nat.ofDigits_cons]
    congr 1
    ring

/-- The content of the C string stored in a buffer. -/
def content (buf : Buf) : Buf := buf.takeWhile (· ≠ 0)

/-- C05: for every `int` and every valid base, given a buffer of 34 bytes (32 binary digits, sign, NUL),
the text is a sign (for negatives) and digits denoting the absolute value, without a superfluous leading zero. -/
theorem itoa_denotes (v : Int) (hlo : -2 ^ 31 ≤ v) (hhi : v < 2 ^ 31) (base : Int) (hb : 2 ≤ base)
    (hb2 : base ≤ 36) (result : Buf) (hres : 34 ≤ result.length) :
    ∃ buf ds, itoa v result base = .ok buf ∧ buf.length = result.length ∧ 0 ∈ buf ∧
      content buf = (if v < 0 then [45] else []) ++ ds ∧
      denote base.natAbs ds = some v.natAbs ∧ ds ≠ [] ∧ (ds.head? = some 48 → ds = [48]) := by
  set b := base.natAbs with hbdef
  have hbn : 2 ≤ b := by omega
  have hb36 : b ≤ 36 := by omega
  set L := lsbDigits b v.natAbs with hL
  have hLlt : ∀ d ∈ L, d < b := by
    intro d hd
    rw [hL, lsbDigits] at hd
    split at hd
    · simp at hd; omega
    · exact Nat.digits_lt_base (by omega) hd
  have hLval : Nat.ofDigits b L = v.natAbs := by
    rw [hL, lsbDigits]
    split
    · simp [*]
    · exact Nat.ofDigits_digits _ _
  have hLne : L ≠ [] := by
    rw [hL, lsbDigits]
    split
    · simp
    · exact Nat.digits_ne_nil_iff_ne_zero.mpr (by assumption)
  have hLlen : L.length ≤ 32 := by
    rw [hL, lsbDigits]
    split
    · simp
    · rw [Nat.digits_length_le_iff (by omega)]
      calc v.natAbs < 2 ^ 32 := by omega
        _ ≤ b ^ 32 := Nat.pow_le_pow_left hbn 32
  have hLlast : ∀ h : L ≠ [], L.getLast h = 0 → L = [0] := by
    intro h h0
    by_cases hz : v.natAbs = 0
    · rw [hL, lsbDigits, if_pos hz]
    · exfalso
      have hL' : L = Nat.digits b v.natAbs := by rw [hL, lsbDigits, if_neg hz]
      have h := Nat.getLast_digit_ne_zero b hz
      simp only [← hL'] at h
      exact h h0
  obtain ⟨tmp, hdig, hsgn⟩ := itoaDigits_spec base hb hb2 (v.natAbs + 1) [] result v (by omega)
    (by rw [← hbdef, ← hL]; omega)
  rw [← hbdef, ← hL] at hdig
  simp only [List.nil_append, List.length_nil, Nat.zero_add] at hdig
  have hnz : (0 : UInt8) ∉ (L.map digitChar) := by
    intro h
    obtain ⟨d, hd, he⟩ := List.mem_map.mp h
    exact digitChar_ne_zero d (by have := hLlt d hd; omega) he
  obtain ⟨x, y, tl, htl⟩ : ∃ x y tl, result.drop L.length = x :: y :: tl := by
    have : 2 ≤ (result.drop L.length).length := by simp; omega
    match hr : result.drop L.length with
    | [] => simp [hr] at this
    | [_] => simp [hr] at this
    | x :: y :: tl => exact ⟨x, y, tl, rfl⟩
  have hRL : result.length = L.length + (tl.length + 2) := by
    have := congrArg List.length htl
    simp at this
    omega
  rw [htl] at hdig
  have hcontent : ∀ (s r : Buf), (0 : UInt8) ∉ s → content (s ++ 0 :: r) = s := by
    intro s r h
    unfold content
    induction s with
    | nil => simp
    | cons a s ih =>
      simp only [List.mem_cons, not_or] at h
      simp only [List.cons_append, List.takeWhile_cons, ne_eq]
      rw [if_pos (by simpa using Ne.symm h.1), ih h.2]
  have hds : (L.map digitChar).reverse.head? = some 48 → (L.map digitChar).reverse = [48] := by
    intro h
    rw [List.head?_reverse] at h
    rw [List.getLast?_eq_some_getLast (by simpa using hLne)] at h
    simp only [Option.some.injEq, List.getLast_map] at h
    have hm : L.getLast hLne ∈ L := List.getLast_mem _
    have h0 := (digitChar_eq_48 _ (by have := hLlt _ hm; omega)).mp h
    rw [hLlast hLne h0]
    rfl
  have hLpos := List.length_pos_iff.mpr hLne
  unfold itoa
  rw [if_neg (by omega), hdig]
  simp only [bind_ok]
  by_cases hv : v < 0
  · rw [if_pos (hsgn.mpr hv)]
    have hw1 : wr (L.map digitChar ++ x :: y :: tl) L.length 45
        = .ok (L.map digitChar ++ 45 :: y :: tl) := by
      rw [wr_ok _ (by simp), List.set_append_right _ _ (by simp)]
      simp
    have hw2 : wr (L.map digitChar ++ 45 :: y :: tl) (L.length + 1) 0
        = .ok (L.map digitChar ++ 45 :: 0 :: tl) := by
      rw [wr_ok _ (by simp), List.set_append_right _ _ (by simp)]
      simp
    simp only [hw1, bind_ok, hw2, pure_eq_ok]
    have hsw := swapLoop_spec (L.length + 1) (L.map digitChar ++ [45]) [] (0 :: tl) (L.length + 2)
      (by simp) (by omega) (by simp)
    simp only [List.nil_append, List.append_assoc, List.cons_append, List.length_nil,
      Nat.zero_add, List.length_append, List.length_map, List.length_singleton] at hsw
    rw [hsw]
    refine ⟨_, (L.map digitChar).reverse, rfl, by simp; omega, by simp, ?_,
      by rw [denote_reverse_map b hb36 L hLlt, hLval], by simpa using hLne, hds⟩
    rw [if_pos hv, hcontent _ _ (by simpa using hnz)]
    simp
  · rw [if_neg (fun h => hv (hsgn.mp h))]
    have hw2 : wr (L.map digitChar ++ x :: y :: tl) L.length 0
        = .ok (L.map digitChar ++ 0 :: y :: tl) := by
      rw [wr_ok _ (by simp), List.set_append_right _ _ (by simp)]
      simp
    simp only [hw2, bind_ok, pure_eq_ok]
    have hsw := swapLoop_spec L.length (L.map digitChar) [] (0 :: y :: tl) (L.length + 1)
      (by simp) (by omega) (by simpa using hLne)
    simp only [List.nil_append, List.length_nil, Nat.zero_add, List.length_map] at hsw
    rw [hsw]
    refine ⟨_, (L.map digitChar).reverse, rfl, by simp; omega, by simp, ?_,
      by rw [denote_reverse_map b hb36 L hLlt, hLval], by simpa using hLne, hds⟩
    rw [if_neg hv, hcontent _ _ (by simpa using hnz)]
    simp

/-- C05: any other base gives the empty string. -/
theorem itoa_bad_base (v base : Int) (h : base < 2 ∨ 36 < base) (x : UInt8) (r : Buf) :
    itoa v (x :: r) base = .ok (0 :: r) := by
  unfold itoa
  rw [if_pos (by omega)]
  rfl

example : (itoa (-255) (List.replicate 34 7) 16).map content = .ok [45, 102, 102] := by decide

/-! ### C49 strip -/

theorem stripBack_spec (c : UInt8) (str : Buf) (p : Nat) (x : UInt8) (hp : str[p]? = some x)
    (hx : x ≠ c ∧ x ≠ 0) : ∀ m, p < m → m ≤ str.length →
    (∀ i, p < i → i < m → str[i]? = some c ∨ str[i]? = some 0) →
    stripBack c str m = .ok (p + 1) := by
  intro m
  induction m with
  | zero => intro h; omega
  | succ m ih =>
    intro hpm hm hall
    by_cases he : m = p
    · subst he
      simp [stripBack, rd_of_getElem? hp, hx.1, hx.2]
    · have h := hall m (by omega) (by omega)
      have hih := ih (by omega) (by omega) (fun i h1 h2 => hall i h1 (by omega))
      rcases h with h | h <;> simp [stripBack, rd_of_getElem? h, hih]

theorem stripBlankFront_spec (x : UInt8) (hx : x ≠ 32) (core : Buf) (hs : 0 ∉ x :: core) :
    ∀ (a fuel : Nat) (t : Buf), a < fuel → (a = 0 ∨ t ≠ []) →
    ∃ t', stripBlankFront fuel (List.replicate a 32 ++ (x :: core) ++ 0 :: t) =
      .ok (x :: core ++ 0 :: t') := by
  intro a
  induction a with
  | zero =>
    intro fuel t hf _
    cases fuel with
    | zero => omega
    | succ f => exact ⟨t, by simp [stripBlankFront, rd, hx]⟩
  | succ a ih =>
    intro fuel t hf ht
    have ht : t ≠ [] := by simpa using ht
    cases fuel with
    | zero => omega
    | succ f =>
      have hn0 : (0 : UInt8) ∉ List.replicate (a + 1) 32 ++ (x :: core) := by
        intro h
        rcases List.mem_append.mp h with h | h
        · have := List.eq_of_mem_replicate h
          exact absurd this (by decide)
        · exact hs h
      have hr : rd (List.replicate (a + 1) 32 ++ (x :: core) ++ 0 :: t) 0 = .ok 32 := by
        simp [rd, List.replicate_succ]
      simp only [stripBlankFront, hr, bind_ok, if_true, strlen_cstr hn0]
      have htp := List.length_pos_iff.mpr ht
      rw [memmove_ok (by simp; omega) (by simp)]
      obtain ⟨y, t1, rfl⟩ := List.exists_cons_of_ne_nil ht
      obtain ⟨t', h'⟩ := ih f (y :: (y :: t1)) (by omega) (Or.inr (by simp))
      refine ⟨t', ?_⟩
      simp only [bind_ok]
      rw [← h']
      congr 1
      have e1 : List.replicate (a + 1) (32 : UInt8) ++ (x :: core) ++ 0 :: (y :: t1)
          = (32 :: (List.replicate a 32 ++ (x :: core) ++ [0])) ++ y :: t1 := by
        simp [List.replicate_succ]
      have hl : (List.replicate (a + 1) (32 : UInt8) ++ (x :: core)).length + 1
          = (List.replicate a (32 : UInt8) ++ (x :: core) ++ [0]).length + 1 := by simp; omega
      rw [e1, hl]
      simp only [List.take_zero, List.nil_append, Nat.zero_add, List.cons_append, List.drop_succ_cons,
        List.drop_zero]
      rw [List.take_append, List.take_of_length_le (by omega), List.drop_append]
      simp

/-- C49, partial: blanks around a non-blank text are removed, provided the allocation has at least one byte
after the terminating NUL (or there is no leading blank). Missing: exactly sized buffers and blank strings (see
the counterexamples). -/
theorem strip_blank_ends_partial (a b : Nat) (core t : Buf) (hs : 0 ∉ core) (x y : UInt8)
    (hhead : core.head? = some x) (hlast : core.getLast? = some y) (hx : x ≠ 32) (hy : y ≠ 32)
    (ht : a = 0 ∨ t ≠ []) :
    ∃ buf, stripBlankEnds (List.replicate a 32 ++ core ++ List.replicate b 32 ++ 0 :: t) = .ok buf ∧
      content buf = core ∧ 0 ∈ buf := by
  obtain ⟨c', rfl⟩ : ∃ c', core = x :: c' := by
    cases core with
    | nil => simp at hhead
    | cons a l => simp at hhead; exact ⟨l, by rw [hhead]⟩
  have h32 : ∀ n, (0 : UInt8) ∉ List.replicate n (32 : UInt8) := by
    intro n h
    exact absurd (List.eq_of_mem_replicate h) (by decide)
  have hs2 : (0 : UInt8) ∉ x :: (c' ++ List.replicate b 32) := by
    intro h
    simp only [List.mem_cons, List.mem_append] at h hs
    rcases h with h | h | h
    · exact hs (Or.inl h)
    · exact hs (Or.inr h)
    · exact h32 b h
  have hs1 : (0 : UInt8) ∉ List.replicate a 32 ++ (x :: c') ++ List.replicate b 32 := by
    intro h
    simp only [List.append_assoc, List.mem_append] at h
    rcases h with h | h | h
    · exact h32 a h
    · exact hs h
    · exact h32 b h
  obtain ⟨t', h'⟩ := stripBlankFront_spec x hx (c' ++ List.replicate b 32) hs2 a
    ((List.replicate a (32 : UInt8) ++ (x :: c') ++ List.replicate b 32).length + 1) t
    (by simp) ht
  unfold stripBlankEnds
  rw [strlen_cstr hs1]
  simp only [bind_ok]
  have e : List.replicate a (32 : UInt8) ++ (x :: c') ++ List.replicate b 32 ++ 0 :: t
      = List.replicate a 32 ++ (x :: (c' ++ List.replicate b 32)) ++ 0 :: t := by simp
  rw [e, h']
  simp only [bind_ok]
  rw [strlen_cstr hs2]
  simp only [bind_ok]
  have hg : (x :: (c' ++ List.replicate b 32) ++ 0 :: t')[c'.length]? = some y := by
    rw [List.getLast?_eq_getElem?] at hlast
    simp only [List.length_cons, Nat.add_sub_cancel] at hlast
    rw [List.getElem?_append_left (by simp)]
    rw [← List.cons_append, List.getElem?_append_left (by simp)]
    exact hlast
  have hy0 : y ≠ 0 := by
    intro h
    subst h
    exact hs (List.mem_of_getLast? hlast)
  rw [stripBack_spec 32 _ c'.length y hg ⟨hy, hy0⟩ _ (by simp; omega) (by simp) (by
    intro i h1 h2
    simp only [List.length_cons, List.length_append, List.length_replicate] at h2
    by_cases hi : i = c'.length + b + 1
    · right
      rw [List.getElem?_append_right (by simp; omega)]
      simp [hi]

    · left
      rw [List.getElem?_append_left (by simp; omega), ← List.cons_append,
        List.getElem?_append_right (by simp; omega)]
      rw [List.getElem?_replicate, if_pos (by simp; omega)])]
  simp only [bind_ok]
  rw [wr_ok _ (by simp; omega)]
  have hset : ∃ r, (x :: (c' ++ List.replicate b 32) ++ 0 :: t').set (c'.length + 1) 0
      = (x :: c') ++ 0 :: r := by
    cases b with
    | zero => exact ⟨t', by simp [List.set_append_right]⟩
    | succ b => exact ⟨List.replicate b 32 ++ 0 :: t', by simp [List.set_append_right, List.replicate_succ]⟩
  obtain ⟨r, hr⟩ := hset
  refine ⟨_, rfl, ?_, ?_⟩
  · rw [hr]
    unfold content
    generalize x :: c' = s at hs
    induction s with
    | nil => simp
    | cons a s ih =>
      simp only [List.mem_cons, not_or] at hs
      simp only [List.cons_append, List.takeWhile_cons, ne_eq]
      rw [if_pos (by simpa using Ne.symm hs.1)]
      congr 1
      exact ih hs.2
  · rw [hr]; simp

example : stripBlankEnds [32, 32, 97, 32, 98, 32, 0, 7] = .ok [97, 32, 98, 0, 0, 7, 7, 7] := by decide

/-- An exactly sized buffer with a leading blank: the copy reads one byte past the allocation. -/
theorem strip_blank_ends_overread_counterexample : stripBlankEnds [32, 97, 0] = .error .oob := by decide

/-- A blank (or empty) string: the backward scan reads before the start of the string. -/
theorem strip_blank_ends_blank_counterexample :
    stripBlankEnds [0, 7] = .error .oob ∧ stripBlankEnds [32, 32, 0, 7] = .error .oob := by decide

/-- `strip_ends` keeps a trailing character too many when the string does not end with `right`:
"(ab" becomes "abb". -/
theorem strip_ends_duplicate_counterexample :
    stripEnds 5 [40, 97, 98, 0] 40 41 = .ok [97, 98, 98, 0] := by decide

/-- `strip_ends` never terminates on a string consisting of the left character only. -/
theorem strip_ends_diverge_counterexample (fuel : Nat) (right : UInt8) :
    stripEnds fuel [40, 0] 40 right = .error .diverge := by
  have h : ∀ fuel, stripFront 40 fuel [40, 0] = .error .diverge := by
    intro fuel
    induction fuel with
    | zero => rfl
    | succ f ih =>
      have h1 : rd [(40 : UInt8), 0] 0 = .ok 40 := rfl
      have h2 : strlen ([(40 : UInt8), 0].drop 1) = .ok 0 := rfl
      have h3 : memmove [(40 : UInt8), 0] 0 1 0 = .ok [40, 0] := rfl
      simp only [stripFront, h1, bind_ok, if_true, h2, h3, ih]
  simp [stripEnds, h]

/-! ### C50 concat_string -/

/-- C50: concatenation; NULL counts as empty. -/
theorem concat_string_spec (a b ta tb : Buf) (ha : 0 ∉ a) (hb : 0 ∉ b) :
    concatString (some (a ++ 0 :: ta)) (some (b ++ 0 :: tb)) = .ok (a ++ b ++ [0]) ∧
    concatString none (some (b ++ 0 :: tb)) = .ok (b ++ [0]) ∧
    concatString (some (a ++ 0 :: ta)) none = .ok (a ++ [0]) ∧
    concatString none none = .ok [0] := by
  simp [concatString, strlen_cstr ha, strlen_cstr hb]

end C3.Str
