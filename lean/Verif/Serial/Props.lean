/-
C01, C13, C14: binary serialization round-trips.
-/
import Verif.Serial.Lemmas
import Verif.Serial.Spec

namespace C3.Serial

/-! ### C01: primitives -/

theorem int_roundtrip (v : W32) (rest : Bytes) :
    deInt (serInt v ++ rest) = .ok (v, rest) ∧ (serInt v).length = 4 :=
  ⟨deInt_serInt v rest, serInt_length v⟩

theorem size_t_roundtrip (v : Nat) (h : v < 2 ^ 64) (rest : Bytes) :
    deSize (serSize v ++ rest) = .ok (v, rest) ∧ (serSize v).length = 8 :=
  ⟨deSize_serSize h rest, serSize_length v⟩

example : deSize (serSize 258 ++ [7, 9]) = .ok (258, [7, 9]) := by decide
example : serSize 258 = [2, 1, 0, 0, 0, 0, 0, 0] := by decide

theorem double_roundtrip (v : W64) (rest : Bytes) :
    deDouble (serDouble v ++ rest) = .ok (v, rest) ∧ (serDouble v).length = 8 :=
  ⟨deDouble_serDouble v rest, serDouble_length v⟩

/-- An array of doubles: the reader gets the array, its length, and is left with what follows. -/
theorem doublep_roundtrip (v : List W64) (h : v.length < 2 ^ 61) (rest : Bytes) :
    ∃ b, serDoublep v v.length = .ok b ∧ b.length = 8 + 8 * v.length ∧
      deDoublep (b ++ rest) = .ok ((v, v.length), rest) := by
  refine ⟨_, serDoublep_eq h, by simp [image_length], ?_⟩
  rw [List.append_assoc]
  exact deDoublep_image h rest

example : ([1, 2, 3] : List W64).length < 2 ^ 61 := by decide

/-- Writing more elements than the array holds is an out-of-bounds read. -/
theorem doublep_overread (v : List W64) (N : Nat) (h : v.length < N) (hN : N < 2 ^ 61) :
    serDoublep v N = .error .oob := by
  unfold serDoublep
  have hm : N * 8 % 2 ^ 64 = N * 8 := Nat.mod_eq_of_lt (by omega)
  simp only [hm]
  rw [if_neg (by omega)]

/-- A stream that ends before the announced number of elements is an out-of-bounds read, never a
silently shortened array. -/
theorem doublep_truncated (v : List W64) (h : v.length < 2 ^ 61) (k : Nat)
    (hk : k < 8 + 8 * v.length) :
    deDoublep ((serSize v.length ++ image v).take k) = .error .oob := by
  have hm : v.length * 8 % 2 ^ 64 = v.length * 8 := Nat.mod_eq_of_lt (by omega)
  rcases Nat.lt_or_ge k 8 with hk8 | hk8
  · have hl : ((serSize v.length ++ image v).take k).length = k := by
      rw [List.length_take, List.length_append, serSize_length, image_length]; omega
    simp [deDoublep, deSize, takeB, hl, Nat.not_le.mpr hk8]
  · have hs : (serSize v.length ++ image v).take k
        = serSize v.length ++ (image v).take (k - 8) := by
      rw [List.take_append, List.take_of_length_le (by simpa using hk8), serSize_length]
    rw [hs]
    unfold deDoublep
    rw [deSize_serSize (by omega)]
    simp only [bind_ok, hm, takeB]
    rw [if_neg (by rw [List.length_take, image_length]; omega)]
    rfl

/-! ### C13: univariate functions -/

theorem ope_roundtrip (p : OrthPolyExpansion) (h : p.WF) :
    RoundTrips serOpe (fun p => .ok (sizeOpe p)) deOpe p := by
  obtain ⟨hs, hl, hr, hc, hf⟩ := h
  obtain ⟨pt, n, lb, ub, co, cc, mp, kr⟩ := p
  simp only at hs hl hr hc hf
  by_cases hpt : pt = .fourier
  · obtain ⟨hn, hco⟩ := hc hpt
    subst hn hco
    obtain ⟨b, h1, h2, h3⟩ := repeat_rt cc (fun z _ => complex_rt z)
    rw [repeatSize_const] at h2
    have h2' : b.length = cc.length * 16 := by injection h2 with h2; exact h2.symm
    refine ⟨serInt pt.code ++ serDouble lb ++ serDouble ub ++ (serSize cc.length ++ b) ++
      serMapping mp ++ serInt kr, ?_, ?_, ?_⟩
    · simp [serOpe, hpt, h1]
    · simp [sizeOpe, hpt, sizeMapping, h2']; omega
    · intro rest
      subst hpt
      simp only [deOpe, List.append_assoc, deInt_serInt, bind_ok, deDouble_serDouble,
        polyOfCode_code hs, if_true, deSize_serSize (show cc.length < 2 ^ 64 by omega), h3,
        deMapping_serMapping hl, pure_eq_ok]
  · obtain ⟨hn, hcc⟩ := hr hpt
    subst hn hcc
    have hf' : co.length < 2 ^ 61 := by omega
    refine ⟨serInt pt.code ++ serDouble lb ++ serDouble ub ++ (serSize co.length ++ image co) ++
      serMapping mp ++ serInt kr, ?_, ?_, ?_⟩
    · simp [serOpe, hpt, serDoublep_eq hf']
    · simp [sizeOpe, hpt, sizeMapping, image_length]; omega
    · intro rest
      simp only [deOpe, List.append_assoc, deInt_serInt, bind_ok, deDouble_serDouble,
        polyOfCode_code hs, if_neg hpt, deDoublep_image hf',
        deMapping_serMapping hl, pure_eq_ok]

/-- A degree-2 Legendre expansion is well formed. -/
example : (⟨.legendre, 3, 5, 6, [1, 2, 3], [], ⟨.linear, 1, 1, 2, 3, 4⟩, 0⟩ : OrthPolyExpansion).WF :=
  ⟨by decide, rfl, fun _ => ⟨rfl, rfl⟩, fun h => by simp at h, by decide⟩

/-- A STANDARD-type expansion is written but cannot be read back: the reader dereferences NULL. -/
theorem ope_standard_counterexample :
    ∃ (p : OrthPolyExpansion) (b : Bytes), p.ptype = .standard ∧ p.coeff.length = p.numPoly ∧
      serOpe p = .ok b ∧ deOpe b = .error .null := by
  refine ⟨⟨.standard, 1, 0, 0, [1], [], ⟨.linear, 0, 0, 0, 0, 0⟩, 0⟩, _, rfl, rfl, rfl, ?_⟩
  decide

theorem elem_roundtrip (f : ElemExp) (h : f.WF) :
    RoundTrips serElem (fun f => .ok (sizeElem f)) deElem f := by
  obtain ⟨h1, h2, h3⟩ := h
  obtain ⟨n, no, co⟩ := f
  simp only at h1 h2 h3
  have e1 : serDoublep no n = _ := h1 ▸ serDoublep_eq (h1 ▸ h3)
  have e2 : serDoublep co n = _ := h2 ▸ serDoublep_eq (h2 ▸ h3)
  refine ⟨serSize n ++ (serSize no.length ++ image no) ++ (serSize co.length ++ image co), ?_, ?_, ?_⟩
  · simp [serElem, e1, e2, h1, h2]
  · simp [sizeElem, image_length, h1, h2]; omega
  · intro rest
    simp only [deElem, List.append_assoc, bind_ok, deSize_serSize (show n < 2 ^ 64 by omega),
      deDoublep_image (show no.length < 2 ^ 61 by omega),
      deDoublep_image (show co.length < 2 ^ 61 by omega), pure_eq_ok]
    rw [h2]

example : (⟨2, [1, 2], [3, 4]⟩ : ElemExp).WF := ⟨rfl, rfl, by decide⟩

theorem kernel_roundtrip (k : Kernel) (h : k.WF) : RoundTrips serKernel sizeKernel deKernel k := by
  obtain ⟨h1, h2⟩ := h
  obtain ⟨t, n, ps⟩ := k
  simp only at h1 h2
  subst h1
  refine ⟨serInt t ++ serSize ps.length ++ (serSize ps.length ++ image ps), ?_, ?_, ?_⟩
  · simp [serKernel, serDoublep_eq h2]
  · simp [sizeKernel, image_length]; omega
  · intro rest
    simp only [deKernel, List.append_assoc, deInt_serInt, bind_ok,
      deSize_serSize (show ps.length < 2 ^ 64 by omega), deDoublep_image h2, pure_eq_ok]

theorem kernexp_roundtrip (k : KernelExpansion) (h : k.WF) :
    RoundTrips serKernExp sizeKernExp deKernExp k := by
  obtain ⟨hp, hc, hk, hf, he, hi⟩ := h
  obtain ⟨n, co, ks, lb, ub, inc⟩ := k
  simp only at hp hc hk hf he hi
  obtain ⟨b, h1, h2, h3⟩ := repeat_rt ks (fun q hq => kernel_roundtrip q (he q hq))
  rw [hk] at h1 h2 h3
  have e1 : serDoublep co n = _ := hc ▸ serDoublep_eq (hc ▸ hf)
  refine ⟨serSize n ++ (serSize co.length ++ image co) ++ b ++ serDouble lb ++ serDouble ub ++
    serSize inc, ?_, ?_, ?_⟩
  · simp [serKernExp, hp, e1, h1, hc]
  · simp [sizeKernExp, hp, h2, image_length, hc]; omega
  · intro rest
    simp only [deKernExp, List.append_assoc, bind_ok, deSize_serSize (show n < 2 ^ 64 by omega),
      deDoublep_image (show co.length < 2 ^ 61 by omega), h3, deDouble_serDouble,
      deSize_serSize hi, pure_eq_ok]

example : (⟨1, [7], [⟨0, 2, [1, 2]⟩], 0, 1, 0⟩ : KernelExpansion).WF :=
  ⟨by decide, rfl, rfl, by decide, by intro q hq; simp at hq; subst hq; exact ⟨rfl, by decide⟩, by decide⟩

/-- Fuel version: any fuel of at least the stream length of the tree suffices. -/
theorem pw_roundtrip_fuel (p : PiecewisePoly) (h : p.WF) :
    ∃ b, serPw p = .ok b ∧ sizePw p = .ok b.length ∧
      ∀ fuel, b.length ≤ fuel → ∀ rest, dePwF fuel (b ++ rest) = .ok (p, rest) := by
  induction h with
  | @leaf ope hope =>
    obtain ⟨b, h1, h2, h3⟩ := ope_roundtrip ope hope
    injection h2 with h2
    refine ⟨serInt 1 ++ b, by simp [serPw, h1], by simp [sizePw, h2]; omega, ?_⟩
    intro fuel hfuel rest
    cases fuel with
    | zero => simp at hfuel
    | succ fuel =>
      simp [dePwF, List.append_assoc, deInt_serInt, h3]
  | @node bs hne hlen hbs ih =>
    have key : ∀ bs : List PiecewisePoly,
        (∀ b ∈ bs, ∃ w, serPw b = .ok w ∧ sizePw b = .ok w.length ∧
          ∀ fuel, w.length ≤ fuel → ∀ rest, dePwF fuel (w ++ rest) = .ok (b, rest)) →
        ∃ w, serPws bs = .ok w ∧ sizePws bs = .ok w.length ∧
          ∀ fuel, w.length ≤ fuel → ∀ rest,
            repeatDe (dePwF fuel) bs.length (w ++ rest) = .ok (bs, rest) := by
      intro bs
      induction bs with
      | nil => intro _; exact ⟨[], rfl, rfl, fun _ _ _ => rfl⟩
      | cons p ps ihp =>
        intro hall
        obtain ⟨w, s1, z1, d1⟩ := hall p (by simp)
        obtain ⟨ws, s2, z2, d2⟩ := ihp (fun q hq => hall q (by simp [hq]))
        refine ⟨w ++ ws, by simp [serPws, s1, s2], by simp [sizePws, z1, z2], ?_⟩
        intro fuel hfuel rest
        simp only [List.length_append] at hfuel
        simp [repeatDe, List.append_assoc, d1 fuel (by omega), d2 fuel (by omega)]
    obtain ⟨w, s, z, d⟩ := key bs ih
    refine ⟨serInt 0 ++ serSize bs.length ++ w, by simp [serPw, s], ?_, ?_⟩
    · cases bs with
      | nil => exact absurd rfl hne
      | cons p ps =>
        simp only [sizePws] at z
        cases hp : sizePw p with
        | error e => simp [hp] at z
        | ok sp =>
          cases hps : sizePws ps with
          | error e => simp [hp, hps] at z
          | ok sps =>
            simp [hp, hps] at z
            simp [sizePw, hp, hps]; omega
    · intro fuel hfuel rest
      simp only [List.length_append, serInt_length, serSize_length] at hfuel
      cases fuel with
      | zero => omega
      | succ fuel =>
        simp [dePwF, List.append_assoc, deInt_serInt, deSize_serSize hlen, d fuel (by omega)]

theorem pw_roundtrip (p : PiecewisePoly) (h : p.WF) : RoundTrips serPw sizePw dePw p := by
  obtain ⟨b, h1, h2, h3⟩ := pw_roundtrip_fuel p h
  exact ⟨b, h1, h2, fun rest => h3 _ (by simp; omega) rest⟩

/-- An inner node without branches: the size computation reads `branches[0]`. -/
theorem pw_empty_node_counterexample : sizePw (.node []) = .error .oob := rfl

/-- C13: every univariate function of any class round-trips and its announced size is exact. -/
theorem generic_function_roundtrip (g : GenericFunction) (h : g.WF) :
    RoundTrips serGf sizeGf deGf g := by
  obtain ⟨hd, hf⟩ := h
  obtain ⟨dim, f⟩ := g
  simp only at hd hf
  cases f with
  | piecewise p =>
    obtain ⟨b, h1, h2, h3⟩ := pw_roundtrip p hf
    refine ⟨serSize dim ++ serInt 0 ++ b, by simp [serGf, h1, UniFun.code], by simp [sizeGf, h2]; omega, ?_⟩
    intro rest
    simp [deGf, List.append_assoc, deSize_serSize hd, deInt_serInt, h3]
  | polynomial p =>
    obtain ⟨b, h1, h2, h3⟩ := ope_roundtrip p hf
    injection h2 with h2
    refine ⟨serSize dim ++ serInt 1 ++ b, by simp [serGf, h1, UniFun.code], by simp [sizeGf, h2]; omega, ?_⟩
    intro rest
    simp [deGf, List.append_assoc, deSize_serSize hd, deInt_serInt, h3]
  | constelm p =>
    obtain ⟨b, h1, h2, h3⟩ := elem_roundtrip p hf
    injection h2 with h2
    refine ⟨serSize dim ++ serInt 2 ++ b, by simp [serGf, h1, UniFun.code], by simp [sizeGf, h2]; omega, ?_⟩
    intro rest
    simp [deGf, List.append_assoc, deSize_serSize hd, deInt_serInt, h3]
  | linelm p =>
    obtain ⟨b, h1, h2, h3⟩ := elem_roundtrip p hf
    injection h2 with h2
    refine ⟨serSize dim ++ serInt 3 ++ b, by simp [serGf, h1, UniFun.code], by simp [sizeGf, h2]; omega, ?_⟩
    intro rest
    simp [deGf, List.append_assoc, deSize_serSize hd, deInt_serInt, h3]
  | kernel p =>
    obtain ⟨b, h1, h2, h3⟩ := kernexp_roundtrip p hf
    refine ⟨serSize dim ++ serInt 4 ++ b, by simp [serGf, h1, UniFun.code], by simp [sizeGf, h2]; omega, ?_⟩
    intro rest
    simp [deGf, List.append_assoc, deSize_serSize hd, deInt_serInt, h3]

/-! ### C14: containers -/

theorem quasimatrix_roundtrip (q : Quasimatrix) (h : q.WF) : RoundTrips serQm sizeQm deQm q := by
  obtain ⟨hl, hf, he⟩ := h
  obtain ⟨n, fs⟩ := q
  simp only at hl hf he
  subst hl
  obtain ⟨b, h1, h2, h3⟩ := repeat_rt fs (fun g hg => generic_function_roundtrip g (he g hg))
  refine ⟨serSize fs.length ++ b, by simp [serQm, h1], by simp [sizeQm, h2], ?_⟩
  intro rest
  simp [deQm, List.append_assoc, deSize_serSize hf, h3]

theorem qmarray_roundtrip (q : Qmarray) (h : q.WF) : RoundTrips serQma sizeQma deQma q := by
  obtain ⟨hl, hr, hc, hf, he⟩ := h
  obtain ⟨r, c, fs⟩ := q
  simp only at hl hr hc hf he
  obtain ⟨b, h1, h2, h3⟩ := repeat_rt fs (fun g hg => generic_function_roundtrip g (he g hg))
  rw [hl] at h1 h2 h3
  refine ⟨serSize r ++ serSize c ++ b, by simp [serQma, h1], by simp [sizeQma, h2]; omega, ?_⟩
  intro rest
  simp [deQma, List.append_assoc, deSize_serSize hr, deSize_serSize hc, Nat.mod_eq_of_lt hf, h3]

theorem function_train_roundtrip (f : FunctionTrain) (h : f.WF) :
    RoundTrips serFt sizeFt deFt f := by
  obtain ⟨hd, hn, hr, hc, he⟩ := h
  obtain ⟨d, rs, cs⟩ := f
  simp only at hd hn hr hc he
  have hrt : ∀ r ∈ rs, RoundTrips (fun r => .ok (serSize r)) (fun _ => .ok 8) deSize r :=
    fun r hrm => ⟨serSize r, rfl, by simp, fun rest => deSize_serSize (hr r hrm) rest⟩
  obtain ⟨b, h1, h2, h3⟩ := repeat_rt rs hrt
  obtain ⟨b', h1', h2', h3'⟩ := repeat_rt cs (fun g hg => qmarray_roundtrip g (he g hg))
  rw [repeatSize_const] at h2
  injection h2 with h2
  rw [hn] at h1 h2 h3
  rw [hc] at h1' h2' h3'
  refine ⟨serSize d ++ b ++ b', by simp [serFt, h1, h1'], by simp [sizeFt, h2', h2]; omega, ?_⟩
  intro rest
  simp [deFt, List.append_assoc, deSize_serSize hd, h3, h3']

theorem ft1d_array_roundtrip (f : FT1DArray) (h : f.WF) : RoundTrips serFta sizeFta deFta f := by
  obtain ⟨hs, hl, he⟩ := h
  obtain ⟨n, fs⟩ := f
  simp only at hs hl he
  subst hl
  obtain ⟨b, h1, h2, h3⟩ := repeat_rt fs (fun g hg => function_train_roundtrip g (he g hg))
  refine ⟨serSize fs.length ++ b, by simp [serFta, h1], by simp [sizeFta, h2], ?_⟩
  intro rest
  simp [deFta, List.append_assoc, deSize_serSize hs, h3]

/-- A two-dimensional train with a polynomial, a piecewise tree and a linear element is well formed. -/
example : (⟨2, [1, 2, 1],
    [⟨1, 2, [⟨1, .polynomial ⟨.hermite, 1, 0, 0, [9], [], ⟨.linear, 0, 0, 0, 0, 0⟩, 0⟩⟩,
             ⟨1, .linelm ⟨2, [1, 2], [3, 4]⟩⟩]⟩,
     ⟨2, 1, [⟨1, .constelm ⟨0, [], []⟩⟩,
             ⟨1, .piecewise (.node [.leaf ⟨.fourier, 1, 0, 0, [], [(1, 2)], ⟨.linear, 0, 0, 0, 0, 0⟩, 0⟩])⟩]⟩]⟩
    : FunctionTrain).WF := by
  refine ⟨by decide, rfl, by decide, rfl, ?_⟩
  intro q hq
  simp only [List.mem_cons, List.not_mem_nil, or_false] at hq
  rcases hq with rfl | rfl
  · refine ⟨rfl, by decide, by decide, by decide, ?_⟩
    intro g hg
    simp only [List.mem_cons, List.not_mem_nil, or_false] at hg
    rcases hg with rfl | rfl
    · exact ⟨by decide, ⟨by decide, rfl, fun _ => ⟨rfl, rfl⟩, fun h => by simp at h, by decide⟩⟩
    · exact ⟨by decide, ⟨rfl, rfl, by decide⟩⟩
  · refine ⟨rfl, by decide, by decide, by decide, ?_⟩
    intro g hg
    simp only [List.mem_cons, List.not_mem_nil, or_false] at hg
    rcases hg with rfl | rfl
    · exact ⟨by decide, ⟨rfl, rfl, by decide⟩⟩
    · refine ⟨by decide, .node (by simp) (by simp) ?_⟩
      intro b hb
      simp only [List.mem_cons, List.not_mem_nil, or_false] at hb
      subst hb
      exact .leaf ⟨by decide, rfl, fun h => by simp at h, fun _ => ⟨rfl, rfl⟩, by decide⟩

end C3.Serial
