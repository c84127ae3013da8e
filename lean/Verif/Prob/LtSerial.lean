/-
C87: serialization of linear transforms.
-/
import Verif.Prob.LtProps
import Verif.Serial.Props

namespace C3.Prob

open C3.Serial

/-- A transform whose fields have all been set and whose arrays have the lengths announced by the dimensions. -/
structure LinT.WF (lt : LinT W64) : Prop where
  hi : lt.dimin < 2 ^ 61
  ho : lt.dimout < 2 ^ 61
  hs : lt.dimin * lt.dimout < 2 ^ 61
  hA : lt.A.length = lt.dimin * lt.dimout
  hb : lt.b.length = lt.dimout
  hd : lt.det.isSome
  hm : lt.mt.isSome
  inv1 : ∀ i, lt.inv = some i → i.1.length = lt.dimin * lt.dimout ∧ i.2.length = lt.dimin ∧ lt.detinv.isSome ∧ lt.mti.isSome
  inv0 : lt.inv = none → lt.detinv = none ∧ lt.mti = none

theorem mtOf_code (m : MType) : mtOf m.code = some m := by cases m <;> decide

/-- C87: a transform with all fields set is written in the announced number of bytes and read back unchanged, with or without an inverse,
whatever follows in the stream. -/
theorem lt_serialize_roundtrip (lt : LinT W64) (h : lt.WF) : RoundTrips serLt sizeLt deLt lt := by
  obtain ⟨A, b, det, inv, di, din, dout, mt, mti⟩ := lt
  obtain ⟨hi, ho, hs, hA, hb, hd, hm, hso, hno⟩ := h
  dsimp only at hi ho hs hA hb hd hm hso hno
  obtain ⟨dt, rfl⟩ := Option.isSome_iff_exists.1 hd
  obtain ⟨m, rfl⟩ := Option.isSome_iff_exists.1 hm
  have eA : serDoublep A (din * dout) = .ok (serSize (din * dout) ++ image A) := by
    rw [← hA]; exact serDoublep_eq (by omega)
  have eb : serDoublep b dout = .ok (serSize dout ++ image b) := by
    rw [← hb]; exact serDoublep_eq (by omega)
  have rA : ∀ rest, deDoublep (serSize (din * dout) ++ (image A ++ rest)) = .ok ((A, din * dout), rest) := by
    intro rest; rw [← hA]; exact deDoublep_image (by omega) rest
  have rb : ∀ rest, deDoublep (serSize dout ++ (image b ++ rest)) = .ok ((b, dout), rest) := by
    intro rest; rw [← hb]; exact deDoublep_image (by omega) rest
  cases inv with
  | none =>
    obtain ⟨rfl, rfl⟩ := hno rfl
    refine ⟨serSize din ++ serSize dout ++ serInt m.code ++ serInt 0 ++ (serSize (din * dout) ++ image A) ++ (serSize dout ++ image b) ++ serDouble dt ++ [], ?_, ?_, ?_⟩
    · simp only [serLt, field, pure_eq_ok, bind_ok, eA, eb, serLtInv]; rfl
    · simp only [sizeLt, pure_eq_ok]
      congr 1
      simp [image_length, hA, hb]
      omega
    · intro rest
      simp only [List.append_assoc, List.append_nil, List.nil_append, deLt]
      rw [deSize_serSize (by omega), bind_ok, deSize_serSize (by omega), bind_ok, deInt_serInt, bind_ok, deInt_serInt, bind_ok, rA, bind_ok,
        rb, bind_ok, deDouble_serDouble, bind_ok, mtOf_code]
      rfl
  | some i =>
    obtain ⟨h1, h2, h3, h4⟩ := hso i rfl
    obtain ⟨v, rfl⟩ := Option.isSome_iff_exists.1 h3
    obtain ⟨mi, rfl⟩ := Option.isSome_iff_exists.1 h4
    have eA' : serDoublep i.1 (din * dout) = .ok (serSize (din * dout) ++ image i.1) := by
      rw [← h1]; exact serDoublep_eq (by omega)
    have eb' : serDoublep i.2 din = .ok (serSize din ++ image i.2) := by
      rw [← h2]; exact serDoublep_eq (by omega)
    have rA' : ∀ rest, deDoublep (serSize (din * dout) ++ (image i.1 ++ rest)) = .ok ((i.1, din * dout), rest) := by
      intro rest; rw [← h1]; exact deDoublep_image (by omega) rest
    have rb' : ∀ rest, deDoublep (serSize din ++ (image i.2 ++ rest)) = .ok ((i.2, din), rest) := by
      intro rest; rw [← h2]; exact deDoublep_image (by omega) rest
    refine ⟨serSize din ++ serSize dout ++ serInt m.code ++ serInt 1 ++ (serSize (din * dout) ++ image A) ++ (serSize dout ++ image b) ++ serDouble dt ++
      (serInt mi.code ++ (serSize (din * dout) ++ image i.1) ++ (serSize din ++ image i.2) ++ serDouble v), ?_, ?_, ?_⟩
    · simp only [serLt, field, pure_eq_ok, bind_ok, eA, eb, serLtInv, eA', eb']; rfl
    · simp only [sizeLt, pure_eq_ok]
      congr 1
      simp [image_length, hA, hb, h1, h2]
      omega
    · intro rest
      simp only [List.append_assoc, List.append_nil, List.nil_append, deLt]
      rw [deSize_serSize (by omega), bind_ok, deSize_serSize (by omega), bind_ok, deInt_serInt, bind_ok, deInt_serInt, bind_ok, rA, bind_ok,
        rb, bind_ok, deDouble_serDouble, bind_ok, mtOf_code]
      simp only [deLtInv]
      rw [if_neg (by decide), deInt_serInt, bind_ok, rA', bind_ok, rb', bind_ok, deDouble_serDouble, bind_ok, mtOf_code]
      rfl

/-- The hypotheses of `lt_serialize_roundtrip`, with an inverse. -/
example : LinT.WF ⟨[1, 2, 3, 4], [5, 6], some 7, some ([1, 2, 3, 4], [0, 1]), some 8, 2, 2, some .LT, some .LT⟩ :=
  ⟨by decide, by decide, by decide, rfl, rfl, rfl, rfl, fun i h => by injection h with h; subst h; exact ⟨rfl, rfl, rfl, rfl⟩,
    fun h => by cases h⟩

/-- C87: a copy of a transform cannot be serialized: the type of its matrix was not copied. -/
theorem copy_serialize_counterexample (lt : LinT W64) : serLt { lt with mt := none, mti := none } = .error .ub := rfl

end C3.Prob
