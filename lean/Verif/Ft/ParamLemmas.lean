/-
Lemmas for C26: one function, one array of functions.
-/
import Verif.Ft.Param
import Verif.Core.Buf

set_option linter.unusedSectionVars false

namespace C3.Ft
variable {K : Type} [Field K]

/-! ### What the parameters are -/

/-- The parameters of a function, in order. -/
def params : PFun K → List K
  | .poly n _ c => c.take n
  | .elem _ n _ c => c.take n
  | .kern n c ks inc => c.take n ++ (if inc then (ks.take n).map (fun k => k.2.2) else [])
  | .pw => []

/-- The function with all its parameters erased: everything that is not a parameter. -/
def erase : PFun K → PFun K
  | .poly n a c => .poly n a (List.replicate n 0 ++ c.drop n)
  | .elem l n x c => .elem l n x (List.replicate n 0 ++ c.drop n)
  | .kern n c ks inc => .kern n (List.replicate n 0 ++ c.drop n)
      (if inc then (ks.take n).map (fun k => (k.1, k.2.1, 0)) ++ ks.drop n else ks) inc
  | .pw => .pw

/-- Arrays are as long as the counts say. -/
def PFun.WF : PFun K → Prop
  | .poly n a c => n ≤ a ∧ c.length = a
  | .elem _ n x c => c.length = n ∧ x.length = n
  | .kern n c ks _ => n ≤ c.length ∧ n ≤ ks.length
  | .pw => True

theorem params_length {f : PFun K} (h : f.WF) : (params f).length = numParams f := by
  cases f with
  | poly n a c => simp only [PFun.WF] at h; simp [params, numParams]; omega
  | elem l n x c => simp only [PFun.WF] at h; simp [params, numParams]; omega
  | kern n c ks inc =>
    simp only [PFun.WF] at h
    cases inc
    · simp [params, numParams]; omega
    · simp [params, numParams]; omega
  | pw => rfl

theorem erase_numParams {f g : PFun K} (h : erase f = erase g) : numParams f = numParams g := by
  cases f <;> cases g <;> simp only [erase, PFun.poly.injEq, PFun.elem.injEq, PFun.kern.injEq, reduceCtorEq] at h <;>
    simp [numParams, h]

/-- Erased content and parameters together determine the function. -/
theorem eq_of_erase_params {f g : PFun K} (hf : f.WF) (hg : g.WF) (h : erase f = erase g) (hp : params f = params g) :
    f = g := by
  have key : ∀ {n : Nat} {c c' : List K}, c.take n = c'.take n →
      List.replicate n 0 ++ c.drop n = List.replicate n 0 ++ c'.drop n → c = c' := by
    intro n c c' h1 h2
    rw [← List.take_append_drop n c, ← List.take_append_drop n c', h1, (List.append_cancel_left h2)]
  cases f with
  | poly n a c =>
    cases g with
    | poly n' a' c' =>
      simp only [erase, PFun.poly.injEq] at h
      obtain ⟨rfl, rfl, h⟩ := h
      rw [key hp h]
    | _ => simp [erase] at h
  | elem l n x c =>
    cases g with
    | elem l' n' x' c' =>
      simp only [erase, PFun.elem.injEq] at h
      obtain ⟨rfl, rfl, rfl, h⟩ := h
      rw [key hp h]
    | _ => simp [erase] at h
  | kern n c ks inc =>
    cases g with
    | kern n' c' ks' inc' =>
      simp only [erase, PFun.kern.injEq] at h
      obtain ⟨rfl, h, h2, rfl⟩ := h
      simp only [PFun.WF] at hf hg
      simp only [params] at hp
      obtain ⟨p1, p2⟩ := List.append_inj hp (by simp; omega)
      rw [key p1 h]
      congr 1
      cases inc
      · simpa using h2
      · simp only [if_true] at h2 p2
        obtain ⟨q1, q2⟩ := List.append_inj h2 (by simp; omega)
        rw [← List.take_append_drop n ks, ← List.take_append_drop n ks', q2]
        congr 1
        have hl : (ks.take n).length = (ks'.take n).length := by simp; omega
        apply List.ext_getElem hl
        intro i h1 h2
        have a1 : ((ks.take n).map (fun k => k.2.2))[i]? = ((ks'.take n).map (fun k => k.2.2))[i]? := by rw [p2]
        have a2 : ((ks.take n).map (fun k => (k.1, k.2.1, (0 : K))))[i]? = ((ks'.take n).map (fun k => (k.1, k.2.1, (0 : K))))[i]? := by
          rw [q1]
        rw [List.getElem?_map, List.getElem?_map, List.getElem?_eq_getElem h1, List.getElem?_eq_getElem h2] at a1 a2
        simp only [Option.map_some, Option.some.injEq, Prod.mk.injEq] at a1 a2
        exact Prod.ext a2.1 (Prod.ext a2.2.1 a1)
    | _ => simp [erase] at h
  | pw => cases g <;> simp [erase] at h; rfl

/-! ### One function -/

theorem movTo_ok {n soff doff : Nat} {src dst : List K} (h1 : soff + n ≤ src.length) (h2 : doff + n ≤ dst.length) :
    movTo n src soff dst doff = .ok (dst.take doff ++ (src.drop soff).take n ++ dst.drop (doff + n)) := by
  rw [movTo, forN_fill (fun i => src.getD (soff + i) 0) h2]
  · congr 3
    apply List.ext_getElem?
    intro i
    by_cases hi : i < n
    · have : soff + i < src.length := by omega
      rw [List.getElem?_map, List.getElem?_range hi, Option.map_some, List.getElem?_take, if_pos hi, List.getElem?_drop,
        List.getElem?_eq_getElem this, List.getD_eq_getElem?_getD, List.getElem?_eq_getElem this]; rfl
    · rw [List.getElem?_eq_none (by simpa using hi), List.getElem?_eq_none (by simp; omega)]
  · intro i hi b _
    have : soff + i < src.length := by omega
    rw [rd_ok this, bind_ok, List.getD_eq_getElem?_getD, List.getElem?_eq_getElem this]; rfl

theorem getParams_ok {f : PFun K} (h : f.WF) {param : List K} {off : Nat} (hl : off + numParams f ≤ param.length) :
    getParams f param off = .ok (numParams f, param.take off ++ params f ++ param.drop (off + numParams f)) := by
  cases f with
  | poly n a c =>
    simp only [PFun.WF] at h
    simp only [numParams] at hl
    simp only [getParams, movTo_ok (show 0 + n ≤ c.length by omega) hl, bind_ok, List.drop_zero]
    rfl
  | elem l n x c =>
    simp only [PFun.WF] at h
    simp only [numParams] at hl
    simp only [getParams, movTo_ok (show 0 + n ≤ c.length by omega) hl, bind_ok, List.drop_zero]
    rfl
  | kern n c ks inc =>
    simp only [PFun.WF] at h
    cases inc
    · simp only [numParams, Bool.false_eq_true, if_false] at hl
      simp only [getParams, movTo_ok (show 0 + n ≤ c.length by omega) hl, bind_ok, List.drop_zero, params, numParams,
        Bool.false_eq_true, if_false, List.append_nil]
      rfl
    · simp only [numParams, if_true] at hl
      simp only [getParams, movTo_ok (show 0 + n ≤ c.length by omega) (show off + n ≤ param.length by omega), bind_ok,
        List.drop_zero, params, numParams, if_true]
      rw [forN_fill (off := off + n) (fun i => ((ks[i]?).getD (0, 0, 0)).2.2)
        (by
          simp only [List.length_append, List.length_take, List.length_drop]
          omega)]
      · simp only [bind_ok]
        have hA : (param.take off ++ c.take n).length = off + n := by simp; omega
        rw [List.take_append_of_le_length (by omega), List.take_of_length_le (by omega), List.drop_append, hA,
          List.drop_of_length_le (by omega), List.nil_append, List.drop_drop]
        have e2 : off + n + (off + n + n - (off + n)) = off + 2 * n := by omega
        rw [e2]
        have e3 : (List.range n).map (fun i => ((ks[i]?).getD (0, 0, 0)).2.2) = (ks.take n).map (fun k => k.2.2) := by
          apply List.ext_getElem?
          intro i
          by_cases hi : i < n
          · have : i < ks.length := by omega
            rw [List.getElem?_map, List.getElem?_range hi, List.getElem?_map, List.getElem?_take, if_pos hi,
              List.getElem?_eq_getElem this]; simp [this]
          · rw [List.getElem?_eq_none (by simpa using hi), List.getElem?_eq_none (by simp; omega)]
        rw [e3, ← List.append_assoc]
        rfl
      · intro i hi b _
        have : i < ks.length := by omega
        rw [rd_ok this, bind_ok, List.getElem?_eq_getElem this, show off + (i + n) = off + n + i by omega]; rfl
  | pw => simp [getParams, params, numParams]

/-- The scan for NaN and infinity. -/
theorem scan_ok {bad : K → Bool} {n off : Nat} {param : List K} (hl : off + n ≤ param.length)
    (hb : ∀ v ∈ (param.drop off).take n, bad v = false) :
    scanBad bad n param off = .ok () := by
  obtain ⟨u, h, -⟩ := forN_spec (I := fun _ (_ : Unit) => True) (n := n) (body := fun ii _ => do
      let v ← rd param (off + ii)
      if bad v then (.error .exit : C Unit) else pure ()) (s := ()) trivial (by
    intro i hi s _
    refine ⟨(), ?_, trivial⟩
    have hlt : off + i < param.length := by omega
    have : bad param[off + i] = false := hb _ (by
      have : ((param.drop off).take n)[i]? = some param[off + i] := by
        rw [List.getElem?_take, if_pos hi, List.getElem?_drop, List.getElem?_eq_getElem hlt]
      exact List.mem_of_getElem? this)
    rw [rd_ok hlt, bind_ok, this]; rfl)
  exact h

theorem scan_bad {bad : K → Bool} {off : Nat} {param : List K} : ∀ {n : Nat}, off + n ≤ param.length →
    (∃ v ∈ (param.drop off).take n, bad v = true) →
    scanBad bad n param off = .error .exit
  | 0, _, ⟨v, hv, _⟩ => by simp at hv
  | n + 1, hl, h => by
    by_cases hn : ∃ v ∈ (param.drop off).take n, bad v = true
    · have e := scan_bad (n := n) (by omega) hn
      unfold scanBad at e ⊢
      rw [forN_succ, e]; rfl
    · have e := scan_ok (n := n) (bad := bad) (off := off) (param := param) (by omega) (by
        intro v hv
        by_contra hc
        exact hn ⟨v, hv, by simpa using hc⟩)
      unfold scanBad at e ⊢
      rw [forN_succ, e, ebind_ok]
      have hlt : off + n < param.length := by omega
      rw [rd_ok hlt, bind_ok]
      obtain ⟨v, hv, hb⟩ := h
      rw [List.take_succ, List.getElem?_drop, List.getElem?_eq_getElem hlt] at hv
      simp only [Option.toList_some, List.mem_append, List.mem_singleton] at hv
      rcases hv with hv | rfl
      · exact absurd ⟨v, hv, hb⟩ hn
      · rw [hb]; rfl

theorem updateParams_ok {bad : K → Bool} {f : PFun K} (h : f.WF) {param : List K} {off : Nat}
    (hl : off + numParams f ≤ param.length) (hb : ∀ v ∈ (param.drop off).take (numParams f), bad v = false) :
    ∃ g, updateParams bad f (numParams f) param off = .ok g ∧ g.WF ∧ erase g = erase f ∧
      params g = (param.drop off).take (numParams f) := by
  rw [updateParams, scan_ok hl hb, bind_ok, updateCls.eq_def]
  have tl : ∀ n, off + n ≤ param.length → ((param.drop off).take n).length = n := by intro n hn; simp; omega
  have main : ∀ {n : Nat} {c : List K}, off + n ≤ param.length → n ≤ c.length →
      movTo n param off c 0 = .ok ((param.drop off).take n ++ c.drop n) := by
    intro n c h1 h2
    rw [movTo_ok h1 (by omega)]; simp
  have tk : ∀ {n : Nat} {c : List K}, off + n ≤ param.length →
      ((param.drop off).take n ++ c.drop n).take n = (param.drop off).take n := by
    intro n c h1
    rw [List.take_append_of_le_length (by rw [tl n h1]), List.take_of_length_le (by rw [tl n h1])]
  have dr : ∀ {n : Nat} {c : List K}, off + n ≤ param.length →
      ((param.drop off).take n ++ c.drop n).drop n = c.drop n := by
    intro n c h1
    rw [List.drop_append, tl n h1, List.drop_of_length_le (by rw [tl n h1])]; simp
  cases f with
  | poly n a c =>
    simp only [PFun.WF] at h
    simp only [numParams] at hl ⊢
    refine ⟨.poly n a ((param.drop off).take n ++ c.drop n), ?_, ⟨h.1, ?_⟩, ?_, ?_⟩
    · simp only [polyUpdate, Nat.le_refl, if_true, main hl (show n ≤ c.length by omega), bind_ok, forR, Nat.sub_self]
      rfl
    · rw [List.length_append, tl n hl, List.length_drop]; omega
    · simp only [erase, dr hl]
    · simp only [params, tk hl]
  | elem l n x c =>
    simp only [PFun.WF] at h
    simp only [numParams] at hl ⊢
    refine ⟨.elem l n x ((param.drop off).take n ++ c.drop n), ?_, ⟨?_, h.2⟩, ?_, ?_⟩
    · simp only [elemUpdate, decide_true, cassert_true, bind_ok, main hl (show n ≤ c.length by omega)]
      rfl
    · rw [List.length_append, tl n hl, List.length_drop]; omega
    · simp only [erase, dr hl]
    · simp only [params, tk hl]
  | kern n c ks inc =>
    simp only [PFun.WF] at h
    cases inc
    · simp only [numParams, Bool.false_eq_true, if_false] at hl ⊢
      refine ⟨.kern n ((param.drop off).take n ++ c.drop n) ks false, ?_, ⟨?_, h.2⟩, ?_, ?_⟩
      · simp only [kernUpdate, if_true, decide_true, cassert_true, bind_ok, main hl h.1]
        rfl
      · rw [List.length_append, tl n hl, List.length_drop]; omega
      · simp only [erase, dr hl]
      · simp only [params, tk hl, Bool.false_eq_true, if_false, List.append_nil]
    · simp only [numParams, if_true] at hl ⊢
      by_cases h0 : n = 0
      · subst h0
        refine ⟨.kern 0 c ks true, ?_, h, rfl, by simp [params]⟩
        simp [kernUpdate, movTo]
      have hln : off + n ≤ param.length := by omega
      have e2 : 2 * n / 2 = n := by omega
      obtain ⟨ks', k1, k2, k3, k4⟩ : ∃ ks', forN n (fun ii ks => do
            let k ← rd ks ii
            let v ← rd param (off + (ii + n))
            wr ks ii (k.1, k.2.1, v)) ks = .ok ks' ∧ ks'.length = ks.length ∧
          (∀ i, i < n → ∀ k, ks[i]? = some k → ks'[i]? = some (k.1, k.2.1, param.getD (off + n + i) 0)) ∧
          (∀ i, n ≤ i → ks'[i]? = ks[i]?) := by
        obtain ⟨ks', q1, q2⟩ := forN_spec (n := n) (s := ks)
          (I := fun m (l : List (K × K × K)) => l.length = ks.length ∧
            (∀ i, i < m → ∀ k, ks[i]? = some k → l[i]? = some (k.1, k.2.1, param.getD (off + n + i) 0)) ∧
            (∀ i, m ≤ i → l[i]? = ks[i]?)) ⟨rfl, by simp, by simp⟩ (by
          rintro i hi l ⟨l1, l2, l3⟩
          have hik : i < ks.length := by omega
          have hp : off + (i + n) < param.length := by omega
          have hli : l[i]? = some ks[i] := by rw [l3 i (Nat.le_refl i), List.getElem?_eq_getElem hik]
          refine ⟨l.set i (ks[i].1, ks[i].2.1, param.getD (off + n + i) 0), ?_, by simpa using l1, ?_, ?_⟩
          · show (do
              let k ← rd l i
              let v ← rd param (off + (i + n))
              wr l i (k.1, k.2.1, v)) = _
            rw [rd_of_getElem? hli, bind_ok, rd_ok hp, bind_ok, wr_ok _ (by omega),
              show off + n + i = off + (i + n) by omega, List.getD_eq_getElem?_getD, List.getElem?_eq_getElem hp]
            rfl
          · intro j hj k hk
            by_cases hji : j = i
            · subst hji
              rw [List.getElem?_eq_getElem hik] at hk
              cases hk
              rw [List.getElem?_set_self (by omega)]
            · rw [List.getElem?_set_ne (fun e => hji e.symm)]; exact l2 j (by omega) k hk
          · intro j hj
            rw [List.getElem?_set_ne (by omega)]; exact l3 j (by omega))
        exact ⟨ks', q1, q2.1, q2.2.1, q2.2.2⟩
      refine ⟨.kern n ((param.drop off).take n ++ c.drop n) ks' true, ?_, ⟨?_, by omega⟩, ?_, ?_⟩
      · simp only [kernUpdate, Bool.true_eq_false, if_false, e2]
        rw [if_neg (show ¬ 2 * n = n by omega), cassert_of (decide_eq_true h0), bind_ok, main hln h.1, bind_ok, k1, bind_ok]
        rfl
      · rw [List.length_append, tl n hln, List.length_drop]; omega
      · simp only [erase, dr hln, if_true, PFun.kern.injEq, true_and, and_true]
        congr 1
        · apply List.ext_getElem?
          intro i
          by_cases hi : i < n
          · have hik : i < ks.length := by omega
            rw [List.getElem?_map, List.getElem?_take, if_pos hi, List.getElem?_map, List.getElem?_take, if_pos hi,
              k3 i hi _ (List.getElem?_eq_getElem hik), List.getElem?_eq_getElem hik]; rfl
          · rw [List.getElem?_eq_none (by simp; omega), List.getElem?_eq_none (by simp; omega)]
        · apply List.ext_getElem?
          intro i
          rw [List.getElem?_drop, List.getElem?_drop, k4 _ (by omega)]
      · simp only [params, tk hln, if_true]
        rw [show 2 * n = n + n by omega, List.take_add]
        congr 1
        apply List.ext_getElem?
        intro i
        by_cases hi : i < n
        · have hik : i < ks.length := by omega
          have hp : off + n + i < param.length := by omega
          rw [List.getElem?_map, List.getElem?_take, if_pos hi, k3 i hi _ (List.getElem?_eq_getElem hik),
            List.getElem?_take, if_pos hi, List.getElem?_drop, List.getElem?_drop, ← Nat.add_assoc,
            List.getD_eq_getElem?_getD, List.getElem?_eq_getElem hp]; rfl
        · rw [List.getElem?_eq_none (by simp; omega), List.getElem?_eq_none (by simp; omega)]
  | pw => exact ⟨.pw, rfl, trivial, rfl, by simp [params, numParams]⟩

theorem updateParams_bad {bad : K → Bool} {f : PFun K} {n : Nat} {param : List K} {off : Nat}
    (hl : off + n ≤ param.length) (hb : ∃ v ∈ (param.drop off).take n, bad v = true) :
    updateParams bad f n param off = .error .exit := by
  rw [updateParams, scan_bad hl hb]; rfl

end C3.Ft
