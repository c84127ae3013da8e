/-
C79: the tree of interactions holds the inclusion-exclusion of the variances of conditional expectations.
-/
import Verif.Prob.TreeLemmas
import Verif.Prob.Combos

set_option linter.unusedSectionVars false

namespace C3.Prob
open Finset
variable {K : Type} [Field K]

/-! ### Addresses of labels -/

def rel : Nat → List Nat → List Nat
  | _, [] => []
  | a, b :: L => (b - a - 1) :: rel b L

/-- Indices leading to the node of a label. -/
def addr : List Nat → List Nat
  | [] => []
  | a :: L => a :: rel a L

theorem rel_snoc : ∀ (a : Nat) (L : List Nat) (b : Nat), rel a (L ++ [b]) = rel a L ++ [b - (a :: L).getLast (by simp) - 1]
  | a, [], b => rfl
  | a, c :: L, b => by
    rw [List.cons_append, rel, rel_snoc c L b, rel, List.cons_append]
    rfl

theorem addr_snoc {L : List Nat} (h : L ≠ []) (b : Nat) : addr (L ++ [b]) = addr L ++ [b - L.getLast h - 1] := by
  match L with
  | [] => exact absurd rfl h
  | a :: L => rw [List.cons_append, addr, rel_snoc, addr, List.cons_append]

theorem rel_append : ∀ (a : Nat) (L M : List Nat), rel a (L ++ M) = rel a L ++ rel ((a :: L).getLast (by simp)) M
  | a, [], M => rfl
  | a, c :: L, M => by
    rw [List.cons_append, rel, rel_append c L M, rel, List.cons_append]
    rfl

theorem addr_append {L : List Nat} (h : L ≠ []) (M : List Nat) : addr (L ++ M) = addr L ++ rel (L.getLast h) M := by
  match L with
  | [] => exact absurd rfl h
  | a :: L => rw [List.cons_append, addr, rel_append, addr, List.cons_append]

theorem rel_inj : ∀ {a : Nat} {L M : List Nat}, (a :: L).Pairwise (· < ·) → (a :: M).Pairwise (· < ·) → rel a L <+: rel a M → L <+: M
  | a, [], M, _, _, _ => List.nil_prefix
  | a, b :: L, [], _, _, h => by simp [rel] at h
  | a, b :: L, c :: M, hL, hM, h => by
    rw [rel, rel, List.cons_prefix_cons] at h
    obtain ⟨h1, hL'⟩ := List.pairwise_cons.1 hL
    obtain ⟨h2, hM'⟩ := List.pairwise_cons.1 hM
    have hb := h1 b (by simp)
    have hc := h2 c (by simp)
    obtain rfl : b = c := by omega
    exact List.cons_prefix_cons.2 ⟨rfl, rel_inj hL' hM' h.2⟩

/-- Addresses extend each other only if the labels do. -/
theorem addr_prefix {L M : List Nat} (hL : L.Pairwise (· < ·)) (hM : M.Pairwise (· < ·)) (h : addr L <+: addr M) : L <+: M := by
  match L, M with
  | [], _ => exact List.nil_prefix
  | a :: L, [] => simp [addr] at h
  | a :: L, b :: M =>
    rw [addr, addr, List.cons_prefix_cons] at h
    obtain ⟨rfl, h⟩ := h
    exact List.cons_prefix_cons.2 ⟨rfl, rel_inj hL hM h⟩

theorem addr_inj {L M : List Nat} (hL : L.Pairwise (· < ·)) (hM : M.Pairwise (· < ·)) (h : addr L = addr M) : L = M := by
  have h1 := addr_prefix hL hM (h ▸ List.prefix_refl _)
  have h2 := addr_prefix hM hL (h ▸ List.prefix_refl _)
  exact h1.eq_of_length (le_antisymm h1.length_le h2.length_le)

/-! ### Finished nodes -/

/-- A label: a nonempty increasing list of variables below `n`. -/
structure Lab (n : Nat) (L : List Nat) : Prop where
  ne : L ≠ []
  sorted : L.Pairwise (· < ·)
  lt : ∀ x ∈ L, x < n

theorem Lab.sub {n : Nat} {L S : List Nat} (h : Lab n L) (hs : S.Sublist L) (hne : S ≠ []) : Lab n S :=
  ⟨hne, h.sorted.sublist hs, fun x hx => h.lt x (hs.subset hx)⟩

/-- The record of a finished label. -/
noncomputable def goodRec (v : Finset Nat → K) (L : List Nat) (h : L ≠ []) (nl : Nat) : Rec K :=
  ⟨L.getLast h, L, v L.toFinset, some (∑ w ∈ L.toFinset.ssubsets, inter v w), nl⟩

def Good (v : Finset Nat → K) (head : List (SI K)) (L : List Nat) : Prop := ∃ (h : L ≠ []) (nl : Nat), view head (addr L) = some (goodRec v L h nl)

theorem getSens_ok {x t : K} : ∀ {L : List Nat} {s : SI K} {a : Nat}, (a :: L).Pairwise (· < ·) → (∃ r, s.view [] = some r ∧ r.val = a) →
    (∀ P, P <+: L → (h : P ≠ []) → ∃ r, s.view (rel a P) = some r ∧ r.val = P.getLast h) → (∃ v l n, s.view (rel a L) = some ⟨v, l, x, some t, n⟩) → getSens s L = .ok (x - t)
  | [], .null, a, _, ⟨r, h, _⟩, _, _ => by simp [SI.view] at h
  | _ :: _, .null, a, _, ⟨r, h, _⟩, _, _ => by simp [SI.view] at h
  | [], .node v l y s ls, a, _, _, _, ⟨v', l', n, h⟩ => by
    rw [rel, SI.view] at h
    cases h
    rfl
  | b :: L, .node v l y s ls, a, hs, ⟨r, h, hr⟩, hp, ⟨v', l', n, hf⟩ => by
    obtain rfl : v = a := by rw [SI.view] at h; cases h; exact hr
    obtain ⟨h1, h2⟩ := List.pairwise_cons.1 hs
    have hb := h1 b (by simp)
    obtain ⟨r', e, hv⟩ := hp [b] (by simp) (by simp)
    rw [rel, rel, SI.view] at e
    cases hc : ls[b - v - 1]? with
    | none => rw [hc] at e; cases e
    | some c =>
      rw [hc, Option.bind_some] at e
      rw [getSens, if_neg (by omega), rd_of_getElem? hc, bind_ok]
      refine getSens_ok h2 ⟨r', e, hv⟩ (fun P hP hne => ?_) ⟨v', l', n, ?_⟩
      · obtain ⟨r2, e2, hv2⟩ := hp (b :: P) (List.cons_prefix_cons.2 ⟨rfl, hP⟩) (by simp)
        rw [rel, SI.view, hc, Option.bind_some] at e2
        exact ⟨r2, e2, by rw [hv2, List.getLast_cons hne]⟩
      · rw [rel, SI.view, hc, Option.bind_some] at hf
        exact hf

theorem inter_single (v : Finset Nat → K) (a : Nat) : inter v {a} = v {a} := by
  have h : ({a} : Finset Nat).ssubsets = {∅} := by
    ext w
    rw [mem_ssubsets, mem_singleton, ssubset_singleton_iff]
  rw [inter_eq v (singleton_ne_empty a), h, sum_singleton, inter_empty, sub_zero]

/-- The interaction read off the tree. -/
theorem getInteraction_ok {v : Finset Nat → K} {head : List (SI K)} {n : Nat} {S : List Nat} (hS : Lab n S) (h : ∀ P, P <+: S → P ≠ [] → Good v head P) :
    getInteraction head S = .ok (inter v S.toFinset) := by
  obtain ⟨hne, nl, e⟩ := h S (List.prefix_refl _) hS.ne
  match S, hne with
  | [a], _ =>
    rw [addr, rel, view] at e
    cases hc : head[a]? with
    | none => rw [hc] at e; cases e
    | some c =>
      rw [hc, Option.bind_some] at e
      cases c with
      | null => simp [SI.view] at e
      | node v' l x s ls =>
        rw [SI.view] at e
        cases e
        rw [getInteraction, rd_of_getElem? hc, bind_ok, SI.getVari]
        simp [inter_single]
  | a :: b :: L, hne =>
    rw [addr, view] at e
    cases hc : head[a]? with
    | none => rw [hc] at e; cases e
    | some c =>
      rw [hc, Option.bind_some] at e
      rw [getInteraction, rd_of_getElem? hc, bind_ok]
      · rw [inter_eq v (by simp)]
        refine getSens_ok hS.sorted ?_ (fun P hP hne' => ?_) ⟨_, _, _, e⟩
        · obtain ⟨_, nl', e'⟩ := h [a] (by simp) (by simp)
          rw [addr, rel, view, hc, Option.bind_some] at e'
          exact ⟨_, e', rfl⟩
        · obtain ⟨_, nl', e'⟩ := h (a :: P) (List.cons_prefix_cons.2 ⟨rfl, hP⟩) (by simp)
          rw [addr, view, hc, Option.bind_some] at e'
          exact ⟨_, e', by simp [goodRec, List.getLast_cons hne']⟩
      · simp

theorem computeSub_ok {v : Finset Nat → K} {head : List (SI K)} {n : Nat} (hn : n < 2 ^ 64) {L : List Nat} (hL : Lab n L) {s0 : Option K} {nl : Nat}
    (h : view head (addr L) = some ⟨L.getLast hL.ne, L, v L.toFinset, s0, nl⟩) (hp : ∀ S, S.Sublist L → S ≠ [] → S ≠ L → Good v head S) :
    ∃ head', computeSub head (addr L) = .ok head' ∧ head'.length = head.length ∧ view head' (addr L) = some (goodRec v L hL.ne nl) ∧ ∀ B, B ≠ addr L → view head' B = view head B := by
  obtain ⟨ls, e, -⟩ := nodeAt_view h
  have hlen : L.length ≤ n := by
    have h1 : L.toFinset.card = L.length := List.toFinset_card_of_nodup (hL.sorted.imp fun h => Nat.ne_of_lt h)
    have h2 : L.toFinset ⊆ range n := fun x hx => mem_range.2 (hL.lt x (List.mem_toFinset.1 hx))
    have := card_le_card h2
    rw [card_range] at this
    omega
  have hsum := varSub_ok (head := head) (v := v) hL.sorted (by omega) fun S hS hne hSL => getInteraction_ok (hL.sub hS hne) fun P hP hPne =>
    hp P (hP.sublist.trans hS) hPne fun hc => hSL (hS.eq_of_length (le_antisymm hS.length_le (hc ▸ hP.length_le)))
  obtain ⟨head', e', l', h1, h2⟩ := setSub_ok h (∑ w ∈ L.toFinset.ssubsets, inter v w)
  refine ⟨head', ?_, l', h1, h2⟩
  rw [computeSub, e, bind_ok, SI.getLabel, bind_ok, hsum, bind_ok, e']

/-! ### Building the tree -/

/-- Number of further levels built below a node. -/
def depth (left : Nat) : Nat := if left = 0 then 2 ^ 64 else left

theorem depth_pred {left : Nat} (h : left ≠ 1) : depth (pred64 left) + 1 = depth left := by
  rw [depth, depth]
  by_cases h0 : left = 0
  · subst h0; rfl
  · rw [pred64_pos (by omega), if_neg (by omega), if_neg h0]; omega

theorem Good.frame {v : Finset Nat → K} {head head' : List (SI K)} {S : List Nat} (h : Good v head S) (e : view head' (addr S) = view head (addr S)) : Good v head' S := by
  obtain ⟨h1, nl, h2⟩ := h
  exact ⟨h1, nl, by rw [e, h2]⟩

theorem Lab.snoc {n : Nat} {L : List Nat} (h : Lab n L) {b : Nat} (hb : L.getLast h.ne < b) (hn : b < n) : Lab n (L ++ [b]) := by
  refine ⟨by simp, List.pairwise_append.2 ⟨h.sorted, by simp, fun x hx y hy => ?_⟩, fun x hx => ?_⟩
  · obtain rfl : y = b := by simpa using hy
    rcases List.mem_iff_getElem.1 hx with ⟨i, hi, rfl⟩
    rw [List.getLast_eq_getElem] at hb
    by_cases hc : i = L.length - 1
    · subst hc; exact hb
    · exact lt_trans (List.pairwise_iff_getElem.1 h.sorted i (L.length - 1) hi (by omega) (by omega)) hb
  · rcases List.mem_append.1 hx with hx | hx
    · exact h.lt x hx
    · obtain rfl : x = b := by simpa using hx
      exact hn

/-- What a call of `get_combination` leaves behind. -/
structure Built (v : Finset Nat → K) (n : Nat) (L : List Nat) (d : Nat) (head head' : List (SI K)) : Prop where
  len : head'.length = head.length
  good : ∀ T, Lab n (L ++ T) → T.length ≤ d → Good v head' (L ++ T)
  frame : ∀ B, ¬ addr L <+: B → view head' B = view head B
  only : ∀ B r, view head' (addr L ++ B) = some r → ∃ T, Lab n (L ++ T) ∧ T.length ≤ d ∧ addr L ++ B = addr (L ++ T)

theorem not_prefix_append {L S T : List Nat} (h : ¬ L <+: S) : ¬ (L ++ T) <+: S := fun hc => h ((List.prefix_append L T).trans hc)

theorem getComb_ok {v : Finset Nat → K} {var : List Nat → C K} {n : Nat} (hn : n < 2 ^ 64) (hv : ∀ L, Lab n L → var L = .ok (v L.toFinset)) :
    ∀ {fuel left : Nat} {L : List Nat} (hL : Lab n L) {head : List (SI K)} {s0 : Option K} {nl : Nat}, n - (L.getLast hL.ne + 1) < fuel →
      view head (addr L) = some ⟨L.getLast hL.ne, L, v L.toFinset, s0, nl⟩ → n - (L.getLast hL.ne + 1) ≤ nl →
      (∀ B, B ≠ [] → view head (addr L ++ B) = none) →
      (∀ S, Lab n S → ¬ L <+: S → (∃ T, Lab n (L ++ T) ∧ T.length ≤ depth left ∧ S.Sublist (L ++ T)) → Good v head S) →
      ∃ head', getComb var n fuel left (L.getLast hL.ne + 1) (addr L) head = .ok head' ∧ Built v n L (depth left) head head' := by
  intro fuel
  induction fuel with
  | zero => intro left L hL head s0 nl h; omega
  | succ fuel ih =>
    intro left L hL head s0 nl hf hview hnl hbelow hprior
    obtain ⟨h1, e1, l1, g1, f1⟩ := computeSub_ok hn hL hview fun S hS hne hSL => hprior S (hL.sub hS hne)
      (fun hc => hSL (hS.eq_of_length (le_antisymm hS.length_le hc.length_le))) ⟨[], by simpa using hL, by simp, by simpa using hS⟩
    -- finished labels stay finished
    have pres : ∀ S, Lab n S → ¬ L <+: S → Good v head S → Good v h1 S := fun S hS hp hg => hg.frame (f1 _ fun hc => hp (by rw [addr_inj hS.sorted hL.sorted hc]))
    have o1 : ∀ B r, view h1 (addr L ++ B) = some r → ∃ T, Lab n (L ++ T) ∧ T.length ≤ depth left ∧ addr L ++ B = addr (L ++ T) := fun B r hB => by
      by_cases hB0 : B = []
      · exact ⟨[], by simpa using hL, by simp, by simp [hB0]⟩
      · rw [f1 _ (by simpa using hB0), hbelow B hB0] at hB; cases hB
    rw [getComb, e1, bind_ok]
    by_cases hl : left = 1
    · subst hl
      rw [if_pos rfl]
      have hd : depth 1 = 1 := rfl
      by_cases hlt : L.getLast hL.ne + 1 ≤ n
      · obtain ⟨h2, e2, l2, gL, gT, f2, o2⟩ := forR_spec (a := L.getLast hL.ne + 1) (b := n) (s := h1)
          (body := fun ii head => do
            let head ← push var head (addr L) ii (ii - (L.getLast hL.ne + 1)) 0
            computeSub head (addr L ++ [ii - (L.getLast hL.ne + 1)]))
          (I := fun m h2 => h2.length = head.length ∧ view h2 (addr L) = some (goodRec v L hL.ne nl) ∧ (∀ ii, L.getLast hL.ne < ii → ii < m → Good v h2 (L ++ [ii])) ∧
            (∀ B, ¬ addr L <+: B → view h2 B = view h1 B) ∧
            ∀ B r, view h2 (addr L ++ B) = some r → ∃ T, Lab n (L ++ T) ∧ T.length ≤ depth 1 ∧ addr L ++ B = addr (L ++ T))
          hlt ⟨l1, g1, fun ii h3 h4 => by omega, fun B _ => rfl, o1⟩
          (by
            rintro ii hii hin h2 ⟨l2, gL, gT, f2, o2⟩
            have hLab := hL.snoc (b := ii) (by omega) hin
            have haddr : addr L ++ [ii - (L.getLast hL.ne + 1)] = addr (L ++ [ii]) := by rw [addr_snoc hL.ne, Nat.sub_add_eq]
            obtain ⟨h3, e3, l3, v3, f3⟩ := push_ok (var := var) (val := ii) (which := ii - (L.getLast hL.ne + 1)) (nleaves := 0) gL
              (by show _ < nl; omega) (hv _ hLab)
            have v3' := v3 []
            rw [if_pos rfl, haddr] at v3'
            obtain ⟨h4, e4, l4, g4, f4⟩ := computeSub_ok (v := v) hn hLab (s0 := none) (nl := 0) (by rw [v3', goodRec]; simp) fun S hS hne hSL => by
              have hSlab := hLab.sub hS hne
              have hnp : ¬ (L ++ [ii]) <+: S := fun hc => hSL (hS.eq_of_length (le_antisymm hS.length_le hc.length_le))
              have hfr : view h3 (addr S) = view h2 (addr S) := f3 _ fun hc => hnp (addr_prefix hLab.sorted hSlab.sorted (haddr ▸ hc))
              by_cases hp : L <+: S
              · obtain ⟨R, rfl⟩ := hp
                have hR : R = [] := by
                  rcases List.sublist_cons_iff.1 ((List.append_sublist_append_left L).1 hS) with h5 | ⟨r, h5, h6⟩
                  · simpa using h5
                  · obtain rfl : r = [] := by simpa using h6
                    exact absurd (by rw [h5]) hSL
                subst hR
                rw [List.append_nil] at hfr ⊢
                exact ⟨hL.ne, nl, by rw [hfr, gL]⟩
              · have hpr := hprior S hSlab hp ⟨[ii], hLab, by rw [hd]; simp, hS⟩
                refine ((pres S hSlab hp hpr).frame ?_ : Good v h2 S).frame hfr
                exact f2 _ fun hc => hp (addr_prefix hL.sorted hSlab.sorted hc)
            refine ⟨h4, by rw [e3, bind_ok, haddr, e4], by omega, ?_, fun jj hj1 hj2 => ?_, fun B hB => ?_, fun B r hB => ?_⟩
            · rw [f4 _ (fun hc => by
                have := congrArg List.length (addr_inj hL.sorted hLab.sorted hc)
                simp at this), f3 _ (fun hc => by
                have := hc.length_le
                simp at this), gL]
            · by_cases hc : jj = ii
              · subst hc; exact ⟨by simp, _, g4⟩
              · have hLab' := hL.snoc (b := jj) hj1 (by omega)
                have hne : ¬ (L ++ [ii]) <+: (L ++ [jj]) := fun hp => by
                  have := hp.eq_of_length (by simp)
                  simp at this; omega
                refine (gT jj hj1 (by omega)).frame ?_
                rw [f4 _ fun hc' => hc (by have := addr_inj hLab'.sorted hLab.sorted hc'; simpa using this),
                  f3 _ fun hp => hne (addr_prefix hLab.sorted hLab'.sorted (haddr ▸ hp))]
            · rw [f4 _ fun hc => hB (by rw [hc, ← haddr]; exact List.prefix_append _ _), f3 _ (not_prefix_append hB), f2 B hB]
            · by_cases hc : addr L ++ B = addr (L ++ [ii])
              · exact ⟨[ii], hLab, by rw [hd]; simp, hc⟩
              · rw [f4 _ hc] at hB
                by_cases hpx : addr L ++ [ii - (L.getLast hL.ne + 1)] <+: addr L ++ B
                · obtain ⟨B', hB'⟩ := hpx
                  have hne : B' ≠ [] := by
                    rintro rfl
                    exact hc (by rw [← hB', List.append_nil, haddr])
                  rw [← hB', List.append_assoc, List.singleton_append, v3 B', if_neg hne] at hB
                  cases hB
                · rw [f3 _ hpx] at hB
                  exact o2 B r hB)
        refine ⟨h2, e2, l2, fun T hT hTd => ?_, fun B hB => by rw [f2 B hB, f1 B fun hc => hB (by rw [hc])], o2⟩
        rw [hd] at hTd
        match T, hTd with
        | [], _ => rw [List.append_nil]; exact ⟨hL.ne, nl, gL⟩
        | [c], _ =>
          have h5 := hT.sorted
          rw [List.pairwise_append] at h5
          exact gT c (h5.2.2 _ (List.getLast_mem hL.ne) c (by simp)) (hT.lt c (by simp))
      · have := hL.lt _ (List.getLast_mem hL.ne)
        omega
    · rw [if_neg hl, if_neg (by omega)]
      have hdp := depth_pred hl
      have hlast := hL.lt _ (List.getLast_mem hL.ne)
      obtain ⟨h2, e2, l2, gL, gT, f2, o2⟩ := forN_spec (n := n - (L.getLast hL.ne + 1)) (s := h1)
        (body := fun j head => do
          let head ← push var head (addr L) (n - 1 - j) (n - 1 - j - (L.getLast hL.ne + 1)) (n - (n - 1 - j) - 1)
          getComb var n fuel (pred64 left) (n - 1 - j + 1) (addr L ++ [n - 1 - j - (L.getLast hL.ne + 1)]) head)
        (I := fun m h2 => h2.length = head.length ∧ view h2 (addr L) = some (goodRec v L hL.ne nl) ∧
          (∀ c T, n - m ≤ c → Lab n (L ++ c :: T) → T.length + 1 ≤ depth left → Good v h2 (L ++ c :: T)) ∧ (∀ B, ¬ addr L <+: B → view h2 B = view h1 B) ∧
          ∀ B r, view h2 (addr L ++ B) = some r → ∃ T, Lab n (L ++ T) ∧ T.length ≤ depth left ∧ addr L ++ B = addr (L ++ T))
        ⟨l1, g1, fun c T h3 h4 => by have := h4.lt c (by simp); omega, fun B _ => rfl, o1⟩
        (by
          rintro j hj h2 ⟨l2, gL, gT, f2, o2⟩
          obtain ⟨ii, hii⟩ : ∃ ii, ii = n - 1 - j := ⟨_, rfl⟩
          rw [← hii]
          have hLab := hL.snoc (b := ii) (by omega) (by omega)
          have haddr : addr L ++ [ii - (L.getLast hL.ne + 1)] = addr (L ++ [ii]) := by rw [addr_snoc hL.ne, Nat.sub_add_eq]
          obtain ⟨h3, e3, l3, v3, f3⟩ := push_ok (var := var) (val := ii) (which := ii - (L.getLast hL.ne + 1)) (nleaves := n - ii - 1) gL
            (by show _ < nl; omega) (hv _ hLab)
          have v3' := v3 []
          rw [if_pos rfl, haddr] at v3'
          have hgl : (L ++ [ii]).getLast hLab.ne = ii := by simp
          obtain ⟨h4, e4, b4⟩ := ih (left := pred64 left) hLab (head := h3) (s0 := none) (nl := n - ii - 1) (by rw [hgl]; omega) (by rw [v3', hgl]; rfl) (by rw [hgl]; omega)
            (fun B hB => by rw [← haddr, List.append_assoc, List.singleton_append, v3 B, if_neg hB])
            (by
              rintro S hSlab hnp ⟨T', hT', hTd, hS⟩
              have hfr : view h3 (addr S) = view h2 (addr S) := f3 _ fun hc => hnp (addr_prefix hLab.sorted hSlab.sorted (haddr ▸ hc))
              rw [List.append_assoc, List.singleton_append] at hS hT'
              by_cases hp : L <+: S
              · obtain ⟨R, rfl⟩ := hp
                have hR := (List.append_sublist_append_left L).1 hS
                match R with
                | [] =>
                  rw [List.append_nil] at hfr ⊢
                  exact ⟨hL.ne, nl, by rw [hfr, gL]⟩
                | c :: R' =>
                  have hcii : c ≠ ii := by
                    rintro rfl
                    exact hnp ⟨R', by simp⟩
                  have hRT : (c :: R').Sublist T' := by
                    rcases List.sublist_cons_iff.1 hR with h5 | ⟨r, h5, h6⟩
                    · exact h5
                    · cases h5; exact absurd rfl hcii
                  have h7 : ii < c := by
                    have h8 := hT'.sorted
                    rw [List.pairwise_append] at h8
                    exact (List.pairwise_cons.1 h8.2.1).1 c (hRT.subset (by simp))
                  have h9 := hRT.length_le
                  rw [List.length_cons] at h9
                  exact (gT c R' (by omega) hSlab (by omega)).frame hfr
              · have hpr := hprior S hSlab hp ⟨ii :: T', hT', by rw [List.length_cons]; omega, hS⟩
                refine ((pres S hSlab hp hpr).frame ?_ : Good v h2 S).frame hfr
                exact f2 _ fun hc => hp (addr_prefix hL.sorted hSlab.sorted hc))
          rw [hgl, ← haddr] at e4
          refine ⟨h4, by rw [e3, bind_ok, e4], by rw [b4.len]; omega, ?_, fun c T hc hT hTd => ?_, fun B hB => ?_, fun B r hB => ?_⟩
          · have hnp : ¬ addr (L ++ [ii]) <+: addr L := fun hc => by
              have := hc.length_le
              rw [← haddr] at this
              simp at this
            rw [b4.frame _ hnp, f3 _ (haddr ▸ hnp), gL]
          · by_cases hci : c = ii
            · subst hci
              have := b4.good T (by simpa using hT) (by omega)
              simpa using this
            · have hnp : ¬ addr (L ++ [ii]) <+: addr (L ++ c :: T) := fun hp => by
                have := addr_prefix hLab.sorted hT.sorted hp
                rw [List.prefix_append_right_inj, List.cons_prefix_cons] at this
                exact hci this.1.symm
              refine (gT c T (by omega) hT hTd).frame ?_
              rw [b4.frame _ hnp, f3 _ (haddr ▸ hnp)]
          · have hnp : ¬ addr (L ++ [ii]) <+: B := by rw [← haddr]; exact not_prefix_append hB
            rw [b4.frame _ hnp, f3 _ (haddr ▸ hnp), f2 B hB]
          · by_cases hpx : addr (L ++ [ii]) <+: addr L ++ B
            · obtain ⟨B', hB'⟩ := hpx
              rw [← hB'] at hB ⊢
              obtain ⟨T, hT, hTd, hTa⟩ := b4.only B' r hB
              rw [List.append_assoc, List.singleton_append] at hT hTa
              exact ⟨ii :: T, hT, by rw [List.length_cons]; omega, hTa⟩
            · rw [b4.frame _ hpx, f3 _ (haddr ▸ hpx)] at hB
              exact o2 B r hB)
      refine ⟨h2, e2, l2, fun T hT hTd => ?_, fun B hB => by rw [f2 B hB, f1 B fun hc => hB (by rw [hc])], o2⟩
      match T with
      | [] => rw [List.append_nil]; exact ⟨hL.ne, nl, gL⟩
      | c :: T =>
        have h5 := hT.sorted
        rw [List.pairwise_append] at h5
        have := h5.2.2 _ (List.getLast_mem hL.ne) c (by simp)
        exact gT c T (by omega) hT (by simpa using hTd)

/-- The largest number of variables in an interaction that is computed: an order below 2 computes all. -/
def maxOrder (order : Nat) : Nat := depth (pred64 order) + 1

theorem maxOrder_eq {order : Nat} (h : 2 ≤ order) : maxOrder order = order := by
  rw [maxOrder, pred64_pos (by omega), depth, if_neg (by omega)]; omega

theorem maxOrder_low {order : Nat} (h : order < 2) : 2 ^ 64 ≤ maxOrder order := by
  have : order = 0 ∨ order = 1 := by omega
  rcases this with rfl | rfl
  · show 2 ^ 64 ≤ depth (2 ^ 64 - 1) + 1
    rw [depth, if_neg (by decide)]; omega
  · show 2 ^ 64 ≤ depth 0 + 1
    rw [depth, if_pos rfl]; omega

/-- C79: every interaction of at most the requested number of variables is what remains of the variance of the conditional expectation after subtracting the
interactions of all proper subsets of the variables. -/
theorem sobolTree_spec {v : Finset Nat → K} {var : List Nat → C K} {dim order : Nat} (hn : dim < 2 ^ 64) (hv : ∀ L, Lab dim L → var L = .ok (v L.toFinset)) :
    ∃ tree, sobolTree var dim order = .ok tree ∧ tree.length = dim ∧ (∀ S, Lab dim S → S.length ≤ maxOrder order → Good v tree S) ∧
      ∀ B r, view tree B = some r → ∃ S, Lab dim S ∧ S.length ≤ maxOrder order ∧ B = addr S := by
  obtain ⟨tree, e, hl, hg, ho⟩ := forN_spec (n := dim) (s := List.replicate dim SI.null)
    (body := fun ii head => do
      let new ← siCreate var (dim - 1 - ii) (dim - 1) []
      let head ← wr head (dim - 1 - ii) new
      getComb var dim (dim + 1) (pred64 order) (dim - ii) [dim - 1 - ii] head)
    (I := fun m head => head.length = dim ∧ (∀ c T, dim - m ≤ c → Lab dim (c :: T) → T.length + 1 ≤ maxOrder order → Good v head (c :: T)) ∧
      ∀ B r, view head B = some r → ∃ S, Lab dim S ∧ S.length ≤ maxOrder order ∧ B = addr S)
    ⟨by simp, fun c T h1 h2 => by have := h2.lt c (by simp); omega, fun B r hB => by
      match B with
      | [] => cases hB
      | i :: B =>
        rw [view] at hB
        by_cases hi : i < dim
        · rw [List.getElem?_replicate, if_pos hi, Option.bind_some] at hB
          simp [SI.view] at hB
        · rw [List.getElem?_replicate, if_neg hi] at hB; cases hB⟩
    (by
      rintro j hj head ⟨hl, hg, ho⟩
      obtain ⟨a, ha⟩ : ∃ a, a = dim - 1 - j := ⟨_, rfl⟩
      have hLab : Lab dim [a] := ⟨by simp, by simp, fun x hx => by simp at hx; omega⟩
      have hset : ∀ B, view (head.set a (.node a [a] (v [a].toFinset) none (List.replicate (dim - 1) .null))) (a :: B) =
          if B = [] then some ⟨a, [a], v [a].toFinset, none, dim - 1⟩ else none := fun B => by
        rw [view, List.getElem?_set_self (by omega), Option.bind_some, fresh_view]
      have hoth : ∀ c B, c ≠ a → view (head.set a (.node a [a] (v [a].toFinset) none (List.replicate (dim - 1) .null))) (c :: B) = view head (c :: B) := fun c B hc => by
        rw [view, view, List.getElem?_set_ne (Ne.symm hc)]
      obtain ⟨h4, e4, b4⟩ := getComb_ok hn hv (fuel := dim + 1) (left := pred64 order) hLab (head := head.set a (.node a [a] (v [a].toFinset) none (List.replicate (dim - 1) .null)))
        (s0 := none) (nl := dim - 1) (by simp) (by rw [addr, rel, hset, if_pos rfl]; rfl) (by simp; omega)
        (fun B hB => by rw [addr, rel, List.singleton_append, hset, if_neg hB])
        (by
          rintro S hSlab hnp ⟨T, hT, hTd, hS⟩
          match S, hSlab.ne with
          | c :: R, _ =>
            have hca : c ≠ a := by
              rintro rfl
              exact hnp (by simp)
            rw [List.singleton_append] at hS hT
            have hRT : (c :: R).Sublist T := by
              rcases List.sublist_cons_iff.1 hS with h5 | ⟨r, h5, h6⟩
              · exact h5
              · cases h5; exact absurd rfl hca
            have h7 : a < c := (List.pairwise_cons.1 hT.sorted).1 c (hRT.subset (by simp))
            have h9 := hRT.length_le
            rw [List.length_cons] at h9
            refine (hg c R (by omega) hSlab (by rw [maxOrder]; omega)).frame ?_
            rw [addr, hoth c _ hca])
      refine ⟨h4, ?_, by rw [b4.len]; simp [hl], fun c T hc hT hTd => ?_, fun B r hB => ?_⟩
      · rw [← ha, siCreate, List.nil_append, hv _ hLab, bind_ok, pure_eq_ok, bind_ok, wr_ok _ (by omega), bind_ok]
        have : dim - j = [a].getLast (by simp) + 1 := by simp; omega
        rw [this]
        exact e4
      · by_cases hca : c = a
        · subst hca
          exact b4.good T hT (by rw [maxOrder] at hTd; omega)
        · refine (hg c T (by omega) hT hTd).frame ?_
          rw [b4.frame _ (by rw [addr, rel, addr, List.cons_prefix_cons]; exact fun h => hca h.1.symm), addr, hoth c _ hca]
      · match B with
        | [] => simp [view] at hB
        | c :: B =>
          by_cases hca : c = a
          · subst hca
            obtain ⟨T, hT, hTd, hTa⟩ := b4.only B r hB
            exact ⟨c :: T, hT, by rw [List.length_cons, maxOrder]; omega, hTa⟩
          · rw [b4.frame _ (by rw [addr, rel, List.cons_prefix_cons]; exact fun h => hca h.1.symm), hoth c _ hca] at hB
            exact ho _ r hB)
  refine ⟨tree, e, hl, fun S hS hd => ?_, ho⟩
  match S, hS.ne with
  | c :: T, _ => exact hg c T (by omega) hS hd

/-- The interactions, as they are returned to the user. -/
theorem interactions_value {v : Finset Nat → K} {tree : List (SI K)} {dim m : Nat} (h : ∀ S, Lab dim S → S.length ≤ m → Good v tree S) {S : List Nat} (hS : Lab dim S) (hm : S.length ≤ m) :
    getInteraction tree S = .ok (inter v S.toFinset) :=
  getInteraction_ok hS fun P hP hne => h P (hS.sub hP.sublist hne) (hP.length_le.trans hm)

theorem main_value {v : Finset Nat → K} {tree : List (SI K)} {dim m : Nat} (h : ∀ S, Lab dim S → S.length ≤ m → Good v tree S) {a : Nat} (ha : a < dim) (hm : 1 ≤ m) :
    getMain tree a = .ok (v {a}) := by
  have := interactions_value h (S := [a]) ⟨by simp, by simp, by simpa using ha⟩ (by simpa using hm)
  rw [getInteraction] at this
  rw [getMain, this]
  simp [inter_single]

end C3.Prob
