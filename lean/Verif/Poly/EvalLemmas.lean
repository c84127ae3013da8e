/- Helper lemmas for the evaluation of orthogonal polynomial expansions. -/
import Verif.Poly.Spec
import Verif.Lin.Lemmas
import Mathlib.RingTheory.Polynomial.Chebyshev

set_option linter.unusedSectionVars false

namespace C3.Poly
open Finset
open C3.Lin (dv dv_ok)
variable {K : Type} [Field K] [LinearOrder K] [IsStrictOrderedRing K]

theorem Ope.WF.rdc {f : Ope K} (h : f.WF) {i : Nat} (hi : i < f.num) : rd f.coeff i = .ok (f.coeff.getD i 0) :=
  rd_getD 0 (lt_of_lt_of_le hi (h.num_le.trans h.alloc_le))

theorem wp_p (fam : Fam K) (n : Nat) (x : K) : wp fam (fam.p n x) (fam.p (n + 1) x) (n + 2) x = fam.p (n + 2) x := rfl

@[simp] theorem Fam.p_zero (fam : Fam K) (x : K) : fam.p 0 x = fam.c0 := rfl
@[simp] theorem Fam.p_one (fam : Fam K) (x : K) : fam.p 1 x = fam.l0 + fam.l1 * x := rfl
theorem Fam.p_add_two (fam : Fam K) (n : Nat) (x : K) :
    fam.p (n + 2) x = (fam.an (n + 2) * x + fam.bn (n + 2)) * fam.p (n + 1) x + fam.cn (n + 2) * fam.p n x := rfl

/-- The state of the evaluation loop before order `i`. -/
def evalSt (f : Ope K) (xn : K) (i : Nat) : St K :=
  ⟨f.fam.p (i - 2) xn, f.fam.p (i - 1) xn, ∑ k ∈ range i, f.coeff.getD k 0 * f.fam.p k xn, ∑ k ∈ range i, f.fam.p k xn ^ 2⟩

theorem evalSum_ok {f : Ope K} (h : f.WF) (xn : K) :
    ∃ s, evalSum f xn = .ok s ∧ s.out = ∑ k ∈ range f.num, f.coeff.getD k 0 * f.fam.p k xn ∧
      s.den = ∑ k ∈ range f.num, f.fam.p k xn ^ 2 := by
  rw [evalSum, evalFirst, h.rdc h.pos, bind_ok, pure_eq_ok, bind_ok, evalSecond]
  by_cases h1 : f.num > 1
  · rw [if_pos h1, h.rdc h1, bind_ok, pure_eq_ok, bind_ok]
    have key := forN_traj (fun j => evalSt f xn (2 + j)) (n := f.num - 2) (body := fun j => evalStep f xn (2 + j))
      (fun i hi => by
        have e1 : 2 + i - 2 = i := by omega
        have e2 : 2 + i - 1 = i + 1 := by omega
        have e3 : 2 + (i + 1) - 2 = i + 1 := by omega
        have e4 : 2 + (i + 1) - 1 = i + 2 := by omega
        have e5 : 2 + (i + 1) = (i + 2) + 1 := by omega
        have e6 : 2 + i = i + 2 := by omega
        simp only [evalSt, e1, e2, e3, e4]
        rw [evalStep, h.rdc (by omega), bind_ok, pure_eq_ok, e6, wp_p, e5, sum_range_succ _ (i + 2), sum_range_succ _ (i + 2), pow_two])
    have e0 : evalSt f xn (2 + 0) = ⟨f.fam.c0, f.fam.l0 + f.fam.l1 * xn,
        0 + f.fam.c0 * f.coeff.getD 0 0 + (f.fam.l0 + f.fam.l1 * xn) * f.coeff.getD 1 0,
        0 + f.fam.c0 * f.fam.c0 + (f.fam.l0 + f.fam.l1 * xn) * (f.fam.l0 + f.fam.l1 * xn)⟩ := by
      simp only [evalSt, sum_range_succ, range_zero, sum_empty, Fam.p_zero, Fam.p_one, St.mk.injEq, true_and, Nat.add_zero, Nat.sub_self, Nat.add_one_sub_one]
      constructor <;> ring
    rw [e0] at key
    refine ⟨evalSt f xn (2 + (f.num - 2)), key, ?_, ?_⟩ <;> simp only [evalSt] <;> rw [show 2 + (f.num - 2) = f.num by omega]
  · have hn : f.num = 1 := by have := h.pos; omega
    rw [if_neg h1, pure_eq_ok, bind_ok, hn]
    refine ⟨_, rfl, ?_, ?_⟩ <;> simp [mul_comm, pow_two]

/-- The Chebyshev polynomials of the recurrence are those of Mathlib. -/
theorem cheb_p (pi x : K) (n : Nat) : (chebFam pi).p n x = (Polynomial.Chebyshev.T K n).eval x := by
  induction n using Nat.strong_induction_on with
  | _ n ih =>
    match n with
    | 0 => simp [chebFam]
    | 1 => simp [chebFam]
    | n + 2 =>
      have e : ((n + 2 : Nat) : ℤ) = (n : ℤ) + 2 := by push_cast; ring
      rw [Fam.p, ih (n + 1) (by omega), ih n (by omega), e, Polynomial.Chebyshev.T_add_two]
      simp [chebFam]; ring

theorem clenshaw_ok {f : Ope K} (h : f.WF) (hc : f.fam.pt = .cheb) (hk : f.krist = false) (x : K) :
    clenshaw f x = .ok (f.val x) := by
  obtain ⟨pi, hfam⟩ := h.cheb hc
  rw [clenshaw, hk]
  simp only [Bool.not_false, cassert_true, bind_ok]
  rw [if_neg (by have := h.pos; omega)]
  obtain ⟨s, hs, hI⟩ := forN_spec (n := f.num - 1) (s := ((0 : K), (0 : K)))
    (body := fun i (s : K × K) => do
      let c ← rd f.coeff (f.num - 1 - i)
      pure (c + 2 * f.map.map x * s.1 - s.2, s.1))
    (I := fun i s => f.val x = ∑ k ∈ range (f.num - i), f.coeff.getD k 0 * f.fam.p k (f.map.map x) +
        s.1 * f.fam.p (f.num - i) (f.map.map x) - s.2 * f.fam.p (f.num - i - 1) (f.map.map x))
    (by simp [Ope.val, SMap.map])
    (by
      intro i hi s hI
      refine ⟨_, by rw [h.rdc (by omega), bind_ok]; rfl, ?_⟩
      rw [hI]
      obtain ⟨m, hm⟩ : ∃ m, f.num - i = m + 2 := ⟨f.num - i - 2, by omega⟩
      have hm1 : f.num - (i + 1) = m + 1 := by omega
      have hm2 : f.num - 1 - i = m + 1 := by omega
      rw [hm, hm1, hm2, sum_range_succ _ (m + 1)]
      simp only [Nat.add_sub_cancel, show m + 2 - 1 = m + 1 by omega]
      rw [show f.fam.p (m + 2) (f.map.map x) = 2 * f.map.map x * f.fam.p (m + 1) (f.map.map x) - f.fam.p m (f.map.map x) by
        rw [hfam, Fam.p]; simp [chebFam]; ring]
      ring)
  rw [hs, bind_ok, h.rdc h.pos, bind_ok, pure_eq_ok, hI]
  have : f.num - (f.num - 1) = 1 := by have := h.pos; omega
  rw [this]
  simp [hfam, chebFam]
  ring

/-- A loop that updates the entries `off, …, off+n-1` of a block one after the other, each from its own old value. -/
theorem forN_window {n off : Nat} {body : Nat → List K → C (List K)} {a : List K} (h : Nat → K → K)
    (hlen : off + n ≤ a.length)
    (hb : ∀ i < n, ∀ b : List K, b.length = a.length → body i b = .ok (b.set (off + i) (h i (b.getD (off + i) 0)))) :
    ∃ b, forN n body a = .ok b ∧ b.length = a.length ∧ (∀ i < n, b.getD (off + i) 0 = h i (a.getD (off + i) 0)) ∧
      ∀ k, (k < off ∨ off + n ≤ k) → b[k]? = a[k]? := by
  obtain ⟨b, e, h1, h2, h3⟩ := forN_spec (n := n) (s := a) (body := body)
    (I := fun m b => b.length = a.length ∧ (∀ i < m, b.getD (off + i) 0 = h i (a.getD (off + i) 0)) ∧
      ∀ k, (k < off ∨ off + m ≤ k) → b[k]? = a[k]?)
    ⟨rfl, fun i hi => absurd hi (Nat.not_lt_zero _), fun _ _ => rfl⟩
    (by
      rintro i hi b ⟨h1, h2, h3⟩
      refine ⟨_, hb i hi b h1, by rw [List.length_set, h1], ?_, ?_⟩
      · intro k hk
        rcases Nat.lt_or_eq_of_le (Nat.lt_succ_iff.1 hk) with h4 | h4
        · rw [List.getD_eq_getElem?_getD, List.getElem?_set_ne (by omega), ← List.getD_eq_getElem?_getD, h2 k h4]
        · subst h4
          have e : b.getD (off + k) 0 = a.getD (off + k) 0 := by
            rw [List.getD_eq_getElem?_getD, List.getD_eq_getElem?_getD, h3 (off + k) (by omega)]
          rw [List.getD_eq_getElem?_getD, List.getElem?_set_self (by omega), e]; rfl
      · intro k hk
        rw [List.getElem?_set_ne (by omega), h3 k (by omega)])
  exact ⟨b, e, h1, h2, h3⟩

theorem set_getD_self {b : List K} {i : Nat} (hi : i < b.length) : b.set i (b.getD i 0) = b := by
  rw [List.getD_eq_getElem?_getD, List.getElem?_eq_getElem hi]
  exact List.set_getElem_self hi

end C3.Poly
