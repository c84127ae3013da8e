/- Lemmas about the 3-dimensional tensors of tensor trains. -/
import Verif.Tt.Spec
import Verif.Core.FillV

set_option linter.unusedSectionVars false

namespace C3.Tt
open Finset
variable {K : Type} [CommRing K]

theorem blit_ok {α : Type} {n doff soff : Nat} {dst src : List α} (hd : doff + n ≤ dst.length) (hs : soff + n ≤ src.length) :
    blit n dst doff src soff = .ok (dst.take doff ++ (src.drop soff).take n ++ dst.drop (doff + n)) := by
  rcases Nat.eq_zero_or_pos n with h0 | h0
  · subst h0; simp [blit]
  have hne : soff < src.length := by omega
  rw [blit, forN_fill (fun i => src.getD (soff + i) src[soff]) hd]
  · congr 3
    apply List.ext_getElem?
    intro i
    by_cases hi : i < n
    · rw [List.getElem?_map, List.getElem?_range hi, List.getElem?_take, if_pos hi, List.getElem?_drop]
      simp [List.getElem?_eq_getElem (show soff + i < src.length by omega)]
    · rw [List.getElem?_eq_none (by simp; omega), List.getElem?_eq_none (by simp; omega)]
  · intro i hi b _
    rw [rd_getD src[soff] (by omega)]; rfl

theorem idx3_eq (r n i e j : Nat) : i + e * r + j * r * n = j * (r * n) + (e * r + i) := by ring

theorem idx3_lt {r n s i e j : Nat} (hi : i < r) (he : e < n) (hj : j < s) : i + e * r + j * r * n < r * n * s := by
  rw [idx3_eq]; exact cm_idx_lt (cm_idx_lt hi he) hj

theorem idx3_inv {r n i e j : Nat} (hi : i < r) (he : e < n) :
    (i + e * r + j * r * n) % r = i ∧ (i + e * r + j * r * n) / r % n = e ∧ (i + e * r + j * r * n) / (r * n) = j := by
  have h1 : e * r + i < r * n := cm_idx_lt hi he
  refine ⟨?_, ?_, ?_⟩
  · rw [show i + e * r + j * r * n = (j * n + e) * r + i by ring, cm_mod hi]
  · rw [show i + e * r + j * r * n = (j * n + e) * r + i by ring, cm_div hi, cm_mod he]
  · rw [idx3_eq, cm_div h1]

theorem idx3_cov {r n s p : Nat} (hp : p < r * n * s) :
    p % r < r ∧ p / r % n < n ∧ p / (r * n) < s ∧ p % r + p / r % n * r + p / (r * n) * r * n = p := by
  have hr : 0 < r := by rcases Nat.eq_zero_or_pos r with h | h; · subst h; simp at hp
                        · exact h
  have hn : 0 < n := by rcases Nat.eq_zero_or_pos n with h | h; · subst h; simp at hp
                        · exact h
  refine ⟨Nat.mod_lt _ hr, Nat.mod_lt _ hn, (Nat.div_lt_iff_lt_mul (Nat.mul_pos hr hn)).2 (by rwa [Nat.mul_comm]), ?_⟩
  rw [← Nat.div_div_eq_div_mul]
  have h1 := Nat.div_add_mod (p / r) n
  have h2 := Nat.div_add_mod p r
  calc p % r + p / r % n * r + p / r / n * r * n = p % r + r * (n * (p / r / n) + p / r % n) := by ring
    _ = p := by rw [h1]; omega

/-- `t` is an `r × n × s` tensor with entries `g`. -/
structure T3.Is (t : T3 K) (r n s : Nat) (g : Nat → Nat → Nat → K) : Prop where
  n0 : t.n0 = r
  n1 : t.n1 = n
  n2 : t.n2 = s
  len : t.vals.length = r * n * s
  val : ∀ i < r, ∀ e < n, ∀ j < s, t.vals[i + e * r + j * r * n]? = some (g i e j)

theorem T3.WF.is {t : T3 K} (h : t.WF) : t.Is t.n0 t.n1 t.n2 t.get := by
  refine ⟨rfl, rfl, rfl, h, fun i hi e he j hj => ?_⟩
  have := idx3_lt hi he hj
  rw [T3.get, List.getD_eq_getElem?_getD, List.getElem?_eq_getElem (by rw [h]; exact this)]; rfl

theorem T3.Is.wf {t : T3 K} {r n s : Nat} {g : Nat → Nat → Nat → K} (h : t.Is r n s g) : t.WF := by
  rw [T3.WF, h.n0, h.n1, h.n2]; exact h.len

theorem T3.Is.get {t : T3 K} {r n s : Nat} {g : Nat → Nat → Nat → K} (h : t.Is r n s g) {i e j : Nat} (hi : i < r)
    (he : e < n) (hj : j < s) : t.get i e j = g i e j := by
  rw [T3.get, h.n0, h.n1, List.getD_eq_getElem?_getD, h.val i hi e he j hj]; rfl

theorem T3.Is.rd {t : T3 K} {r n s : Nat} {g : Nat → Nat → Nat → K} (h : t.Is r n s g) {i e j : Nat} (hi : i < r)
    (he : e < n) (hj : j < s) : C3.rd t.vals (i + e * r + j * r * n) = .ok (g i e j) :=
  rd_of_getElem? (h.val i hi e he j hj)

theorem is_of_fill {r n s : Nat} {g : Nat → Nat → Nat → K} {v : List K}
    (h : v = (List.range (r * n * s)).map (fun p => g (p % r) (p / r % n) (p / (r * n)))) :
    (⟨r, n, s, v⟩ : T3 K).Is r n s g := by
  subst h
  refine ⟨rfl, rfl, rfl, by simp, fun i hi e he j hj => ?_⟩
  show ((List.range _).map _)[_]? = _
  obtain ⟨h1, h2, h3⟩ := idx3_inv (j := j) hi he
  rw [List.getElem?_map, List.getElem?_range (idx3_lt hi he hj), Option.map_some, h1, h2, h3]

theorem stack2h_ok {a b : T3 K} {r n sa sb : Nat} {ga gb : Nat → Nat → Nat → K} (ha : a.Is r n sa ga)
    (hb : b.Is r n sb gb) :
    ∃ c, stack2h a b = .ok c ∧ c.Is r n (sa + sb) (fun i e j => if j < sa then ga i e j else gb i e (j - sa)) := by
  refine ⟨⟨r, n, sa + sb, a.vals ++ b.vals⟩, ?_, rfl, rfl, rfl, ?_, ?_⟩
  · rw [stack2h, ha.n0, ha.n1, ha.n2, hb.n2]
    dsimp only [initT3]
    rw [blit_ok (by rw [List.length_replicate, Nat.mul_add]; omega) (by rw [ha.len]; omega), bind_ok]
    have e1 : (List.replicate (r * n * (sa + sb)) (0 : K)).take 0 ++ (a.vals.drop 0).take (r * n * sa) ++
        (List.replicate (r * n * (sa + sb)) (0 : K)).drop (0 + r * n * sa) = a.vals ++ List.replicate (r * n * sb) 0 := by
      rw [List.take_zero, List.nil_append, List.drop_zero, List.take_of_length_le (by rw [ha.len]), List.drop_replicate]
      congr 2
      rw [Nat.mul_add]; omega
    rw [e1, blit_ok (by simp [ha.len]) (by rw [hb.len]; omega), bind_ok]
    congr 2
    rw [List.take_left' ha.len, List.drop_zero, List.take_of_length_le (by rw [hb.len]),
      List.drop_of_length_le (by simp [ha.len]), List.append_nil]
  · show (a.vals ++ b.vals).length = _
    rw [List.length_append, ha.len, hb.len]; ring
  · intro i hi e he j hj
    show (a.vals ++ b.vals)[_]? = _
    split
    · rename_i h
      rw [List.getElem?_append_left (by rw [ha.len]; exact idx3_lt hi he h), ha.val i hi e he j h]
    · rename_i h
      have : i + e * r + j * r * n = r * n * sa + (i + e * r + (j - sa) * r * n) := by
        obtain ⟨t, rfl⟩ : ∃ t, j = sa + t := ⟨j - sa, by omega⟩
        rw [Nat.add_sub_cancel_left]; ring
      rw [this, List.getElem?_append_right (by rw [ha.len]; omega), ha.len, Nat.add_sub_cancel_left,
        hb.val i hi e he _ (by omega)]

/-- Copying a block of values that are final at the destination. -/
theorem FillsV.blit {g : Nat → K} {N n doff soff : Nat} {src : List K} (hd : doff + n ≤ N)
    (hs : ∀ i < n, src[soff + i]? = some (g (doff + i))) :
    FillsV g N (fun d => blit n d doff src soff) (fun p => ∃ i < n, p = doff + i) := by
  refine FillsV.forN fun i hi => ?_
  exact FillsV.bind (rd_of_getElem? (hs i hi)) (FillsV.wr (by omega) rfl)

theorem stack2v_ok {a b : T3 K} {ra rb n s : Nat} {ga gb : Nat → Nat → Nat → K} (ha : a.Is ra n s ga)
    (hb : b.Is rb n s gb) :
    ∃ c, stack2v a b = .ok c ∧ c.Is (ra + rb) n s (fun i e j => if i < ra then ga i e j else gb (i - ra) e j) := by
  obtain ⟨g, hg⟩ : ∃ g : Nat → Nat → Nat → K, g = fun i e j => if i < ra then ga i e j else gb (i - ra) e j := ⟨_, rfl⟩
  have key : FillsV (fun p => g (p % (ra + rb)) (p / (ra + rb) % n) (p / ((ra + rb) * n))) ((ra + rb) * n * s)
      (forN n (fun ii => forN s (fun jj v => do
        let v ← blit ra v (ii * (ra + rb) + jj * (ra + rb) * n) a.vals (ii * ra + jj * ra * n)
        blit rb v (ra + ii * (ra + rb) + jj * (ra + rb) * n) b.vals (ii * rb + jj * rb * n))))
      (fun p => ∃ ii < n, ∃ jj < s, (∃ i < ra, p = ii * (ra + rb) + jj * (ra + rb) * n + i) ∨
        ∃ i < rb, p = ra + ii * (ra + rb) + jj * (ra + rb) * n + i) := by
    refine FillsV.forN fun ii hii => FillsV.forN fun jj hjj => FillsV.seq ?_ ?_
    · rcases Nat.eq_zero_or_pos ra with h0 | h0
      · intro S l hl
        refine ⟨l, by rw [h0]; rfl, hl.len, fun p hp hs => hl.cov p hp ?_⟩
        rcases hs with hs | ⟨i, hi, _⟩
        · exact hs
        · omega
      refine FillsV.blit ?_ ?_
      · have := idx3_lt (r := ra + rb) (i := ra - 1) (by omega) hii hjj
        have e : ra - 1 + ii * (ra + rb) + jj * (ra + rb) * n = ii * (ra + rb) + jj * (ra + rb) * n + (ra - 1) := by ring
        omega
      · intro i hi
        obtain ⟨h1, h2, h3⟩ := idx3_inv (r := ra + rb) (i := i) (e := ii) (j := jj) (n := n) (by omega) hii
        rw [show ii * (ra + rb) + jj * (ra + rb) * n + i = i + ii * (ra + rb) + jj * (ra + rb) * n by ring, h1, h2, h3,
          show ii * ra + jj * ra * n + i = i + ii * ra + jj * ra * n by ring, ha.val i hi ii hii jj hjj, hg]
        simp only [hi, if_true]
    · rcases Nat.eq_zero_or_pos rb with h0 | h0
      · intro S l hl
        refine ⟨l, by rw [h0]; rfl, hl.len, fun p hp hs => hl.cov p hp ?_⟩
        rcases hs with hs | ⟨i, hi, _⟩
        · exact hs
        · omega
      refine FillsV.blit ?_ ?_
      · have := idx3_lt (r := ra + rb) (i := ra + rb - 1) (by omega) hii hjj
        omega
      · intro i hi
        obtain ⟨h1, h2, h3⟩ := idx3_inv (r := ra + rb) (i := ra + i) (e := ii) (j := jj) (n := n) (by omega) hii
        rw [show ra + ii * (ra + rb) + jj * (ra + rb) * n + i = ra + i + ii * (ra + rb) + jj * (ra + rb) * n by ring, h1, h2,
          h3, show ii * rb + jj * rb * n + i = i + ii * rb + jj * rb * n by ring, hb.val i hi ii hii jj hjj, hg]
        simp only [if_neg (show ¬ ra + i < ra by omega), Nat.add_sub_cancel_left]
  have fin := key.finish (by
    intro p hp
    obtain ⟨h1, h2, h3, h4⟩ := idx3_cov hp
    refine ⟨_, h2, _, h3, ?_⟩
    by_cases h : p % (ra + rb) < ra
    · exact .inl ⟨_, h, by omega⟩
    · exact .inr ⟨p % (ra + rb) - ra, by omega, by omega⟩) (a := List.replicate ((ra + rb) * n * s) 0) (by simp)
  rw [← hg]
  refine ⟨⟨ra + rb, n, s, _⟩, ?_, is_of_fill rfl⟩
  rw [stack2v, ha.n0, ha.n1, ha.n2, hb.n0]
  dsimp only [initT3]
  rw [fin, bind_ok]; rfl

theorem initT3_is (r n s : Nat) : (initT3 r n s : T3 K).Is r n s (fun _ _ _ => 0) := by
  refine ⟨rfl, rfl, rfl, by simp [initT3], fun i hi e he j hj => ?_⟩
  simp [initT3, idx3_lt hi he hj]

theorem T3.Is.congr {t : T3 K} {r n s : Nat} {g h : Nat → Nat → Nat → K} (ht : t.Is r n s g)
    (e : ∀ i < r, ∀ k < n, ∀ j < s, g i k j = h i k j) : t.Is r n s h :=
  ⟨ht.n0, ht.n1, ht.n2, ht.len, fun i hi k hk j hj => by rw [ht.val i hi k hk j hj, e i hi k hk j hj]⟩

theorem blockdiag_ok {a b : T3 K} {ra rb n sa sb : Nat} {ga gb : Nat → Nat → Nat → K} (ha : a.Is ra n sa ga)
    (hb : b.Is rb n sb gb) :
    ∃ c, blockdiag a b = .ok c ∧ c.Is (ra + rb) n (sa + sb) (fun i e j =>
      if i < ra then (if j < sa then ga i e j else 0) else (if j < sa then 0 else gb (i - ra) e (j - sa))) := by
  obtain ⟨u, hu, iu⟩ := stack2h_ok ha (initT3_is ra n sb)
  obtain ⟨d, hd, id⟩ := stack2h_ok (initT3_is rb n sa) hb
  obtain ⟨c, hc, ic⟩ := stack2v_ok iu id
  refine ⟨c, ?_, ic⟩
  rw [blockdiag, ha.n0, ha.n1, ha.n2, hb.n0, hb.n1, hb.n2]
  rw [hu, bind_ok, hd, bind_ok, hc]

theorem kron3_ok {a b : T3 K} {ra rb n sa sb : Nat} {ga gb : Nat → Nat → Nat → K} (ha : a.Is ra n sa ga)
    (hb : b.Is rb n sb gb) :
    ∃ c, kron3 a b = .ok c ∧ c.Is (ra * rb) n (sa * sb) (fun i e j =>
      ga (i / rb) e (j / sb) * gb (i % rb) e (j % sb)) := by
  obtain ⟨g, hg⟩ : ∃ g : Nat → Nat → Nat → K, g = fun i e j => ga (i / rb) e (j / sb) * gb (i % rb) e (j % sb) := ⟨_, rfl⟩
  have key : FillsV (fun p => g (p % (ra * rb)) (p / (ra * rb) % n) (p / (ra * rb * n))) (ra * rb * n * (sa * sb))
      (forN n (fun ii v => kronCol ra sa a.vals (ii * ra) (ra * n) rb sb b.vals (ii * rb) (rb * n) v (ii * (ra * rb))
        (ra * rb * n)))
      (fun p => ∃ ii < n, ∃ i < ra, ∃ j < sa, ∃ k < rb, ∃ l < sb,
        p = ii * (ra * rb) + ((j * sb + l) * (ra * rb * n) + (i * rb + k))) := by
    refine FillsV.forN fun ii hii => FillsV.forN fun i hi => FillsV.forN fun j hj => FillsV.forN fun k hk =>
      FillsV.forN fun l hl => ?_
    have e1 : ii * ra + (j * (ra * n) + i) = i + ii * ra + j * ra * n := by ring
    have e2 : ii * rb + (l * (rb * n) + k) = k + ii * rb + l * rb * n := by ring
    have hik : i * rb + k < ra * rb := by rw [Nat.mul_comm ra]; exact cm_idx_lt hk hi
    have hjl : j * sb + l < sa * sb := by rw [Nat.mul_comm sa]; exact cm_idx_lt hl hj
    have e3 : ii * (ra * rb) + ((j * sb + l) * (ra * rb * n) + (i * rb + k))
        = i * rb + k + ii * (ra * rb) + (j * sb + l) * (ra * rb) * n := by ring
    rw [e1, e2, e3]
    refine FillsV.bind (ha.rd hi hii hj) (FillsV.bind (hb.rd hk hii hl) (FillsV.wr (idx3_lt hik hii hjl) ?_))
    obtain ⟨h1, h2, h3⟩ := idx3_inv (r := ra * rb) (i := i * rb + k) (e := ii) (j := j * sb + l) (n := n) hik hii
    rw [h1, h2, h3, hg]
    simp only [cm_div hk, cm_mod hk, cm_div hl, cm_mod hl]
  have fin := key.finish (by
    intro p hp
    obtain ⟨h1, h2, h3, h4⟩ := idx3_cov hp
    have hrb : 0 < rb := by rcases Nat.eq_zero_or_pos rb with h | h; · subst h; simp at hp
                            · exact h
    have hsb : 0 < sb := by rcases Nat.eq_zero_or_pos sb with h | h; · subst h; simp at hp
                            · exact h
    refine ⟨_, h2, p % (ra * rb) / rb, (Nat.div_lt_iff_lt_mul hrb).2 h1, p / (ra * rb * n) / sb,
      (Nat.div_lt_iff_lt_mul hsb).2 h3, _, Nat.mod_lt (p % (ra * rb)) hrb, _, Nat.mod_lt (p / (ra * rb * n)) hsb, ?_⟩
    rw [Nat.div_add_mod', Nat.div_add_mod']
    conv_lhs => rw [← h4]
    ring) (a := List.replicate (ra * rb * n * (sa * sb)) 0) (by simp)
  rw [← hg]
  refine ⟨⟨ra * rb, n, sa * sb, _⟩, ?_, is_of_fill rfl⟩
  rw [kron3, ha.n0, ha.n1, ha.n2, hb.n0, hb.n1, hb.n2]
  dsimp only [initT3]
  rw [fin, bind_ok]; rfl

theorem ones3_ok (r n s : Nat) : ∃ c, ones3 (K := K) r n s = .ok c ∧ c.Is r n s (fun _ _ _ => 1) := by
  refine ⟨⟨r, n, s, (List.range (r * n * s)).map (fun _ => 1)⟩, ?_, is_of_fill rfl⟩
  rw [ones3]
  dsimp only [initT3]
  rw [forN_fill_all (fun _ => (1 : K)) (by simp) (fun i _ b _ => rfl), bind_ok]; rfl

theorem copy3_ok {a : T3 K} (ha : a.WF) : copy3 a false = .ok a := by
  rw [copy3, if_neg (by simp)]
  dsimp only [initT3]
  rw [blit_ok (by simp) (by rw [ha]; omega), bind_ok, List.take_zero, List.nil_append, List.drop_zero,
    List.take_of_length_le (by rw [ha]), List.drop_of_length_le (by simp), List.append_nil]; rfl

/-- `tensor_sum2`: `Σ_e b[e] A[:,e,:]`. -/
theorem sum2_ok {a : T3 K} {r n s : Nat} {g : Nat → Nat → Nat → K} (ha : a.Is r n s g) {b : List K} (hb : n ≤ b.length) :
    sum2 a b = .ok (cm r s (fun i j => ∑ e ∈ range n, b.getD e 0 * g i e j)) := by
  rw [sum2, ha.n0, ha.n1, ha.n2]
  have h0 : List.replicate (r * s) (0 : K) = cm r s (fun i j => ∑ e ∈ range 0, b.getD e 0 * g i e j) := by
    apply ext_cm (n := r) (m := s) (by simp) (by simp)
    intro i hi j hj
    rw [cm_getElem? _ hi hj]
    simp [cm_idx_lt hi hj]
  rw [h0]
  refine forN_traj (fun t => cm r s (fun i j => ∑ e ∈ range t, b.getD e 0 * g i e j)) ?_
  intro e he
  obtain ⟨c, h1, h2, h3, -⟩ := forN_upd2 (A := s) (B := r) (a := cm r s (fun i j => ∑ e ∈ range e, b.getD e 0 * g i e j))
    (body := fun jj kk out => do
      let w ← rd b e
      let v ← rd a.vals (kk + e * r + jj * r * n)
      let old ← rd out (jj * r + kk)
      wr out (jj * r + kk) (old + w * v))
    (fun jj kk => jj * r + kk) (fun jj kk => ∑ e ∈ range (e + 1), b.getD e 0 * g kk e jj)
    (fun jj hj kk hk => by rw [cm_length]; exact cm_idx_lt hk hj)
    (fun jj hj kk hk jj' hj' kk' hk' h => row_inj hk hk' h)
    (fun jj hj kk hk c hc hcv => by
      rw [cm_getElem? _ hk hj] at hcv
      rw [rd_getD 0 (show e < b.length by omega), bind_ok, ha.rd hk he hj, bind_ok, rd_of_getElem? hcv, bind_ok,
        sum_range_succ])
  rw [h1]; congr 1
  apply ext_cm (n := r) (m := s) (by rw [h2, cm_length]) (by simp)
  intro i hi j hj
  rw [h3 j hj i hi, cm_getElem? _ hi hj]

end C3.Tt
