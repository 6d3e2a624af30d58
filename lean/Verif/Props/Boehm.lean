import Verif.Model.Boehm
import Verif.Proofs.Boehm
import Mathlib.Data.List.GetD
import Mathlib.Algebra.BigOperators.Intervals
import Mathlib.Algebra.Order.BigOperators.Group.Finset
/-!
# C54: the function smoothed over an interface is a smooth spline, the same from both patches
-/
set_option autoImplicit false
set_option linter.unusedSectionVars false
namespace Verif.Boehm
open Finset
variable {K : Type} [Field K] [LinearOrder K]

/-! ## Lists of knots -/

section lists

theorem knotAt_lt {L : List K} {i : ℕ} (h : i < L.length) : knotAt L i = L[i] := by
  rw [knotAt, List.getD_eq_getElem _ _ h]

theorem knotAt_mono {L : List K} (h : L.Pairwise (· ≤ ·)) : Monotone (knotAt L) := by
  have key : ∀ i j (hi : i < L.length) (hj : j < L.length), i ≤ j → L[i] ≤ L[j] := by
    intro i j hi hj hij
    rcases Nat.eq_or_lt_of_le hij with rfl | c
    · exact le_refl _
    · exact List.pairwise_iff_getElem.1 h i j hi hj c
  have last : ∀ i, L.length ≤ i → knotAt L i = L.getLastD 0 := fun i hi => by rw [knotAt, List.getD_eq_default _ _ hi]
  intro i j hij
  rcases Nat.lt_or_ge j L.length with c | c
  · rw [knotAt_lt c, knotAt_lt (by omega)]; exact key _ _ _ _ hij
  · rw [last j c]
    rcases Nat.lt_or_ge i L.length with c' | c'
    · have hne : L ≠ [] := by rintro rfl; simp at c'
      rw [knotAt_lt c', List.getLastD_eq_getLast?, List.getLast?_eq_getLast_of_ne_nil hne, Option.getD_some, List.getLast_eq_getElem]
      exact key _ _ _ _ (by omega)
    · rw [last i c']

/-- Knots before, at and behind an interface. -/
structure Joint (I J : List K) (s : K) : Prop where
  si : I.Pairwise (· ≤ ·)
  sj : J.Pairwise (· ≤ ·)
  lt : ∀ x ∈ I, x < s
  gt : ∀ x ∈ J, s < x
  ni : I ≠ []
  nj : J ≠ []

/-- The knot vector with multiplicity `m` at the interface. -/
def kn (I J : List K) (s : K) (m : ℕ) : List K := I ++ List.replicate m s ++ J

variable {I J : List K} {s : K}

theorem Joint.sorted (h : Joint I J s) (m : ℕ) : (kn I J s m).Pairwise (· ≤ ·) := by
  rw [kn, List.pairwise_append, List.pairwise_append]
  refine ⟨⟨h.si, List.pairwise_replicate.2 (Or.inr le_rfl), ?_⟩, h.sj, ?_⟩
  · intro x hx y hy; rw [List.eq_of_mem_replicate hy]; exact (h.lt x hx).le
  · intro x hx y hy
    rcases List.mem_append.1 hx with hx | hx
    · exact ((h.lt x hx).trans (h.gt y hy)).le
    · rw [List.eq_of_mem_replicate hx]; exact (h.gt y hy).le

theorem kn_lo {m i : ℕ} (hi : i < I.length) : knotAt (kn I J s m) i = I[i] := by
  have : i < (kn I J s m).length := by simp [kn]; omega
  rw [knotAt_lt this]
  simp [kn, hi]

theorem kn_mid {m i : ℕ} (h1 : I.length ≤ i) (h2 : i < I.length + m) : knotAt (kn I J s m) i = s := by
  have : i < (kn I J s m).length := by simp [kn]; omega
  rw [knotAt_lt this]
  simp only [kn, List.append_assoc]
  rw [List.getElem_append_right h1, List.getElem_append_left (by simp; omega), List.getElem_replicate]

theorem kn_hi (hJ : J ≠ []) (m i : ℕ) : knotAt (kn I J s m) (I.length + m + i) = knotAt J i := by
  have hl : (kn I J s m).getLastD 0 = J.getLastD 0 := by
    simp [kn, List.getLastD_eq_getLast?, List.getLast?_append, List.getLast?_eq_getLast_of_ne_nil hJ]
  rw [knotAt, knotAt, hl, kn]
  rw [List.getD_append_right _ _ _ _ (by simp)]
  congr 1; simp

theorem Joint.lo_lt (h : Joint I J s) {m i : ℕ} (hi : i < I.length) : knotAt (kn I J s m) i < s := by rw [kn_lo hi]; exact h.lt _ (List.getElem_mem _)
theorem Joint.hi_gt (h : Joint I J s) {m i : ℕ} (hi : I.length + m ≤ i) : s < knotAt (kn I J s m) i := by
  obtain ⟨e, rfl⟩ := Nat.exists_eq_add_of_le hi
  rw [kn_hi h.nj]
  have hJ := List.length_pos_iff.2 h.nj
  refine lt_of_lt_of_le ?_ (knotAt_mono h.sj (Nat.zero_le e))
  rw [knotAt_lt hJ]; exact h.gt _ (List.getElem_mem _)

theorem Joint.insert (h : Joint I J s) (m : ℕ) : insertKnot (kn I J s m) s = kn I J s (m + 1) := by
  have h1 : ∀ x ∈ I ++ List.replicate m s, decide (x ≤ s) = true := by
    intro x hx
    rcases List.mem_append.1 hx with hx | hx
    · exact decide_eq_true (h.lt x hx).le
    · rw [List.eq_of_mem_replicate hx]; exact decide_eq_true le_rfl
  obtain ⟨y, J', rfl⟩ := List.exists_cons_of_ne_nil h.nj
  have h2 : ¬ y ≤ s := not_le.2 (h.gt y (by simp))
  rw [insertKnot, kn, List.takeWhile_append_of_pos h1, List.dropWhile_append_of_pos h1, List.takeWhile_cons_of_neg (by simpa using h2), List.dropWhile_cons_of_neg (by simpa using h2), kn, List.replicate_succ']
  simp

end lists

/-! ## Coefficients after insertion -/

section coefs
variable [IsStrictOrderedRing K] {I J : List K} {s : K}

private theorem ratio_mem (t : ℕ → K) (p i : ℕ) : 0 ≤ ratio t p s i ∧ ratio t p s i ≤ 1 := by
  unfold ratio
  split_ifs with c1 c2
  · exact ⟨zero_le_one, le_rfl⟩
  · exact ⟨le_rfl, zero_le_one⟩
  · have a := not_le.1 c1
    have b := not_le.1 c2
    have e : 0 < t (i + p) - t i := by linarith
    exact ⟨div_nonneg (by linarith) e.le, (div_le_one e).2 (by linarith)⟩

private theorem Joint.ratio_one (h : Joint I J s) {m p i : ℕ} (hi : i + p < I.length + m) : ratio (knotAt (kn I J s m)) p s i = 1 := by
  refine if_pos ?_
  rcases Nat.lt_or_ge (i + p) I.length with c | c
  · exact (h.lo_lt c).le
  · rw [kn_mid c hi]

private theorem Joint.ratio_zero (h : Joint I J s) {m p i : ℕ} (h1 : I.length ≤ i) (h2 : I.length + m ≤ i + p) : ratio (knotAt (kn I J s m)) p s i = 0 := by
  rw [ratio, if_neg (not_le.2 (h.hi_gt h2)), if_pos]
  rcases Nat.lt_or_ge i (I.length + m) with c | c
  · rw [kn_mid h1 c]
  · exact (h.hi_gt c).le

private theorem Joint.step (h : Joint I J s) (p m r : ℕ) (c : ℕ → K) : boehm p s (r + 1) (kn I J s m) c = boehm p s r (kn I J s (m + 1)) (insertCoefs (knotAt (kn I J s m)) p s c) := by
  rw [boehm, h.insert]

private theorem Joint.supp (h : Joint I J s) (p m r j j' : ℕ) (c : ℕ → K) (hc : ∀ i, i < j ∨ j' < i → c i = 0) : ∀ i, i < j ∨ j' + r < i → boehm p s r (kn I J s m) c i = 0 := by
  induction r generalizing m j' c with
  | zero => exact hc
  | succ r ih =>
    rw [h.step]
    intro i hi
    refine ih (m + 1) (j' + 1) _ ?_ i (by omega)
    intro i hi
    rw [insertCoefs, hc i (by omega)]
    split_ifs with c0
    · ring
    · rw [hc (i - 1) (by omega)]; ring

private theorem Joint.nonneg (h : Joint I J s) (p m r : ℕ) (c : ℕ → K) (hc : ∀ i, 0 ≤ c i) : ∀ i, 0 ≤ boehm p s r (kn I J s m) c i := by
  induction r generalizing m c with
  | zero => exact hc
  | succ r ih =>
    rw [h.step]
    refine ih (m + 1) _ fun i => ?_
    obtain ⟨a, b⟩ := ratio_mem (s := s) (knotAt (kn I J s m)) p i
    refine add_nonneg (mul_nonneg a (hc i)) (mul_nonneg (by linarith) ?_)
    split_ifs
    exacts [le_rfl, hc _]

private theorem Joint.linear (h : Joint I J s) (p m r n : ℕ) (f : ℕ → ℕ → K) (i : ℕ) : boehm p s r (kn I J s m) (fun i => ∑ a ∈ range n, f a i) i = ∑ a ∈ range n, boehm p s r (kn I J s m) (f a) i := by
  induction r generalizing m f with
  | zero => rfl
  | succ r ih =>
    simp only [h.step]
    rw [← ih]
    congr 1
    funext i
    simp only [insertCoefs, Finset.sum_add_distrib, ← Finset.mul_sum]
    congr 2
    split_ifs <;> simp

private theorem Joint.first_pos (h : Joint I J s) (p m r j : ℕ) (hj : j < I.length) (c : ℕ → K) (hc : ∀ i, i < j → c i = 0) (hp : 0 < c j) : 0 < boehm p s r (kn I J s m) c j := by
  induction r generalizing m c with
  | zero => exact hp
  | succ r ih =>
    rw [h.step]
    refine ih (m + 1) _ (fun i hi => ?_) ?_
    · rw [insertCoefs, hc i hi]
      split_ifs with c0
      · ring
      · rw [hc (i - 1) (by omega)]; ring
    · have hz : (if j = 0 then 0 else c (j - 1)) = 0 := by
        split_ifs with c0
        · rfl
        · exact hc _ (by omega)
      rw [insertCoefs, hz, mul_zero, add_zero]
      refine mul_pos ?_ hp
      have hl := h.lo_lt (m := m) hj
      unfold ratio
      split_ifs with c1 c2
      · exact zero_lt_one
      · exact absurd c2 (not_le.2 hl)
      · exact div_pos (sub_pos.2 hl) (sub_pos.2 (hl.trans (not_le.1 c1)))

/-- The functions near the interface sum up to one. -/
private theorem Joint.ones (h : Joint I J s) {p d : ℕ} (hd : d ≤ I.length) (hdp : d ≤ p) (r e : ℕ) (hr : e + r < d) (c : ℕ → K) (hc : ∀ i, c i = if I.length - d ≤ i ∧ i < I.length + e then 1 else 0) (i : ℕ) :
    boehm p s r (kn I J s (p + 1 - d + e)) c i = if I.length - d ≤ i ∧ i < I.length + (e + r) then 1 else 0 := by
  induction r generalizing e c with
  | zero => exact hc i
  | succ r ih =>
    rw [h.step, show p + 1 - d + e + 1 = p + 1 - d + (e + 1) by omega, ih (e + 1) (by omega) _ ?_, show e + 1 + r = e + (r + 1) by omega]
    intro i
    have hz : (if i = 0 then 0 else c (i - 1)) = if I.length - d + 1 ≤ i ∧ i < I.length + e + 1 then (1 : K) else 0 := by
      split_ifs with c0 c1 c1
      · omega
      · rfl
      · rw [hc, if_pos (by omega)]
      · rw [hc, if_neg (by omega)]
    rw [insertCoefs, hc, hz]
    by_cases c1 : i < I.length - d
    · rw [if_neg (by omega), if_neg (by omega), if_neg (by omega)]; ring
    by_cases c2 : i = I.length - d
    · rw [h.ratio_one (by omega), if_pos (by omega), if_neg (by omega), if_pos (by omega)]; ring
    by_cases c3 : i < I.length + e
    · rw [if_pos (by omega), if_pos (by omega), if_pos (by omega)]; ring
    by_cases c4 : i = I.length + e
    · rw [h.ratio_zero (by omega) (by omega), if_neg (by omega), if_pos (by omega), if_pos (by omega)]; ring
    · rw [if_neg (by omega), if_neg (by omega), if_neg (by omega)]; ring

end coefs

/-! ## The mirrored knot vector -/

section mirror
variable [IsStrictOrderedRing K] {I J : List K} {s : K}

private theorem kn_mirror (c : K) (m : ℕ) : ((kn I J s m).map (c - ·)).reverse = kn (J.map (c - ·)).reverse (I.map (c - ·)).reverse (c - s) m := by
  simp [kn]

theorem Joint.mirror (h : Joint I J s) (c : K) : Joint (J.map (c - ·)).reverse (I.map (c - ·)).reverse (c - s) := by
  refine ⟨?_, ?_, ?_, ?_, by simpa using h.nj, by simpa using h.ni⟩
  · rw [List.pairwise_reverse, List.pairwise_map]; exact h.sj.imp fun hab => by linarith
  · rw [List.pairwise_reverse, List.pairwise_map]; exact h.si.imp fun hab => by linarith
  · intro x hx; obtain ⟨y, hy, rfl⟩ := List.mem_map.1 (List.mem_reverse.1 hx); have := h.gt y hy; linarith
  · intro x hx; obtain ⟨y, hy, rfl⟩ := List.mem_map.1 (List.mem_reverse.1 hx); have := h.lt y hy; linarith

private theorem knotAt_mirror (L : List K) (c : K) {i i' : ℕ} (h : i + i' + 1 = L.length) : knotAt (L.map (c - ·)).reverse i = c - knotAt L i' := by
  rw [knotAt_lt (by simp; omega), knotAt_lt (by omega)]
  simp only [List.getElem_reverse, List.getElem_map, List.length_map]
  congr 2
  omega

/-- The coefficients `c` and `c'` of `N` functions in opposite order. -/
private def Opp (N : ℕ) (c c' : ℕ → K) : Prop := (∀ i i', i + i' + 1 = N → c' i = c i') ∧ ∀ i, N ≤ i → c i = 0 ∧ c' i = 0

private theorem Joint.opp (h : Joint I J s) (x : K) {p m : ℕ} (hm : m ≤ p) (N r : ℕ) (hr : m + r ≤ p + 1) (hN : N + p + 1 = I.length + m + J.length) (c c' : ℕ → K) (hc : Opp N c c') :
    Opp (N + r) (boehm p s r (kn I J s m) c) (boehm p (x - s) r (kn (J.map (x - ·)).reverse (I.map (x - ·)).reverse (x - s) m) c') := by
  induction r generalizing m N c c' with
  | zero => exact hc
  | succ r ih =>
    rw [h.step, (h.mirror x).step, show N + (r + 1) = N + 1 + r by omega]
    by_cases hmp : m + 1 ≤ p ∨ r = 0
    · have key : Opp (N + 1) (insertCoefs (knotAt (kn I J s m)) p s c) (insertCoefs (knotAt (kn (J.map (x - ·)).reverse (I.map (x - ·)).reverse (x - s) m)) p (x - s) c') := by
        have hlen : (kn I J s m).length = N + p + 1 := by simp [kn]; omega
        have hrat : ∀ i i', i + i' = N → ratio (knotAt (kn (J.map (x - ·)).reverse (I.map (x - ·)).reverse (x - s) m)) p (x - s) i = 1 - ratio (knotAt (kn I J s m)) p s i' := by
          intro i i' hii
          rw [← kn_mirror, ratio, ratio, knotAt_mirror _ x (i := i + p) (i' := i') (by omega), knotAt_mirror _ x (i := i) (i' := i' + p) (by omega)]
          set A := knotAt (kn I J s m) i'
          set B := knotAt (kn I J s m) (i' + p)
          have hAB : ¬ (B ≤ s ∧ s ≤ A) := by
            rintro ⟨h1, h2⟩
            have g1 : i' + p < I.length + m := by
              by_contra hh; exact absurd h1 (not_le.2 (h.hi_gt (by omega)))
            have g2 : I.length ≤ i' := by
              by_contra hh; exact absurd h2 (not_le.2 (h.lo_lt (by omega)))
            omega
          have e1 : x - A ≤ x - s ↔ s ≤ A := by constructor <;> intro <;> linarith
          have e2 : x - s ≤ x - B ↔ B ≤ s := by constructor <;> intro <;> linarith
          simp only [e1, e2]
          by_cases c1 : B ≤ s
          · rw [if_neg fun h2 => hAB ⟨c1, h2⟩, if_pos c1, if_pos c1]; ring
          · by_cases c2 : s ≤ A
            · rw [if_pos c2, if_neg c1, if_pos c2]; ring
            · rw [if_neg c2, if_neg c1, if_neg c1, if_neg c2]
              have a := not_le.1 c1
              have b := not_le.1 c2
              have e : B - A ≠ 0 := sub_ne_zero.2 (b.trans a).ne'
              have e' : x - A - (x - B) ≠ 0 := by rw [show x - A - (x - B) = B - A by ring]; exact e
              rw [eq_sub_iff_add_eq, show x - A - (x - B) = B - A by ring, ← add_div, div_eq_one_iff_eq e]; ring
        refine ⟨fun i i' hii => ?_, fun i hi => ?_⟩
        · rw [insertCoefs, insertCoefs, hrat i i' (by omega)]
          have g1 : c' i = if i' = 0 then 0 else c (i' - 1) := by
            split_ifs with c0
            · exact (hc.2 i (by omega)).2
            · exact hc.1 i (i' - 1) (by omega)
          have g2 : c i' = if i = 0 then 0 else c' (i - 1) := by
            split_ifs with c0
            · exact (hc.2 i' (by omega)).1
            · exact (hc.1 (i - 1) i' (by omega)).symm
          rw [← g1, ← g2]; ring
        · rw [insertCoefs, insertCoefs, (hc.2 i (by omega)).1, (hc.2 i (by omega)).2, if_neg (by omega), if_neg (by omega), (hc.2 (i - 1) (by omega)).1, (hc.2 (i - 1) (by omega)).2]
          simp
      rcases hmp with hmp | rfl
      · exact ih hmp (N + 1) (by omega) (by omega) _ _ key
      · exact key
    · omega

end mirror

/-! ## The knot vectors of the two patches -/

/-- An open knot vector of degree `p` that starts at zero, with inner knots `M` and last knot `y`. -/
structure OpenKnots (p : ℕ) (kv M : List K) (y : K) : Prop where
  eq : kv = List.replicate (p + 1) 0 ++ M ++ List.replicate (p + 1) y
  sorted : M.Pairwise (· ≤ ·)
  mem : ∀ z ∈ M, 0 < z ∧ z < y
  pos : 0 < y

section patches
variable [IsStrictOrderedRing K]

/-- The knots before the interface, seen from the patch. -/
def before (p : ℕ) (M : List K) (y : K) (dir : Bool) (w : K) : List K := List.replicate (p + 1) 0 ++ if dir then M.map (· * w) else (M.map fun z => y * w - z * w).reverse

variable {p : ℕ} {kv M : List K} {y : K}

theorem before_length (dir : Bool) (w : K) : (before p M y dir w).length = p + 1 + M.length := by cases dir <;> simp [before]

theorem OpenKnots.length (h : OpenKnots p kv M y) (dir : Bool) (w : K) : kv.length = (before p M y dir w).length + p + 1 := by
  rw [before_length, h.eq]; simp; omega

theorem OpenKnots.before (h : OpenKnots p kv M y) (dir : Bool) {w : K} (hw : 0 < w) :
    (before p M y dir w).Pairwise (· ≤ ·) ∧ (∀ x ∈ before p M y dir w, 0 ≤ x ∧ x < y * w) ∧ Boehm.before p M y dir w ≠ [] := by
  have hy : 0 < y * w := mul_pos h.pos hw
  have hm : ∀ z ∈ M, 0 < z * w ∧ z * w < y * w := fun z hz => ⟨mul_pos (h.mem z hz).1 hw, mul_lt_mul_of_pos_right (h.mem z hz).2 hw⟩
  have hs : ∀ a b : K, a ≤ b → a * w ≤ b * w := fun a b hab => mul_le_mul_of_nonneg_right hab hw.le
  have key : ∀ x ∈ (if dir then M.map (· * w) else (M.map fun z => y * w - z * w).reverse), 0 < x ∧ x < y * w := by
    intro x hx
    cases dir
    · obtain ⟨z, hz, rfl⟩ := List.mem_map.1 (List.mem_reverse.1 hx)
      obtain ⟨a, b⟩ := hm z hz
      exact ⟨by linarith, by linarith⟩
    · obtain ⟨z, hz, rfl⟩ := List.mem_map.1 hx
      exact hm z hz
  refine ⟨?_, ?_, by simp [Boehm.before, List.replicate_succ]⟩
  · rw [Boehm.before, List.pairwise_append]
    refine ⟨List.pairwise_replicate.2 (Or.inr le_rfl), ?_, fun a ha b hb => ?_⟩
    · cases dir
      · rw [if_neg (by simp), List.pairwise_reverse, List.pairwise_map]
        exact h.sorted.imp fun hab => by have := hs _ _ hab; linarith
      · rw [if_pos rfl, List.pairwise_map]
        exact h.sorted.imp fun hab => hs _ _ hab
    · rw [List.eq_of_mem_replicate ha]; exact (key b hb).1.le
  · intro x hx
    rcases List.mem_append.1 hx with hx | hx
    · rw [List.eq_of_mem_replicate hx]; exact ⟨le_rfl, hy⟩
    · exact ⟨(key x hx).1.le, (key x hx).2⟩

theorem OpenKnots.first (h : OpenKnots p kv M y) (dir : Bool) (w : K) : firstKnots kv dir w = Boehm.before p M y dir w ++ List.replicate (p + 1) (y * w) := by
  have hh : (kv.map (· * w)).headD 0 = 0 := by rw [h.eq]; simp [List.replicate_succ]
  have hl : (kv.map (· * w)).getLastD 0 = y * w := by
    rw [h.eq, List.map_append, List.map_replicate, List.replicate_succ' (n := p) (a := y * w), ← List.append_assoc, List.getLastD_concat]
  cases dir
  · rw [firstKnots]
    simp only [Bool.false_eq_true, if_false, reverseKnots]
    rw [hh, hl, h.eq]
    simp [Boehm.before]
  · rw [firstKnots, h.eq]
    simp [Boehm.before]

theorem OpenKnots.second (h : OpenKnots p kv M y) (dir : Bool) (w s : K) : secondKnots kv dir w s = List.replicate (p + 1) s ++ ((Boehm.before p M y dir w).map (s + y * w - ·)).reverse := by
  have hh : (kv.map (· * w)).headD 0 = 0 := by rw [h.eq]; simp [List.replicate_succ]
  have hl : (kv.map (· * w)).getLastD 0 = y * w := by
    rw [h.eq, List.map_append, List.map_replicate, List.replicate_succ' (n := p) (a := y * w), ← List.append_assoc, List.getLastD_concat]
  cases dir
  · rw [secondKnots, h.eq]
    simp only [Boehm.before, Function.comp_def, List.map_append, List.map_replicate, List.map_map, Bool.false_eq_true, if_false, List.reverse_append, List.map_reverse, List.reverse_reverse, List.reverse_replicate, zero_mul, zero_add,
      List.append_assoc, sub_zero]
    rw [add_comm (y * w) s, show (fun x : K => s + y * w - (y * w - x * w)) = fun x => x * w + s from funext fun x => by ring]
  · rw [secondKnots]
    simp only [if_true, reverseKnots]
    rw [hh, hl, h.eq]
    simp only [Boehm.before, Function.comp_def, List.map_append, List.map_replicate, List.map_map, if_true, List.reverse_append, List.map_reverse, List.reverse_replicate, zero_mul, zero_add, sub_self, List.append_assoc, sub_zero]
    rw [add_comm (y * w) s, show (fun x : K => s + y * w - x * w) = fun x => y * w - x * w + s from funext fun x => by ring]

private theorem remove_last {I : List K} {s : K} (hI : s ∉ I) (d n : ℕ) : removeKnot s d (I ++ List.replicate (d + n) s) = I ++ List.replicate n s := by
  induction d with
  | zero => simp [removeKnot]
  | succ d ih =>
    rw [removeKnot, show d + 1 + n = (d + n) + 1 by omega, List.erase_append_right _ hI, List.replicate_succ, List.erase_cons_head, ih]

private theorem remove_first {J : List K} {s : K} (n : ℕ) : removeKnot s n (List.replicate n s ++ J) = J := by
  induction n with
  | zero => simp [removeKnot]
  | succ n ih => rw [removeKnot, List.replicate_succ, List.cons_append, List.erase_cons_head, ih]

private theorem join_eq {I J : List K} {s : K} (hI : s ∉ I) {d : ℕ} (hd : d ≤ p + 1) : join p d (I ++ List.replicate (p + 1) s) (List.replicate (p + 1) s ++ J) = kn I J s (p + 1 - d) := by
  have h1 : (I ++ List.replicate (p + 1) s).getLastD 0 = s := by simp [List.replicate_succ']
  have h2 : (List.replicate (p + 1) s ++ J).headD 0 = s := by simp [List.replicate_succ]
  obtain ⟨n, hn⟩ := Nat.exists_eq_add_of_le hd
  rw [join, h1, h2, remove_first, hn, remove_last hI, kn, Nat.add_sub_cancel_left]

variable {kv0 kv1 M0 M1 : List K} {y0 y1 w0 w1 : K}

/-- The two patches with the interface in the middle. -/
theorem OpenKnots.joint (h0 : OpenKnots p kv0 M0 y0) (h1 : OpenKnots p kv1 M1 y1) (hw0 : 0 < w0) (hw1 : 0 < w1) (dir0 dir1 : Bool) :
    Joint (Boehm.before p M0 y0 dir0 w0) ((Boehm.before p M1 y1 dir1 w1).map (y0 * w0 + y1 * w1 - ·)).reverse (y0 * w0) := by
  obtain ⟨a1, a2, a3⟩ := h0.before dir0 hw0
  obtain ⟨b1, b2, b3⟩ := h1.before dir1 hw1
  refine ⟨a1, ?_, fun x hx => (a2 x hx).2, ?_, a3, by simpa using b3⟩
  · rw [List.pairwise_reverse, List.pairwise_map]; exact b1.imp fun hab => by linarith
  · intro x hx
    obtain ⟨z, hz, rfl⟩ := List.mem_map.1 (List.mem_reverse.1 hx)
    have := (b2 z hz).2
    linarith

private theorem dup_range {α : Type} (f : ℕ → α) (a d : ℕ) : (List.range d).flatMap (fun i => if i = a then [f i, f i] else [f i]) = (List.range (if a < d then d + 1 else d)).map fun n => f (if n ≤ a then n else n - 1) := by
  induction d with
  | zero => simp
  | succ d ih =>
    rw [List.range_succ, List.flatMap_append, ih]
    by_cases c1 : a < d
    · rw [if_pos c1, if_pos (by omega), List.range_succ (n := d + 1), List.map_append]
      simp [show ¬ d = a by omega, show ¬ d + 1 ≤ a by omega]
    · by_cases c2 : d = a
      · subst c2
        rw [if_neg c1, if_pos (by omega), List.range_succ (n := d + 1), List.range_succ (n := d), List.map_append, List.map_append]
        simp
      · rw [if_neg c1, if_neg (by omega), List.range_succ, List.map_append]
        simp [c2, show d ≤ a by omega]

/-- The weights in closed form. -/
theorem weights_eq (h0 : OpenKnots p kv0 M0 y0) (h1 : OpenKnots p kv1 M1 y1) (hw0 : 0 < w0) (hw1 : 0 < w1) (dir0 dir1 : Bool) {d a : ℕ} (hd : d ≤ p) (ha : a < d) :
    weights p kv0 dir0 w0 kv1 dir1 w1 d a = (List.range (d + 1)).map fun n =>
      boehm p (y0 * w0) (d - 1) (kn (Boehm.before p M0 y0 dir0 w0) ((Boehm.before p M1 y1 dir1 w1).map (y0 * w0 + y1 * w1 - ·)).reverse (y0 * w0) (p + 1 - d))
        (fun i => if i = p + M0.length - a then 1 else 0) (p + M0.length - a + if n ≤ a then n else n - 1) := by
  have hs : (firstKnots kv0 dir0 w0).getLastD 0 = y0 * w0 := by rw [h0.first]; simp [List.replicate_succ']
  have hj : kv0.length - (p + 2) - a = p + M0.length - a := by rw [h0.length dir0 w0, before_length]; omega
  have hI : y0 * w0 ∉ Boehm.before p M0 y0 dir0 w0 := fun hh => lt_irrefl _ ((h0.joint h1 hw0 hw1 dir0 dir1).lt _ hh)
  unfold weights
  split_ifs with c
  · subst c
    obtain rfl : a = 0 := by omega
    simp [boehm, List.range_succ]
  · simp only [hs, hj]
    rw [h0.first, h1.second, join_eq hI (by omega), dup_range (fun i => boehm p (y0 * w0) (d - 1) _ _ (i + (p + M0.length - a))) a d, if_pos ha]
    refine List.map_congr_left fun n _ => ?_
    rw [Nat.add_comm (if n ≤ a then n else n - 1)]

/-! ## C54 -/

/-- C54: there is a weight for every local function of the line (numbers `0` to `d`, see C40), and the weights are not negative. -/
theorem C54_nonneg_partial (h0 : OpenKnots p kv0 M0 y0) (h1 : OpenKnots p kv1 M1 y1) (hw0 : 0 < w0) (hw1 : 0 < w1) (dir0 dir1 : Bool) {d a : ℕ} (hd : d ≤ p) (ha : a < d) :
    (weights p kv0 dir0 w0 kv1 dir1 w1 d a).length = d + 1 ∧ ∀ x ∈ weights p kv0 dir0 w0 kv1 dir1 w1 d a, 0 ≤ x := by
  rw [weights_eq h0 h1 hw0 hw1 dir0 dir1 hd ha]
  refine ⟨by simp, fun x hx => ?_⟩
  obtain ⟨n, -, rfl⟩ := List.mem_map.1 hx
  refine (h0.joint h1 hw0 hw1 dir0 dir1).nonneg _ _ _ _ (fun i => ?_) _
  split_ifs
  exacts [zero_le_one, le_rfl]

/-- C54: the weight of the local function the line starts from is positive. -/
theorem C54_first_partial (h0 : OpenKnots p kv0 M0 y0) (h1 : OpenKnots p kv1 M1 y1) (hw0 : 0 < w0) (hw1 : 0 < w1) (dir0 dir1 : Bool) {d a : ℕ} (hd : d ≤ p) (ha : a < d) :
    0 < (weights p kv0 dir0 w0 kv1 dir1 w1 d a).getD 0 0 := by
  rw [weights_eq h0 h1 hw0 hw1 dir0 dir1 hd ha, List.getD_eq_getElem _ _ (by simp), List.getElem_map, List.getElem_range, if_pos (Nat.zero_le _), Nat.add_zero]
  refine (h0.joint h1 hw0 hw1 dir0 dir1).first_pos _ _ _ _ ?_ _ (fun i hi => if_neg (by omega)) ?_
  · rw [before_length]; omega
  · rw [Nat.add_zero, if_pos rfl]; exact zero_lt_one

/-- C54: the weights do not depend on the patch the function is built from: the other patch gives the same weights in opposite order, for the function at the opposite place. -/
theorem C54_symmetric_partial (h0 : OpenKnots p kv0 M0 y0) (h1 : OpenKnots p kv1 M1 y1) (hw0 : 0 < w0) (hw1 : 0 < w1) (dir0 dir1 : Bool) {d a : ℕ} (hd : d ≤ p) (ha : a < d) :
    weights p kv1 dir1 w1 kv0 dir0 w0 d (d - 1 - a) = (weights p kv0 dir0 w0 kv1 dir1 w1 d a).reverse := by
  rw [weights_eq h0 h1 hw0 hw1 dir0 dir1 hd ha, weights_eq h1 h0 hw1 hw0 dir1 dir0 hd (by omega)]
  have hJ := h0.joint h1 hw0 hw1 dir0 dir1
  set I0 := Boehm.before p M0 y0 dir0 w0 with hI0
  set I1 := Boehm.before p M1 y1 dir1 w1 with hI1
  have l0 : I0.length = p + 1 + M0.length := before_length _ _
  have l1 : I1.length = p + 1 + M1.length := before_length _ _
  have key := hJ.opp (y0 * w0 + y1 * w1) (p := p) (m := p + 1 - d) (by omega) (M0.length + M1.length + 2 + p - d + p) (d - 1) (by omega) (by simp [l0, l1]; omega)
    (fun i => if i = p + M0.length - a then 1 else 0) (fun i => if i = p + M1.length - (d - 1 - a) then 1 else 0) ⟨fun i i' hii => ?_, fun i hi => ⟨if_neg (by omega), if_neg (by omega)⟩⟩
  · simp only [List.map_reverse, List.reverse_reverse, List.map_map] at key
    rw [show ((fun x => y0 * w0 + y1 * w1 - x) ∘ fun x => y0 * w0 + y1 * w1 - x) = (id : K → K) from funext fun x => by simp, List.map_id, show y0 * w0 + y1 * w1 - y0 * w0 = y1 * w1 by ring] at key
    rw [add_comm (y1 * w1)]
    apply List.ext_getElem
    · simp
    · intro n g1 g2
      simp only [List.getElem_map, List.getElem_range, List.getElem_reverse, List.length_map, List.length_range] at g1 ⊢
      apply key.1
      split_ifs <;> omega
  · simp only
    by_cases c : i' = p + M0.length - a
    · rw [if_pos c, if_pos (by omega)]
    · rw [if_neg c, if_neg (by omega)]

private theorem sum_first (h0 : OpenKnots p kv0 M0 y0) (h1 : OpenKnots p kv1 M1 y1) (hw0 : 0 < w0) (hw1 : 0 < w1) (dir0 dir1 : Bool) {d b : ℕ} (hd : d ≤ p) (hb : b < d) :
    ∑ e ∈ range (d - b), (weights p kv0 dir0 w0 kv1 dir1 w1 d (b + e)).getD e 0 = 1 := by
  have hJ := h0.joint h1 hw0 hw1 dir0 dir1
  set I0 := Boehm.before p M0 y0 dir0 w0 with hI0
  set J0 := ((Boehm.before p M1 y1 dir1 w1).map (y0 * w0 + y1 * w1 - ·)).reverse with hJ0
  have l0 : I0.length = p + 1 + M0.length := before_length _ _
  set f : ℕ → ℕ → K := fun a i => if i = p + M0.length - a then 1 else 0 with hf
  have e1 : ∀ e ∈ range (d - b), (weights p kv0 dir0 w0 kv1 dir1 w1 d (b + e)).getD e 0 = boehm p (y0 * w0) (d - 1) (kn I0 J0 (y0 * w0) (p + 1 - d)) (f (b + e)) (p + M0.length - b) := by
    intro e he
    have he := mem_range.1 he
    rw [weights_eq h0 h1 hw0 hw1 dir0 dir1 hd (by omega), List.getD_eq_getElem _ _ (by simp; omega), List.getElem_map, List.getElem_range, if_pos (by omega), show p + M0.length - (b + e) + e = p + M0.length - b by omega]
  rw [Finset.sum_congr rfl e1]
  have e2 := Finset.sum_range_add (fun a => boehm p (y0 * w0) (d - 1) (kn I0 J0 (y0 * w0) (p + 1 - d)) (f a) (p + M0.length - b)) b (d - b)
  rw [show b + (d - b) = d by omega, Finset.sum_eq_zero (s := range b), zero_add] at e2
  · rw [← e2, ← hJ.linear]
    have := hJ.ones (p := p) (d := d) (by omega) hd (d - 1) 0 (by omega) (fun i => ∑ a ∈ range d, f a i) ?_ (p + M0.length - b)
    · rw [Nat.add_zero] at this
      rw [this, if_pos (by omega)]
    · intro i
      simp only [hf]
      by_cases c : I0.length - d ≤ i ∧ i < I0.length + 0
      · rw [if_pos c, Finset.sum_eq_single (p + M0.length - i)]
        · exact if_pos (by omega)
        · intro a ha hne
          have := mem_range.1 ha
          exact if_neg (by omega)
        · intro hh
          exact absurd (mem_range.2 (by omega)) hh
      · rw [if_neg c]
        refine Finset.sum_eq_zero fun a ha => if_neg ?_
        have := mem_range.1 ha
        omega
  · intro a ha
    have := mem_range.1 ha
    refine hJ.supp p _ _ (p + M0.length - a) (p + M0.length - a) _ (fun i hi => if_neg (by omega)) _ (by omega)

/-- C54: for every local function near the interface the weights it has in the smoothed functions sum up to one, in both patches: the function with distance `b` in the first patch has number `a - b` in the function with distance `a`, the one in the second
patch has number `a + 1 + b`. So the global functions still sum up to one. -/
theorem C54_sum_partial (h0 : OpenKnots p kv0 M0 y0) (h1 : OpenKnots p kv1 M1 y1) (hw0 : 0 < w0) (hw1 : 0 < w1) (dir0 dir1 : Bool) {d b : ℕ} (hd : d ≤ p) (hb : b < d) :
    ∑ e ∈ range (d - b), (weights p kv0 dir0 w0 kv1 dir1 w1 d (b + e)).getD e 0 = 1 ∧
    ∑ a ∈ range (d - b), (weights p kv0 dir0 w0 kv1 dir1 w1 d a).getD (a + 1 + b) 0 = 1 := by
  refine ⟨sum_first h0 h1 hw0 hw1 dir0 dir1 hd hb, ?_⟩
  have := sum_first h1 h0 hw1 hw0 dir1 dir0 hd hb
  rw [← Finset.sum_range_reflect] at this
  refine Eq.trans (Finset.sum_congr rfl fun a ha => ?_) this
  have ha := mem_range.1 ha
  have l := (C54_nonneg_partial h0 h1 hw0 hw1 dir0 dir1 hd (show a < d by omega)).1
  rw [show b + (d - b - 1 - a) = d - 1 - a by omega, C54_symmetric_partial h0 h1 hw0 hw1 dir0 dir1 hd (by omega), List.getD_eq_getElem _ _ (by omega), List.getD_eq_getElem _ _ (by simp; omega), List.getElem_reverse]
  congr 1
  omega

end patches

/-! ## The functions -/

section functions
open Polynomial
open _root_.Verif.BSpline (bs bs_zero_of_gt bs_zero_of_lt)
variable {I J : List ℝ} {s : ℝ}

theorem Joint.ins (h : Joint I J s) {m : ℕ} (hm : 1 ≤ m) : Ins (knotAt (kn I J s m)) (knotAt (kn I J s (m + 1))) s (I.length + m - 1) := by
  refine ⟨knotAt_mono (h.sorted m), kn_mid (by omega) (by omega), h.hi_gt (by omega), fun i hi => ?_, fun i hi => ?_⟩
  · rcases Nat.lt_or_ge i I.length with c | c
    · rw [kn_lo c, kn_lo c]
    · rw [kn_mid c (by omega), kn_mid c (by omega)]
  · rcases Nat.eq_or_lt_of_le hi with c | c
    · rw [kn_mid (by omega) (by omega), kn_mid (by omega) (by omega)]
    · obtain ⟨e, rfl⟩ := Nat.exists_eq_add_of_le (show I.length + m ≤ i by omega)
      rw [show I.length + m + e + 1 = I.length + (m + 1) + e by omega, kn_hi h.nj, kn_hi h.nj]

/-- Knot insertion does not change the function, on every element before and behind the interface. -/
private theorem Joint.same (h : Joint I J s) {p m : ℕ} (hm : 1 ≤ m) (r N : ℕ) (c : ℕ → ℝ) (hc : ∀ i, N ≤ i → c i = 0) (ℓ : ℕ) (hl : ℓ < I.length ∨ I.length + m - 1 ≤ ℓ)
    (hn : knotAt (kn I J s m) ℓ < knotAt (kn I J s m) (ℓ + 1)) :
    ∑ i ∈ range N, C (c i) * bs (knotAt (kn I J s m)) ℓ p i =
      ∑ i ∈ range (N + r), C (boehm p s r (kn I J s m) c i) * bs (knotAt (kn I J s (m + r))) (if ℓ < I.length then ℓ else ℓ + r) p i := by
  induction r generalizing m N c ℓ with
  | zero => simp [boehm]
  | succ r ih =>
    have hI := h.ins hm
    have e1 : elt (I.length + m - 1) ℓ = if ℓ < I.length then ℓ else ℓ + 1 := by
      unfold elt; split_ifs <;> omega
    have hn' := hI.elt_lt hn
    rw [e1] at hn'
    have key : ∑ i ∈ range N, C (c i) * bs (knotAt (kn I J s m)) ℓ p i = ∑ i ∈ range (N + 1), C (insertCoefs (knotAt (kn I J s m)) p s c i) * bs (knotAt (kn I J s (m + 1))) (if ℓ < I.length then ℓ else ℓ + 1) p i := by
      simp only [hI.boehm hn p, e1]
      set B : ℕ → ℝ[X] := fun i => bs (knotAt (kn I J s (m + 1))) (if ℓ < I.length then ℓ else ℓ + 1) p i
      set ρ : ℕ → ℝ := fun i => ratio (knotAt (kn I J s m)) p s i
      change ∑ i ∈ range N, C (c i) * (C (ρ i) * B i + C (1 - ρ (i + 1)) * B (i + 1)) = ∑ i ∈ range (N + 1), C (ρ i * c i + (1 - ρ i) * if i = 0 then 0 else c (i - 1)) * B i
      have l : ∑ i ∈ range N, C (c i) * (C (ρ i) * B i + C (1 - ρ (i + 1)) * B (i + 1)) = ∑ i ∈ range N, C (ρ i * c i) * B i + ∑ i ∈ range N, C ((1 - ρ (i + 1)) * c i) * B (i + 1) := by
        rw [← Finset.sum_add_distrib]
        refine Finset.sum_congr rfl fun i _ => ?_
        simp only [map_mul]; ring
      have r' : ∑ i ∈ range (N + 1), C (ρ i * c i + (1 - ρ i) * if i = 0 then 0 else c (i - 1)) * B i = ∑ i ∈ range (N + 1), C (ρ i * c i) * B i + ∑ i ∈ range (N + 1), C ((1 - ρ i) * if i = 0 then 0 else c (i - 1)) * B i := by
        rw [← Finset.sum_add_distrib]
        refine Finset.sum_congr rfl fun i _ => ?_
        rw [C_add]; ring
      rw [l, r', Finset.sum_range_succ (fun i => C (ρ i * c i) * B i), hc N le_rfl, Finset.sum_range_succ' (fun i => C ((1 - ρ i) * if i = 0 then 0 else c (i - 1)) * B i)]
      simp
    rw [key, ih (show 1 ≤ m + 1 by omega) (N + 1) _ ?_ (if ℓ < I.length then ℓ else ℓ + 1) (by split_ifs <;> omega) hn', h.step, show N + 1 + r = N + (r + 1) by omega, show m + 1 + r = m + (r + 1) by omega]
    · have : (if (if ℓ < I.length then ℓ else ℓ + 1) < I.length then (if ℓ < I.length then ℓ else ℓ + 1) else (if ℓ < I.length then ℓ else ℓ + 1) + r) = if ℓ < I.length then ℓ else ℓ + (r + 1) := by split_ifs <;> omega
      rw [this]
    · intro i hi
      rw [insertCoefs, hc i (by omega), if_neg (by omega), hc (i - 1) (by omega)]; ring

variable {p : ℕ} {kv0 kv1 M0 M1 : List ℝ} {y0 y1 w0 w1 : ℝ}

private theorem knots_first (h0 : OpenKnots p kv0 M0 y0) (dir0 : Bool) (J : List ℝ) {i : ℕ} (hi : i ≤ p + 1 + M0.length + p) :
    knotAt (firstKnots kv0 dir0 w0) i = knotAt (kn (Boehm.before p M0 y0 dir0 w0) J (y0 * w0) (p + 1)) i := by
  have l0 := before_length (p := p) (M := M0) (y := y0) dir0 w0
  rw [h0.first, knotAt_lt (by simp; omega), knotAt_lt (by simp [kn]; omega)]
  simp only [kn]
  rw [List.getElem_append_left (bs := J) (by simp; omega)]

private theorem first_tail (h0 : OpenKnots p kv0 M0 y0) (dir0 : Bool) {i : ℕ} (hi : p + 1 + M0.length ≤ i) : knotAt (firstKnots kv0 dir0 w0) i = y0 * w0 := by
  have l0 := before_length (p := p) (M := M0) (y := y0) dir0 w0
  rw [h0.first]
  rcases Nat.lt_or_ge i (p + 1 + M0.length + (p + 1)) with c | c
  · rw [knotAt_lt (by simp; omega), List.getElem_append_right (by omega), List.getElem_replicate]
  · rw [knotAt, List.getD_eq_default _ _ (by simp; omega), List.replicate_succ', ← List.append_assoc, List.getLastD_concat]

private theorem knots_second (h1 : OpenKnots p kv1 M1 y1) (dir1 : Bool) (I : List ℝ) (i : ℕ) :
    knotAt (secondKnots kv1 dir1 w1 (y0 * w0)) i = knotAt (kn I ((Boehm.before p M1 y1 dir1 w1).map (y0 * w0 + y1 * w1 - ·)).reverse (y0 * w0) (p + 1)) (I.length + i) := by
  have hne : ((Boehm.before p M1 y1 dir1 w1).map (y0 * w0 + y1 * w1 - ·)).reverse ≠ [] := by simp [Boehm.before, List.replicate_succ]
  rw [h1.second]
  set J := ((Boehm.before p M1 y1 dir1 w1).map (y0 * w0 + y1 * w1 - ·)).reverse
  have e := kn_hi (I := ([] : List ℝ)) (s := y0 * w0) hne (p + 1)
  have e2 : kn [] J (y0 * w0) (p + 1) = List.replicate (p + 1) (y0 * w0) ++ J := by simp [kn]
  rw [e2] at e
  rcases Nat.lt_or_ge i (p + 1) with c | c
  · rw [kn_mid (by omega) (by omega), knotAt_lt (by simp; omega), List.getElem_append_left (by simpa using c), List.getElem_replicate]
  · obtain ⟨x, rfl⟩ := Nat.exists_eq_add_of_le c
    rw [← Nat.add_assoc I.length, kn_hi hne, ← e, List.length_nil, Nat.zero_add]

/-- C54: the function built with smoothing degree `d` is a B-spline over the joined knot vector, in which the interface has multiplicity `p+1-d`. On every element of the first patch (first sum) and of the second one (second sum) the B-spline with number `n-1-a`
(`n` functions in the first patch) is the combination of the functions of the patch with the computed weights. (The knots of both patches are scaled with the weights of the sides and placed on both sides of the interface, see `C54_first_patch_partial`,
`C54_second_patch_partial`.) -/
theorem C54_function_partial (h0 : OpenKnots p kv0 M0 y0) (h1 : OpenKnots p kv1 M1 y1) (hw0 : 0 < w0) (hw1 : 0 < w1) (dir0 dir1 : Bool) {d a : ℕ} (hd : d ≤ p) (ha : a < d) (ℓ : ℕ) :
    let L0 := firstKnots kv0 dir0 w0
    let L1 := secondKnots kv1 dir1 w1 (y0 * w0)
    let T := knotAt (join p d L0 L1)
    let n := p + 1 + M0.length
    let W := weights p kv0 dir0 w0 kv1 dir1 w1 d a
    (knotAt L0 ℓ < knotAt L0 (ℓ + 1) → bs T ℓ p (n - 1 - a) = ∑ e ∈ range (a + 1), C (W.getD e 0) * bs (knotAt L0) ℓ p (n - 1 - a + e)) ∧
    (knotAt L1 ℓ < knotAt L1 (ℓ + 1) → bs T (n - d + ℓ) p (n - 1 - a) = ∑ b ∈ range (d - a), C (W.getD (a + 1 + b) 0) * bs (knotAt L1) ℓ p b) := by
  intro L0 L1 T n W
  have hJ := h0.joint h1 hw0 hw1 dir0 dir1
  set I0 := Boehm.before p M0 y0 dir0 w0 with hI0
  set J0 := ((Boehm.before p M1 y1 dir1 w1).map (y0 * w0 + y1 * w1 - ·)).reverse with hJ0
  have l0 : I0.length = n := before_length _ _
  have kf : ∀ i, i ≤ n + p → knotAt L0 i = knotAt (kn I0 J0 (y0 * w0) (p + 1)) i := fun i hi => knots_first h0 dir0 J0 (by omega)
  have ks : ∀ i, knotAt L1 i = knotAt (kn I0 J0 (y0 * w0) (p + 1)) (n + i) := fun i => by rw [← l0]; exact knots_second h1 dir1 I0 i
  have hI : y0 * w0 ∉ I0 := fun hh => lt_irrefl _ (hJ.lt _ hh)
  have hT : T = knotAt (kn I0 J0 (y0 * w0) (p + 1 - d)) := by
    simp only [T, L0, L1]; rw [h0.first, h1.second, join_eq hI (by omega)]
  set c : ℕ → ℝ := boehm p (y0 * w0) (d - 1) (kn I0 J0 (y0 * w0) (p + 1 - d)) (fun i => if i = p + M0.length - a then 1 else 0) with hc
  have hW : ∀ e ≤ d, W.getD e 0 = c (n - 1 - a + if e ≤ a then e else e - 1) := by
    intro e he
    simp only [W]
    rw [weights_eq h0 h1 hw0 hw1 dir0 dir1 hd ha, List.getD_eq_getElem _ _ (by simp; omega), List.getElem_map, List.getElem_range, show n - 1 - a = p + M0.length - a by omega]
  have hsupp := hJ.supp p (p + 1 - d) (d - 1) (p + M0.length - a) (p + M0.length - a) (fun i => if i = p + M0.length - a then 1 else 0) (fun i hi => if_neg (by omega))
  have hsame := fun ℓ => hJ.same (p := p) (m := p + 1 - d) (by omega) (d - 1) n (fun i => if i = p + M0.length - a then 1 else 0) (fun i hi => if_neg (by omega)) ℓ
  have hunit : ∀ ℓ, ∑ i ∈ range n, C (if i = p + M0.length - a then (1 : ℝ) else 0) * bs (knotAt (kn I0 J0 (y0 * w0) (p + 1 - d))) ℓ p i = bs T ℓ p (n - 1 - a) := by
    intro ℓ
    rw [hT, Finset.sum_eq_single (n - 1 - a), if_pos (by omega)]
    · simp
    · intro i _ hne; rw [if_neg (by omega)]; simp
    · intro hh; exact absurd (mem_range.2 (by omega)) hh
  rw [show p + 1 - d + (d - 1) = p by omega, l0] at hsame
  constructor
  · intro hn
    have hl : ℓ < n := by
      by_contra hh
      simp only [L0] at hn
      rw [first_tail h0 dir0 (by omega), first_tail h0 dir0 (by omega)] at hn
      exact lt_irrefl _ hn
    have hn' : knotAt (kn I0 J0 (y0 * w0) (p + 1 - d)) ℓ < knotAt (kn I0 J0 (y0 * w0) (p + 1 - d)) (ℓ + 1) := by
      rw [kf _ (by omega), kf _ (by omega), kn_lo (by omega)] at hn
      rw [kn_lo (by omega)]
      rcases Nat.lt_or_ge (ℓ + 1) n with c1 | c1
      · rw [kn_lo (by omega)] at hn ⊢; exact hn
      · rw [kn_mid (by omega) (by omega)] at hn ⊢; exact hn
    have key := hsame ℓ (Or.inl hl) hn'
    rw [hunit, if_pos hl] at key
    rw [key]
    have hsub : ∑ i ∈ range (n + (d - 1)), C (c i) * bs (knotAt (kn I0 J0 (y0 * w0) p)) ℓ p i = ∑ e ∈ range (a + 1), C (c (n - 1 - a + e)) * bs (knotAt (kn I0 J0 (y0 * w0) p)) ℓ p (n - 1 - a + e) := by
      rw [show n + (d - 1) = (n - 1 - a) + ((a + 1) + (d - 1)) by omega, Finset.sum_range_add, Finset.sum_eq_zero, zero_add, Finset.sum_range_add, Finset.sum_eq_zero (s := range (d - 1)), add_zero]
      · intro e _
        rw [bs_zero_of_gt (by omega), mul_zero]
      · intro e he
        have := mem_range.1 he
        rw [hc, hsupp e (by omega)]; simp
    rw [hsub]
    refine Finset.sum_congr rfl fun e he => ?_
    have he := mem_range.1 he
    rw [hW e (by omega), if_pos (by omega)]
    congr 1
    have agree : ∀ j, j < n + p → knotAt (kn I0 J0 (y0 * w0) p) j = knotAt L0 j := by
      intro j hj
      rw [kf _ (by omega)]
      rcases Nat.lt_or_ge j n with c1 | c1
      · rw [kn_lo (by omega), kn_lo (by omega)]
      · rw [kn_mid (by omega) (by omega), kn_mid (by omega) (by omega)]
    rcases Nat.lt_or_ge e a with c1 | c1
    · have := bs_congr (t := knotAt (kn I0 J0 (y0 * w0) p)) (u := knotAt L0) 0 (ℓ := ℓ) (q := p) (i := n - 1 - a + e) fun j _ hj => agree j (by omega)
      simpa using this
    · exact bs_congr_lo (by omega) fun j _ hj => agree j (by omega)
  · intro hn
    have hk := ks
    have hl : p ≤ ℓ := by
      by_contra hh
      rw [hk, hk, kn_mid (by omega) (by omega), kn_mid (by omega) (by omega)] at hn
      exact lt_irrefl _ hn
    have hgen : ∀ m m' j, p < j → 1 ≤ m → m' = n + m + (j - (p + 1)) → knotAt (kn I0 J0 (y0 * w0) m) m' = knotAt L1 j := by
      intro m m' j hj hm hm'
      rw [hk, hm', show n + j = I0.length + (p + 1) + (j - (p + 1)) by omega, ← l0, kn_hi hJ.nj, kn_hi hJ.nj]
    have hn' : knotAt (kn I0 J0 (y0 * w0) (p + 1 - d)) (n - d + ℓ) < knotAt (kn I0 J0 (y0 * w0) (p + 1 - d)) (n - d + ℓ + 1) := by
      rw [hgen (p + 1 - d) (n - d + ℓ + 1) (ℓ + 1) (by omega) (by omega) (by omega)]
      rcases Nat.eq_or_lt_of_le hl with c1 | c1
      · rw [kn_mid (by omega) (by omega)]
        rw [hk ℓ, kn_mid (by omega) (by omega)] at hn
        exact hn
      · rw [hgen (p + 1 - d) (n - d + ℓ) ℓ (by omega) (by omega) (by omega)]; exact hn
    have key := hsame (n - d + ℓ) (Or.inr (by omega)) hn'
    rw [hunit, if_neg (by omega)] at key
    rw [key]
    have hsub : ∑ i ∈ range (n + (d - 1)), C (c i) * bs (knotAt (kn I0 J0 (y0 * w0) p)) (n - d + ℓ + (d - 1)) p i = ∑ b ∈ range (d - a), C (c (n - 1 + b)) * bs (knotAt (kn I0 J0 (y0 * w0) p)) (n - 1 + ℓ) p (n - 1 + b) := by
      rw [show n - d + ℓ + (d - 1) = n - 1 + ℓ by omega, show n + (d - 1) = (n - 1) + ((d - a) + a) by omega, Finset.sum_range_add, Finset.sum_eq_zero, zero_add, Finset.sum_range_add, Finset.sum_eq_zero (s := range a), add_zero]
      · intro e _
        rw [hc, hsupp _ (by omega)]; simp
      · intro e he
        have := mem_range.1 he
        rw [bs_zero_of_lt (by omega), mul_zero]
    rw [hsub]
    refine Finset.sum_congr rfl fun b hb => ?_
    have hb := mem_range.1 hb
    rw [hW (a + 1 + b) (by omega), if_neg (by omega), show n - 1 - a + (a + 1 + b - 1) = n - 1 + b by omega]
    congr 1
    have agree : ∀ j, 0 < j → knotAt L1 j = knotAt (kn I0 J0 (y0 * w0) p) (j + (n - 1)) := by
      intro j hj
      rcases Nat.lt_or_ge p j with c1 | c1
      · exact (hgen p _ j c1 (by omega) (by omega)).symm
      · rw [hk, kn_mid (by omega) (by omega), kn_mid (by omega) (by omega)]
    rw [Nat.add_comm (n - 1) ℓ, Nat.add_comm (n - 1) b]
    rcases Nat.eq_zero_or_pos b with c1 | c1
    · exact (bs_congr_hi (n - 1) (by omega) fun j h1 _ => agree j (by omega)).symm
    · exact (bs_congr (n - 1) fun j h1 _ => agree j (by omega)).symm

/-- C54: the function built with smoothing degree `d` is `d-1` times continuously differentiable over the interface: at the interface all derivatives up to order `d-1` of the combination on the last element of the first patch and of the one on the first element
of the second patch agree. -/
theorem C54_smooth_partial (h0 : OpenKnots p kv0 M0 y0) (h1 : OpenKnots p kv1 M1 y1) (hw0 : 0 < w0) (hw1 : 0 < w1) (dir0 dir1 : Bool) {d a : ℕ} (hd : d ≤ p) (ha : a < d) (r : ℕ) (hr : r < d) :
    let L0 := firstKnots kv0 dir0 w0
    let L1 := secondKnots kv1 dir1 w1 (y0 * w0)
    let n := p + 1 + M0.length
    let W := weights p kv0 dir0 w0 kv1 dir1 w1 d a
    (derivative^[r] (∑ e ∈ range (a + 1), C (W.getD e 0) * bs (knotAt L0) (n - 1) p (n - 1 - a + e))).eval (y0 * w0) =
      (derivative^[r] (∑ b ∈ range (d - a), C (W.getD (a + 1 + b) 0) * bs (knotAt L1) p p b)).eval (y0 * w0) := by
  intro L0 L1 n W
  have hJ := h0.joint h1 hw0 hw1 dir0 dir1
  set I0 := Boehm.before p M0 y0 dir0 w0 with hI0
  set J0 := ((Boehm.before p M1 y1 dir1 w1).map (y0 * w0 + y1 * w1 - ·)).reverse with hJ0
  have l0 : I0.length = n := before_length _ _
  have kf : ∀ i, i ≤ n + p → knotAt L0 i = knotAt (kn I0 J0 (y0 * w0) (p + 1)) i := fun i hi => knots_first h0 dir0 J0 (by omega)
  have ks : ∀ i, knotAt L1 i = knotAt (kn I0 J0 (y0 * w0) (p + 1)) (n + i) := fun i => by rw [← l0]; exact knots_second h1 dir1 I0 i
  have hI : y0 * w0 ∉ I0 := fun hh => lt_irrefl _ (hJ.lt _ hh)
  have hm : Mult (knotAt (kn I0 J0 (y0 * w0) (p + 1 - d))) (y0 * w0) (n + (p + 1 - d) - 1) (p + 1 - d) :=
    ⟨knotAt_mono (hJ.sorted _), by omega, fun i h1 h2 => kn_mid (by omega) (by omega), hJ.lo_lt (by omega), hJ.hi_gt (by omega)⟩
  have e1 : knotAt L0 (n - 1) < knotAt L0 (n - 1 + 1) := by
    rw [kf _ (by omega), kf _ (by omega), kn_mid (i := n - 1 + 1) (by omega) (by omega)]
    exact hJ.lo_lt (by omega)
  have e2 : knotAt L1 p < knotAt L1 (p + 1) := by
    rw [ks, ks, kn_mid (i := n + p) (by omega) (by omega)]
    exact hJ.hi_gt (by omega)
  have f1 := (C54_function_partial h0 h1 hw0 hw1 dir0 dir1 hd ha (n - 1)).1 e1
  have f2 := (C54_function_partial h0 h1 hw0 hw1 dir0 dir1 hd ha p).2 e2
  change _ = ∑ e ∈ range (a + 1), C (W.getD e 0) * bs (knotAt L0) (n - 1) p (n - 1 - a + e) at f1
  change _ = ∑ b ∈ range (d - a), C (W.getD (a + 1 + b) 0) * bs (knotAt L1) p p b at f2
  rw [← f1, ← f2, h0.first, h1.second, join_eq hI (by omega)]
  have := hm.smooth (by omega) r p (by omega) (n - 1 - a)
  rw [show n + (p + 1 - d) - 1 - (p + 1 - d) = n - 1 by omega, show n + (p + 1 - d) - 1 = n - d + p by omega] at this
  exact this

/-! ### In the coordinates of the patches -/

theorem getElem_reverseKnots {L : List ℝ} {j : ℕ} (hj : j < L.length) : knotAt (reverseKnots L) j = L.headD 0 + L.getLastD 0 - knotAt L (L.length - 1 - j) := by
  rw [knotAt_lt (by simpa [reverseKnots] using hj), knotAt_lt (L := L) (i := L.length - 1 - j) (by omega)]
  simp [reverseKnots]

theorem knotAt_map {L : List ℝ} {j : ℕ} (f : ℝ → ℝ) (hj : j < L.length) : knotAt (L.map f) j = f (knotAt L j) := by
  rw [knotAt_lt (by simpa using hj), knotAt_lt hj, List.getElem_map]

theorem OpenKnots.ends {kv M : List ℝ} {y : ℝ} (h : OpenKnots p kv M y) (w : ℝ) : (kv.map (· * w)).headD 0 = 0 ∧ (kv.map (· * w)).getLastD 0 = y * w ∧ kv.length = p + 1 + M.length + p + 1 := by
  refine ⟨by rw [h.eq]; simp [List.replicate_succ], ?_, by rw [h.eq]; simp; omega⟩
  rw [h.eq, List.map_append, List.map_replicate, List.replicate_succ' (n := p) (a := y * w), ← List.append_assoc, List.getLastD_concat]

/-- C54: the coordinates of the first patch. Where the interface is at its end (`dir0`), the coordinate is scaled with the weight; otherwise it is also mirrored, and functions and elements are counted from the other end. -/
theorem C54_first_patch_partial (h0 : OpenKnots p kv0 M0 y0) (hw0 : 0 < w0) {ℓ b : ℕ} (hl : ℓ < p + 1 + M0.length + p) (hb : b < p + 1 + M0.length) :
    (bs (knotAt (firstKnots kv0 true w0)) ℓ p (p + M0.length - b)).comp (C w0 * X) = bs (knotAt kv0) ℓ p (p + M0.length - b) ∧
    (bs (knotAt (firstKnots kv0 false w0)) ℓ p (p + M0.length - b)).comp (C (y0 * w0) - C w0 * X) = bs (knotAt kv0) (p + M0.length + p - ℓ) p b := by
  obtain ⟨e1, e2, e3⟩ := h0.ends w0
  constructor
  · have := bs_affine (t := knotAt kv0) (u := knotAt (firstKnots kv0 true w0)) (β := 0) hw0.ne' (ℓ := ℓ) (q := p) (i := p + M0.length - b) fun j _ hj => by
      simp only [firstKnots, if_true]
      rw [knotAt_map _ (by omega)]; ring
    simpa using this
  · refine bs_mirror (M := p + 1 + M0.length + p) hw0.ne' (fun j j' hj => ?_) (by omega) (by omega)
    simp only [firstKnots, Bool.false_eq_true, if_false]
    rw [getElem_reverseKnots (by simp; omega), e1, e2, knotAt_map _ (by simp; omega), List.length_map, e3, show p + 1 + M0.length + p + 1 - 1 - j = j' by omega]
    ring

/-- C54: the coordinates of the second patch, behind the coordinate `s` of the interface. -/
theorem C54_second_patch_partial (h1 : OpenKnots p kv1 M1 y1) (hw1 : 0 < w1) (s : ℝ) {ℓ b : ℕ} (hl : ℓ < p + 1 + M1.length + p) (hb : b < p + 1 + M1.length) :
    (bs (knotAt (secondKnots kv1 false w1 s)) ℓ p b).comp (C w1 * X + C s) = bs (knotAt kv1) ℓ p b ∧
    (bs (knotAt (secondKnots kv1 true w1 s)) ℓ p b).comp (C (s + y1 * w1) - C w1 * X) = bs (knotAt kv1) (p + M1.length + p - ℓ) p (p + M1.length - b) := by
  obtain ⟨e1, e2, e3⟩ := h1.ends w1
  constructor
  · refine bs_affine hw1.ne' fun j _ hj => ?_
    simp only [secondKnots, Bool.false_eq_true, if_false]
    rw [knotAt_map _ (by simp; omega), knotAt_map _ (by omega)]; ring
  · refine bs_mirror (M := p + 1 + M1.length + p) hw1.ne' (fun j j' hj => ?_) (by omega) (by omega)
    simp only [secondKnots, if_true]
    rw [knotAt_map _ (by simp [reverseKnots]; omega), getElem_reverseKnots (by simp; omega), e1, e2, knotAt_map _ (by simp; omega), List.length_map, e3, show p + 1 + M1.length + p + 1 - 1 - j = j' by omega]
    ring

private theorem sum_comp_poly (m : ℕ) (f : ℕ → ℝ[X]) (g : ℝ[X]) : (∑ i ∈ range m, f i).comp g = ∑ i ∈ range m, (f i).comp g := by
  induction m with
  | zero => simp
  | succ m ih => rw [Finset.sum_range_succ, Finset.sum_range_succ, add_comp, ih]

theorem derivative_comp_eval (P : ℝ[X]) (α β x : ℝ) (r : ℕ) : (derivative^[r] (P.comp (C α * X + C β))).eval x = α ^ r * (derivative^[r] P).eval (α * x + β) := by
  have : ∀ r, derivative^[r] (P.comp (C α * X + C β)) = C (α ^ r) * (derivative^[r] P).comp (C α * X + C β) := by
    intro r
    induction r with
    | zero => simp
    | succ r ih =>
      rw [Function.iterate_succ_apply', ih, Function.iterate_succ_apply', derivative_C_mul, derivative_comp]
      simp only [derivative_add, derivative_C_mul, derivative_X, derivative_C, mul_one, add_zero, pow_succ, C_mul]
      ring
  rw [this, eval_mul, eval_C, eval_comp]
  simp

/-- C54: smoothness in the parameters of the patches. The function is the combination of the functions of both patches with the computed weights; the function with distance `b` to the interface is the last but `b` one if the interface is at the end of the
parameter interval, otherwise the one with number `b`. For every order up to `d-1` the derivatives on both sides of the interface agree if the parameter of each patch is scaled with the weight of its side and points over the interface. -/
theorem C54_parameters_partial (h0 : OpenKnots p kv0 M0 y0) (h1 : OpenKnots p kv1 M1 y1) (hw0 : 0 < w0) (hw1 : 0 < w1) (dir0 dir1 : Bool) {d a : ℕ} (hd : d ≤ p) (ha : a < d) (r : ℕ) (hr : r < d) :
    let n0 := p + 1 + M0.length
    let n1 := p + 1 + M1.length
    let W := weights p kv0 dir0 w0 kv1 dir1 w1 d a
    let f0 : ℝ[X] := ∑ e ∈ range (a + 1), C (W.getD e 0) * bs (knotAt kv0) (if dir0 then n0 - 1 else p) p (if dir0 then n0 - 1 - (a - e) else a - e)
    let f1 : ℝ[X] := ∑ b ∈ range (d - a), C (W.getD (a + 1 + b) 0) * bs (knotAt kv1) (if dir1 then n1 - 1 else p) p (if dir1 then n1 - 1 - b else b)
    ((if dir0 then 1 else -1) / w0) ^ r * (derivative^[r] f0).eval (if dir0 then y0 else 0) = ((if dir1 then -1 else 1) / w1) ^ r * (derivative^[r] f1).eval (if dir1 then y1 else 0) := by
  intro n0 n1 W f0 f1
  have key := C54_smooth_partial h0 h1 hw0 hw1 dir0 dir1 hd ha r hr
  simp only at key
  set P0 := ∑ e ∈ range (a + 1), C ((weights p kv0 dir0 w0 kv1 dir1 w1 d a).getD e 0) * bs (knotAt (firstKnots kv0 dir0 w0)) (p + 1 + M0.length - 1) p (p + 1 + M0.length - 1 - a + e) with hP0
  set P1 := ∑ b ∈ range (d - a), C ((weights p kv0 dir0 w0 kv1 dir1 w1 d a).getD (a + 1 + b) 0) * bs (knotAt (secondKnots kv1 dir1 w1 (y0 * w0))) p p b with hP1
  have q0 : ((if dir0 then 1 else -1) / w0) ^ r * (derivative^[r] f0).eval (if dir0 then y0 else 0) = (derivative^[r] P0).eval (y0 * w0) := by
    have hf : f0 = P0.comp (C (if dir0 then w0 else -w0) * X + C (if dir0 then 0 else y0 * w0)) := by
      rw [hP0, sum_comp_poly]
      refine Finset.sum_congr rfl fun e he => ?_
      have he := mem_range.1 he
      rw [mul_comp, C_comp]
      congr 1
      have := C54_first_patch_partial h0 hw0 (ℓ := p + 1 + M0.length - 1) (b := a - e) (by omega) (by omega)
      rw [show p + M0.length - (a - e) = p + 1 + M0.length - 1 - a + e by omega] at this
      cases dir0
      · simp only [Bool.false_eq_true, if_false]
        rw [show p + M0.length + p - (p + 1 + M0.length - 1) = p by omega] at this
        rw [← this.2]; congr 1; simp only [C_neg]; ring
      · simp only [if_true]
        rw [show n0 - 1 - (a - e) = p + 1 + M0.length - 1 - a + e by omega, ← this.1]; congr 1; simp
    rw [hf, derivative_comp_eval, ← mul_assoc, ← mul_pow]
    cases dir0
    · simp only [Bool.false_eq_true, if_false]
      rw [show -1 / w0 * -w0 = 1 by field_simp]; simp
    · simp only [if_true]
      rw [show 1 / w0 * w0 = 1 by field_simp, one_pow, one_mul, add_zero, mul_comm w0]
  have q1 : ((if dir1 then -1 else 1) / w1) ^ r * (derivative^[r] f1).eval (if dir1 then y1 else 0) = (derivative^[r] P1).eval (y0 * w0) := by
    have hf : f1 = P1.comp (C (if dir1 then -w1 else w1) * X + C (if dir1 then y0 * w0 + y1 * w1 else y0 * w0)) := by
      rw [hP1, sum_comp_poly]
      refine Finset.sum_congr rfl fun b hb => ?_
      have hb := mem_range.1 hb
      rw [mul_comp, C_comp]
      congr 1
      have := C54_second_patch_partial h1 hw1 (y0 * w0) (ℓ := p) (b := b) (by omega) (by omega)
      cases dir1
      · simp only [Bool.false_eq_true, if_false]
        rw [← this.1]
      · simp only [if_true]
        rw [show p + M1.length + p - p = n1 - 1 by omega, show p + M1.length - b = n1 - 1 - b by omega] at this
        rw [← this.2]; congr 1; simp only [C_neg]; ring
    rw [hf, derivative_comp_eval, ← mul_assoc, ← mul_pow]
    cases dir1
    · simp only [Bool.false_eq_true, if_false]
      rw [show 1 / w1 * w1 = 1 by field_simp]; simp
    · simp only [if_true]
      rw [show -1 / w1 * -w1 = 1 by field_simp, one_pow, one_mul]
      congr 1; ring
  rw [q0, q1, key]

end functions
/-! ### Cases -/

/-- Two knot vectors of degree 3 with inner knots; the second side has weight 2. The weights are the same from both patches, in opposite order. -/
example : OpenKnots 3 ([0, 0, 0, 0, 1, 3, 3, 3, 3] : List ℚ) [1] 3 ∧ OpenKnots 3 ([0, 0, 0, 0, 1, 1, 1, 1] : List ℚ) [] 1 ∧
    weights 3 ([0, 0, 0, 0, 1, 3, 3, 3, 3] : List ℚ) true 1 [0, 0, 0, 0, 1, 1, 1, 1] true 2 3 1 = [3 / 5, 11 / 20, 11 / 20, 1 / 2] ∧
    weights 3 ([0, 0, 0, 0, 1, 1, 1, 1] : List ℚ) true 2 [0, 0, 0, 0, 1, 3, 3, 3, 3] true 1 3 1 = [1 / 2, 11 / 20, 11 / 20, 3 / 5] :=
  ⟨⟨rfl, by simp, by simp, by norm_num⟩, ⟨rfl, by simp, by simp, by norm_num⟩, by decide +kernel, by decide +kernel⟩

/-- The two functions of smoothing degree 2 over equal intervals. -/
example : OpenKnots 2 ([0, 0, 0, 1, 1, 1] : List ℝ) [] 1 ∧ weights 2 ([0, 0, 0, 1, 1, 1] : List ℚ) true 1 [0, 0, 0, 1, 1, 1] false 1 2 0 = [1 / 2, 1 / 2, 1] ∧
    weights 2 ([0, 0, 0, 1, 1, 1] : List ℚ) true 1 [0, 0, 0, 1, 1, 1] false 1 2 1 = [1, 1 / 2, 1 / 2] :=
  ⟨⟨rfl, by simp, by simp, by norm_num⟩, by decide +kernel, by decide +kernel⟩

/-- C54 is violated by the unchanged code for knot vectors that do not start at 0: the second knot vector is shifted by the last knot of the first one, but its own first knot is not subtracted, so a gap is left. With the intervals `[0,1]` and `[1,2]`, both of
length 1, the weights differ from those for two intervals `[0,1]`, and the second patch gives other weights than the first. Smoothness would need `1/2` instead of `1/3`: the derivatives of the sums at the interface are `2/3` and `4/3`. -/
theorem C54_shift_violated : let A : List ℚ := [0, 0, 0, 1, 1, 1]; let B : List ℚ := [1, 1, 1, 2, 2, 2]
    weights 2 A true 1 B false 1 2 0 = [1 / 3, 1 / 3, 1] ∧ weights 2 B false 1 A true 1 2 1 = [1, 1 / 2, 1 / 2] ∧ weights 2 A true 1 A false 1 2 0 = [1 / 2, 1 / 2, 1] := by decide +kernel

end Verif.Boehm
