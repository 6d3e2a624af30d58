import Verif.Proofs.Boehm
import Mathlib.Tactic.LinearCombination
/-! # Insertion of any knot into a spline -/
set_option autoImplicit false
namespace Verif.Boehm
open Polynomial Finset
open _root_.Verif.BSpline (bs bs_zero_of_gt bs_zero_of_lt)

section general
variable {t t' : ℕ → ℝ} {s : ℝ} {k : ℕ}

/-- `t'` is `t` with the knot `s` inserted, `t k ≤ s < t (k+1)`. -/
structure GIns (t t' : ℕ → ℝ) (s : ℝ) (k : ℕ) : Prop where
  mono : Monotone t
  le : t k ≤ s
  lt : s < t (k + 1)
  lo : ∀ i ≤ k, t' i = t i
  mid : t' (k + 1) = s
  hi : ∀ i, k < i → t' (i + 1) = t i

theorem GIns.mono' (h : GIns t t' s k) : Monotone t' := by
  refine monotone_nat_of_le_succ fun i => ?_
  rcases Nat.lt_trichotomy i k with c | c | c
  · rw [h.lo i (by omega), h.lo (i + 1) (by omega)]; exact h.mono (by omega)
  · subst c; rw [h.mid, h.lo i le_rfl]; exact h.le
  · rw [h.hi i c]
    rcases Nat.eq_or_lt_of_le (Nat.succ_le_of_lt c) with c | c
    · have : i = k + 1 := c.symm
      subst this; rw [h.mid]; exact h.lt.le
    · obtain ⟨j, rfl⟩ : ∃ j, i = j + 1 := ⟨i - 1, by omega⟩
      rw [h.hi j (by omega)]; exact h.mono (by omega)

theorem GIns.le' (h : GIns t t' s k) {i : ℕ} (hi : i ≤ k) : t i ≤ s := (h.mono hi).trans h.le
theorem GIns.gt (h : GIns t t' s k) {i : ℕ} (hi : k < i) : s < t i := h.lt.trans_le (h.mono hi)

theorem GIns.ratio_lo (h : GIns t t' s k) {q i : ℕ} (hi : i + q ≤ k) : ratio t q s i = 1 := if_pos (h.le' hi)
theorem GIns.ratio_hi (h : GIns t t' s k) {q i : ℕ} (hi : k < i) : ratio t q s i = 0 := by
  rw [ratio, if_neg (not_le.2 (h.gt (by omega))), if_pos (h.gt hi).le]

theorem GIns.ratio_mul (h : GIns t t' s k) {q i : ℕ} (h1 : i ≤ k) (h2 : k < i + q) : ratio t q s i * (t (i + q) - t i) = s - t i := by
  have a := h.le' h1
  have b := h.gt h2
  unfold ratio
  rw [if_neg (not_le.2 b)]
  split_ifs with c2
  · rw [le_antisymm a c2]; ring
  · exact div_mul_cancel₀ _ (by linarith)

/-- Element `m` of the new knots is part of element `ℓ` of the old ones. -/
def Part (k ℓ m : ℕ) : Prop := (ℓ ≤ k ∧ m = ℓ) ∨ (k ≤ ℓ ∧ m = ℓ + 1)

private theorem key (a b c d : ℝ) (N : ℝ[X]) (hh : N = 0 ∨ a * b = c * d) : C a * (C b * N) = C c * (C d * N) := by
  rcases hh with rfl | hh
  · simp
  · rw [← mul_assoc, ← mul_assoc, ← C_mul, ← C_mul, hh]

theorem GIns.norm (h : GIns t t' s k) {m : ℕ} (hl : t' m < t' (m + 1)) (q i : ℕ) {Q : ℝ[X]}
    (ih : Q = C (ratio t q s i) * bs t' m q i + C (1 - ratio t q s (i + 1)) * bs t' m q (i + 1)) :
    C (1 / (t (i + q + 1) - t i)) * Q = C (ratio t (q + 1) s i) * R t' m q i + C (1 - ratio t (q + 1) s i) * R t' m q (i + 1) := by
  rw [ih, mul_add, R, R]
  congr 1
  · apply key
    by_cases c1 : k < i
    · right; rw [h.ratio_hi c1, h.ratio_hi c1]; ring
    by_cases c2 : i + q + 1 ≤ k
    · right; rw [h.ratio_lo (by omega), h.ratio_lo (show i + (q + 1) ≤ k by omega), h.lo _ c2, h.lo i (by omega)]; ring
    have e2 := h.ratio_mul (q := q + 1) (i := i) (by omega) (by omega)
    rw [← add_assoc] at e2
    have g2 : t (i + q + 1) - t i ≠ 0 := by
      have := h.le' (show i ≤ k by omega)
      have := h.gt (show k < i + q + 1 by omega)
      linarith
    by_cases c4 : i + q = k
    · rw [h.ratio_lo (q := q) (i := i) (by omega), show t' (i + q + 1) = s by rw [c4, h.mid], h.lo i (by omega)]
      by_cases c3 : s = t i
      · left; apply bs_degenerate h.mono' hl; rw [c4, h.mid, h.lo _ (by omega), c3]
      · right
        have g1 : s - t i ≠ 0 := sub_ne_zero.2 c3
        field_simp
        linarith
    · have e1 := h.ratio_mul (q := q) (i := i) (by omega) (by omega)
      have g1 : t (i + q) - t i ≠ 0 := by
        have := h.le' (show i ≤ k by omega)
        have := h.gt (show k < i + q by omega)
        linarith
      right
      rw [h.hi _ (by omega), h.lo i (by omega)]
      rw [← e1] at e2
      field_simp
      linarith
  · apply key
    by_cases c1 : k < i
    · right; rw [h.ratio_hi (show k < i + 1 by omega), h.ratio_hi c1, show i + 1 + q + 1 = (i + q + 1) + 1 by omega, h.hi _ (by omega), h.hi _ c1]; ring
    by_cases c2 : i + q + 1 ≤ k
    · right; rw [h.ratio_lo (show i + 1 + q ≤ k by omega), h.ratio_lo (show i + (q + 1) ≤ k by omega)]; ring
    have e2 := h.ratio_mul (q := q + 1) (i := i) (by omega) (by omega)
    rw [← add_assoc] at e2
    have g2 : t (i + q + 1) - t i ≠ 0 := by
      have := h.le' (show i ≤ k by omega)
      have := h.gt (show k < i + q + 1 by omega)
      linarith
    right
    by_cases c4 : i = k
    · subst c4
      rw [h.ratio_hi (show i < i + 1 by omega), show i + 1 + q + 1 = (i + q + 1) + 1 by omega, h.hi _ (by omega), h.mid]
      have g1 : t (i + q + 1) - s ≠ 0 := by
        have := h.gt (show i < i + q + 1 by omega)
        linarith
      field_simp
      linarith
    · have e1 := h.ratio_mul (q := q) (i := i + 1) (by omega) (by omega)
      rw [show i + 1 + q = i + q + 1 by omega] at e1
      have g1 : t (i + q + 1) - t (i + 1) ≠ 0 := by
        have := h.le' (show i + 1 ≤ k by omega)
        have := h.gt (show k < i + q + 1 by omega)
        linarith
      rw [show i + 1 + q + 1 = (i + q + 1) + 1 by omega, h.hi _ (by omega), h.lo (i + 1) (by omega), ← sub_eq_zero]
      field_simp
      linarith

/-- Boehm's formula on every part of every element. -/
theorem GIns.boehm (h : GIns t t' s k) {ℓ m : ℕ} (hp : Part k ℓ m) (hl : t' m < t' (m + 1)) (q i : ℕ) :
    bs t ℓ q i = C (ratio t q s i) * bs t' m q i + C (1 - ratio t q s (i + 1)) * bs t' m q (i + 1) := by
  induction q generalizing i with
  | zero =>
    have r : ∀ i, ratio t 0 s i = if i ≤ k then 1 else 0 := by
      intro i
      split_ifs with c
      · exact h.ratio_lo c
      · exact h.ratio_hi (by omega)
    rw [r, r, bs, bs, bs]
    rcases hp with ⟨a, rfl⟩ | ⟨a, rfl⟩ <;> split_ifs <;> first | omega | simp
  | succ q ih =>
    rw [bs_succ, R, R, show t (i + 1 + q + 1) - t (i + 1) = t ((i + 1) + q + 1) - t (i + 1) from rfl, h.norm hl q i (ih i), h.norm hl q (i + 1) (ih (i + 1)), bs_succ, bs_succ]
    set A := ratio t (q + 1) s i
    set B := ratio t (q + 1) s (i + 1)
    have z1 : A * (t i - t' i) = 0 := by
      by_cases c : i ≤ k
      · rw [h.lo i c]; ring
      · simp only [A]; rw [h.ratio_hi (by omega)]; ring
    have z3 : (1 - B) * (t (i + q + 2) - t' (i + q + 3)) = 0 := by
      by_cases c : k < i + q + 2
      · rw [h.hi _ c]; ring
      · simp only [B]; rw [h.ratio_lo (by omega)]; ring
    have z2 : -t i * (1 - A) + t (i + q + 2) * B - A * t' (i + q + 2) + (1 - B) * t' (i + 1) = 0 := by
      by_cases c1 : i + q + 2 ≤ k
      · have a1 : A = 1 := h.ratio_lo (by omega)
        have b1 : B = 1 := h.ratio_lo (by omega)
        rw [a1, b1, h.lo _ c1]; ring
      by_cases c2 : k < i
      · have a0 : A = 0 := h.ratio_hi c2
        have b0 : B = 0 := h.ratio_hi (by omega)
        rw [a0, b0, h.hi i c2]; ring
      by_cases c3 : i + q + 1 = k
      · have a1 : A = 1 := h.ratio_lo (by omega)
        have e2 := h.ratio_mul (q := q + 1) (i := i + 1) (by omega) (by omega)
        rw [show i + 1 + (q + 1) = i + q + 2 by omega] at e2
        change B * _ = _ at e2
        rw [a1, show t' (i + q + 2) = s by rw [← h.mid, ← c3], h.lo (i + 1) (by omega)]
        linarith
      have e1 := h.ratio_mul (q := q + 1) (i := i) (by omega) (by omega)
      rw [← add_assoc] at e1
      change A * _ = _ at e1
      by_cases c4 : i = k
      · have b0 : B = 0 := h.ratio_hi (by omega)
        rw [b0, show i + q + 2 = (i + q + 1) + 1 by omega, h.hi (i + q + 1) (by omega), c4, h.mid, ← c4]
        linarith
      · have e2 := h.ratio_mul (q := q + 1) (i := i + 1) (by omega) (by omega)
        rw [show i + 1 + (q + 1) = i + q + 2 by omega] at e2
        rw [show i + q + 2 = (i + q + 1) + 1 by omega, h.hi (i + q + 1) (by omega), h.lo (i + 1) (by omega)]
        rw [show i + q + 2 = (i + q + 1) + 1 by omega] at e2
        change B * _ = _ at e2
        linarith
    have y1 := congrArg (C : ℝ →+* ℝ[X]) z1
    have y2 := congrArg (C : ℝ →+* ℝ[X]) z2
    have y3 := congrArg (C : ℝ →+* ℝ[X]) z3
    simp only [map_mul, map_sub, map_add, map_neg, map_one, map_zero] at y1 y2 y3 ⊢
    rw [show i + 1 + q + 2 = i + q + 3 by omega, show i + 1 + 1 = i + 2 by omega]
    linear_combination -(R t' m q i) * y1 + (R t' m q (i + 1)) * y2 + (R t' m q (i + 2)) * y3

/-- A sum of `n` B-splines is the sum of `n + 1` B-splines over the new knots with the coefficients of Boehm's formula, on every part of every element. -/
theorem GIns.sum (h : GIns t t' s k) {ℓ m : ℕ} (hp : Part k ℓ m) (hl : t' m < t' (m + 1)) (q n : ℕ) (hn : k < n) (c : ℕ → ℝ) :
    ∑ i ∈ range (n + 1), C (insertCoefs t q s c i) * bs t' m q i = ∑ i ∈ range n, C (c i) * bs t ℓ q i := by
  have e : ∀ i, C (insertCoefs t q s c i) * bs t' m q i = C (ratio t q s i * c i) * bs t' m q i + C ((1 - ratio t q s i) * if i = 0 then 0 else c (i - 1)) * bs t' m q i := by
    intro i; rw [insertCoefs, C_add, add_mul]
  simp_rw [e, sum_add_distrib]
  rw [sum_range_succ, h.ratio_hi hn, sum_range_succ' (fun i => C ((1 - ratio t q s i) * if i = 0 then 0 else c (i - 1)) * bs t' m q i)]
  simp only [zero_mul, C_0, add_zero, if_true, mul_zero, if_neg (Nat.succ_ne_zero _), Nat.add_sub_cancel]
  rw [← sum_add_distrib]
  refine sum_congr rfl fun i _ => ?_
  rw [h.boehm hp hl q i]
  simp only [C_mul]
  ring

end general
end Verif.Boehm
