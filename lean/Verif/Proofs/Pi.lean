import Verif.Model.Pi
import Mathlib.Algebra.BigOperators.Intervals
import Mathlib.Tactic.NormNum
import Mathlib.Tactic.FieldSimp
import Mathlib.Tactic.Linarith
import Mathlib.Tactic.Positivity
import Mathlib.Tactic.IntervalCases
import Mathlib.Analysis.SpecialFunctions.Complex.Arg
/-! Helper lemmas for the projection at an extraordinary vertex. -/
set_option autoImplicit false
namespace Verif.Pi
open Finset

theorem phi_eq (N : ℕ) : phi N = 2 * Real.pi / N := by
  unfold phi; rw [Real.arctan_one]; ring

theorem mul_phi {N : ℕ} (h : 0 < N) : (N : ℝ) * phi N = 2 * Real.pi := by
  rw [phi_eq]; field_simp

theorem sum_blocks (N : ℕ) (f : ℕ → ℝ) :
    ∑ c ∈ range (3 * N), f c = (∑ k ∈ range N, f k) + (∑ k ∈ range N, f (N + k)) + ∑ k ∈ range N, f (2 * N + k) := by
  have : 3 * N = N + N + N := by omega
  rw [this, sum_range_add, sum_range_add]
  simp only [← two_mul]

theorem cyc_spec {N j k : ℕ} (hj : j < N) (hk : k < N) :
    cyc N j k < N ∧ ((cyc N j k : ℤ) = (j : ℤ) - k ∨ (cyc N j k : ℤ) = (j : ℤ) - k + N) := by
  unfold cyc
  rcases Nat.lt_or_ge j k with h | h
  · have : ((j : ℤ) - k).tmod N = (j : ℤ) - k := by
      have e : ((j : ℤ) - k) = -(((k - j : ℕ)) : ℤ) := by omega
      rw [e, Int.neg_tmod, ← Int.ofNat_tmod, Nat.mod_eq_of_lt (by omega)]
    simp only [this]
    rw [if_pos (by omega)]
    omega
  · have : ((j : ℤ) - k).tmod N = (j : ℤ) - k := by
      have e : ((j : ℤ) - k) = (((j - k : ℕ)) : ℤ) := by omega
      rw [e, ← Int.ofNat_tmod, Nat.mod_eq_of_lt (by omega)]
    simp only [this]
    rw [if_neg (by omega)]
    omega

theorem cos_cyc {N j k : ℕ} (hj : j < N) (hk : k < N) (t : ℝ) :
    Real.cos (t + (cyc N j k : ℝ) * phi N) = Real.cos (t + (j - k) * phi N) := by
  have hN : 0 < N := by omega
  rcases (cyc_spec hj hk).2 with h | h
  · have : (cyc N j k : ℝ) = (j : ℝ) - k := by exact_mod_cast h
    rw [this]
  · have : (cyc N j k : ℝ) = (j : ℝ) - k + N := by exact_mod_cast h
    rw [this, add_mul, mul_phi hN, ← add_assoc, Real.cos_add_two_pi]

theorem cos_cyc' {N j k : ℕ} (hj : j < N) (hk : k < N) (t : ℝ) :
    Real.cos (t - (cyc N j k : ℝ) * phi N) = Real.cos (-t + (j - k) * phi N) := by
  rw [← cos_cyc hj hk, ← Real.cos_neg]; congr 1; ring

theorem cos_cyc0 {N j k : ℕ} (hj : j < N) (hk : k < N) :
    Real.cos ((cyc N j k : ℝ) * phi N) = Real.cos (0 + (j - k) * phi N) := by
  rw [← cos_cyc hj hk]; congr 1; ring

/-- Phase of the cosine part of block `(a,b)`. -/
noncomputable def th (ps : ℝ) (a b : ℕ) : ℝ := if a = b then 0 else if a < b then 2 * ps else -(2 * ps)
/-- Whether a block has a cosine part. -/
def hasCos (a b : ℕ) : ℝ := if a = 0 ∨ b = 0 then 0 else 1

theorem tab0_eq {N j k a b : ℕ} (hj : j < N) (hk : k < N) (ha : a < 3) (hb : b < 3) (ps : ℝ) :
    tab0 N ps (cyc N j k) (3 * a + b) =
      1 / (3 * N) * (1 + 3 * (hasCos a b * Real.cos (th ps a b + (j - k) * phi N))) := by
  interval_cases a <;> interval_cases b <;>
    simp [tab0, hasCos, th, cos_cyc hj hk, cos_cyc' hj hk, cos_cyc0 hj hk]

theorem tab1_eq {N j k a b : ℕ} (hj : j < N) (hk : k < N) (ha : a < 3) (hb : b < 3) (ps : ℝ) :
    tab1 N ps (cyc N j k) (3 * a + b) =
      (if b = 0 then 0 else 1) * (1 / (2 * N) * (1 + hasCos a b * Real.cos (th ps a b + (j - k) * phi N))) := by
  interval_cases a <;> interval_cases b <;>
    simp [tab1, hasCos, th, cos_cyc hj hk, cos_cyc' hj hk, cos_cyc0 hj hk]

theorem blocks_at {N j k : ℕ} (a b : ℕ) (hj : j < N) (hk : k < N) (tab : ℕ → ℕ → ℝ) :
    blocks N tab (a * N + j) (b * N + k) = tab (cyc N j k) (3 * a + b) := by
  have hN : 0 < N := by omega
  unfold blocks
  rw [Nat.mul_comm a, Nat.mul_comm b, Nat.mul_add_mod, Nat.mul_add_mod, Nat.mod_eq_of_lt hj, Nat.mod_eq_of_lt hk,
    Nat.mul_add_div hN, Nat.mul_add_div hN, Nat.div_eq_of_lt hj, Nat.div_eq_of_lt hk, Nat.add_zero, Nat.add_zero]

/-- Every row (column) number is block·N + position. -/
theorem split_row {N r : ℕ} (h : r < 3 * N) : ∃ a j, a < 3 ∧ j < N ∧ r = a * N + j := by
  have hN : 0 < N := by omega
  refine ⟨r / N, r % N, ?_, Nat.mod_lt _ hN, ?_⟩
  · rw [Nat.div_lt_iff_lt_mul hN]; exact h
  · rw [Nat.mul_comm]; exact (Nat.div_add_mod r N).symm

/-! ### Trigonometric sums -/

theorem sin_ne {N m : ℕ} (h0 : 0 < m) (h1 : m < N) : Real.sin (m * phi N / 2) ≠ 0 := by
  have hN : (0 : ℝ) < N := by exact_mod_cast (by omega : 0 < N)
  have hm : (0 : ℝ) < m := by exact_mod_cast h0
  have hmN : (m : ℝ) < N := by exact_mod_cast h1
  rw [phi_eq]
  have e : (m : ℝ) * (2 * Real.pi / N) / 2 = (m / N) * Real.pi := by field_simp
  rw [e]
  apply ne_of_gt
  apply Real.sin_pos_of_pos_of_lt_pi
  · have := Real.pi_pos; positivity
  · have h : (m : ℝ) / N < 1 := by rw [div_lt_one hN]; exact hmN
    have := Real.pi_pos
    nlinarith

theorem sum_cos {N m : ℕ} (h0 : 0 < m) (h1 : m < N) (t : ℝ) :
    ∑ k ∈ range N, Real.cos (t + k * (m * phi N)) = 0 := by
  have hs := sin_ne h0 h1
  have key : ∀ n : ℕ, 2 * Real.sin (m * phi N / 2) * ∑ k ∈ range n, Real.cos (t + k * (m * phi N)) =
      Real.sin (t + n * (m * phi N) - m * phi N / 2) - Real.sin (t - m * phi N / 2) := by
    intro n
    induction n with
    | zero => simp
    | succ n ih =>
      rw [sum_range_succ, mul_add, ih]
      have e1 : t + ((n + 1 : ℕ) : ℝ) * (m * phi N) - m * phi N / 2 = (t + n * (m * phi N)) + m * phi N / 2 := by
        push_cast; ring
      rw [e1, Real.sin_add, Real.sin_sub (t + n * (m * phi N))]
      ring
  have := key N
  have e : t + (N : ℝ) * (m * phi N) - m * phi N / 2 = (t - m * phi N / 2) + m * (2 * Real.pi) := by
    rw [← mul_phi (show 0 < N by omega)]; ring
  rw [e, Real.sin_add_nat_mul_two_pi, sub_self] at this
  rcases mul_eq_zero.1 this with h | h
  · exact absurd h (mul_ne_zero two_ne_zero hs)
  · exact h

theorem sum_cos_sub {N m : ℕ} (h0 : 0 < m) (h1 : m < N) (t : ℝ) :
    ∑ k ∈ range N, Real.cos (t - k * (m * phi N)) = 0 := by
  rw [← sum_cos h0 h1 (-t)]
  refine sum_congr rfl fun k _ => ?_
  rw [← Real.cos_neg]; congr 1; ring

theorem sum_cos_row {N : ℕ} (h : 2 ≤ N) (t : ℝ) (j : ℕ) :
    ∑ k ∈ range N, Real.cos (t + (j - k) * phi N) = 0 := by
  rw [← sum_cos_sub (N := N) (m := 1) (by omega) (by omega) (t + j * phi N)]
  refine sum_congr rfl fun k _ => ?_
  congr 1; push_cast; ring

theorem sum_cos_col {N : ℕ} (h : 2 ≤ N) (t : ℝ) (k : ℕ) :
    ∑ j ∈ range N, Real.cos (t + (j - k) * phi N) = 0 := by
  rw [← sum_cos (N := N) (m := 1) (by omega) (by omega) (t - k * phi N)]
  refine sum_congr rfl fun k _ => ?_
  congr 1; push_cast; ring

theorem sum_cos_cos {N : ℕ} (h : 3 ≤ N) (s t : ℝ) (j l : ℕ) :
    ∑ k ∈ range N, Real.cos (s + (j - k) * phi N) * Real.cos (t + (k - l) * phi N) =
      N / 2 * Real.cos (s + t + (j - l) * phi N) := by
  have e : ∀ k : ℕ, Real.cos (s + (j - k) * phi N) * Real.cos (t + (k - l) * phi N) =
      1 / 2 * Real.cos (s + t + (j - l) * phi N) +
      1 / 2 * Real.cos ((s - t + (j + l) * phi N) - k * ((2 : ℕ) * phi N)) := by
    intro k
    have h1 : s + t + (j - l) * phi N = (s + (j - k) * phi N) + (t + (k - l) * phi N) := by ring
    have h2 : (s - t + (j + l) * phi N) - k * ((2 : ℕ) * phi N) =
      (s + (j - k) * phi N) - (t + (k - l) * phi N) := by push_cast; ring
    rw [h1, h2, Real.cos_add (s + (j - k) * phi N), Real.cos_sub (s + (j - k) * phi N)]; ring
  simp only [e]
  rw [sum_add_distrib, ← mul_sum, ← mul_sum, sum_cos_sub (by omega) (by omega)]
  simp; ring

/-! ### The angle `psi` -/

theorem psi_eq {N : ℕ} (h : 2 ≤ N) (b : ℝ) : psi N b = Real.arctan (b * Real.sin (phi N)) - phi N / 2 := by
  have hN : (2 : ℝ) ≤ N := by exact_mod_cast h
  have hp := Real.pi_pos
  have hphi : 0 ≤ phi N / 2 ∧ phi N / 2 ≤ Real.pi / 2 := by
    rw [phi_eq]
    constructor
    · positivity
    · rw [div_div, mul_comm (N : ℝ) 2, mul_div_mul_left _ _ two_ne_zero]
      exact div_le_div_of_nonneg_left hp.le (by norm_num) hN
  set x := b * Real.sin (phi N) with hx
  have h1 := Real.neg_pi_div_two_lt_arctan x
  have h2 := Real.arctan_lt_pi_div_two x
  have hr : 0 < Real.sqrt (1 + x ^ 2) := Real.sqrt_pos.2 (by positivity)
  have e1 : (1 + Complex.I * b * Real.sin (phi N) : ℂ) =
      (Real.sqrt (1 + x ^ 2) : ℝ) * Complex.exp ((Real.arctan x : ℝ) * Complex.I) := by
    rw [Complex.exp_mul_I, ← Complex.ofReal_cos, ← Complex.ofReal_sin, Real.cos_arctan, Real.sin_arctan]
    apply Complex.ext
    · simp [mul_comm]; field_simp
    · simp [hx, mul_comm]; field_simp
  unfold psi
  rw [e1, mul_assoc, ← Complex.exp_add]
  have e2 : ((Real.arctan x : ℝ) * Complex.I + -Complex.I * (phi N : ℝ) / 2 : ℂ) =
      ((Real.arctan x - phi N / 2 : ℝ) : ℂ) * Complex.I := by push_cast; ring
  rw [e2, Complex.arg_real_mul _ hr, Complex.exp_mul_I, Complex.arg_cos_add_sin_mul_I]
  constructor <;> linarith

theorem psi_bounds {N : ℕ} (h : 3 ≤ N) {b : ℝ} (hb0 : 0 < b) (hb1 : b ≤ 1 / 2) : 0 < -(2 * psi N b) ∧ -(2 * psi N b) < phi N := by
  have hN : (3 : ℝ) ≤ N := by exact_mod_cast h
  have hp := Real.pi_pos
  have hphi : 0 < phi N / 2 ∧ phi N / 2 < Real.pi / 2 := by
    rw [phi_eq]
    constructor
    · positivity
    · rw [div_div, mul_comm (N : ℝ) 2, mul_div_mul_left _ _ two_ne_zero]
      exact div_lt_div_of_pos_left hp (by norm_num) (by linarith)
  have hs : 0 < Real.sin (phi N) := Real.sin_pos_of_pos_of_lt_pi (by linarith) (by linarith)
  have hc : 0 < Real.cos (phi N / 2) := Real.cos_pos_of_mem_Ioo ⟨by linarith, by linarith⟩
  have hs2 : 0 < Real.sin (phi N / 2) := Real.sin_pos_of_pos_of_lt_pi (by linarith) (by linarith)
  rw [psi_eq (by omega)]
  have a0 : 0 < Real.arctan (b * Real.sin (phi N)) := by
    rw [← Real.arctan_zero]; exact Real.arctan_strictMono (by positivity)
  have a1 : Real.arctan (b * Real.sin (phi N)) < phi N / 2 := by
    have : phi N / 2 = Real.arctan (Real.tan (phi N / 2)) := (Real.arctan_tan (by linarith) (by linarith)).symm
    rw [this]
    apply Real.arctan_strictMono
    have e : Real.sin (phi N) = 2 * Real.sin (phi N / 2) * Real.cos (phi N / 2) := by
      rw [← Real.sin_two_mul]; congr 1; ring
    rw [e, Real.tan_eq_sin_div_cos, lt_div_iff₀ hc]
    have hcl : Real.cos (phi N / 2) ^ 2 < 1 := by
      have := Real.sin_sq_add_cos_sq (phi N / 2); nlinarith
    have : b * (2 * Real.sin (phi N / 2) * Real.cos (phi N / 2)) * Real.cos (phi N / 2) =
      (2 * b) * (Real.sin (phi N / 2) * Real.cos (phi N / 2) ^ 2) := by ring
    rw [this]
    have h3 : Real.sin (phi N / 2) * Real.cos (phi N / 2) ^ 2 < Real.sin (phi N / 2) := by nlinarith
    have h4 : 0 < Real.sin (phi N / 2) * Real.cos (phi N / 2) ^ 2 := by positivity
    nlinarith
  constructor <;> linarith

end Verif.Pi
