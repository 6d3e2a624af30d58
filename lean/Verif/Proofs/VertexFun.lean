import Verif.Model.VertexFun
import Verif.Proofs.EdgeFun
import Mathlib.Tactic.LinearCombination
/-! Helper lemmas for `Model/VertexFun.lean`. -/
set_option autoImplicit false
set_option linter.unusedSimpArgs false
namespace Verif.VertexFun
open Verif.BSpline Verif.EdgeFun Polynomial

/-! ## The one-dimensional functions -/

section one
variable {b : Comp}

theorem b1_ne (h : Open b.t b.p) (hp : 1 ≤ b.p) : d0 (Bf b 1) ≠ 0 := by
  unfold d0 Bf
  rw [(N_jet h hp).2.2.2]
  have : (0 : ℝ) < b.p := by exact_mod_cast hp
  exact (div_pos this h.pos).ne'

theorem c_0_jet (h : Open b.t b.p) (hp : 1 ≤ b.p) : (c_0 b).eval 0 = 1 ∧ (derivative (c_0 b)).eval 0 = 0 := by
  obtain ⟨h0, h1, h2, h3⟩ := N_jet h hp
  constructor
  · simp [c_0, Bf, h0, h1]
  · simp [c_0, Bf, h2, h3]

theorem c_1_jet (h : Open b.t b.p) (hp : 1 ≤ b.p) : (c_1 b).eval 0 = 0 ∧ (derivative (c_1 b)).eval 0 = 1 := by
  have hne := b1_ne h hp
  obtain ⟨h0, h1, h2, h3⟩ := N_jet h hp
  constructor
  · simp only [c_1, eval_mul, eval_C]; unfold Bf; rw [h1]; simp
  · simp only [c_1, derivative_mul, derivative_C, zero_mul, zero_add, eval_mul, eval_C]
    exact one_div_mul_cancel hne

theorem b2_ne (h : Open b.t b.p) (hp : 2 ≤ b.p) : dd0 (Bf b 2) ≠ 0 := (N_jet2 h hp).2.2.1.ne'

theorem c_0_plus_jet (h : Open b.t b.p) (hp : 2 ≤ b.p) :
    (c_0_plus b).eval 0 = 1 ∧ (derivative (c_0_plus b)).eval 0 = 0 ∧ (derivative (derivative (c_0_plus b))).eval 0 = 0 := by
  obtain ⟨h0, h1, h2, h3⟩ := N_jet h (by omega : 1 ≤ b.p)
  obtain ⟨k0, k1, k2, k3⟩ := N_jet2 h hp
  refine ⟨?_, ?_, k3⟩
  · simp [c_0_plus, Bf, h0, h1, k0]
  · simp [c_0_plus, Bf, h2, h3, k1]

theorem c_1_plus_jet (h : Open b.t b.p) (hp : 2 ≤ b.p) :
    (c_1_plus b).eval 0 = 0 ∧ (derivative (c_1_plus b)).eval 0 = 1 ∧ (derivative (derivative (c_1_plus b))).eval 0 = 0 := by
  have hne := b1_ne h (by omega : 1 ≤ b.p)
  have hne2 := b2_ne h hp
  obtain ⟨h0, h1, h2, h3⟩ := N_jet h (by omega : 1 ≤ b.p)
  obtain ⟨k0, k1, k2, k3⟩ := N_jet2 h hp
  refine ⟨?_, ?_, ?_⟩
  · simp only [c_1_plus, eval_add, eval_mul, eval_C]; unfold Bf; rw [h1, k0]; simp
  · simp only [c_1_plus, derivative_add, derivative_mul, derivative_C, zero_mul, zero_add, eval_add, eval_mul, eval_C]
    have : (derivative (Bf b 2)).eval 0 = 0 := k1
    rw [this, mul_zero, add_zero]
    exact one_div_mul_cancel hne
  · simp only [c_1_plus, derivative_add, derivative_mul, derivative_C, zero_mul, zero_add, eval_add, eval_mul, eval_C]
    change 1 / d0 (Bf b 1) * dd0 (Bf b 1) + -dd0 (Bf b 1) / (d0 (Bf b 1) * dd0 (Bf b 2)) * dd0 (Bf b 2) = 0
    field_simp; ring

theorem c_2_plus_jet (h : Open b.t b.p) (hp : 2 ≤ b.p) :
    (c_2_plus b).eval 0 = 0 ∧ (derivative (c_2_plus b)).eval 0 = 0 ∧ (derivative (derivative (c_2_plus b))).eval 0 = 1 := by
  have hne2 := b2_ne h hp
  obtain ⟨k0, k1, k2, k3⟩ := N_jet2 h hp
  refine ⟨?_, ?_, ?_⟩
  · simp only [c_2_plus, eval_mul, eval_C]; unfold Bf; rw [k0]; simp
  · simp only [c_2_plus, derivative_mul, derivative_C, zero_mul, zero_add, eval_mul, eval_C]
    unfold Bf; rw [k1]; simp
  · simp only [c_2_plus, derivative_mul, derivative_C, zero_mul, zero_add, eval_mul, eval_C]
    exact one_div_mul_cancel hne2

theorem c_0_plus_deriv_eq : c_0_plus_deriv b = derivative (c_0_plus b) := by simp [c_0_plus_deriv, c_0_plus]
theorem c_1_plus_deriv_eq : c_1_plus_deriv b = derivative (c_1_plus b) := by simp [c_1_plus_deriv, c_1_plus, derivative_mul]
theorem c_2_plus_deriv_eq : c_2_plus_deriv b = derivative (c_2_plus b) := by simp [c_2_plus_deriv, c_2_plus, derivative_mul]
end one

/-! ## Traces along the edges -/

/-- The function of the plus space with the data `d 0`, `d 1`, `d 2`. -/
noncomputable def tr (b : Comp) (d : Fin 5 → ℝ) : ℝ[X] := C (d 0) * c_0_plus b + C (d 1) * c_1_plus b + C (d 2) * c_2_plus b
/-- The function of the minus space with the data `d 3`, `d 4`. -/
noncomputable def nd (b : Comp) (d : Fin 5 → ℝ) : ℝ[X] := C (d 3) * c_0 b + C (d 4) * c_1 b

theorem tr_jet {b : Comp} (h : Open b.t b.p) (hp : 2 ≤ b.p) (d : Fin 5 → ℝ) :
    (tr b d).eval 0 = d 0 ∧ (derivative (tr b d)).eval 0 = d 1 ∧ (derivative (derivative (tr b d))).eval 0 = d 2 := by
  obtain ⟨a0, a1, a2⟩ := c_0_plus_jet h hp
  obtain ⟨e0, e1, e2⟩ := c_1_plus_jet h hp
  obtain ⟨f0, f1, f2⟩ := c_2_plus_jet h hp
  refine ⟨?_, ?_, ?_⟩
  · simp only [tr, eval_add, eval_mul, eval_C, a0, e0, f0]; ring
  · simp only [tr, derivative_add, derivative_mul, derivative_C, zero_mul, zero_add, eval_add, eval_mul, eval_C, a1, e1, f1]; ring
  · simp only [tr, derivative_add, derivative_mul, derivative_C, zero_mul, zero_add, eval_add, eval_mul, eval_C, a2, e2, f2]; ring

theorem nd_jet {b : Comp} (h : Open b.t b.p) (hp : 1 ≤ b.p) (d : Fin 5 → ℝ) : (nd b d).eval 0 = d 3 ∧ (derivative (nd b d)).eval 0 = d 4 := by
  obtain ⟨a0, a1⟩ := c_0_jet h hp
  obtain ⟨e0, e1⟩ := c_1_jet h hp
  constructor
  · simp only [nd, eval_add, eval_mul, eval_C, a0, e0]; ring
  · simp only [nd, derivative_add, derivative_mul, derivative_C, zero_mul, zero_add, eval_add, eval_mul, eval_C, a1, e1]; ring

/-- Derivative across the edge. -/
noncomputable def bm (bas : Bases) (g : Glue) (d : Fin 5 → ℝ) (x : ℝ) : ℝ :=
  -(g.beta x * (derivative (tr bas.plus d)).eval x) - g.alpha x * (nd bas.minus d).eval x
noncomputable def bp (bas : Bases) (g : Glue) (d : Fin 5 → ℝ) (x : ℝ) : ℝ :=
  -(g.beta x * (derivative (tr bas.plus d)).eval x) + g.alpha x * (nd bas.minus d).eval x

theorem vertexFun_eq {k : ℕ} (bu bv : Bases) (gu gv : Glue) (geo : Geo k) (D : Data k) (u v : ℝ) :
    vertexFun bu bv gu gv geo D u v =
      (tr bu.plus (dMinus geo gu D)).eval u * (c_0 bv.geo).eval v + bm bu gu (dMinus geo gu D) u * (c_1 bv.geo).eval v
      + ((tr bv.plus (dPlus geo gv D)).eval v * (c_0 bu.geo).eval u + bp bv gv (dPlus geo gv D) v * (c_1 bu.geo).eval u)
      - (dIk geo D 0 * ((c_0 bu.geo).eval u * (c_0 bv.geo).eval v) + dIk geo D 2 * ((c_0 bu.geo).eval u * (c_1 bv.geo).eval v)
    + dIk geo D 1 * ((c_1 bu.geo).eval u * (c_0 bv.geo).eval v) + dIk geo D 3 * ((c_1 bu.geo).eval u * (c_1 bv.geo).eval v)) := by
  simp only [vertexFun, tr, nd, bm, bp, c_0_plus_deriv_eq, c_1_plus_deriv_eq, c_2_plus_deriv_eq, eval_add, eval_mul, eval_C, derivative_add, derivative_mul,
    derivative_C, zero_mul, zero_add]
  ring

/-- Sum of two traces minus their common part. -/
theorem coons {n B np Bp c0u c1u c0v c1v : ℝ → ℝ} {w0 w1 w2 w3 : ℝ} {g : ℝ → ℝ → ℝ}
    (hg : ∀ u v, g u v = n u * c0v v + B u * c1v v + (np v * c0u u + Bp v * c1u u) - (w0 * (c0u u * c0v v) + w2 * (c0u u * c1v v) + w1 * (c1u u * c0v v) + w3 * (c1u u * c1v v)))
    (h0 : c0v 0 = 1) (h0' : HasDerivAt c0v 0 0) (h1 : c1v 0 = 0) (h1' : HasDerivAt c1v 1 0)
    (hn : np 0 = w0) (hn' : HasDerivAt np w2 0) (hB : Bp 0 = w1) (hB' : HasDerivAt Bp w3 0) (u : ℝ) :
    g u 0 = n u ∧ HasDerivAt (fun v => g u v) (B u) 0 := by
  constructor
  · rw [hg, h0, h1, hn, hB]; ring
  · have key := (((h0'.const_mul (n u)).fun_add (h1'.const_mul (B u))).fun_add ((hn'.mul_const (c0u u)).fun_add (hB'.mul_const (c1u u)))).fun_sub
      (((h0'.const_mul (w0 * c0u u)).fun_add (h1'.const_mul (w2 * c0u u))).fun_add ((h0'.const_mul (w1 * c1u u)).fun_add (h1'.const_mul (w3 * c1u u))))
    refine (key.congr_deriv (by ring)).congr_of_eventuallyEq (Filter.Eventually.of_forall fun v => ?_)
    simp only [hg]; ring

end Verif.VertexFun
