import Verif.Proofs.Biharmonic
import Verif.Proofs.Green
import Mathlib.Algebra.Order.Ring.Star
import Mathlib.Tactic.FieldSimp

/-!
# C64: the biharmonic solver finds the solution if the space contains it

The boundary values are those of the best approximation of the boundary data, the solution has the smallest energy among the functions with these
boundary values, the systems are regular exactly if the functions are independent where it matters, and a solution
contained in the space is reproduced.  The form and the sign of the right-hand side are those of Green's identity.
-/

set_option autoImplicit false

open Finset

namespace Verif.Biharm

open DofMap

section

variable (P : Problem) (np n : ℕ) (bnd bnd1 : ℕ → ℕ → List ℕ) (bc : BC)

/-- The functions with a free coefficient, and those fixed by a boundary condition (see C35 for which they are). -/
def freeFns : Finset ℕ := {g ∈ range n | (setMapper np n bnd bnd1 bc).isFree g = true}
def fixedFns : Finset ℕ := {g ∈ range n | (setMapper np n bnd bnd1 bc).isFree g = false}

private theorem sum_split (f : ℕ → ℝ) : ∑ h ∈ range n, f h = ∑ h ∈ freeFns np n bnd bnd1 bc, f h + ∑ h ∈ fixedFns np n bnd bnd1 bc, f h := by
  unfold freeFns fixedFns
  rw [← sum_filter_add_sum_filter_not (range n) (fun h => (setMapper np n bnd bnd1 bc).isFree h = true)]
  simp

private theorem main_iff (a : ℕ → ℕ → ℝ) (l x y : ℕ → ℝ) : (setMapper np n bnd bnd1 bc).Solves a l x y ↔
    ∀ g ∈ freeFns np n bnd bnd1 bc, ∑ h ∈ range n, a g h * (setMapper np n bnd bnd1 bc).coef y x h = l g := by
  rw [solves_fix]
  · simp [freeFns, setMapper_n]
  · rw [setMapper_n]
    exact fun g hg k hk e => setMapper_inj np n bnd bnd1 bc hg hk e

private theorem proj_iff (hnp : 0 < np) (a : ℕ → ℕ → ℝ) (l x y : ℕ → ℝ) :
    (bdyMapper np n (setMapper np n bnd bnd1 bc)).Solves a l (fun _ => 0) x ↔
      ∀ g ∈ fixedFns np n bnd bnd1 bc, ∑ h ∈ fixedFns np n bnd bnd1 bc, a g h * (setMapper np n bnd bnd1 bc).coef y x h = l g := by
  have h : (bdyMapper np n (setMapper np n bnd bnd1 bc)).Solves a l (fun _ => 0) x ↔ _ := C35_projection np n bnd bnd1 bc hnp a l x y
  rw [h]
  simp [fixedFns]

/-- C64: the computed coefficients are described by two sets of equations, one for every fixed and one for every free function. -/
theorem C64_equations (hnp : 0 < np) (x y : ℕ → ℝ) :
    Run P np n bnd bnd1 bc x y ↔
      (∀ g ∈ fixedFns np n bnd bnd1 bc, ∑ h ∈ fixedFns np n bnd bnd1 bc, P.bmat g h * (setMapper np n bnd bnd1 bc).coef y x h = P.bload g) ∧
      ∀ g ∈ freeFns np n bnd bnd1 bc, ∑ h ∈ range n, P.stiff g h * (setMapper np n bnd bnd1 bc).coef y x h = P.load g := by
  unfold Run
  simp only
  rw [proj_iff np n bnd bnd1 bc hnp P.bmat P.bload x y, main_iff]

/-! ### The boundary values are a best approximation -/

/-- Weighted squared distance of the combination `z` of the fixed functions from the boundary data. -/
noncomputable def misfit (z : ℕ → ℝ) : ℝ :=
  ∑ q ∈ range P.dir.pts, ((∑ h ∈ fixedFns np n bnd bnd1 bc, z h * P.dval h q) - P.dg q) ^ 2 * P.dir.w q
    + (1 / 100000) * ∑ q ∈ range P.neu.pts, ((∑ h ∈ fixedFns np n bnd bnd1 bc, z h * P.nder h q) - P.ng q) ^ 2 * P.neu.w q

private theorem bmat_apply (I : Finset ℕ) (z : ℕ → ℝ) (g : ℕ) : ∑ h ∈ I, P.bmat g h * z h
    = ∑ q ∈ range P.dir.pts, P.dval g q * (∑ h ∈ I, z h * P.dval h q) * P.dir.w q
      + lambda * ∑ q ∈ range P.neu.pts, P.nder g q * (∑ h ∈ I, z h * P.nder h q) * P.neu.w q := by
  rw [← gram_apply, ← gram_apply, mul_sum, ← sum_add_distrib]
  refine sum_congr rfl fun h _ => ?_
  unfold Problem.bmat
  rw [add_mul, ← mul_assoc, mul_sum]
  congr 2
  exact sum_congr rfl fun q _ => by ring

private theorem bload_eq (g : ℕ) : P.bload g = ∑ q ∈ range P.dir.pts, P.dval g q * P.dg q * P.dir.w q
      + lambda * ∑ q ∈ range P.neu.pts, P.nder g q * P.ng q * P.neu.w q := by
  unfold Problem.bload
  rw [mul_sum]
  congr 1
  exact sum_congr rfl fun q _ => by ring

/-- Half of the derivative of the misfit at `z` in the direction `d`. -/
private noncomputable def slope (z d : ℕ → ℝ) : ℝ :=
  ∑ g ∈ fixedFns np n bnd bnd1 bc, d g * (∑ h ∈ fixedFns np n bnd bnd1 bc, P.bmat g h * z h - P.bload g)

private theorem slope_eq (z d : ℕ → ℝ) : slope P np n bnd bnd1 bc z d =
    ∑ q ∈ range P.dir.pts, (∑ h ∈ fixedFns np n bnd bnd1 bc, d h * P.dval h q)
        * ((∑ h ∈ fixedFns np n bnd bnd1 bc, z h * P.dval h q) - P.dg q) * P.dir.w q
      + lambda * ∑ q ∈ range P.neu.pts, (∑ h ∈ fixedFns np n bnd bnd1 bc, d h * P.nder h q)
        * ((∑ h ∈ fixedFns np n bnd bnd1 bc, z h * P.nder h q) - P.ng q) * P.neu.w q := by
  rw [← gram_quad, ← gram_quad, mul_sum, ← sum_add_distrib]
  unfold slope
  refine sum_congr rfl fun g _ => ?_
  rw [bmat_apply, bload_eq]
  simp only [mul_sub, sub_mul, sum_sub_distrib]
  ring

private theorem misfit_add (z d : ℕ → ℝ) : misfit P np n bnd bnd1 bc (fun h => z h + d h) =
    misfit P np n bnd bnd1 bc z + 2 * slope P np n bnd bnd1 bc z d
      + (∑ q ∈ range P.dir.pts, (∑ h ∈ fixedFns np n bnd bnd1 bc, d h * P.dval h q) ^ 2 * P.dir.w q
        + lambda * ∑ q ∈ range P.neu.pts, (∑ h ∈ fixedFns np n bnd bnd1 bc, d h * P.nder h q) ^ 2 * P.neu.w q) := by
  rw [slope_eq]
  unfold misfit lambda
  simp only [add_mul, sum_add_distrib]
  have aux : ∀ (p : ℕ) (w A B D : ℕ → ℝ), ∑ q ∈ range p, (A q + B q - D q) ^ 2 * w q =
      ∑ q ∈ range p, (A q - D q) ^ 2 * w q + 2 * ∑ q ∈ range p, B q * (A q - D q) * w q + ∑ q ∈ range p, B q ^ 2 * w q := by
    intro p w A B D
    rw [mul_sum, ← sum_add_distrib, ← sum_add_distrib]
    exact sum_congr rfl fun q _ => by ring
  rw [aux, aux]
  ring

/-- C64: the boundary values are a best approximation: a vector solves the system of the projection if and only if the combination of the fixed
functions with these coefficients has the smallest possible misfit on the boundary (weights not negative). -/
theorem C64_projection (hnp : 0 < np) (hd : ∀ q < P.dir.pts, 0 ≤ P.dir.w q) (hn : ∀ q < P.neu.pts, 0 ≤ P.neu.w q) (x y : ℕ → ℝ) :
    (bdyMapper np n (setMapper np n bnd bnd1 bc)).Solves P.bmat P.bload (fun _ => 0) x ↔
      ∀ z, misfit P np n bnd bnd1 bc ((setMapper np n bnd bnd1 bc).coef y x) ≤ misfit P np n bnd bnd1 bc z := by
  rw [proj_iff np n bnd bnd1 bc hnp P.bmat P.bload x y]
  set c := (setMapper np n bnd bnd1 bc).coef y x with hc
  have key : (∀ g ∈ fixedFns np n bnd bnd1 bc, ∑ h ∈ fixedFns np n bnd bnd1 bc, P.bmat g h * c h = P.bload g) ↔
      ∀ z, misfit P np n bnd bnd1 bc c ≤ misfit P np n bnd bnd1 bc z := by
    constructor
    · intro h z
      have e := misfit_add P np n bnd bnd1 bc c (fun i => z i - c i)
      simp only [add_sub_cancel] at e
      have s0 : slope P np n bnd bnd1 bc c (fun i => z i - c i) = 0 :=
        sum_eq_zero fun g hg => by rw [h g hg, sub_self, mul_zero]
      rw [e, s0]
      have p1 : 0 ≤ ∑ q ∈ range P.dir.pts, (∑ h ∈ fixedFns np n bnd bnd1 bc, (z h - c h) * P.dval h q) ^ 2 * P.dir.w q :=
        sum_nonneg fun q hq => mul_nonneg (sq_nonneg _) (hd q (mem_range.1 hq))
      have p2 : 0 ≤ ∑ q ∈ range P.neu.pts, (∑ h ∈ fixedFns np n bnd bnd1 bc, (z h - c h) * P.nder h q) ^ 2 * P.neu.w q :=
        sum_nonneg fun q hq => mul_nonneg (sq_nonneg _) (hn q (mem_range.1 hq))
      have : 0 ≤ lambda := by unfold lambda; norm_num
      have := mul_nonneg this p2
      linarith
    · intro h g hg
      by_contra hne
      set G := ∑ h ∈ fixedFns np n bnd bnd1 bc, P.bmat g h * c h - P.bload g with hG
      have hG0 : G ≠ 0 := sub_ne_zero.2 hne
      set Q := ∑ q ∈ range P.dir.pts, P.dval g q ^ 2 * P.dir.w q + lambda * ∑ q ∈ range P.neu.pts, P.nder g q ^ 2 * P.neu.w q with hQ
      have step : ∀ t : ℝ, 0 ≤ 2 * (t * G) + t ^ 2 * Q := by
        intro t
        have e := misfit_add P np n bnd bnd1 bc c (fun i => if i = g then t else 0)
        have s1 : slope P np n bnd bnd1 bc c (fun i => if i = g then t else 0) = t * G := by
          unfold slope
          simp [ite_mul, hg, ← hG]
        have s2 : ∀ (F : ℕ → ℕ → ℝ) q, ∑ h ∈ fixedFns np n bnd bnd1 bc, (if h = g then t else 0) * F h q = t * F g q := by
          intro F q; simp [ite_mul, hg]
        simp only [s2] at e
        have s3 : ∀ (F : ℕ → ℕ → ℝ) (p : ℕ) (w : ℕ → ℝ), ∑ q ∈ range p, (t * F g q) ^ 2 * w q = t ^ 2 * ∑ q ∈ range p, F g q ^ 2 * w q := by
          intro F p w; rw [mul_sum]; exact sum_congr rfl fun q _ => by ring
        rw [s3, s3, s1] at e
        have := h (fun h => c h + if h = g then t else 0)
        rw [e] at this
        rw [hQ]; linarith
      have hQ0 : 0 ≤ Q := by
        have h1 := step 1
        have h2 := step (-1)
        nlinarith
      have := step (-G / (Q + 1))
      have hp : 0 < Q + 1 := by linarith
      have e : 2 * (-G / (Q + 1) * G) + (-G / (Q + 1)) ^ 2 * Q = -(G ^ 2 * (Q + 2)) / (Q + 1) ^ 2 := by
        field_simp; ring
      rw [e] at this
      have hneg : -(G ^ 2 * (Q + 2)) / (Q + 1) ^ 2 < 0 := by
        apply div_neg_of_neg_of_pos
        · have : 0 < G ^ 2 := by positivity
          nlinarith
        · positivity
      linarith
  exact key

/-! ### The solution has the smallest energy -/

/-- Energy of the function with coefficients `c`: half the integral of the squared Laplacian minus the work of the load. -/
noncomputable def energy (c : ℕ → ℝ) : ℝ :=
  1 / 2 * ∑ q ∈ range P.inner.pts, (∑ h ∈ range n, c h * P.lapl h q) ^ 2 * P.inner.w q
    - (∑ q ∈ range P.inner.pts, (∑ h ∈ range n, c h * P.val h q) * P.src q * P.inner.w q
      + ∑ q ∈ range P.lap.pts, (∑ h ∈ range n, c h * P.lder h q) * P.lg q * P.lap.w q)

private theorem energy_eq (c : ℕ → ℝ) : energy P n c =
    1 / 2 * ∑ q ∈ range P.inner.pts, (∑ h ∈ range n, c h * P.lapl h q) ^ 2 * P.inner.w q - ∑ g ∈ range n, c g * P.load g := by
  unfold energy Problem.load
  rw [← gram_quad, ← gram_quad]
  simp only [mul_add, sum_add_distrib]

private theorem energy_add (c d : ℕ → ℝ) : energy P n (fun h => c h + d h) = energy P n c
    + ∑ g ∈ range n, d g * (∑ h ∈ range n, P.stiff g h * c h - P.load g)
    + 1 / 2 * ∑ q ∈ range P.inner.pts, (∑ h ∈ range n, d h * P.lapl h q) ^ 2 * P.inner.w q := by
  rw [energy_eq, energy_eq]
  have e : ∑ g ∈ range n, d g * (∑ h ∈ range n, P.stiff g h * c h - P.load g)
      = ∑ q ∈ range P.inner.pts, (∑ h ∈ range n, d h * P.lapl h q) * (∑ h ∈ range n, c h * P.lapl h q) * P.inner.w q
        - ∑ g ∈ range n, d g * P.load g := by
    rw [← gram_quad, ← sum_sub_distrib]
    refine sum_congr rfl fun g _ => ?_
    unfold Problem.stiff
    rw [gram_apply]; ring
  rw [e]
  simp only [add_mul, sum_add_distrib]
  have : ∀ q ∈ range P.inner.pts, (∑ h ∈ range n, c h * P.lapl h q + ∑ h ∈ range n, d h * P.lapl h q) ^ 2 * P.inner.w q
      = (∑ h ∈ range n, c h * P.lapl h q) ^ 2 * P.inner.w q
        + (2 * ((∑ h ∈ range n, d h * P.lapl h q) * (∑ h ∈ range n, c h * P.lapl h q) * P.inner.w q)
          + (∑ h ∈ range n, d h * P.lapl h q) ^ 2 * P.inner.w q) := fun q _ => by ring
  rw [sum_congr rfl this, sum_add_distrib, sum_add_distrib, ← mul_sum]
  ring

/-- C64: the solution has the smallest energy: with the boundary values `x` given, a vector `y` solves the system if and only if no function of the
space with the same coefficients of the fixed functions has smaller energy (weights not negative). -/
theorem C64_energy (hw : ∀ q < P.inner.pts, 0 ≤ P.inner.w q) (x y : ℕ → ℝ) :
    (setMapper np n bnd bnd1 bc).Solves P.stiff P.load x y ↔
      ∀ c : ℕ → ℝ, (∀ g ∈ fixedFns np n bnd bnd1 bc, c g = (setMapper np n bnd bnd1 bc).coef y x g) →
        energy P n ((setMapper np n bnd bnd1 bc).coef y x) ≤ energy P n c := by
  rw [main_iff]
  set u := (setMapper np n bnd bnd1 bc).coef y x with hu
  constructor
  · intro h c hc
    have e := energy_add P n u (fun i => c i - u i)
    simp only [add_sub_cancel] at e
    have s0 : ∑ g ∈ range n, (c g - u g) * (∑ h ∈ range n, P.stiff g h * u h - P.load g) = 0 := by
      rw [sum_split np n bnd bnd1 bc]
      rw [sum_eq_zero (s := freeFns np n bnd bnd1 bc) fun g hg => by rw [h g hg, sub_self, mul_zero],
        sum_eq_zero (s := fixedFns np n bnd bnd1 bc) fun g hg => by rw [hc g hg, sub_self, zero_mul], add_zero]
    rw [e, s0]
    have p1 : 0 ≤ ∑ q ∈ range P.inner.pts, (∑ h ∈ range n, (c h - u h) * P.lapl h q) ^ 2 * P.inner.w q :=
      sum_nonneg fun q hq => mul_nonneg (sq_nonneg _) (hw q (mem_range.1 hq))
    linarith
  · intro h g hg
    have hgn : g ∈ range n := by simp [freeFns] at hg; simpa using hg.1
    by_contra hne
    set G := ∑ h ∈ range n, P.stiff g h * u h - P.load g with hG
    have hG0 : G ≠ 0 := sub_ne_zero.2 hne
    set Q := ∑ q ∈ range P.inner.pts, P.lapl g q ^ 2 * P.inner.w q with hQ
    have hQ0 : 0 ≤ Q := sum_nonneg fun q hq => mul_nonneg (sq_nonneg _) (hw q (mem_range.1 hq))
    have step : ∀ t : ℝ, 0 ≤ t * G + 1 / 2 * (t ^ 2 * Q) := by
      intro t
      have e := energy_add P n u (fun i => if i = g then t else 0)
      have s1 : ∑ k ∈ range n, (if k = g then t else 0) * (∑ h ∈ range n, P.stiff k h * u h - P.load k) = t * G := by
        simp only [ite_mul, zero_mul, sum_ite_eq', hgn, if_true, hG]
      have s2 : ∀ q, ∑ h ∈ range n, (if h = g then t else 0) * P.lapl h q = t * P.lapl g q := by
        intro q; simp only [ite_mul, zero_mul, sum_ite_eq', hgn, if_true]
      have s3 : ∑ q ∈ range P.inner.pts, (t * P.lapl g q) ^ 2 * P.inner.w q = t ^ 2 * Q := by
        rw [hQ, mul_sum]; exact sum_congr rfl fun q _ => by ring
      simp only [s2] at e
      rw [s1, s3] at e
      have := h (fun h => u h + if h = g then t else 0) (fun k hk => by
        have : k ≠ g := by
          rintro rfl
          simp [freeFns] at hg; simp [fixedFns] at hk
          exact absurd (hg.2.symm.trans hk.2) (by simp)
        simp [this])
      rw [e] at this
      linarith
    have := step (-G / (Q + 1))
    have hp : 0 < Q + 1 := by linarith
    have e : -G / (Q + 1) * G + 1 / 2 * ((-G / (Q + 1)) ^ 2 * Q) = -(G ^ 2 * (Q + 2)) / (2 * (Q + 1) ^ 2) := by
      field_simp; ring
    rw [e] at this
    have hneg : -(G ^ 2 * (Q + 2)) / (2 * (Q + 1) ^ 2) < 0 := by
      apply div_neg_of_neg_of_pos
      · have : 0 < G ^ 2 := by positivity
        nlinarith
      · positivity
    linarith

/-! ### Regular systems -/

/-- No combination of the free functions other than zero has zero Laplacian at all points. -/
def LaplIndep : Prop := ∀ z : ℕ → ℝ, (∀ q < P.inner.pts, ∑ h ∈ freeFns np n bnd bnd1 bc, z h * P.lapl h q = 0) →
  ∀ h ∈ freeFns np n bnd bnd1 bc, z h = 0

/-- No combination of the fixed functions other than zero has zero values on the Dirichlet and zero normal derivative on the Neumann sides. -/
def BdryIndep : Prop := ∀ z : ℕ → ℝ, (∀ q < P.dir.pts, ∑ h ∈ fixedFns np n bnd bnd1 bc, z h * P.dval h q = 0) →
  (∀ q < P.neu.pts, ∑ h ∈ fixedFns np n bnd bnd1 bc, z h * P.nder h q = 0) → ∀ h ∈ fixedFns np n bnd bnd1 bc, z h = 0

private theorem stiff_inj (hw : ∀ q < P.inner.pts, 0 < P.inner.w q) (I : Finset ℕ) (z : ℕ → ℝ)
    (h : ∀ g ∈ I, ∑ h ∈ I, P.stiff g h * z h = 0) : ∀ q < P.inner.pts, ∑ h ∈ I, z h * P.lapl h q = 0 := by
  have e : ∑ q ∈ range P.inner.pts, (∑ h ∈ I, z h * P.lapl h q) * (∑ h ∈ I, z h * P.lapl h q) * P.inner.w q = 0 := by
    rw [← gram_quad]
    refine sum_eq_zero fun g hg => ?_
    rw [← gram_apply]
    exact mul_eq_zero_of_right _ (h g hg)
  intro q hq
  have := (sum_eq_zero_iff_of_nonneg fun r hr => mul_nonneg (mul_self_nonneg _) (hw r (mem_range.1 hr)).le).1 e q (mem_range.2 hq)
  rcases mul_eq_zero.1 this with h | h
  · exact mul_self_eq_zero.1 h
  · exact absurd h (hw q hq).ne'

private theorem bmat_inj (hd : ∀ q < P.dir.pts, 0 < P.dir.w q) (hn : ∀ q < P.neu.pts, 0 < P.neu.w q) (I : Finset ℕ) (z : ℕ → ℝ)
    (h : ∀ g ∈ I, ∑ h ∈ I, P.bmat g h * z h = 0) :
    (∀ q < P.dir.pts, ∑ h ∈ I, z h * P.dval h q = 0) ∧ ∀ q < P.neu.pts, ∑ h ∈ I, z h * P.nder h q = 0 := by
  have e : ∑ q ∈ range P.dir.pts, (∑ h ∈ I, z h * P.dval h q) * (∑ h ∈ I, z h * P.dval h q) * P.dir.w q
      + lambda * ∑ q ∈ range P.neu.pts, (∑ h ∈ I, z h * P.nder h q) * (∑ h ∈ I, z h * P.nder h q) * P.neu.w q = 0 := by
    rw [← gram_quad, ← gram_quad, mul_sum, ← sum_add_distrib]
    refine sum_eq_zero fun g hg => ?_
    have := h g hg
    rw [bmat_apply] at this
    linear_combination z g * this
  have p1 : ∀ r ∈ range P.dir.pts, 0 ≤ (∑ h ∈ I, z h * P.dval h r) * (∑ h ∈ I, z h * P.dval h r) * P.dir.w r :=
    fun r hr => mul_nonneg (mul_self_nonneg _) (hd r (mem_range.1 hr)).le
  have p2 : ∀ r ∈ range P.neu.pts, 0 ≤ (∑ h ∈ I, z h * P.nder h r) * (∑ h ∈ I, z h * P.nder h r) * P.neu.w r :=
    fun r hr => mul_nonneg (mul_self_nonneg _) (hn r (mem_range.1 hr)).le
  have hl : 0 < lambda := by unfold lambda; norm_num
  have s1 := sum_nonneg p1
  have s2 := sum_nonneg p2
  have m2 := mul_nonneg hl.le s2
  have e1 := le_antisymm (by linarith) s1
  have e2 : lambda * ∑ q ∈ range P.neu.pts, (∑ h ∈ I, z h * P.nder h q) * (∑ h ∈ I, z h * P.nder h q) * P.neu.w q = 0 := by linarith
  have e2 := (mul_eq_zero.1 e2).resolve_left hl.ne'
  constructor
  · intro q hq
    rcases mul_eq_zero.1 ((sum_eq_zero_iff_of_nonneg p1).1 e1 q (mem_range.2 hq)) with h | h
    · exact mul_self_eq_zero.1 h
    · exact absurd h (hd q hq).ne'
  · intro q hq
    rcases mul_eq_zero.1 ((sum_eq_zero_iff_of_nonneg p2).1 e2 q (mem_range.2 hq)) with h | h
    · exact mul_self_eq_zero.1 h
    · exact absurd h (hn q hq).ne'

private theorem coef_free {x y : ℕ → ℝ} {g : ℕ} (hg : g ∈ freeFns np n bnd bnd1 bc) :
    (setMapper np n bnd bnd1 bc).coef y x g = y ((setMapper np n bnd bnd1 bc).index g) := by
  simp [freeFns] at hg; simp [DM.coef, hg.2]

private theorem coef_fixed {x y : ℕ → ℝ} {g : ℕ} (hg : g ∈ fixedFns np n bnd bnd1 bc) :
    (setMapper np n bnd bnd1 bc).coef y x g = x ((setMapper np n bnd bnd1 bc).bindex g) := by
  simp [fixedFns] at hg; simp [DM.coef, hg.2]

/-- C64: the system matrix is regular (a solution for every right-hand side and all boundary values, and only one) if and only if no combination of
the free functions other than zero has zero Laplacian at the quadrature points (weights positive). -/
theorem C64_regular (hw : ∀ q < P.inner.pts, 0 < P.inner.w q) :
    (∀ l x : ℕ → ℝ, (∃ y, (setMapper np n bnd bnd1 bc).Solves P.stiff l x y) ∧
      ∀ y y', (setMapper np n bnd bnd1 bc).Solves P.stiff l x y → (setMapper np n bnd bnd1 bc).Solves P.stiff l x y' →
        ∀ g < n, (setMapper np n bnd bnd1 bc).coef y x g = (setMapper np n bnd bnd1 bc).coef y' x g) ↔
    LaplIndep P np n bnd bnd1 bc := by
  set m := setMapper np n bnd bnd1 bc with hm
  constructor
  · intro H z hz h hh
    obtain ⟨y, hy⟩ := free_vector np n bnd bnd1 bc z
    have s : ∀ y : ℕ → ℝ, (∀ g ∈ freeFns np n bnd bnd1 bc, m.coef y (fun _ => 0) g = z g) → m.Solves P.stiff (fun _ => 0) (fun _ => 0) y := by
      intro y hy
      rw [main_iff]
      intro g hg
      rw [sum_split np n bnd bnd1 bc]
      have e1 : ∑ h ∈ fixedFns np n bnd bnd1 bc, P.stiff g h * m.coef y (fun _ => 0) h = 0 :=
        sum_eq_zero fun h hh => by rw [coef_fixed np n bnd bnd1 bc hh, mul_zero]
      have e2 : ∑ h ∈ freeFns np n bnd bnd1 bc, P.stiff g h * m.coef y (fun _ => 0) h
          = ∑ h ∈ freeFns np n bnd bnd1 bc, P.stiff g h * z h := sum_congr rfl fun h hh => by rw [hy h hh]
      rw [e1, e2, add_zero]
      unfold Problem.stiff
      rw [gram_apply]
      exact sum_eq_zero fun q hq => by rw [hz q (mem_range.1 hq)]; simp
    have s0 : m.Solves P.stiff (fun _ => 0) (fun _ => 0) (fun _ => 0) := by
      rw [main_iff]
      intro g _
      exact sum_eq_zero fun h _ => by simp [DM.coef]
    have hhn : h < n := by simp [freeFns] at hh; exact hh.1
    have := (H (fun _ => 0) (fun _ => 0)).2 y (fun _ => 0) (s y fun g hg => by
      rw [coef_free np n bnd bnd1 bc hg]; simp [freeFns] at hg; exact hy g hg.1 hg.2) s0 h hhn
    rw [coef_free np n bnd bnd1 bc hh, coef_free np n bnd bnd1 bc hh, hy h hhn (by simp [freeFns] at hh; exact hh.2)] at this
    exact this
  · intro H l x
    have inj : ∀ z : ℕ → ℝ, (∀ g ∈ freeFns np n bnd bnd1 bc, ∑ h ∈ freeFns np n bnd bnd1 bc, P.stiff g h * z h = 0) →
        ∀ h ∈ freeFns np n bnd bnd1 bc, z h = 0 := fun z hz => H z (stiff_inj P hw _ z hz)
    constructor
    · obtain ⟨z, hz⟩ := exists_sol (freeFns np n bnd bnd1 bc) P.stiff inj
        (fun g => l g - ∑ h ∈ fixedFns np n bnd bnd1 bc, P.stiff g h * x (m.bindex h))
      obtain ⟨y, hy⟩ := free_vector np n bnd bnd1 bc z
      refine ⟨y, (main_iff np n bnd bnd1 bc _ _ _ _).2 fun g hg => ?_⟩
      rw [sum_split np n bnd bnd1 bc]
      have e1 : ∑ h ∈ fixedFns np n bnd bnd1 bc, P.stiff g h * m.coef y x h = ∑ h ∈ fixedFns np n bnd bnd1 bc, P.stiff g h * x (m.bindex h) :=
        sum_congr rfl fun h hh => by rw [coef_fixed np n bnd bnd1 bc hh]
      have e2 : ∑ h ∈ freeFns np n bnd bnd1 bc, P.stiff g h * m.coef y x h = ∑ h ∈ freeFns np n bnd bnd1 bc, P.stiff g h * z h :=
        sum_congr rfl fun h hh => by
          rw [coef_free np n bnd bnd1 bc hh]; simp [freeFns] at hh; rw [hy h hh.1 hh.2]
      rw [e1, e2, hz g hg]; ring
    · intro y y' hy hy' g hg
      rw [main_iff] at hy hy'
      by_cases c : m.isFree g = true
      · have hgf : g ∈ freeFns np n bnd bnd1 bc := by simp [freeFns, hg, ← hm, c]
        have := inj (fun h => m.coef y x h - m.coef y' x h) (fun k hk => by
          have a1 := hy k hk
          have a2 := hy' k hk
          rw [sum_split np n bnd bnd1 bc] at a1 a2
          have e1 : ∑ h ∈ fixedFns np n bnd bnd1 bc, P.stiff k h * m.coef y x h = ∑ h ∈ fixedFns np n bnd bnd1 bc, P.stiff k h * m.coef y' x h :=
            sum_congr rfl fun h hh => by rw [coef_fixed np n bnd bnd1 bc hh, coef_fixed np n bnd bnd1 bc hh]
          simp only [mul_sub, sum_sub_distrib]
          rw [← hm] at a1 a2
          linarith) g hgf
        exact sub_eq_zero.1 this
      · have hgf : g ∈ fixedFns np n bnd bnd1 bc := by simp [fixedFns, hg, ← hm, c]
        rw [coef_fixed np n bnd bnd1 bc hgf, coef_fixed np n bnd bnd1 bc hgf]

/-- C64: if the functions are independent on the boundary and under the Laplacian, the solver has a result, and the coefficients are determined. -/
theorem C64_wellposed (hnp : 0 < np) (hw : ∀ q < P.inner.pts, 0 < P.inner.w q) (hd : ∀ q < P.dir.pts, 0 < P.dir.w q)
    (hn : ∀ q < P.neu.pts, 0 < P.neu.w q) (hL : LaplIndep P np n bnd bnd1 bc) (hB : BdryIndep P np n bnd bnd1 bc) :
    (∃ x y, Run P np n bnd bnd1 bc x y) ∧ ∀ x y x' y', Run P np n bnd bnd1 bc x y → Run P np n bnd bnd1 bc x' y' →
      ∀ g < n, (setMapper np n bnd bnd1 bc).coef y x g = (setMapper np n bnd bnd1 bc).coef y' x' g := by
  have inj : ∀ z : ℕ → ℝ, (∀ g ∈ fixedFns np n bnd bnd1 bc, ∑ h ∈ fixedFns np n bnd bnd1 bc, P.bmat g h * z h = 0) →
      ∀ h ∈ fixedFns np n bnd bnd1 bc, z h = 0 := fun z hz => hB z (bmat_inj P hd hn _ z hz).1 (bmat_inj P hd hn _ z hz).2
  have reg := (C64_regular P np n bnd bnd1 bc hw).2 hL
  constructor
  · obtain ⟨z, hz⟩ := exists_sol (fixedFns np n bnd bnd1 bc) P.bmat inj P.bload
    obtain ⟨x, hx⟩ := fixed_vector np n bnd bnd1 bc z
    obtain ⟨y, hy⟩ := (reg P.load x).1
    refine ⟨x, y, (C64_equations P np n bnd bnd1 bc hnp x y).2 ⟨fun g hg => ?_, (main_iff np n bnd bnd1 bc _ _ _ _).1 hy⟩⟩
    rw [← hz g hg]
    exact sum_congr rfl fun h hh => by
      rw [coef_fixed np n bnd bnd1 bc hh]; simp [fixedFns] at hh; rw [hx h hh.1 hh.2]
  · intro x y x' y' h h' g hg
    have e1 := (C64_equations P np n bnd bnd1 bc hnp x y).1 h
    have e2 := (C64_equations P np n bnd bnd1 bc hnp x' y').1 h'
    have hfix : ∀ g ∈ fixedFns np n bnd bnd1 bc, x ((setMapper np n bnd bnd1 bc).bindex g) = x' ((setMapper np n bnd bnd1 bc).bindex g) := by
      intro g hg
      have := inj (fun h => (setMapper np n bnd bnd1 bc).coef y x h - (setMapper np n bnd bnd1 bc).coef y' x' h) (fun k hk => by
        simp only [mul_sub, sum_sub_distrib]
        rw [e1.1 k hk, e2.1 k hk, sub_self]) g hg
      rw [coef_fixed np n bnd bnd1 bc hg, coef_fixed np n bnd bnd1 bc hg] at this
      exact sub_eq_zero.1 this
    have hc : ∀ z : ℕ → ℝ, ∀ k < n, (setMapper np n bnd bnd1 bc).coef z x k = (setMapper np n bnd bnd1 bc).coef z x' k := by
      intro z k hk
      by_cases c : (setMapper np n bnd bnd1 bc).isFree k = true
      · simp [DM.coef, c]
      · have hkf : k ∈ fixedFns np n bnd bnd1 bc := by simp [fixedFns, hk, c]
        rw [coef_fixed np n bnd bnd1 bc hkf, coef_fixed np n bnd bnd1 bc hkf, hfix k hkf]
    rw [hc y g hg]
    refine (reg P.load x').2 y y' ?_ h'.2 g hg
    rw [main_iff]
    intro k hk
    rw [← e1.2 k hk]
    exact sum_congr rfl fun h hh => by rw [hc y h (mem_range.1 hh)]

/-! ### A solution contained in the space is found -/

/-- The function with coefficients `c` takes the boundary data at all points, and satisfies the weak equation for every free function. -/
structure Exact (c : ℕ → ℝ) : Prop where
  dirichlet : ∀ q < P.dir.pts, ∑ h ∈ range n, c h * P.dval h q = P.dg q
  neumann : ∀ q < P.neu.pts, ∑ h ∈ range n, c h * P.nder h q = P.ng q
  weak : ∀ g ∈ freeFns np n bnd bnd1 bc,
    ∑ q ∈ range P.inner.pts, P.lapl g q * (∑ h ∈ range n, c h * P.lapl h q) * P.inner.w q
      = ∑ q ∈ range P.inner.pts, P.val g q * P.src q * P.inner.w q + ∑ q ∈ range P.lap.pts, P.lder g q * P.lg q * P.lap.w q

/-- The free functions do not touch the boundary data. -/
structure Clean : Prop where
  dirichlet : ∀ g ∈ freeFns np n bnd bnd1 bc, ∀ q < P.dir.pts, P.dval g q = 0
  neumann : ∀ g ∈ freeFns np n bnd bnd1 bc, ∀ q < P.neu.pts, P.nder g q = 0

/-- C64: if the exact solution lies in the space, the solver returns its coefficients.  This needs that free functions do not touch the boundary data;
see `C64_neumann_violated` for what happens otherwise. -/
theorem C64_exact_partial (hnp : 0 < np) (hw : ∀ q < P.inner.pts, 0 < P.inner.w q) (hd : ∀ q < P.dir.pts, 0 < P.dir.w q)
    (hn : ∀ q < P.neu.pts, 0 < P.neu.w q) (hL : LaplIndep P np n bnd bnd1 bc) (hB : BdryIndep P np n bnd bnd1 bc)
    (hC : Clean P np n bnd bnd1 bc) (c : ℕ → ℝ) (hc : Exact P np n bnd bnd1 bc c) (x y : ℕ → ℝ) (h : Run P np n bnd bnd1 bc x y) :
    ∀ g < n, (setMapper np n bnd bnd1 bc).coef y x g = c g := by
  obtain ⟨y', hy'⟩ := free_vector np n bnd bnd1 bc c
  obtain ⟨x', hx'⟩ := fixed_vector np n bnd bnd1 bc c
  have hco : ∀ g < n, (setMapper np n bnd bnd1 bc).coef y' x' g = c g := by
    intro g hg
    unfold DM.coef
    split_ifs with hf
    · exact hy' g hg hf
    · exact hx' g hg (by simpa using hf)
  have hrun : Run P np n bnd bnd1 bc x' y' := by
    rw [C64_equations P np n bnd bnd1 bc hnp]
    constructor
    · intro g hg
      have e : ∑ h ∈ fixedFns np n bnd bnd1 bc, P.bmat g h * (setMapper np n bnd bnd1 bc).coef y' x' h
          = ∑ h ∈ fixedFns np n bnd bnd1 bc, P.bmat g h * c h :=
        sum_congr rfl fun h hh => by rw [hco h (by simp [fixedFns] at hh; exact hh.1)]
      rw [e, bmat_apply, bload_eq]
      congr 1
      · refine sum_congr rfl fun q hq => ?_
        rw [← hc.dirichlet q (mem_range.1 hq), sum_split np n bnd bnd1 bc, sum_eq_zero (s := freeFns np n bnd bnd1 bc), zero_add]
        exact fun h hh => by rw [hC.dirichlet h hh q (mem_range.1 hq), mul_zero]
      · congr 1
        refine sum_congr rfl fun q hq => ?_
        rw [← hc.neumann q (mem_range.1 hq), sum_split np n bnd bnd1 bc, sum_eq_zero (s := freeFns np n bnd bnd1 bc), zero_add]
        exact fun h hh => by rw [hC.neumann h hh q (mem_range.1 hq), mul_zero]
    · intro g hg
      have e : ∑ h ∈ range n, P.stiff g h * (setMapper np n bnd bnd1 bc).coef y' x' h = ∑ h ∈ range n, P.stiff g h * c h :=
        sum_congr rfl fun h hh => by rw [hco h (mem_range.1 hh)]
      rw [e]
      unfold Problem.stiff Problem.load
      rw [gram_apply]
      exact hc.weak g hg
  intro g hg
  rw [(C64_wellposed P np n bnd bnd1 bc hnp hw hd hn hL hB).2 x y x' y' h hrun g hg, hco g hg]

end

/-! ### A concrete case, and the case of a Neumann side that is not a Dirichlet side -/

/-- Three functions: the first on the boundary, the second next to it, the third inside; one point of each kind. -/
noncomputable def three : Problem where
  inner := ⟨1, fun _ => 1⟩
  dir := ⟨1, fun _ => 1⟩
  neu := ⟨1, fun _ => 1⟩
  lap := ⟨0, fun _ => 1⟩
  val := fun g _ => if g = 2 then 69 else 0
  lapl := fun g _ => (g : ℝ) + 1
  dval := fun g _ => if g = 0 then 1 else 0
  nder := fun g _ => if g = 0 then -1 else if g = 1 then 1 else 0
  lder := fun _ _ => 0
  src := fun _ => 1
  dg := fun _ => 2
  ng := fun _ => 1
  lg := fun _ => 0

/-- Side 1 of patch 0: function 0 lies on it, function 1 next to it. -/
def sideB : ℕ → ℕ → List ℕ := fun _ _ => [0]
def sideB1 : ℕ → ℕ → List ℕ := fun _ _ => [1]

private theorem three_free : freeFns 1 3 sideB sideB1 ⟨[(0, 1)], [(0, 1)], []⟩ = {2} := by decide +kernel
private theorem three_fixed : fixedFns 1 3 sideB sideB1 ⟨[(0, 1)], [(0, 1)], []⟩ = {0, 1} := by decide +kernel

/-- All hypotheses of `C64_exact_partial` hold for it, with the coefficients 2, 3, 5. -/
example (x y : ℕ → ℝ) (h : Run three 1 3 sideB sideB1 ⟨[(0, 1)], [(0, 1)], []⟩ x y) (g : ℕ) (hg : g < 3) :
    (setMapper 1 3 sideB sideB1 ⟨[(0, 1)], [(0, 1)], []⟩).coef y x g = if g = 0 then 2 else if g = 1 then 3 else 5 := by
  refine C64_exact_partial three 1 3 sideB sideB1 _ (by norm_num) (by norm_num [three]) (by norm_num [three]) (by norm_num [three])
    ?_ ?_ ?_ (fun g => if g = 0 then 2 else if g = 1 then 3 else 5) ?_ x y h g hg
  · intro z hz h hh
    rw [three_free] at hz hh
    have := hz 0 (by norm_num [three])
    simp [three] at this hh
    rcases this with h' | h'
    · rw [hh, h']
    · norm_num at h'
  · intro z h1 h2 h hh
    rw [three_fixed] at h1 h2 hh
    have a := h1 0 (by norm_num [three])
    have b := h2 0 (by norm_num [three])
    simp [three] at a b hh
    rcases hh with rfl | rfl
    · exact a
    · linarith
  · constructor
    · rw [three_free]; intro g hg q _; simp at hg; simp [three, hg]
    · rw [three_free]; intro g hg q _; simp at hg; simp [three, hg]
  · constructor
    · intro q _; simp [three]
    · intro q _; simp [three, sum_range_succ]; norm_num
    · rw [three_free]; intro g hg; simp at hg; simp [three, hg, sum_range_succ]; norm_num

/-- A side with a Neumann condition only. -/
noncomputable def two : Problem where
  inner := ⟨1, fun _ => 1⟩
  dir := ⟨0, fun _ => 1⟩
  neu := ⟨1, fun _ => 1⟩
  lap := ⟨0, fun _ => 1⟩
  val := fun _ _ => 1
  lapl := fun _ _ => 1
  dval := fun _ _ => 0
  nder := fun g _ => if g = 0 then -1 else 1
  lder := fun _ _ => 0
  src := fun _ => 2
  dg := fun _ => 0
  ng := fun _ => 0
  lg := fun _ => 0

/-- C64 fails on a side that has a Neumann condition but no Dirichlet condition: there only the functions *next to* the side are fixed, while the
normal derivative also depends on the functions on the side.  Here the data are those of the function with both
coefficients 1 and the systems are regular, but the result has the coefficients 2 and 0, and normal derivative -2 instead of 0. -/
theorem C64_neumann_violated : Exact two 1 2 sideB sideB1 ⟨[], [(0, 1)], []⟩ (fun _ => 1) ∧
    LaplIndep two 1 2 sideB sideB1 ⟨[], [(0, 1)], []⟩ ∧ BdryIndep two 1 2 sideB sideB1 ⟨[], [(0, 1)], []⟩ ∧
    ∀ x y, Run two 1 2 sideB sideB1 ⟨[], [(0, 1)], []⟩ x y →
      let c := (setMapper 1 2 sideB sideB1 ⟨[], [(0, 1)], []⟩).coef y x
      c 0 = 2 ∧ c 1 = 0 ∧ ∑ h ∈ range 2, c h * two.nder h 0 = -2 ∧ two.ng 0 = 0 := by
  have hfree : freeFns 1 2 sideB sideB1 ⟨[], [(0, 1)], []⟩ = {0} := by decide +kernel
  have hfix : fixedFns 1 2 sideB sideB1 ⟨[], [(0, 1)], []⟩ = {1} := by decide +kernel
  refine ⟨⟨?_, ?_, ?_⟩, ?_, ?_, ?_⟩
  · intro q hq; simp [two] at hq
  · intro q _; simp [two, sum_range_succ]
  · rw [hfree]; intro g hg; simp [two]
  · intro z hz h hh
    rw [hfree] at hz hh
    have := hz 0 (by norm_num [two])
    simp [two] at this hh
    rw [hh, this]
  · intro z _ hz h hh
    rw [hfix] at hz hh
    have := hz 0 (by norm_num [two])
    simp [two] at this hh
    rw [hh, this]
  · intro x y h c
    rw [C64_equations two 1 2 sideB sideB1 _ (by norm_num), hfree, hfix] at h
    have h1 := h.1 1 (by simp)
    have h2 := h.2 0 (by simp)
    simp [Problem.bmat, Problem.bload, Problem.stiff, Problem.load, two, sum_range_succ, lambda] at h1 h2
    refine ⟨?_, h1, ?_, rfl⟩
    · have h2' : c 0 + c 1 = 2 := h2
      have h1' : c 1 = 0 := h1
      linarith
    · have h2' : c 0 + c 1 = 2 := h2
      have h1' : c 1 = 0 := h1
      simp [two, sum_range_succ]
      linarith

/-! ### The weak form -/

/-- C64: the weak equation.  Let `u` solve `Δ²u = f` on a rectangle, with `l = Δu`, and let the test function `v` vanish on the boundary.  Then
`∫ Δu Δv = ∫ f v + ∮ Δu ∂v/∂n`, the boundary integral over the four sides with the outer normal: the matrix and the right-hand side of
`assemble`, with the sign of the Laplace term.  (`l`, `v` twice continuously differentiable.) -/
theorem C64_weak {l lu lv luu luv lvv v vu vv vuu vuv vvv : ℝ → ℝ → ℝ} (hl : Smooth l lu lv luu luv lvv) (hv : Smooth v vu vv vuu vuv vvv)
    (f : ℝ → ℝ → ℝ) (hf : ∀ x y, luu x y + lvv x y = f x y) (a b c d : ℝ)
    (h1 : ∀ y, v a y = 0) (h2 : ∀ y, v b y = 0) (h3 : ∀ x, v x c = 0) (h4 : ∀ x, v x d = 0) :
    ∫ y in c..d, ∫ x in a..b, l x y * (vuu x y + vvv x y) =
      (∫ y in c..d, ∫ x in a..b, f x y * v x y)
        + ((∫ y in c..d, (l b y * vu b y + l a y * -vu a y)) + ∫ x in a..b, (l x d * vv x d + l x c * -vv x c)) := by
  have := green hl hv a b c d
  simp only [h1, h2, h3, h4, mul_zero, sub_zero, intervalIntegral.integral_zero, add_zero, hf] at this
  simp only [mul_neg, ← sub_eq_add_neg]
  linarith

/-- C64: if the normal derivative of the test function vanishes too (Neumann sides), the boundary integral drops out. -/
theorem C64_weak_clamped {l lu lv luu luv lvv v vu vv vuu vuv vvv : ℝ → ℝ → ℝ} (hl : Smooth l lu lv luu luv lvv)
    (hv : Smooth v vu vv vuu vuv vvv) (f : ℝ → ℝ → ℝ) (hf : ∀ x y, luu x y + lvv x y = f x y) (a b c d : ℝ)
    (h1 : ∀ y, v a y = 0 ∧ vu a y = 0) (h2 : ∀ y, v b y = 0 ∧ vu b y = 0) (h3 : ∀ x, v x c = 0 ∧ vv x c = 0) (h4 : ∀ x, v x d = 0 ∧ vv x d = 0) :
    ∫ y in c..d, ∫ x in a..b, l x y * (vuu x y + vvv x y) = ∫ y in c..d, ∫ x in a..b, f x y * v x y := by
  rw [C64_weak hl hv f hf a b c d (fun y => (h1 y).1) (fun y => (h2 y).1) (fun x => (h3 x).1) (fun x => (h4 x).1)]
  simp [(h1 _).2, (h2 _).2, (h3 _).2, (h4 _).2]

/-! ### The reported errors -/

/-- C64: the reported errors are not negative and increase with the order, and an error is zero exactly if the differences it measures are zero at all
points (weights positive). -/
theorem C64_errors (D : Diff) (hw : ∀ q < D.rule.pts, 0 < D.rule.w q) :
    0 ≤ D.l2err ∧ D.l2err ≤ D.h1err ∧ D.h1err ≤ D.h2err ∧
    (D.l2err = 0 ↔ ∀ q < D.rule.pts, D.d0 q = 0) ∧
    (D.h1err = 0 ↔ ∀ q < D.rule.pts, D.d0 q = 0 ∧ ∀ i, D.d1 q i = 0) ∧
    (D.h2err = 0 ↔ ∀ q < D.rule.pts, D.d0 q = 0 ∧ (∀ i, D.d1 q i = 0) ∧ ∀ i j, D.d2 q i j = 0) := by
  have p0 : ∀ q ∈ range D.rule.pts, 0 ≤ D.d0 q ^ 2 * D.rule.w q := fun q hq => mul_nonneg (sq_nonneg _) (hw q (mem_range.1 hq)).le
  have p1 : ∀ q ∈ range D.rule.pts, 0 ≤ (∑ i, D.d1 q i ^ 2) * D.rule.w q :=
    fun q hq => mul_nonneg (sum_nonneg fun i _ => sq_nonneg _) (hw q (mem_range.1 hq)).le
  have p2 : ∀ q ∈ range D.rule.pts, 0 ≤ (∑ i, ∑ j, D.d2 q i j ^ 2) * D.rule.w q :=
    fun q hq => mul_nonneg (sum_nonneg fun i _ => sum_nonneg fun j _ => sq_nonneg _) (hw q (mem_range.1 hq)).le
  have z0 : D.i0 = 0 ↔ ∀ q < D.rule.pts, D.d0 q = 0 := by
    unfold Diff.i0
    rw [sum_eq_zero_iff_of_nonneg p0]
    refine ⟨fun h q hq => ?_, fun h q hq => by rw [h q (mem_range.1 hq)]; simp⟩
    have := (mul_eq_zero.1 (h q (mem_range.2 hq))).resolve_right (hw q hq).ne'
    simpa using this
  have z1 : D.i1 = 0 ↔ ∀ q < D.rule.pts, ∀ i, D.d1 q i = 0 := by
    unfold Diff.i1
    rw [sum_eq_zero_iff_of_nonneg p1]
    refine ⟨fun h q hq i => ?_, fun h q hq => by simp [h q (mem_range.1 hq)]⟩
    have := (mul_eq_zero.1 (h q (mem_range.2 hq))).resolve_right (hw q hq).ne'
    have := (sum_eq_zero_iff_of_nonneg fun i _ => sq_nonneg _).1 this i (mem_univ i)
    simpa using this
  have z2 : D.i2 = 0 ↔ ∀ q < D.rule.pts, ∀ i j, D.d2 q i j = 0 := by
    unfold Diff.i2
    rw [sum_eq_zero_iff_of_nonneg p2]
    refine ⟨fun h q hq i j => ?_, fun h q hq => by simp [h q (mem_range.1 hq)]⟩
    have := (mul_eq_zero.1 (h q (mem_range.2 hq))).resolve_right (hw q hq).ne'
    have := (sum_eq_zero_iff_of_nonneg fun i _ => sum_nonneg fun j _ => sq_nonneg _).1 this i (mem_univ i)
    have := (sum_eq_zero_iff_of_nonneg fun j _ => sq_nonneg _).1 this j (mem_univ j)
    simpa using this
  have n0 : 0 ≤ D.i0 := sum_nonneg p0
  have n1 : 0 ≤ D.i1 := sum_nonneg p1
  have n2 : 0 ≤ D.i2 := sum_nonneg p2
  have s0 := Real.sqrt_nonneg D.i0
  have s1 := Real.sqrt_nonneg D.i1
  have s2 := Real.sqrt_nonneg D.i2
  have e0 : Real.sqrt D.i0 = 0 ↔ D.i0 = 0 := Real.sqrt_eq_zero n0
  have e1 : Real.sqrt D.i1 = 0 ↔ D.i1 = 0 := Real.sqrt_eq_zero n1
  have e2 : Real.sqrt D.i2 = 0 ↔ D.i2 = 0 := Real.sqrt_eq_zero n2
  unfold Diff.h2err Diff.h1err Diff.l2err
  refine ⟨s0, by linarith, by linarith, e0.trans z0, ?_, ?_⟩
  · rw [add_eq_zero_iff_of_nonneg s0 s1, e0, e1, z0, z1]
    exact ⟨fun h q hq => ⟨h.1 q hq, h.2 q hq⟩, fun h => ⟨fun q hq => (h q hq).1, fun q hq => (h q hq).2⟩⟩
  · rw [add_eq_zero_iff_of_nonneg (by linarith) s2, add_eq_zero_iff_of_nonneg s0 s1, e0, e1, e2, z0, z1, z2]
    exact ⟨fun h q hq => ⟨h.1.1 q hq, h.1.2 q hq, h.2 q hq⟩,
      fun h => ⟨⟨fun q hq => (h q hq).1, fun q hq => (h q hq).2.1⟩, fun q hq => (h q hq).2.2⟩⟩

/-- C64: the reported errors compare to the Sobolev norms (square roots of the sums of the integrals): they are not smaller, and larger at most by the
factors √2 and √3, so orders of convergence are the same; but they are the norms only if all but one of the parts are zero. -/
theorem C64_norms (D : Diff) (hw : ∀ q < D.rule.pts, 0 ≤ D.rule.w q) :
    Real.sqrt (D.i0 + D.i1) ≤ D.h1err ∧ D.h1err ≤ Real.sqrt 2 * Real.sqrt (D.i0 + D.i1) ∧
    Real.sqrt (D.i0 + D.i1 + D.i2) ≤ D.h2err ∧ D.h2err ≤ Real.sqrt 3 * Real.sqrt (D.i0 + D.i1 + D.i2) ∧
    (D.h1err = Real.sqrt (D.i0 + D.i1) ↔ D.i0 = 0 ∨ D.i1 = 0) := by
  have n0 : 0 ≤ D.i0 := sum_nonneg fun q hq => mul_nonneg (sq_nonneg _) (hw q (mem_range.1 hq))
  have n1 : 0 ≤ D.i1 := sum_nonneg fun q hq => mul_nonneg (sum_nonneg fun i _ => sq_nonneg _) (hw q (mem_range.1 hq))
  have n2 : 0 ≤ D.i2 :=
    sum_nonneg fun q hq => mul_nonneg (sum_nonneg fun i _ => sum_nonneg fun j _ => sq_nonneg _) (hw q (mem_range.1 hq))
  unfold Diff.h2err Diff.h1err Diff.l2err
  have q0 := Real.sq_sqrt n0
  have q1 := Real.sq_sqrt n1
  have q2 := Real.sq_sqrt n2
  have s0 := Real.sqrt_nonneg D.i0
  have s1 := Real.sqrt_nonneg D.i1
  have s2 := Real.sqrt_nonneg D.i2
  set a := Real.sqrt D.i0
  set b := Real.sqrt D.i1
  set c := Real.sqrt D.i2
  refine ⟨?_, ?_, ?_, ?_, ?_⟩
  · rw [← q0, ← q1]; exact Real.sqrt_le_iff.2 ⟨by linarith, by nlinarith⟩
  · rw [← Real.sqrt_mul (by norm_num), ← q0, ← q1]; exact Real.le_sqrt_of_sq_le (by nlinarith [sq_nonneg (a - b)])
  · rw [← q0, ← q1, ← q2]
    exact Real.sqrt_le_iff.2 ⟨by linarith, by nlinarith [mul_nonneg s0 s1, mul_nonneg s0 s2, mul_nonneg s1 s2]⟩
  · rw [← Real.sqrt_mul (by norm_num), ← q0, ← q1, ← q2]
    exact Real.le_sqrt_of_sq_le (by nlinarith [sq_nonneg (a - b), sq_nonneg (a - c), sq_nonneg (b - c)])
  · have key : a + b = Real.sqrt (D.i0 + D.i1) ↔ (a + b) ^ 2 = D.i0 + D.i1 := by
      rw [eq_comm, Real.sqrt_eq_iff_mul_self_eq (by linarith) (by linarith), sq, eq_comm]
    rw [key, ← q0, ← q1]
    constructor
    · intro h
      have : a * b = 0 := by nlinarith
      rcases mul_eq_zero.1 this with h | h
      · left; rw [h]; norm_num
      · right; rw [h]; norm_num
    · rintro (h | h)
      · have : a = 0 := by simpa using h
        rw [this]; ring
      · have : b = 0 := by simpa using h
        rw [this]; ring

end Verif.Biharm
