import Verif.Model.Biharmonic
import Verif.Props.DofMap
import Mathlib.LinearAlgebra.FiniteDimensional.Lemmas
import Mathlib.Algebra.Order.BigOperators.Ring.Finset
import Mathlib.Tactic.LinearCombination

/-!
# Systems of the solver as systems of equations for the functions
-/

set_option autoImplicit false

open Finset

namespace Verif.Biharm

open DofMap

/-- Solving an assembled system with fixed values, in terms of the functions. -/
theorem solves_fix (d : DM) (a : ℕ → ℕ → ℝ) (l fix x : ℕ → ℝ) (hinj : ∀ g < d.n, ∀ k < d.n, d.index k = d.index g → k = g) :
    d.Solves a l fix x ↔ ∀ g < d.n, d.isFree g = true → ∑ h ∈ range d.n, a g h * d.coef x fix h = l g := by
  have e : d.Solves a l fix x ↔ d.Solves a (fun g => l g - ∑ h ∈ range d.n, (if d.isFree h then 0 else a g h * fix (d.bindex h))) (fun _ => 0) x := by
    unfold DM.Solves DM.rhs
    simp
  rw [e, solves_iff]
  refine forall_congr' fun g => forall_congr' fun hg => forall_congr' fun hf => ?_
  have hc : (range d.n).filter (fun k => d.index k = d.index g) = {g} := by
    ext k
    simp only [mem_filter, mem_range, mem_singleton]
    exact ⟨fun h => hinj g hg k h.1 h.2, fun h => by subst h; exact ⟨hg, rfl⟩⟩
  rw [hc, sum_singleton, sum_singleton, eq_sub_iff_add_eq, sum_filter, ← sum_add_distrib]
  have : ∀ h ∈ range d.n, ((if d.isFree h = true then a g h * x (d.index h) else 0) + if d.isFree h = true then 0 else a g h * fix (d.bindex h))
      = a g h * d.coef x fix h := by
    intro h _
    unfold DM.coef
    split_ifs <;> simp
  rw [sum_congr rfl this]

section
variable (np n : ℕ) (bnd bnd1 : ℕ → ℕ → List ℕ) (bc : BC)

theorem setMapper_n : (setMapper np n bnd bnd1 bc).n = n := by
  unfold setMapper
  simp only
  rw [foldMark_eq, foldMark_eq, elimAll_n, elimAll_n]
  rfl

theorem setMapper_inj {g k : ℕ} (hg : g < n) (hk : k < n)
    (e : (setMapper np n bnd bnd1 bc).index k = (setMapper np n bnd bnd1 bc).index g) : k = g := by
  obtain ⟨h1, h2, h3, h4⟩ := C35_numbering np n bnd bnd1 bc
  have hlt : (setMapper np n bnd bnd1 bc).index g < n := by
    by_cases c : (setMapper np n bnd bnd1 bc).isFree g = true
    · have := (h2 g hg).1 c; omega
    · obtain ⟨a1, a2⟩ := h3 g hg (by simpa using c); omega
  exact (h4 _ hlt).unique ⟨hk, e⟩ ⟨hg, rfl⟩

/-- A vector of unknowns with prescribed coefficients of the free functions. -/
theorem free_vector (z : ℕ → ℝ) : ∃ y : ℕ → ℝ, ∀ g < n, (setMapper np n bnd bnd1 bc).isFree g = true →
    y ((setMapper np n bnd bnd1 bc).index g) = z g := by
  classical
  refine ⟨fun r => if h : ∃ g, g < n ∧ (setMapper np n bnd bnd1 bc).index g = r then z h.choose else 0, fun g hg _ => ?_⟩
  have h : ∃ k, k < n ∧ (setMapper np n bnd bnd1 bc).index k = (setMapper np n bnd bnd1 bc).index g := ⟨g, hg, rfl⟩
  simp only [dif_pos h]
  rw [setMapper_inj np n bnd bnd1 bc hg h.choose_spec.1 h.choose_spec.2]

/-- A vector of fixed values with prescribed coefficients of the fixed functions. -/
theorem fixed_vector (z : ℕ → ℝ) : ∃ x : ℕ → ℝ, ∀ g < n, (setMapper np n bnd bnd1 bc).isFree g = false →
    x ((setMapper np n bnd bnd1 bc).bindex g) = z g := by
  classical
  obtain ⟨h1, h2, h3, h4⟩ := C35_numbering np n bnd bnd1 bc
  refine ⟨fun r => if h : ∃ g, g < n ∧ (setMapper np n bnd bnd1 bc).isFree g = false ∧ (setMapper np n bnd bnd1 bc).bindex g = r
    then z h.choose else 0, fun g hg hf => ?_⟩
  have h : ∃ k, k < n ∧ (setMapper np n bnd bnd1 bc).isFree k = false ∧
    (setMapper np n bnd bnd1 bc).bindex k = (setMapper np n bnd bnd1 bc).bindex g := ⟨g, hg, hf, rfl⟩
  simp only [dif_pos h]
  obtain ⟨c1, c2, c3⟩ := h.choose_spec
  rw [setMapper_inj np n bnd bnd1 bc hg c1]
  rw [(h3 _ c1 c2).1, (h3 g hg hf).1, c3]

end

/-- A square system with only the zero solution of the homogeneous system has a solution. -/
theorem exists_sol (I : Finset ℕ) (a : ℕ → ℕ → ℝ) (hinj : ∀ z : ℕ → ℝ, (∀ g ∈ I, ∑ h ∈ I, a g h * z h = 0) → ∀ h ∈ I, z h = 0) (r : ℕ → ℝ) :
    ∃ z : ℕ → ℝ, ∀ g ∈ I, ∑ h ∈ I, a g h * z h = r g := by
  classical
  let T : (I → ℝ) →ₗ[ℝ] (I → ℝ) :=
    { toFun := fun z g => ∑ h : I, a g h * z h
      map_add' := fun z z' => by funext g; simp [mul_add, sum_add_distrib]
      map_smul' := fun c z => by
        funext g
        simp only [Pi.smul_apply, smul_eq_mul, RingHom.id_apply, mul_sum]
        exact sum_congr rfl fun h _ => by ring }
  let ext : (I → ℝ) → ℕ → ℝ := fun z h => if hh : h ∈ I then z ⟨h, hh⟩ else 0
  have hext : ∀ z (g : I), ∑ h ∈ I, a g h * ext z h = T z g := by
    intro z g
    rw [← sum_coe_sort I]
    exact sum_congr rfl fun h _ => by simp [ext]
  have inj : Function.Injective T := by
    rw [← LinearMap.ker_eq_bot, LinearMap.ker_eq_bot']
    intro z hz
    funext h
    have := hinj (ext z) (fun g hg => by rw [hext z ⟨g, hg⟩, hz]; rfl) h h.2
    simpa [ext] using this
  obtain ⟨z, hz⟩ := (LinearMap.injective_iff_surjective.1 inj) (fun g => r g)
  exact ⟨ext z, fun g hg => by rw [hext z ⟨g, hg⟩, hz]⟩

/-- Applying a matrix of products to coefficients. -/
theorem gram_apply (I : Finset ℕ) (F : ℕ → ℕ → ℝ) (p : ℕ) (w z : ℕ → ℝ) (g : ℕ) :
    ∑ h ∈ I, (∑ q ∈ range p, F g q * F h q * w q) * z h = ∑ q ∈ range p, F g q * (∑ h ∈ I, z h * F h q) * w q := by
  simp only [sum_mul, mul_sum]
  rw [sum_comm]
  exact sum_congr rfl fun q _ => sum_congr rfl fun h _ => by ring

theorem gram_quad (I : Finset ℕ) (F : ℕ → ℕ → ℝ) (p : ℕ) (w z v : ℕ → ℝ) :
    ∑ g ∈ I, z g * ∑ q ∈ range p, F g q * v q * w q = ∑ q ∈ range p, (∑ h ∈ I, z h * F h q) * v q * w q := by
  simp only [sum_mul, mul_sum]
  rw [sum_comm]
  exact sum_congr rfl fun q _ => sum_congr rfl fun h _ => by ring

end Verif.Biharm
