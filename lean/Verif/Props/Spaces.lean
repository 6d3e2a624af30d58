import Verif.Model.Spaces
import Verif.Props.EdgeFun
import Mathlib.Analysis.Calculus.FDeriv.Mul
import Mathlib.Algebra.Polynomial.Derivative
import Mathlib.Algebra.Polynomial.Div
import Mathlib.Algebra.Polynomial.FieldDivision
import Mathlib.Algebra.Polynomial.Degree.Lemmas
import Mathlib.Data.Real.Basic
import Mathlib.Tactic.IntervalCases
/-!
# Property C51: the spaces of the approximate C1 construction contain the functions of the edges

A spline is given by its polynomials on the elements of the grid. The functions of an interface are made of `f`, `f' b` and `a g` with `f` in the plus space, `g` in the minus space and gluing data `a`, `b`;
the projection to the space of the edge keeps them only if they lie in it (`C23_projection`).
-/
set_option autoImplicit false
namespace Verif.Spaces
open Polynomial

/-- Splines with knot vector `k` on the grid with points `z`: `f e` is the polynomial between `z e` and `z (e + 1)`. At a point of multiplicity `m` the derivatives up to the order degree minus `m` agree (`C51_jump_iff`). -/
structure Sp (z : ℕ → ℝ) (n : ℕ) (k : Kv) (f : ℕ → ℝ[X]) : Prop where
  deg : ∀ e, e < n → (f e).natDegree ≤ k.deg
  jump : ∀ i, 1 ≤ i → i < n → (X - C (z i)) ^ (k.deg + 1 - k.mult i) ∣ f i - f (i - 1)

/-- All parts of the functions of an interface lie in the space `ke`. -/
structure Contains (z : ℕ → ℝ) (n : ℕ) (kp km kg ke : Kv) : Prop where
  trace : ∀ f, Sp z n kp f → Sp z n ke f
  across : ∀ f b, Sp z n kp f → Sp z n kg b → Sp z n ke fun e => derivative (f e) * b e
  normal : ∀ a g, Sp z n kg a → Sp z n km g → Sp z n ke fun e => a e * g e

/-- What divisibility says about a function: the derivatives of the two polynomials agree at the point up to the order `r - 1`. -/
theorem C51_jump_iff (f g : ℝ[X]) (z : ℝ) (r : ℕ) : (X - C z) ^ r ∣ f - g ↔ ∀ j, j < r → (derivative^[j] f).eval z = (derivative^[j] g).eval z := by
  by_cases h : f = g
  · subst h; simp
  have h0 : f - g ≠ 0 := sub_ne_zero.2 h
  rw [← le_rootMultiplicity_iff h0]
  constructor
  · intro hr j hj
    have := (lt_rootMultiplicity_iff_isRoot_iterate_derivative (t := z) (n := j) h0).1 (by omega) j le_rfl
    rw [iterate_derivative_sub, IsRoot, eval_sub, sub_eq_zero] at this
    exact this
  · intro hj
    cases r with
    | zero => exact Nat.zero_le _
    | succ r =>
      refine (lt_rootMultiplicity_iff_isRoot_iterate_derivative (n := r) h0).2 fun m hm => ?_
      rw [iterate_derivative_sub, IsRoot, eval_sub, sub_eq_zero]
      exact hj m (by omega)

/-! ## When a space contains the functions -/

private theorem dvd_mul_sub {q a b c d : ℝ[X]} (h1 : q ∣ a - b) (h2 : q ∣ c - d) : q ∣ a * c - b * d := by
  have : a * c - b * d = (a - b) * c + b * (c - d) := by ring
  rw [this]
  exact dvd_add (h1.mul_right _) (h2.mul_left _)

private theorem dvd_deriv {z : ℝ} {r : ℕ} {q : ℝ[X]} (h : (X - C z) ^ r ∣ q) : (X - C z) ^ (r - 1) ∣ derivative q := by
  obtain ⟨c, rfl⟩ := h
  rw [derivative_mul]
  refine dvd_add (Dvd.dvd.mul_right ?_ _) (Dvd.dvd.mul_right (pow_dvd_pow _ (by omega)) _)
  rw [derivative_X_sub_C_pow]
  exact Dvd.intro_left _ rfl

/-- Truncated power. -/
noncomputable def trunc (i : ℕ) (q : ℝ[X]) : ℕ → ℝ[X] := fun e => if i ≤ e then q else 0

theorem trunc_jump (i : ℕ) (hi : 1 ≤ i) (q : ℝ[X]) (j : ℕ) (hj : 1 ≤ j) : trunc i q j - trunc i q (j - 1) = if j = i then q else 0 := by
  unfold trunc
  by_cases h : j = i
  · subst h; rw [if_pos le_rfl, if_neg (by omega), if_pos rfl, sub_zero]
  · rw [if_neg h]
    by_cases h2 : i ≤ j
    · rw [if_pos h2, if_pos (by omega), sub_self]
    · rw [if_neg h2, if_neg (by omega), sub_self]

private theorem natDegree_pow_le (z : ℝ) (r : ℕ) : ((X - C z) ^ r : ℝ[X]).natDegree ≤ r := by
  rw [natDegree_pow, natDegree_X_sub_C, mul_one]

theorem sp_trunc (z : ℕ → ℝ) (n : ℕ) (k : Kv) (i : ℕ) (hi : 1 ≤ i) (hm : 0 < k.mult i) : Sp z n k (trunc i ((X - C (z i)) ^ (k.deg + 1 - k.mult i))) := by
  refine ⟨fun e _ => ?_, fun j hj _ => ?_⟩
  · unfold trunc; split
    · exact (natDegree_pow_le _ _).trans (by omega)
    · simp
  · rw [trunc_jump i hi _ j hj]
    split
    · next h => subst h; exact dvd_rfl
    · exact dvd_zero _

/-- A polynomial lies in all spaces of its degree. -/
theorem sp_const (z : ℕ → ℝ) (n : ℕ) (k : Kv) (q : ℝ[X]) (hq : q.natDegree ≤ k.deg) : Sp z n k fun _ => q :=
  ⟨fun _ _ => hq, fun _ _ _ => by simp⟩

private theorem pow_le_of_dvd {z : ℝ} {r s : ℕ} {c : ℝ} (hc : c ≠ 0) (h : (X - C z) ^ r ∣ C c * (X - C z) ^ s) : r ≤ s := by
  have h0 : C c * (X - C z) ^ s ≠ 0 := mul_ne_zero (C_ne_zero.2 hc) (pow_ne_zero _ (X_sub_C_ne_zero z))
  have h1 := (le_rootMultiplicity_iff h0).2 h
  rwa [rootMultiplicity_mul h0, rootMultiplicity_C, rootMultiplicity_X_sub_C_pow, zero_add] at h1

theorem pow_le_of_dvd_one {z : ℝ} {r s : ℕ} (h : (X - C z) ^ r ∣ (X - C z) ^ s) : r ≤ s :=
  pow_le_of_dvd (z := z) (c := 1) one_ne_zero (by rwa [map_one, one_mul])

/-- Exactly when a space of the degree the code uses contains all parts of the functions, for continuous plus and minus spaces and gluing data: at every inner point its multiplicity is at least that of the plus and of the minus space plus
the degree of the gluing data, and at least that of the gluing data plus the degree of the minus space. -/
theorem C51_space_iff (z : ℕ → ℝ) (n : ℕ) (kp km kg ke : Kv) (hp : 1 ≤ kp.deg) (hg : 1 ≤ kg.deg) (hm : km.deg = kp.deg - 1) (he : ke.deg = kp.deg + kg.deg - 1)
    (cp : ∀ i, kp.mult i ≤ kp.deg) (cm : ∀ i, km.mult i ≤ km.deg) (cg : ∀ i, kg.mult i ≤ kg.deg) :
    Contains z n kp km kg ke ↔ ∀ i, 1 ≤ i → i < n →
      (0 < kp.mult i → kg.deg + kp.mult i ≤ ke.mult i) ∧ (0 < km.mult i → kg.deg + km.mult i ≤ ke.mult i) ∧ (0 < kg.mult i → kp.deg - 1 + kg.mult i ≤ ke.mult i) := by
  constructor
  · intro h i h1 h2
    refine ⟨fun h0 => ?_, fun h0 => ?_, fun h0 => ?_⟩
    · have h3 := (h.across _ _ (sp_trunc z n kp i h1 h0) (sp_const z n kg 1 (by simp))).jump i h1 h2
      simp only [mul_one] at h3
      rw [← derivative_sub, trunc_jump i h1 _ i h1, if_pos rfl, derivative_X_sub_C_pow] at h3
      have := pow_le_of_dvd (Nat.cast_ne_zero.2 (by have := cp i; omega)) h3
      have := cp i; omega
    · have h3 := (h.normal _ _ (sp_const z n kg 1 (by simp)) (sp_trunc z n km i h1 h0)).jump i h1 h2
      simp only [one_mul] at h3
      rw [trunc_jump i h1 _ i h1, if_pos rfl] at h3
      have := pow_le_of_dvd_one h3
      have := cm i; omega
    · have h3 := (h.normal _ _ (sp_trunc z n kg i h1 h0) (sp_const z n km 1 (by simp))).jump i h1 h2
      simp only [mul_one] at h3
      rw [trunc_jump i h1 _ i h1, if_pos rfl] at h3
      have := pow_le_of_dvd_one h3
      have := cg i; omega
  · intro h
    have nul : ∀ {k : Kv} {f : ℕ → ℝ[X]}, Sp z n k f → ∀ i, 1 ≤ i → i < n → k.mult i = 0 → f i - f (i - 1) = 0 := by
      intro k f hf i h1 h2 h0
      have hd := hf.jump i h1 h2
      rw [h0] at hd
      by_contra hne
      have := natDegree_le_of_dvd hd hne
      rw [natDegree_pow, natDegree_X_sub_C, mul_one] at this
      have h3 := natDegree_sub_le (f i) (f (i - 1))
      have := hf.deg i h2
      have := hf.deg (i - 1) (by omega)
      omega
    have jp : ∀ {k : Kv} {f : ℕ → ℝ[X]}, Sp z n k f → ∀ i, 1 ≤ i → i < n → ∀ s, (0 < k.mult i → s ≤ k.deg + 1 - k.mult i) → (X - C (z i)) ^ s ∣ f i - f (i - 1) := by
      intro k f hf i h1 h2 s hs
      by_cases h0 : k.mult i = 0
      · rw [nul hf i h1 h2 h0]; exact dvd_zero _
      · exact (pow_dvd_pow _ (hs (by omega))).trans (hf.jump i h1 h2)
    have jd : ∀ {f : ℕ → ℝ[X]}, Sp z n kp f → ∀ i, 1 ≤ i → i < n → ∀ s, (0 < kp.mult i → s ≤ kp.deg - kp.mult i) → (X - C (z i)) ^ s ∣ derivative (f i) - derivative (f (i - 1)) := by
      intro f hf i h1 h2 s hs
      rw [← derivative_sub]
      by_cases h0 : kp.mult i = 0
      · rw [nul hf i h1 h2 h0, derivative_zero]; exact dvd_zero _
      · refine (pow_dvd_pow _ ?_).trans (dvd_deriv (hf.jump i h1 h2))
        have := hs (by omega); have := cp i; omega
    constructor
    · intro f hf
      refine ⟨fun e h2 => (hf.deg e h2).trans (by omega), fun i h1 h2 => jp hf i h1 h2 _ fun h0 => ?_⟩
      have := (h i h1 h2).1 h0; have := cp i; omega
    · intro f b hf hb
      refine ⟨fun e h2 => natDegree_mul_le.trans ?_, fun i h1 h2 => dvd_mul_sub (jd hf i h1 h2 _ fun h0 => ?_) (jp hb i h1 h2 _ fun h0 => ?_)⟩
      · have := natDegree_derivative_le (f e); have := hf.deg e h2; have := hb.deg e h2; omega
      · have := (h i h1 h2).1 h0; have := cp i; omega
      · have := (h i h1 h2).2.2 h0; have := cg i; omega
    · intro a g ha hg'
      refine ⟨fun e h2 => natDegree_mul_le.trans ?_, fun i h1 h2 => dvd_mul_sub (jp ha i h1 h2 _ fun h0 => ?_) (jp hg' i h1 h2 _ fun h0 => ?_)⟩
      · have := ha.deg e h2; have := hg'.deg e h2; omega
      · have := (h i h1 h2).2.2 h0; have := cg i; omega
      · have := (h i h1 h2).2.1 h0; have := cm i; omega

/-- Splines that have no jumps where there are no knots. -/
private theorem jump_zero {z : ℕ → ℝ} {n : ℕ} {k : Kv} {f : ℕ → ℝ[X]} (hf : Sp z n k f) (i : ℕ) (h1 : 1 ≤ i) (h2 : i < n) (h0 : k.mult i = 0) : f i - f (i - 1) = 0 := by
  have hd := hf.jump i h1 h2
  rw [h0] at hd
  by_contra hne
  have := natDegree_le_of_dvd hd hne
  rw [natDegree_pow, natDegree_X_sub_C, mul_one] at this
  have h3 := natDegree_sub_le (f i) (f (i - 1))
  have := hf.deg i h2
  have := hf.deg (i - 1) (by omega)
  omega

private theorem sp_mono {z : ℕ → ℝ} {n : ℕ} {k k' : Kv} {f : ℕ → ℝ[X]} (hf : Sp z n k f) (hd : k.deg ≤ k'.deg)
    (hm : ∀ i, 1 ≤ i → i < n → 0 < k.mult i → k'.deg + 1 - k'.mult i ≤ k.deg + 1 - k.mult i) : Sp z n k' f := by
  refine ⟨fun e he => (hf.deg e he).trans hd, fun i h1 h2 => ?_⟩
  by_cases h0 : k.mult i = 0
  · rw [jump_zero hf i h1 h2 h0]; exact dvd_zero _
  · exact (pow_dvd_pow _ (hm i h1 h2 (by omega))).trans (hf.jump i h1 h2)

/-! ## The spaces of the code -/

/-- The geometry has no inner knots (one element). -/
def NoGeo (n : ℕ) (geo : Kv) : Prop := ∀ i, 1 ≤ i → i < n → geo.mult i = 0

private theorem mem_inner {n i : ℕ} : i ∈ inner n ↔ 1 ≤ i ∧ i < n := by
  unfold inner; rw [List.mem_range'_1]; omega

theorem geoKnots_nil {n : ℕ} {geo : Kv} (h : NoGeo n geo) : geoKnots n geo = [] := by
  unfold geoKnots
  rw [List.filter_eq_nil_iff]
  intro i hi
  rw [mem_inner] at hi
  simp [h i hi.1 hi.2]

theorem fix_nil {n : ℕ} {geo : Kv} (h : NoGeo n geo) (off : ℤ) (zero : Bool) (k : Kv) : fix n off zero geo k = some k := by
  unfold fix; rw [geoKnots_nil h]; rfl

/-- `i` is the first inner knot. -/
def First (n : ℕ) (k : Kv) (i : ℕ) : Prop := 1 ≤ i ∧ i < n ∧ 0 < k.mult i ∧ ∀ j, 1 ≤ j → j < i → k.mult j = 0

theorem firstMult_some {n : ℕ} {k : Kv} {i : ℕ} (h : First n k i) : firstMult n k = k.mult i := by
  have : (inner n).find? (fun i => decide (0 < k.mult i)) = some i := by
    unfold inner
    rw [List.find?_range'_eq_some]
    refine ⟨by simpa using h.2.2.1, by rw [List.mem_range'_1]; have := h.1; have := h.2.1; omega, fun j h1 h2 => by simp [h.2.2.2 j h1 h2]⟩
  unfold firstMult; rw [this]

theorem firstMult_none {n : ℕ} {k : Kv} (h : ∀ i, 1 ≤ i → i < n → k.mult i = 0) : firstMult n k = k.deg + 1 := by
  have : (inner n).find? (fun i => decide (0 < k.mult i)) = none := by
    rw [List.find?_eq_none]
    intro i hi; rw [mem_inner] at hi
    simp [h i hi.1 hi.2]
  unfold firstMult; rw [this]

theorem first_or (n : ℕ) (k : Kv) : (∀ i, 1 ≤ i → i < n → k.mult i = 0) ∨ ∃ i, First n k i := by
  by_cases h : ∀ i, 1 ≤ i → i < n → k.mult i = 0
  · exact Or.inl h
  right
  push Not at h
  classical
  obtain ⟨h1, h2, h3⟩ := Nat.find_spec h
  refine ⟨Nat.find h, h1, h2, by omega, fun j hj hj2 => ?_⟩
  by_contra h0
  exact Nat.find_min h hj2 ⟨hj, by omega, h0⟩

/-- Number by which the smoothness of the plus and minus spaces is raised: one, unless the basis is as smooth as possible. -/
def raise (n : ℕ) (basis : Kv) : ℕ := if firstMult n basis = 1 then 0 else 1

/-- The spaces when the geometry has no inner knots. -/
theorem C51_plus_minus {n : ℕ} {geo basis : Kv} (h : NoGeo n geo) :
    plus n geo basis = some ⟨basis.deg, fun i => basis.mult i - raise n basis⟩ ∧ minus n geo basis = some ⟨basis.deg - 1, fun i => basis.mult i - raise n basis⟩ := by
  unfold plus minus raise
  simp only [fix_nil h]
  by_cases h1 : firstMult n basis = 1
  · simp [h1]
  · simp [h1, elevate]

theorem gluing_nil {n : ℕ} {geo basis : Kv} (h : NoGeo n geo) (pt rt : ℤ) : gluing n geo basis pt rt = some (gluing0 basis pt rt) := by
  unfold gluing; rw [geoKnots_nil h]; rfl

/-- The options for the gluing data make sense: degree `p` at least one, smoothness `r` between zero and `p - 1`. -/
def Options (basis : Kv) (pt rt : ℤ) (p r : ℕ) : Prop := gdDegree basis pt = p ∧ gdSmooth basis pt rt = r ∧ r < p

/-- With the default options (`-1`) the gluing data have degree `p - 1` and are as smooth as possible. -/
theorem C51_default (basis : Kv) (h : 2 ≤ basis.deg) : Options basis (-1) (-1) (basis.deg - 1) (basis.deg - 2) := by
  unfold Options gdSmooth gdDegree
  simp only [if_true]
  omega

private theorem setReg_mult {n : ℕ} {k : Kv} {i0 : ℕ} (h0 : First n k i0) (r : ℤ) (hr : r < k.deg) (i : ℕ) :
    (setReg n r k).mult i = if k.mult i = 0 then 0 else ((k.deg : ℤ) - r - k.mult i0 + k.mult i).toNat := by
  have hreg : reg n k = (k.deg : ℤ) - k.mult i0 := by unfold reg; rw [firstMult_some h0]
  unfold setReg
  rw [hreg]
  split
  · simp only [reduce]
    split
    · rfl
    · omega
  · split
    · simp only [elevate]
      split
      · omega
      · omega
    · split
      · assumption
      · omega

theorem iface_eq {n : ℕ} {geo basis : Kv} (h : NoGeo n geo) (pt rt : ℤ) :
    interfaceSpaces n geo basis pt rt = some (⟨basis.deg, fun i => basis.mult i - raise n basis⟩, ⟨basis.deg - 1, fun i => basis.mult i - raise n basis⟩, gluing0 basis pt rt,
      setReg n (min (reg n (gluing0 basis pt rt)) (min (reg n ⟨basis.deg, fun i => basis.mult i - raise n basis⟩ - 1) (reg n ⟨basis.deg - 1, fun i => basis.mult i - raise n basis⟩)))
        ⟨basis.deg + (gluing0 basis pt rt).deg - 1, basis.mult⟩) := by
  unfold interfaceSpaces
  rw [(C51_plus_minus h).1, (C51_plus_minus h).2, gluing_nil h]
  simp only [edge, fix_nil h, Option.bind_eq_bind, Option.bind_some, Option.pure_def]

/-- The space of an interface, for any multiplicities of the basis: if the first inner knot has multiplicity `m0`, all multiplicities go up by the same number, such that it gets the one it needs. -/
theorem C51_edge_mult {n : ℕ} {geo basis : Kv} (h : NoGeo n geo) {pt rt : ℤ} {p r : ℕ} (ho : Options basis pt rt p r) (hd : 1 ≤ basis.deg) {i0 : ℕ}
    (h1 : 1 ≤ i0) (h2 : i0 < n) (h3 : 0 < basis.mult i0) (h4 : ∀ j, 1 ≤ j → j < i0 → basis.mult j = 0) :
    ∃ ke, interfaceSpaces n geo basis pt rt = some (⟨basis.deg, fun i => basis.mult i - raise n basis⟩, ⟨basis.deg - 1, fun i => basis.mult i - raise n basis⟩, gluing0 basis pt rt, ke) ∧
      ke.deg = basis.deg + p - 1 ∧ ∀ i, ke.mult i = if basis.mult i = 0 then 0 else
        max (basis.deg - 1 + (p - r)) (p + (basis.mult i0 - raise n basis)) + basis.mult i - basis.mult i0 := by
  have h0 : First n basis i0 := ⟨h1, h2, h3, h4⟩
  obtain ⟨ho1, ho2, ho3⟩ := ho
  have hr : raise n basis < basis.mult i0 := by
    unfold raise; rw [firstMult_some h0]; split <;> omega
  have fp : ∀ d, First n ⟨d, fun i => basis.mult i - raise n basis⟩ i0 := fun d => ⟨h1, h2, by simp only; omega, fun j a b => by simp only; rw [h4 j a b]; omega⟩
  have gm : (gluing0 basis pt rt).mult i0 = p - r := by
    unfold gluing0; simp only [ho1, ho2]; rw [if_neg (by omega)]; omega
  have gd : (gluing0 basis pt rt).deg = p := by unfold gluing0; simp only [ho1]; omega
  have fg : First n (gluing0 basis pt rt) i0 := by
    refine ⟨h1, h2, by omega, fun j a b => ?_⟩
    unfold gluing0; simp only; rw [if_pos (h4 j a b)]
  have rp : ∀ d, reg n ⟨d, fun i => basis.mult i - raise n basis⟩ = (d : ℤ) - (basis.mult i0 - raise n basis : ℕ) := fun d => by unfold reg; rw [firstMult_some (fp d)]
  have rg : reg n (gluing0 basis pt rt) = (p : ℤ) - (p - r : ℕ) := by unfold reg; rw [firstMult_some fg, gm, gd]
  refine ⟨_, iface_eq h pt rt, ?_⟩
  · have f0 : First n ⟨basis.deg + (gluing0 basis pt rt).deg - 1, basis.mult⟩ i0 := h0
    rw [rg, rp, rp]
    constructor
    · unfold setReg; split
      · simp only [reduce]; omega
      · split <;> simp only [elevate] <;> omega
    · intro i
      rw [setReg_mult f0]
      · simp only
        by_cases hi : basis.mult i = 0
        · rw [if_pos hi, if_pos hi]
        · rw [if_neg hi, if_neg hi, gd]
          omega
      · simp only [gd]; omega

theorem setReg_deg (n : ℕ) (r : ℤ) (k : Kv) : (setReg n r k).deg = k.deg := by
  unfold setReg; split
  · rfl
  · split <;> rfl

/-- `C51_edge_iff`. Exactly when the space of an interface contains the parts of its functions, for a geometry without inner knots and any C1 basis with any multiplicities: the multiplicity of a knot is not less than that of the
first inner knot, or it is enough for the gluing data. -/
theorem C51_edge_iff (z : ℕ → ℝ) {n : ℕ} {geo basis kp km kg ke : Kv} (h : NoGeo n geo) {pt rt : ℤ} {p r : ℕ} (ho : Options basis pt rt p r) (hd : 2 ≤ basis.deg)
    (hm : ∀ i, basis.mult i ≤ basis.deg - 1) (hs : interfaceSpaces n geo basis pt rt = some (kp, km, kg, ke)) :
    Contains z n kp km kg ke ↔ ∀ i, 1 ≤ i → i < n → 0 < basis.mult i → firstMult n basis ≤ basis.mult i ∨ basis.deg - 1 - r ≤ basis.mult i - raise n basis := by
  have gd : (gluing0 basis pt rt).deg = p := by have := ho.1; unfold gluing0; simp only [this]; omega
  have gm : ∀ i, (gluing0 basis pt rt).mult i = if basis.mult i = 0 then 0 else p - r := by
    intro i; unfold gluing0; simp only [ho.1, ho.2.1]; split
    · rfl
    · omega
  have hpr := ho.2.2
  have cg : ∀ i, (gluing0 basis pt rt).mult i ≤ (gluing0 basis pt rt).deg := fun i => by rw [gm, gd]; split <;> omega
  rcases first_or n basis with h0 | ⟨i0, h0⟩
  · rw [iface_eq h] at hs
    cases hs
    rw [C51_space_iff]
    · constructor
      · intro _ i h1 h2 h3; rw [h0 i h1 h2] at h3; omega
      · intro _ i h1 h2; simp only [gm, h0 i h1 h2]; simp
    · simp only; omega
    · rw [gd]; omega
    · rfl
    · rw [setReg_deg]
    · intro i; simp only; have := hm i; omega
    · intro i; simp only; have := hm i; omega
    · exact cg
  · obtain ⟨ke', hk, hkd, hkm⟩ := C51_edge_mult h ho (by omega) h0.1 h0.2.1 h0.2.2.1 h0.2.2.2
    rw [hk] at hs
    cases hs
    rw [firstMult_some h0]
    have hr : raise n basis < basis.mult i0 := by
      have := h0.2.2.1
      unfold raise; rw [firstMult_some h0]; split <;> omega
    rw [C51_space_iff]
    · refine forall_congr' fun i => forall_congr' fun h1 => forall_congr' fun h2 => ?_
      rw [gm, hkm, gd]
      simp only
      by_cases hi : basis.mult i = 0
      · simp [hi]
      · rw [if_neg hi, if_neg hi]
        have hr1 : raise n basis ≤ 1 := by unfold raise; split <;> omega
        constructor
        · intro h5 _; have := h5.2.2 (by omega); omega
        · intro h5; have := h5 (by omega); refine ⟨fun _ => ?_, fun _ => ?_, fun _ => ?_⟩ <;> omega
    · simp only; omega
    · rw [gd]; omega
    · rfl
    · rw [hkd, gd]
    · intro i; simp only; have := hm i; omega
    · intro i; simp only; have := hm i; omega
    · exact cg

/-- `C51_edge`. If all inner knots of the basis have the same multiplicity, the space of the interface contains the parts of its functions, for every degree, number of elements, and all options for the gluing data. -/
theorem C51_edge (z : ℕ → ℝ) {n : ℕ} {geo basis : Kv} (h : NoGeo n geo) {pt rt : ℤ} {p r : ℕ} (ho : Options basis pt rt p r) (hd : 2 ≤ basis.deg)
    {m : ℕ} (hm : m ≤ basis.deg - 1) (hu : ∀ i, basis.mult i = 0 ∨ basis.mult i = m) :
    ∃ kp km kg ke, interfaceSpaces n geo basis pt rt = some (kp, km, kg, ke) ∧ Contains z n kp km kg ke := by
  refine ⟨_, _, _, _, iface_eq h pt rt, ?_⟩
  refine (C51_edge_iff z h ho hd (fun i => by rcases hu i with h | h <;> omega) (iface_eq h pt rt)).2 fun i h1 h2 h3 => Or.inl ?_
  rcases first_or n basis with h0 | ⟨i0, h0⟩
  · rw [h0 i h1 h2] at h3; omega
  · rw [firstMult_some h0]
    have := h0.2.2.1
    rcases hu i with h | h <;> rcases hu i0 with h' | h' <;> omega

/-- `C51_edge_small`. The space is not larger than needed: every other space of this degree that contains the parts of the functions has at least the same multiplicities. -/
theorem C51_edge_small (z : ℕ → ℝ) {n : ℕ} {geo basis kp km kg ke : Kv} (h : NoGeo n geo) {pt rt : ℤ} {p r : ℕ} (ho : Options basis pt rt p r) (hd : 2 ≤ basis.deg)
    {m : ℕ} (hm : m ≤ basis.deg - 1) (hu : ∀ i, basis.mult i = 0 ∨ basis.mult i = m) (hs : interfaceSpaces n geo basis pt rt = some (kp, km, kg, ke))
    {k : Kv} (hk : k.deg = ke.deg) (hc : Contains z n kp km kg k) : ∀ i, 1 ≤ i → i < n → ke.mult i ≤ k.mult i := by
  intro i h1 h2
  have gd : (gluing0 basis pt rt).deg = p := by have := ho.1; unfold gluing0; simp only [this]; omega
  have gm : ∀ i, (gluing0 basis pt rt).mult i = if basis.mult i = 0 then 0 else p - r := by
    intro i; unfold gluing0; simp only [ho.1, ho.2.1]; split
    · rfl
    · omega
  have hpr := ho.2.2
  rcases first_or n basis with h0 | ⟨i0, h0⟩
  · rw [iface_eq h] at hs
    cases hs
    have : ∀ r', (setReg n r' ⟨basis.deg + (gluing0 basis pt rt).deg - 1, basis.mult⟩).mult i = 0 := by
      intro r'; unfold setReg; split
      · simp [reduce, h0 i h1 h2]
      · split <;> simp [elevate, h0 i h1 h2]
    rw [this]; omega
  · obtain ⟨ke', hk', hkd, hkm⟩ := C51_edge_mult h ho (by omega) h0.1 h0.2.1 h0.2.2.1 h0.2.2.2
    rw [hk'] at hs
    cases hs
    have hr : raise n basis < basis.mult i0 := by
      have := h0.2.2.1
      unfold raise; rw [firstMult_some h0]; split <;> omega
    have cm : ∀ i, basis.mult i ≤ basis.deg - 1 := fun i => by rcases hu i with h | h <;> omega
    have hc' := (C51_space_iff z n _ _ _ k (by simp only; omega) (by rw [gd]; omega) rfl (by rw [hk, hkd, gd]) (fun i => by simp only; have := cm i; omega) (fun i => by simp only; have := cm i; omega)
      (fun i => by rw [gm, gd]; split <;> omega)).1 hc i h1 h2
    rw [hkm]
    rw [gm, gd] at hc'
    simp only at hc'
    by_cases hi : basis.mult i = 0
    · rw [if_pos hi]; omega
    · rw [if_neg hi] at hc' ⊢
      have e : basis.mult i = basis.mult i0 := by rcases hu i with h | h <;> rcases hu i0 with h' | h' <;> omega
      rw [← e] at hr ⊢
      have := hc'.1 (by omega)
      have := hc'.2.2 (by omega)
      omega

/-- `C51_boundary`. Boundary edges: the space contains the traces and the derivatives, for all multiplicities. -/
theorem C51_boundary (z : ℕ → ℝ) {n : ℕ} {geo basis : Kv} (h : NoGeo n geo) (hd : 2 ≤ basis.deg) (hm : ∀ i, basis.mult i ≤ basis.deg - 1) :
    ∃ kp km ke, plus n geo basis = some kp ∧ minus n geo basis = some km ∧ edgeBdy n geo basis kp km = some ke ∧ (∀ f, Sp z n kp f → Sp z n ke f) ∧ ∀ g, Sp z n km g → Sp z n ke g := by
  refine ⟨_, _, _, (C51_plus_minus h).1, (C51_plus_minus h).2, by unfold edgeBdy; rw [fix_nil h], ?_, ?_⟩
  all_goals
    intro f hf
    have hr1 : raise n basis ≤ 1 := by unfold raise; split <;> omega
    rcases first_or n basis with h0 | ⟨i0, h0⟩
    · refine sp_mono hf (by rw [setReg_deg]; all_goals simp only; all_goals omega) fun i h1 h2 h3 => ?_
      simp only at h3; rw [h0 i h1 h2] at h3; omega
    · have hr : raise n basis < basis.mult i0 := by
        have := h0.2.2.1
        unfold raise; rw [firstMult_some h0]; split <;> omega
      have fp : ∀ d, First n ⟨d, fun i => basis.mult i - raise n basis⟩ i0 := fun d => ⟨h0.1, h0.2.1, by simp only; omega, fun j a b => by simp only; rw [h0.2.2.2 j a b]; omega⟩
      have rp : ∀ d, reg n ⟨d, fun i => basis.mult i - raise n basis⟩ = (d : ℤ) - (basis.mult i0 - raise n basis : ℕ) := fun d => by unfold reg; rw [firstMult_some (fp d)]
      have f0 : First n ⟨basis.deg, basis.mult⟩ i0 := h0
      refine sp_mono hf (by rw [setReg_deg]; all_goals simp only; all_goals omega) fun i h1 h2 h3 => ?_
      simp only at h3 ⊢
      rw [setReg_deg, rp, rp, setReg_mult f0 _ (by simp only; omega)]
      simp only
      rw [if_neg (by omega)]
      have := hm i
      omega

/-- The functions of the space of a boundary edge are continuous. -/
theorem C51_boundary_mult {n : ℕ} {geo basis kp km ke : Kv} (h : NoGeo n geo) (hd : 2 ≤ basis.deg) (hm : ∀ i, basis.mult i ≤ basis.deg - 1) (hp : plus n geo basis = some kp) (hn : minus n geo basis = some km)
    (he : edgeBdy n geo basis kp km = some ke) : ∀ i, 1 ≤ i → i < n → ke.mult i ≤ ke.deg := by
  obtain rfl := Option.some.inj ((C51_plus_minus h).1.symm.trans hp)
  obtain rfl := Option.some.inj ((C51_plus_minus h).2.symm.trans hn)
  unfold edgeBdy at he
  rw [fix_nil h] at he
  obtain rfl := Option.some.inj he
  intro i h1 h2
  have hr1 : raise n basis ≤ 1 := by unfold raise; split <;> omega
  rw [setReg_deg]
  rcases first_or n basis with h0 | ⟨i0, h0⟩
  · unfold setReg
    split
    · simp [reduce, h0 i h1 h2]
    · split
      · simp [elevate, h0 i h1 h2]
      · simp [h0 i h1 h2]
  · have hr : raise n basis < basis.mult i0 ∧ (raise n basis = 0 → basis.mult i0 = 1) := by
      have := h0.2.2.1
      unfold raise; rw [firstMult_some h0]; split <;> omega
    have fp : ∀ d, First n ⟨d, fun i => basis.mult i - raise n basis⟩ i0 := fun d => ⟨h0.1, h0.2.1, by simp only; omega, fun j a b => by simp only; rw [h0.2.2.2 j a b]; omega⟩
    have rp : ∀ d, reg n ⟨d, fun i => basis.mult i - raise n basis⟩ = (d : ℤ) - (basis.mult i0 - raise n basis : ℕ) := fun d => by unfold reg; rw [firstMult_some (fp d)]
    have f0 : First n ⟨basis.deg, basis.mult⟩ i0 := h0
    rw [rp, rp, setReg_mult f0 _ (by simp only; omega)]
    simp only
    have := hm i
    have := hm i0
    split <;> omega

/-- The functions of the space of an interface are continuous, for equal multiplicities. -/
theorem C51_edge_cont {n : ℕ} {geo basis kp km kg ke : Kv} (h : NoGeo n geo) {pt rt : ℤ} {p r : ℕ} (ho : Options basis pt rt p r) (hd : 2 ≤ basis.deg)
    {m : ℕ} (hm : m ≤ basis.deg - 1) (hu : ∀ i, basis.mult i = 0 ∨ basis.mult i = m) (hs : interfaceSpaces n geo basis pt rt = some (kp, km, kg, ke)) : ∀ i, 1 ≤ i → i < n → ke.mult i ≤ ke.deg := by
  intro i h1 h2
  have hpr := ho.2.2
  rcases first_or n basis with h0 | ⟨i0, h0⟩
  · rw [iface_eq h] at hs
    cases hs
    have : ∀ r', (setReg n r' ⟨basis.deg + (gluing0 basis pt rt).deg - 1, basis.mult⟩).mult i = 0 := by
      intro r'; unfold setReg; split
      · simp [reduce, h0 i h1 h2]
      · split <;> simp [elevate, h0 i h1 h2]
    rw [this]; omega
  · obtain ⟨ke', hk', hkd, hkm⟩ := C51_edge_mult h ho (by omega) h0.1 h0.2.1 h0.2.2.1 h0.2.2.2
    rw [hk'] at hs
    cases hs
    rw [hkd, hkm]
    have := h0.2.2.1
    have e : basis.mult i = 0 ∨ basis.mult i = basis.mult i0 := by rcases hu i with h | h <;> rcases hu i0 with h' | h' <;> omega
    have : basis.mult i0 ≤ basis.deg - 1 := by rcases hu i0 with h' | h' <;> omega
    split <;> omega

/-- `C51_vertex_iface`. Vertices, direction along an interface: if all inner knots have the same multiplicity, the space contains the parts of the functions and the functions of the basis itself. Its functions are continuous. -/
theorem C51_vertex_iface (z : ℕ → ℝ) {n : ℕ} {geo basis : Kv} (h : NoGeo n geo) {pt rt : ℤ} {p r : ℕ} (ho : Options basis pt rt p r) (hd : 2 ≤ basis.deg)
    {m : ℕ} (hm : m ≤ basis.deg - 1) (hu : ∀ i, basis.mult i = 0 ∨ basis.mult i = m) :
    ∃ kp km kg ke, plus n geo basis = some kp ∧ minus n geo basis = some km ∧ gluing n geo basis pt rt = some kg ∧ vertexIface n geo basis pt rt = some ke ∧
      Contains z n kp km kg ke ∧ (∀ f, Sp z n basis f → Sp z n ke f) ∧ ∀ i, 1 ≤ i → i < n → ke.mult i ≤ ke.deg := by
  have gd : (gluing0 basis pt rt).deg = p := by have := ho.1; unfold gluing0; simp only [this]; omega
  have gm : ∀ i, (gluing0 basis pt rt).mult i = if basis.mult i = 0 then 0 else p - r := by
    intro i; unfold gluing0; simp only [ho.1, ho.2.1]; split
    · rfl
    · omega
  have hpr := ho.2.2
  have cg : ∀ i, (gluing0 basis pt rt).mult i ≤ (gluing0 basis pt rt).deg := fun i => by rw [gm, gd]; split <;> omega
  have cm : ∀ i, basis.mult i ≤ basis.deg - 1 := fun i => by rcases hu i with h | h <;> omega
  have hv : vertexIface n geo basis pt rt = some (setReg n (min (reg n (gluing0 basis pt rt)) (min (reg n ⟨basis.deg, fun i => basis.mult i - raise n basis⟩) (reg n ⟨basis.deg - 1, fun i => basis.mult i - raise n basis⟩)))
        ⟨basis.deg + (gluing0 basis pt rt).deg - 1, basis.mult⟩) := by
    unfold vertexIface
    rw [(C51_plus_minus h).1, (C51_plus_minus h).2, gluing_nil h]
    simp only [fix_nil h, Option.bind_eq_bind, Option.bind_some]
  refine ⟨_, _, _, _, (C51_plus_minus h).1, (C51_plus_minus h).2, gluing_nil h pt rt, hv, ?_⟩
  rcases first_or n basis with h0 | ⟨i0, h0⟩
  · constructor
    · rw [C51_space_iff]
      · intro i h1 h2; simp only [gm, h0 i h1 h2]; simp
      · simp only; omega
      · rw [gd]; omega
      · rfl
      · rw [setReg_deg]
      · intro i; simp only; have := cm i; omega
      · intro i; simp only; have := cm i; omega
      · exact cg
    · refine ⟨fun f hf => sp_mono hf (by rw [setReg_deg]; simp only; omega) fun i h1 h2 h3 => ?_, fun i h1 h2 => ?_⟩
      · rw [h0 i h1 h2] at h3; omega
      · unfold setReg
        split
        · simp [reduce, h0 i h1 h2]
        · split
          · simp [elevate, h0 i h1 h2]
          · simp [h0 i h1 h2]
  · have hr : raise n basis < basis.mult i0 := by
      have := h0.2.2.1
      unfold raise; rw [firstMult_some h0]; split <;> omega
    have hr1 : raise n basis ≤ 1 := by unfold raise; split <;> omega
    have fp : ∀ d, First n ⟨d, fun i => basis.mult i - raise n basis⟩ i0 := fun d => ⟨h0.1, h0.2.1, by simp only; omega, fun j a b => by simp only; rw [h0.2.2.2 j a b]; omega⟩
    have rp : ∀ d, reg n ⟨d, fun i => basis.mult i - raise n basis⟩ = (d : ℤ) - (basis.mult i0 - raise n basis : ℕ) := fun d => by unfold reg; rw [firstMult_some (fp d)]
    have fg : First n (gluing0 basis pt rt) i0 := by
      have := h0.2.2.1
      refine ⟨h0.1, h0.2.1, by rw [gm, if_neg (by omega)]; omega, fun j a b => ?_⟩
      rw [gm, if_pos (h0.2.2.2 j a b)]
    have rg : reg n (gluing0 basis pt rt) = (p : ℤ) - (p - r : ℕ) := by
      have := h0.2.2.1
      unfold reg; rw [firstMult_some fg, gm, gd, if_neg (by omega)]
    have f0 : First n ⟨basis.deg + (gluing0 basis pt rt).deg - 1, basis.mult⟩ i0 := h0
    have e : ∀ i, basis.mult i ≠ 0 → basis.mult i = basis.mult i0 := fun i hi => by
      have := h0.2.2.1
      rcases hu i with h | h <;> rcases hu i0 with h' | h' <;> omega
    have km : ∀ i, (setReg n (min (reg n (gluing0 basis pt rt)) (min (reg n ⟨basis.deg, fun i => basis.mult i - raise n basis⟩) (reg n ⟨basis.deg - 1, fun i => basis.mult i - raise n basis⟩)))
        ⟨basis.deg + (gluing0 basis pt rt).deg - 1, basis.mult⟩).mult i = if basis.mult i = 0 then 0 else max (basis.deg - 1 + (p - r)) (p + (basis.mult i0 - raise n basis)) := by
      intro i
      have := cm i0
      rw [rg, rp, rp, setReg_mult f0 _ (by simp only [gd]; omega)]
      simp only
      by_cases hi : basis.mult i = 0
      · rw [if_pos hi, if_pos hi]
      · rw [if_neg hi, if_neg hi, gd, e i hi]
        omega
    constructor
    · rw [C51_space_iff]
      · intro i h1 h2
        rw [gm, km, gd]
        simp only
        by_cases hi : basis.mult i = 0
        · simp [hi]
        · rw [if_neg hi, if_neg hi, e i hi]
          refine ⟨fun _ => ?_, fun _ => ?_, fun _ => ?_⟩ <;> omega
      · simp only; omega
      · rw [gd]; omega
      · rfl
      · rw [setReg_deg]
      · intro i; simp only; have := cm i; omega
      · intro i; simp only; have := cm i; omega
      · exact cg
    · refine ⟨fun f hf => sp_mono hf (by rw [setReg_deg]; simp only; omega) fun i h1 h2 h3 => ?_, fun i h1 h2 => ?_⟩
      · rw [setReg_deg, km, if_neg (by omega), e i (by omega)]
        simp only [gd]
        have := cm i0
        omega
      · rw [setReg_deg, km]
        simp only [gd]
        have := cm i0
        split <;> omega

/-- `C51_vertex_boundary`. Vertices, direction along the boundary, for all multiplicities. -/
theorem C51_vertex_boundary (z : ℕ → ℝ) {n : ℕ} {geo basis : Kv} (h : NoGeo n geo) (hd : 2 ≤ basis.deg) (hm : ∀ i, basis.mult i ≤ basis.deg - 1) :
    ∃ kp km ke, plus n geo basis = some kp ∧ minus n geo basis = some km ∧ vertexBdy n geo basis = some ke ∧
      (∀ f, Sp z n kp f → Sp z n ke f) ∧ (∀ g, Sp z n km g → Sp z n ke g) ∧ (∀ f, Sp z n basis f → Sp z n ke f) ∧ ∀ i, 1 ≤ i → i < n → ke.mult i ≤ ke.deg := by
  have hk : vertexBdy n geo basis = some ⟨basis.deg, fun i => if basis.mult i = 0 then 0 else basis.mult i + (1 - raise n basis)⟩ := by
    unfold vertexBdy
    rw [fix_nil h]
    unfold reg raise
    by_cases h1 : firstMult n basis = 1
    · rw [if_pos (by omega), if_pos h1]; rfl
    · rw [if_neg (by omega), if_neg h1]
      congr 1
      show (⟨_, _⟩ : Kv) = _
      congr 1
      funext i
      split <;> omega
  have hr1 : raise n basis ≤ 1 := by unfold raise; split <;> omega
  refine ⟨_, _, _, (C51_plus_minus h).1, (C51_plus_minus h).2, hk, ?_, ?_, ?_, fun i _ _ => by simp only; have := hm i; split <;> omega⟩
  all_goals
    intro f hf
    refine sp_mono hf (by simp only; omega) fun i h1 h2 h3 => ?_
    simp only at h3 ⊢
    rw [if_neg (by omega)]
    have := hm i
    omega

/-! ## Geometries with inner knots -/

private theorem uFind_self {k : Kv} {i : ℕ} (h1 : 1 ≤ i) (h : 0 < k.mult i) : uFind k i = i := by
  unfold uFind
  obtain ⟨i, rfl⟩ : ∃ j, i = j + 1 := ⟨i - 1, by omega⟩
  rw [List.range'_concat, List.filter_append, List.filter_singleton]
  have : decide (0 < k.mult (1 + 1 * i)) = true := by rw [show 1 + 1 * i = i + 1 by omega]; simpa using h
  rw [this]
  simp; omega

private theorem fixTurn_eq {geo k : Kv} {i : ℕ} (h1 : 1 ≤ i) (hk : 0 < k.mult i) (hg : geo.mult i ≤ geo.deg) (hlt : geo.deg - geo.mult i < k.deg) :
    fixTurn 0 false geo k i = some ⟨k.deg, fun j => if j = i then k.deg - (geo.deg - geo.mult i) else k.mult j⟩ := by
  unfold fixTurn
  simp only [uFind_self h1 hk, if_neg (by omega : ¬ i = 0)]
  split
  · unfold insert
    congr 2
    funext j
    split
    · next h2 h3 => subst h3; omega
    · rfl
  · split
    · unfold remove
      rw [if_neg (by omega)]
      congr 2
      funext j
      split
      · next h2 h3 => subst h3; omega
      · rfl
    · simp only [Bool.false_and, Bool.false_eq_true, if_false]
      congr 1
      show (⟨k.deg, k.mult⟩ : Kv) = _
      congr 1
      funext j
      split
      · next h2 h3 => subst h3; omega
      · rfl

private theorem fix_list {geo : Kv} (l : List ℕ) (hn : l.Nodup) (h1 : ∀ i ∈ l, 1 ≤ i) : ∀ k : Kv, (∀ i ∈ l, 0 < k.mult i ∧ geo.mult i ≤ geo.deg ∧ geo.deg - geo.mult i < k.deg) →
    l.foldlM (fixTurn 0 false geo) k = some ⟨k.deg, fun j => if j ∈ l then k.deg - (geo.deg - geo.mult j) else k.mult j⟩ := by
  induction l with
  | nil => intro k _; rfl
  | cons i l ih =>
    intro k h
    obtain ⟨a, b, c⟩ := h i List.mem_cons_self
    rw [List.foldlM_cons, fixTurn_eq (h1 i List.mem_cons_self) a b c]
    simp only [Option.bind_eq_bind, Option.bind_some]
    rw [List.nodup_cons] at hn
    rw [ih hn.2 fun j hj => h1 j (List.mem_cons_of_mem _ hj)]
    · congr 2
      funext j
      by_cases hj : j = i
      · subst hj; rw [if_neg hn.1]; simp
      · simp [hj]
    · intro j hj
      obtain ⟨a, b, c⟩ := h j (List.mem_cons_of_mem _ hj)
      have : j ≠ i := fun e => hn.1 (e ▸ hj)
      exact ⟨by simp only [if_neg this]; exact a, b, c⟩

/-- The loop "Geometry check" when the knots of the geometry are knots of the space: the space gets the smoothness of the geometry there. -/
theorem C51_fix {n : ℕ} {geo k : Kv} (h : ∀ i, 1 ≤ i → i < n → 0 < geo.mult i → 0 < k.mult i ∧ geo.mult i ≤ geo.deg ∧ geo.deg - geo.mult i < k.deg) :
    ∃ k', fix n 0 false geo k = some k' ∧ k'.deg = k.deg ∧ ∀ i, 1 ≤ i → i < n → k'.mult i = if 0 < geo.mult i then k.deg - (geo.deg - geo.mult i) else k.mult i := by
  have hl : ∀ i, i ∈ geoKnots n geo ↔ (1 ≤ i ∧ i < n) ∧ 0 < geo.mult i := fun i => by unfold geoKnots; rw [List.mem_filter, mem_inner]; simp
  refine ⟨_, fix_list _ ?_ ?_ k ?_, rfl, fun i h1 h2 => ?_⟩
  · unfold geoKnots inner; exact List.Nodup.filter _ List.nodup_range'
  · intro i hi; exact ((hl i).1 hi).1.1
  · intro i hi
    have := (hl i).1 hi
    exact h i this.1.1 this.1.2 this.2
  · simp only [hl]
    simp [h1, h2]

private theorem fold_list {F : Kv → ℕ → Option Kv} {val : ℕ → ℕ → ℕ} {P : ℕ → ℕ → ℕ → Prop} {d : ℕ}
    (hF : ∀ k : Kv, k.deg = d → ∀ i, 1 ≤ i → P d i (k.mult i) → F k i = some ⟨k.deg, fun j => if j = i then val i (k.mult i) else k.mult j⟩) (l : List ℕ) (hn : l.Nodup) (h1 : ∀ i ∈ l, 1 ≤ i) :
    ∀ k : Kv, k.deg = d → (∀ i ∈ l, P d i (k.mult i)) → l.foldlM F k = some ⟨k.deg, fun j => if j ∈ l then val j (k.mult j) else k.mult j⟩ := by
  induction l with
  | nil => intro k _ _; rfl
  | cons i l ih =>
    intro k hk h
    rw [List.foldlM_cons, hF k hk i (h1 i List.mem_cons_self) (h i List.mem_cons_self)]
    simp only [Option.bind_eq_bind, Option.bind_some]
    rw [List.nodup_cons] at hn
    have hne : ∀ j ∈ l, j ≠ i := fun j hj e => hn.1 (e ▸ hj)
    rw [ih hn.2 (fun j hj => h1 j (List.mem_cons_of_mem _ hj)) ⟨k.deg, fun j => if j = i then val i (k.mult i) else k.mult j⟩ hk]
    · congr 2
      funext j
      by_cases hj : j = i
      · subst hj; rw [if_neg hn.1]; simp
      · simp [hj]
    · intro j hj
      have := h j (List.mem_cons_of_mem _ hj)
      simpa only [if_neg (hne j hj)] using this

private theorem mem_geoKnots {n : ℕ} {geo : Kv} (i : ℕ) : i ∈ geoKnots n geo ↔ (1 ≤ i ∧ i < n) ∧ 0 < geo.mult i := by
  unfold geoKnots; rw [List.mem_filter, mem_inner]; simp

/-- The same loop for the minus space: there the space gets the smoothness of the derivative of the geometry, except that a knot where the geometry is `C¹` and the space `C⁰` loses one more copy. -/
theorem C51_fix_minus {n : ℕ} {geo k : Kv} (h : ∀ i, 1 ≤ i → i < n → 0 < geo.mult i → 0 < k.mult i ∧ geo.mult i < geo.deg ∧ geo.deg - geo.mult i ≤ k.deg) :
    ∃ k', fix n 1 true geo k = some k' ∧ k'.deg = k.deg ∧ ∀ i, 1 ≤ i → i < n → k'.mult i =
      if 0 < geo.mult i then (if geo.deg - geo.mult i = 1 ∧ k.mult i = k.deg then k.deg - 1 else k.deg - (geo.deg - geo.mult i - 1)) else k.mult i := by
  refine ⟨_, fold_list (d := k.deg) (P := fun d i m => 0 < m ∧ geo.mult i < geo.deg ∧ geo.deg - geo.mult i ≤ d)
    (val := fun i m => if geo.deg - geo.mult i = 1 ∧ m = k.deg then k.deg - 1 else k.deg - (geo.deg - geo.mult i - 1)) ?_ (geoKnots n geo) ?_ ?_ k rfl ?_, rfl, fun i h1 h2 => ?_⟩
  · intro k' hd i h1 ⟨a, b, c⟩
    unfold fixTurn
    simp only [uFind_self h1 a, if_neg (by omega : ¬ i = 0)]
    split
    · unfold insert
      congr 2
      funext j
      split
      · next h2 h3 => subst h3; split <;> omega
      · rfl
    · split
      · unfold remove
        rw [if_neg (by omega)]
        congr 2
        funext j
        split
        · next h2 h3 => subst h3; split <;> omega
        · rfl
      · next h2 h3 =>
        by_cases h4 : geo.deg - geo.mult i = 1
        · rw [if_pos (by simp only [Bool.true_and, Bool.and_eq_true, decide_eq_true_eq]; omega)]
          unfold remove
          rw [if_neg (by omega)]
          congr 2
          funext j
          split
          · next h3 => subst h3; rw [if_pos (by omega)]; omega
          · rfl
        · rw [if_neg (by simp only [Bool.true_and, Bool.and_eq_true, decide_eq_true_eq]; omega)]
          congr 1
          show (⟨k'.deg, k'.mult⟩ : Kv) = _
          congr 1
          funext j
          split
          · next h3 => subst h3; rw [if_neg (by omega)]; omega
          · rfl
  · unfold geoKnots inner; exact List.Nodup.filter _ List.nodup_range'
  · intro i hi; exact ((mem_geoKnots i).1 hi).1.1
  · intro i hi
    have := (mem_geoKnots i).1 hi
    exact h i this.1.1 this.1.2 this.2
  · simp only [mem_geoKnots]
    simp [h1, h2]

/-- The loop of the gluing data, for options that make sense, when the knots of the geometry are knots of the basis: the gluing data get the smoothness of the derivative of the geometry there, except that they are `C¹` where the geometry is `C¹`. -/
theorem C51_gluing_fix {n : ℕ} {geo basis : Kv} {pt rt : ℤ} {p r : ℕ} (ho : gdDegree basis pt = p ∧ gdSmooth basis pt rt = r ∧ r < p)
    (h : ∀ i, 1 ≤ i → i < n → 0 < geo.mult i → 0 < basis.mult i ∧ geo.mult i < geo.deg ∧ geo.deg - geo.mult i ≤ p) (hp : 2 ≤ p) :
    ∃ kg, gluing n geo basis pt rt = some kg ∧ kg.deg = p ∧ ∀ i, 1 ≤ i → i < n → kg.mult i =
      if 0 < geo.mult i then p - (if geo.deg - geo.mult i = 1 then 1 else geo.deg - geo.mult i - 1) else if basis.mult i = 0 then 0 else p - r := by
  obtain ⟨ho1, ho2, ho3⟩ := ho
  have e0 : gluing0 basis pt rt = ⟨p, fun i => if basis.mult i = 0 then 0 else p - r⟩ := by
    unfold gluing0
    rw [ho1, ho2]
    congr 1
    funext i
    split <;> omega
  have hf := fold_list (F := gluingTurn r geo) (d := p) (P := fun d i m => m = p - r ∧ geo.mult i < geo.deg ∧ geo.deg - geo.mult i ≤ d)
    (val := fun i m => p - (if geo.deg - geo.mult i = 1 then 1 else geo.deg - geo.mult i - 1)) ?_ (geoKnots n geo) ?_ ?_ ⟨p, fun i => if basis.mult i = 0 then 0 else p - r⟩ rfl ?_
  · unfold gluing
    rw [ho2, e0, hf]
    refine ⟨_, rfl, rfl, fun i h1 h2 => ?_⟩
    simp only [mem_geoKnots]
    simp [h1, h2]
  · intro k' hd i h1 ⟨a, b, c⟩
    unfold gluingTurn
    simp only [uFind_self h1 (by omega : 0 < k'.mult i)]
    have hg : (if (geo.deg : ℤ) - geo.mult i - 1 = 0 then 1 else (geo.deg : ℤ) - geo.mult i - 1) = ((if geo.deg - geo.mult i = 1 then 1 else geo.deg - geo.mult i - 1 : ℕ) : ℤ) := by
      by_cases h4 : geo.deg - geo.mult i = 1
      · rw [if_pos (by omega), if_pos h4]; rfl
      · rw [if_neg (by omega), if_neg h4]; omega
    have hle : (if geo.deg - geo.mult i = 1 then 1 else geo.deg - geo.mult i - 1 : ℕ) < p := by split <;> omega
    rw [hg]
    generalize (if geo.deg - geo.mult i = 1 then 1 else geo.deg - geo.mult i - 1 : ℕ) = g at hle ⊢
    split
    · unfold insert
      congr 2
      funext j
      split
      · next h2 h3 => subst h3; omega
      · rfl
    · split
      · unfold remove
        rw [if_neg (by omega)]
        congr 2
        funext j
        split
        · next h2 h3 => subst h3; omega
        · rfl
      · congr 1
        show (⟨k'.deg, k'.mult⟩ : Kv) = _
        congr 1
        funext j
        split
        · next h3 => subst h3; omega
        · rfl
  · unfold geoKnots inner; exact List.Nodup.filter _ List.nodup_range'
  · intro i hi; exact ((mem_geoKnots i).1 hi).1.1
  · intro i hi
    have := (mem_geoKnots i).1 hi
    obtain ⟨x, y, w⟩ := h i this.1.1 this.1.2 this.2
    exact ⟨by simp only [if_neg (by omega : ¬ basis.mult i = 0)], y, w⟩

/-- `C51_kink_violation`. Where the geometry is only `C¹` its gluing data may have a kink, but no spline with a kink there is in the space of the gluing data (the message "might not be fulfilled" of `:42-43` is never printed: the
zero is replaced by a one before the test). -/
theorem C51_kink_violation (z : ℕ → ℝ) {n : ℕ} {geo basis kg : Kv} {pt rt : ℤ} {p r : ℕ} (ho : gdDegree basis pt = p ∧ gdSmooth basis pt rt = r ∧ r < p)
    (h : ∀ i, 1 ≤ i → i < n → 0 < geo.mult i → 0 < basis.mult i ∧ geo.mult i < geo.deg ∧ geo.deg - geo.mult i ≤ p) (hp : 2 ≤ p) (hs : gluing n geo basis pt rt = some kg)
    {i : ℕ} (h1 : 1 ≤ i) (h2 : i < n) (hi : 0 < geo.mult i) (hg : geo.deg - geo.mult i = 1) {b : ℕ → ℝ[X]} (hb : (derivative (b i)).eval (z i) ≠ (derivative (b (i - 1))).eval (z i)) : ¬ Sp z n kg b := by
  obtain ⟨kg', e, d, m⟩ := C51_gluing_fix ho h hp
  rw [hs] at e
  cases e
  intro hc
  have hj := hc.jump i h1 h2
  rw [d, m i h1 h2, if_pos hi, if_pos hg, show p + 1 - (p - 1) = 2 by omega, C51_jump_iff] at hj
  exact hb (by simpa using hj 1 (by norm_num))

/-- Degree 2 with one inner knot (a geometry that is `C¹`), a basis of degree 3 with two inner knots: gluing data of degree 2, one of them with a kink. -/
example : ∃ kg, gluing 3 ⟨2, fun i => if i = 1 then 1 else 0⟩ ⟨3, fun i => if i = 1 ∨ i = 2 then 1 else 0⟩ (-1) (-1) = some kg ∧ kg.deg = 2 ∧ kg.mult 1 = 1 ∧ kg.mult 2 = 1 := by
  obtain ⟨kg, e, d, m⟩ := C51_gluing_fix (n := 3) (geo := ⟨2, fun i => if i = 1 then 1 else 0⟩) (basis := ⟨3, fun i => if i = 1 ∨ i = 2 then 1 else 0⟩) (pt := -1) (rt := -1) (p := 2) (r := 1)
    (by decide) (by intro i h1 h2; interval_cases i <;> decide) (by norm_num)
  exact ⟨kg, e, d, by rw [m 1 (by norm_num) (by norm_num)]; rfl, by rw [m 2 (by norm_num) (by norm_num)]; rfl⟩

/-- The minus space of the same bases. -/
example : ∃ k', fix 3 1 true ⟨2, fun i => if i = 1 then 1 else 0⟩ ⟨2, fun i => if i = 1 ∨ i = 2 then 1 else 0⟩ = some k' ∧ k'.mult 1 = 2 ∧ k'.mult 2 = 1 := by
  obtain ⟨kg, e, d, m⟩ := C51_fix_minus (n := 3) (geo := ⟨2, fun i => if i = 1 then 1 else 0⟩) (k := ⟨2, fun i => if i = 1 ∨ i = 2 then 1 else 0⟩) (by intro i h1 h2; interval_cases i <;> decide)
  exact ⟨kg, e, by rw [m 1 (by norm_num) (by norm_num)]; rfl, by rw [m 2 (by norm_num) (by norm_num)]; rfl⟩

private theorem contains_plus {z : ℕ → ℝ} {n : ℕ} {kp km kg ke : Kv} (h : Contains z n kp km kg ke) {i : ℕ} (h1 : 1 ≤ i) (h2 : i < n) (h0 : 0 < kp.mult i) (hc : kp.mult i ≤ kp.deg)
    (he : ke.deg = kp.deg + kg.deg - 1) : kg.deg + kp.mult i ≤ ke.mult i := by
  have h3 := (h.across _ _ (sp_trunc z n kp i h1 h0) (sp_const z n kg 1 (by simp))).jump i h1 h2
  simp only [mul_one] at h3
  rw [← derivative_sub, trunc_jump i h1 _ i h1, if_pos rfl, derivative_X_sub_C_pow] at h3
  have := pow_le_of_dvd (Nat.cast_ne_zero.2 (by omega)) h3
  omega

private theorem firstMult_pos (n : ℕ) (k : Kv) : 1 ≤ firstMult n k := by
  rcases first_or n k with h | ⟨i, h⟩
  · rw [firstMult_none h]; omega
  · rw [firstMult_some h]; exact h.2.2.1

/-- `C51_geometry_violation`. If the geometry has an inner knot, the space of the interface does not contain the functions, although the knot is a knot of the basis: the loop gives the space the smoothness of the geometry there, like the
plus space, but the functions contain first derivatives. This is so for all degrees, multiplicities and smoothness (the class warns: "Not suitable for geometries with inner knots", `gsApproxC1Spline.hpp:39-50`). -/
theorem C51_geometry_violation (z : ℕ → ℝ) {n : ℕ} {geo basis kp km kg ke : Kv} {pt rt : ℤ} {m : ℕ} (hm : 0 < m) (hu : ∀ i, basis.mult i = 0 ∨ basis.mult i = m)
    (hg : ∀ i, 1 ≤ i → i < n → 0 < geo.mult i → 0 < basis.mult i ∧ geo.mult i ≤ geo.deg ∧ geo.deg - geo.mult i < basis.deg)
    (hs : interfaceSpaces n geo basis pt rt = some (kp, km, kg, ke)) (hkg : 1 ≤ kg.deg)
    {i : ℕ} (h1 : 1 ≤ i) (h2 : i < n) (hi : 0 < geo.mult i) : ¬ Contains z n kp km kg ke := by
  have hr : raise n basis < m := by
    rcases first_or n basis with h | ⟨j, h⟩
    · have := (hg i h1 h2 hi).1; rw [h i h1 h2] at this; omega
    · have := h.2.2.1
      unfold raise; rw [firstMult_some h]
      rcases hu j with h' | h' <;> split <;> omega
  -- the plus space
  have hp0 : ∀ j, 1 ≤ j → j < n → 0 < geo.mult j → 0 < basis.mult j - raise n basis ∧ geo.mult j ≤ geo.deg ∧ geo.deg - geo.mult j < basis.deg := by
    intro j a b c
    obtain ⟨x, y, w⟩ := hg j a b c
    refine ⟨?_, y, w⟩
    rcases hu j with h' | h' <;> omega
  have ep : plus n geo basis = fix n 0 false geo ⟨basis.deg, fun j => basis.mult j - raise n basis⟩ := by
    unfold plus raise
    by_cases h : firstMult n basis = 1
    · simp [h]
    · simp [h, elevate]
  obtain ⟨kp', e1, d1, m1⟩ := C51_fix (k := ⟨basis.deg, fun j => basis.mult j - raise n basis⟩) hp0
  unfold interfaceSpaces at hs
  rw [ep, e1] at hs
  simp only [Option.bind_eq_bind, Option.bind_some] at hs
  rw [Option.bind_eq_some_iff] at hs
  obtain ⟨km', e2, hs⟩ := hs
  rw [Option.bind_eq_some_iff] at hs
  obtain ⟨kg', e3, hs⟩ := hs
  rw [Option.bind_eq_some_iff] at hs
  obtain ⟨ke', e4, hs⟩ := hs
  simp only [Option.pure_def, Option.some.injEq, Prod.mk.injEq] at hs
  obtain ⟨rfl, rfl, rfl, rfl⟩ := hs
  simp only at d1 m1
  -- the space of the edge
  have hlt := (hg i h1 h2 hi).2.2
  obtain ⟨j, hj⟩ : ∃ j, First n basis j := by
    rcases first_or n basis with h | h
    · have := (hg i h1 h2 hi).1; rw [h i h1 h2] at this; omega
    · exact h
  have hmj : basis.mult j = m := by have := hj.2.2.1; rcases hu j with h' | h' <;> omega
  have fj : First n ⟨kp'.deg + kg'.deg - 1, basis.mult⟩ j := hj
  have hrr : min (reg n kg') (min (reg n kp' - 1) (reg n km')) < ((kp'.deg + kg'.deg - 1 : ℕ) : ℤ) := by
    have : reg n kp' ≤ (kp'.deg : ℤ) - 1 := by unfold reg; have := firstMult_pos n kp'; omega
    omega
  unfold edge at e4
  obtain ⟨ke'', e5, d5, m5⟩ := C51_fix (n := n) (geo := geo) (k := setReg n (min (reg n kg') (min (reg n kp' - 1) (reg n km'))) ⟨kp'.deg + kg'.deg - 1, basis.mult⟩) (by
    intro l a b c
    obtain ⟨x, y, w⟩ := hg l a b c
    refine ⟨?_, y, by rw [setReg_deg]; simp only; omega⟩
    rw [setReg_mult fj _ hrr, hmj]
    have hml : basis.mult l = m := by rcases hu l with h' | h' <;> omega
    simp only [hml]
    rw [if_neg (by omega)]
    omega)
  simp only at e4
  rw [e5] at e4
  cases e4
  intro hc
  rw [setReg_deg] at d5
  have ha := m1 i h1 h2
  have hb := m5 i h1 h2
  rw [if_pos hi] at ha hb
  rw [setReg_deg] at hb
  simp only at d5 hb
  have := contains_plus hc h1 h2 (by omega) (by omega) (by rw [d5])
  have := (hg i h1 h2 hi).2.1
  omega

/-- `C51_absent_violation`. Interfaces with different meshes: the basis of the finer patch is replaced by that of the coarser one (`gsApproxC1Spline.hpp:109-122`). If that one has no inner knots but the geometry of the finer patch has, copies of
the first knot are taken away, and the knot vector is not open any more. -/
theorem C51_absent_violation {n : ℕ} {geo basis kp km kg : Kv} (hb : ∀ i, basis.mult i = 0) {i : ℕ} (h1 : 1 ≤ i) (h2 : i < n) (hi : 0 < geo.mult i) (hg : ∀ j, geo.mult j ≤ geo.deg) :
    edge n geo basis kp km kg = none := by
  have hz : ∀ r, setReg n r ⟨kp.deg + kg.deg - 1, basis.mult⟩ = ⟨kp.deg + kg.deg - 1, fun _ => 0⟩ := by
    intro r
    have hb' : basis.mult = fun _ => 0 := funext hb
    unfold setReg; rw [hb']
    split
    · simp [reduce]
    · split <;> simp [elevate]
  unfold edge
  simp only [hz]
  have hl : i ∈ geoKnots n geo := by unfold geoKnots; rw [List.mem_filter, mem_inner]; simpa using ⟨⟨h1, h2⟩, hi⟩
  unfold fix
  cases hgk : geoKnots n geo with
  | nil => rw [hgk] at hl; cases hl
  | cons j l =>
    rw [List.foldlM_cons]
    have ht : fixTurn 0 false geo ⟨kp.deg + kg.deg - 1, fun _ => 0⟩ j = none := by
      unfold fixTurn
      have hu : uFind ⟨kp.deg + kg.deg - 1, fun _ => 0⟩ j = 0 := by unfold uFind; simp
      have := hg j
      simp only [hu, if_true]
      rw [if_neg (by omega), if_pos (by omega)]
      rfl
    rw [ht]; rfl

/-! ## Cases -/

/-- Four elements, degree three, multiplicity one, default options: the edge space has degree four and inner knots of multiplicity three. -/
example : ∃ kp km kg ke, interfaceSpaces 4 ⟨1, fun _ => 0⟩ ⟨3, fun _ => 1⟩ (-1) (-1) = some (kp, km, kg, ke) ∧ Contains (fun i => i) 4 kp km kg ke :=
  C51_edge _ (fun _ _ _ => rfl) (C51_default _ (by decide)) (by decide) (m := 1) (by decide) fun _ => Or.inr rfl

example : (interfaceSpaces 4 ⟨1, fun _ => 0⟩ ⟨3, fun _ => 1⟩ (-1) (-1)).map (fun s => (s.2.2.2.deg, s.2.2.2.mult 1)) = some (4, 3) := by decide +kernel

/-- `C51_mixed_violation`. Degree three, multiplicity two at the first inner knot and one at the second: with the default options the space of the interface does not contain the functions. The plus and minus spaces have no
knot at the second point, the gluing data have, and the code only looks at the first inner knot. -/
theorem C51_mixed_violation : ∃ kp km kg ke, interfaceSpaces 3 ⟨1, fun _ => 0⟩ ⟨3, fun i => if i = 1 then 2 else 1⟩ (-1) (-1) = some (kp, km, kg, ke) ∧ ∀ z, ¬ Contains z 3 kp km kg ke := by
  have h : NoGeo 3 ⟨1, fun _ => 0⟩ := fun _ _ _ => rfl
  refine ⟨_, _, _, _, iface_eq h _ _, fun z => ?_⟩
  rw [C51_edge_iff z h (C51_default _ (by decide)) (by decide) (fun i => by simp only; split <;> omega) (iface_eq h _ _)]
  intro hc
  have := hc 2 (by decide) (by decide) (by decide)
  revert this
  decide +kernel

/-- A biquadratic geometry with one inner knot, and a basis of degree three with the same knot and two more: the spaces exist, so `C51_geometry_violation` applies. -/
example : ∃ kp km kg ke, interfaceSpaces 4 ⟨2, fun i => if i = 2 then 1 else 0⟩ ⟨3, fun _ => 1⟩ (-1) (-1) = some (kp, km, kg, ke) ∧ ∀ z, ¬ Contains z 4 kp km kg ke := by
  have hs : ((interfaceSpaces 4 ⟨2, fun i => if i = 2 then 1 else 0⟩ ⟨3, fun _ => 1⟩ (-1) (-1)).map fun s => s.2.2.1.deg) = some 2 := by decide +kernel
  rw [Option.map_eq_some_iff] at hs
  obtain ⟨⟨kp, km, kg, ke⟩, hs, hd⟩ := hs
  refine ⟨kp, km, kg, ke, hs, fun z => C51_geometry_violation z (m := 1) (by decide) (fun _ => Or.inr rfl) (fun i h1 h2 h3 => ?_) hs (by simp only at hd; omega) (i := 2) (by decide) (by decide) (by decide)⟩
  refine ⟨Nat.one_pos, ?_, ?_⟩ <;> simp only at h3 ⊢ <;> split at h3 <;> simp_all

/-- The finer patch has a geometry with an inner knot, the basis of the coarser one has none. -/
example : interfaceSpaces 2 ⟨2, fun i => if i = 1 then 1 else 0⟩ ⟨3, fun _ => 0⟩ (-1) (-1) = none := by
  have : ∀ kp km kg, edge 2 ⟨2, fun i => if i = 1 then 1 else 0⟩ ⟨3, fun _ => 0⟩ kp km kg = none := fun kp km kg =>
    C51_absent_violation (fun _ => rfl) (i := 1) (by decide) (by decide) (by decide) fun j => by simp only; split <;> omega
  unfold interfaceSpaces
  simp [this]

/-! ## Bilinear patches -/

open _root_.Verif.EdgeFun (At Phys line alphaPlanar betaGeo Comp traceBasis normalDerivBasis projMat projRhs det_two betaGeo_eq)
open _root_.Verif.BSpline (Open)

/-- A bilinear patch. -/
def bilin (a b c d : Fin 2 → ℝ) (u v : ℝ) : Fin 2 → ℝ := a + u • b + v • c + (u * v) • d

theorem bilin_at0 (a b c d : Fin 2 → ℝ) (t : ℝ) : At 0 (bilin a b c d) t b (c + t • d) := by
  constructor
  · simp only [line, bilin, if_true, zero_smul, mul_zero, add_zero]
    have := ((hasDerivAt_id t).smul_const b).const_add a
    simpa using this
  · simp only [line, bilin, if_true]
    have h1 := ((hasDerivAt_id (0 : ℝ)).smul_const c).const_add (a + t • b)
    have h2 := ((hasDerivAt_id (0 : ℝ)).const_mul t).smul_const d
    exact (h1.add h2).congr_deriv (by simp)

theorem bilin_at1 (a b c d : Fin 2 → ℝ) (t : ℝ) : At 1 (bilin a b c d) t c (b + t • d) := by
  constructor
  · simp only [line, bilin, if_neg one_ne_zero, zero_smul, zero_mul, add_zero]
    have := ((hasDerivAt_id t).smul_const c).const_add a
    simpa using this
  · simp only [line, bilin, if_neg one_ne_zero]
    have h1 := (((hasDerivAt_id (0 : ℝ)).smul_const b).const_add a).add_const (t • c)
    have h2 := ((hasDerivAt_id (0 : ℝ)).mul_const t).smul_const d
    exact (h1.add h2).congr_deriv (by simp)

/-- Gluing data of a bilinear patch: polynomials of degree one. -/
theorem C51_bilinear_data (a b c d : Fin 2 → ℝ) (uv : ℕ) (huv : uv ≤ 1) :
    ∃ pa pb : ℝ[X], pa.natDegree ≤ 1 ∧ pb.natDegree ≤ 1 ∧ ∀ t, At uv (bilin a b c d) t (if uv = 0 then b else c) (if uv = 0 then c + t • d else b + t • d) ∧
      pa.eval t = (if uv = 0 then alphaPlanar b (c + t • d) else alphaPlanar (b + t • d) c) ∧
      pb.eval t = (if uv = 0 then betaGeo 0 b (c + t • d) else betaGeo 1 (b + t • d) c) := by
  rcases Nat.le_one_iff_eq_zero_or_eq_one.1 huv with rfl | rfl
  · refine ⟨C (b 0 * d 1 - d 0 * b 1) * X + C (b 0 * c 1 - c 0 * b 1), C (-((b ⬝ᵥ d) / (b ⬝ᵥ b))) * X + C (-((b ⬝ᵥ c) / (b ⬝ᵥ b))), natDegree_linear_le, natDegree_linear_le, fun t => ⟨bilin_at0 a b c d t, ?_, ?_⟩⟩
    · rw [if_pos rfl, det_two]; simp; ring
    · rw [if_pos rfl, betaGeo_eq 0 _ _ b (c + t • d) (Or.inl ⟨rfl, rfl, rfl⟩)]
      simp only [eval_add, eval_mul, eval_C, eval_X, dotProduct_add, dotProduct_smul, smul_eq_mul]; ring
  · refine ⟨C (d 0 * c 1 - c 0 * d 1) * X + C (b 0 * c 1 - c 0 * b 1), C (-((c ⬝ᵥ d) / (c ⬝ᵥ c))) * X + C (-((c ⬝ᵥ b) / (c ⬝ᵥ c))), natDegree_linear_le, natDegree_linear_le, fun t => ⟨bilin_at1 a b c d t, ?_, ?_⟩⟩
    · rw [if_neg one_ne_zero, det_two]; simp; ring
    · rw [if_neg one_ne_zero, betaGeo_eq 1 _ _ c (b + t • d) (Or.inr ⟨rfl, rfl, rfl⟩)]
      simp only [eval_add, eval_mul, eval_C, eval_X, dotProduct_add, dotProduct_smul, smul_eq_mul]; ring

/-- Functions `B` that span the splines with knot vector `k`. -/
def Spans {ι : Type} [Fintype ι] (z : ℕ → ℝ) (n : ℕ) (k : Kv) (B : ι → ℝ → ℝ) : Prop :=
  ∀ f, Sp z n k f → ∃ c : ι → ℝ, ∀ e, e < n → ∀ t, z e ≤ t → t ≤ z (e + 1) → (f e).eval t = ∑ j, c j * B j t

/-- The points of the grid are increasing: every parameter of the interface lies in an element. -/
theorem exists_element (z : ℕ → ℝ) (n : ℕ) (t : ℝ) (h0 : z 0 ≤ t) (h1 : t ≤ z n) (hn : 0 < n) : ∃ e, e < n ∧ z e ≤ t ∧ t ≤ z (e + 1) := by
  induction n with
  | zero => omega
  | succ n ih =>
    by_cases h : t ≤ z n
    · rcases Nat.eq_zero_or_pos n with rfl | hp
      · exact ⟨0, by omega, h0, h1⟩
      · obtain ⟨e, he, h2⟩ := ih h hp
        exact ⟨e, by omega, h2⟩
    · exact ⟨n, by omega, (not_le.1 h).le, h1⟩

/-- `setGlobalGluingData` (`gsApproxC1GluingData.h:101-190`) for gluing data `g` that are polynomials of degree one: the projection to a space of degree at least one is `g` itself. `pt` are the quadrature points. -/
theorem C51_gluing_exact {ι κ : Type} [Fintype ι] [Fintype κ] {z : ℕ → ℝ} {n : ℕ} (hn : 0 < n) {k : Kv} (hk : 1 ≤ k.deg) {B : ι → ℝ → ℝ} (hB : Spans z n k B)
    {pt : κ → ℝ} (hpt : ∀ q, z 0 ≤ pt q ∧ pt q ≤ z n) {w : κ → ℝ} (hw : ∀ q, 0 < w q) (hind : ∀ x : ι → ℝ, (∀ q, ∑ i, x i * B i (pt q) = 0) → x = 0)
    {g : ℝ → ℝ} {P : ℝ[X]} (hP : P.natDegree ≤ 1) (hg : ∀ t, P.eval t = g t) {x : ι → ℝ}
    (hx : ∀ i, ∑ j, projMat (fun i q => B i (pt q)) w i j * x j = projRhs (fun i q => B i (pt q)) w (fun q => g (pt q)) i) {t : ℝ} (h0 : z 0 ≤ t) (h1 : t ≤ z n) :
    ∑ j, x j * B j t = g t := by
  obtain ⟨c, hc⟩ := hB _ (sp_const z n k P (hP.trans hk))
  have hc' : ∀ s, z 0 ≤ s → s ≤ z n → g s = ∑ j, c j * B j s := fun s a b => by
    obtain ⟨e, he, e1, e2⟩ := exists_element z n s a b hn
    rw [← hc e he s e1 e2, hg]
  have := (EdgeFun.C23_projection (fun i q => B i (pt q)) w hw hind (fun q => g (pt q)) c (fun q => hc' _ (hpt q).1 (hpt q).2) x).1 hx
  rw [this, hc' t h0 h1]

/-- `C51_bilinear_C1`. Two bilinear patches `F0(u, v) = a + u T + v c + u v d` and `F1(u, v) = a + u b + v T + u v d'` with a common edge; gluing data computed by projection to any space of degree at least one (for
patch 0 and patch 1 separately); all functions of the interface made from them are C1 at every inner point of the interface. There is no approximation error. -/
theorem C51_bilinear_C1 {ι κ : Type} [Fintype ι] [Fintype κ] {z : ℕ → ℝ} {n : ℕ} (hn : 0 < n) {k : Kv} (hk : 1 ≤ k.deg) {B : ι → ℝ → ℝ} (hB : Spans z n k B)
    {pt : κ → ℝ} (hpt : ∀ q, z 0 ≤ pt q ∧ pt q ≤ z n) {w : κ → ℝ} (hw : ∀ q, 0 < w q) (hind : ∀ x : ι → ℝ, (∀ q, ∑ i, x i * B i (pt q) = 0) → x = 0)
    (a b c d d' T : Fin 2 → ℝ) {xa0 xa1 xb0 xb1 : ι → ℝ}
    (ha0 : ∀ i, ∑ j, projMat (fun i q => B i (pt q)) w i j * xa0 j = projRhs (fun i q => B i (pt q)) w (fun q => alphaPlanar T (c + pt q • d)) i)
    (ha1 : ∀ i, ∑ j, projMat (fun i q => B i (pt q)) w i j * xa1 j = projRhs (fun i q => B i (pt q)) w (fun q => alphaPlanar (b + pt q • d') T) i)
    (hb0 : ∀ i, ∑ j, projMat (fun i q => B i (pt q)) w i j * xb0 j = projRhs (fun i q => B i (pt q)) w (fun q => betaGeo 0 T (c + pt q • d)) i)
    (hb1 : ∀ i, ∑ j, projMat (fun i q => B i (pt q)) w i j * xb1 j = projRhs (fun i q => B i (pt q)) w (fun q => betaGeo 1 (b + pt q • d') T) i)
    {t : ℝ} (h0 : z 0 ≤ t) (h1 : t ≤ z n) (r0 : alphaPlanar T (c + t • d) ≠ 0) (r1 : alphaPlanar (b + t • d') T ≠ 0)
    {b0 b1 : Comp} (ho0 : Open b0.t b0.p) (ho1 : Open b1.t b1.p) (hp0 : 1 ≤ b0.p) (hp1 : 1 ≤ b1.p) {f df m : ℝ → ℝ} (hf : HasDerivAt f (df t) t)
    {φ0 φ1 ψ0 ψ1 : (Fin 2 → ℝ) → ℝ} {L0 L1 M0 M1 : (Fin 2 → ℝ) →L[ℝ] ℝ}
    (hφ0 : Phys 0 (bilin a T c d) (traceBasis 0 false b0 (fun s => ∑ j, xb0 j * B j s) f df) t φ0 L0)
    (hφ1 : Phys 1 (bilin a b T d') (traceBasis 1 false b1 (fun s => ∑ j, xb1 j * B j s) f df) t φ1 L1)
    (hψ0 : Phys 0 (bilin a T c d) (normalDerivBasis 0 false b0 (fun s => ∑ j, xa0 j * B j s) m) t ψ0 M0)
    (hψ1 : Phys 1 (bilin a b T d') (normalDerivBasis 1 false b1 (fun s => ∑ j, xa1 j * B j s) m) t ψ1 M1) :
    let x := a + t • T
    (φ0 x = f t ∧ φ1 x = f t ∧ L0 = L1 ∧ L0 T = df t ∧ L0 ![T 1, -T 0] = 0) ∧ (ψ0 x = 0 ∧ ψ1 x = 0 ∧ M0 = M1 ∧ ∀ v, M0 v = m t * (![T 1, -T 0] ⬝ᵥ v)) := by
  obtain ⟨pa0, pb0, da0, db0, e0⟩ := C51_bilinear_data a T c d 0 (by omega)
  obtain ⟨pa1, pb1, da1, db1, e1⟩ := C51_bilinear_data a b T d' 1 (by omega)
  simp only [if_true, if_neg one_ne_zero] at e0 e1
  have hmatch : ∀ s, line 0 (bilin a T c d) s 0 = line 1 (bilin a b T d') s 0 := fun s => by simp [line, bilin]
  have hx0 : bilin a T c d t 0 = a + t • T := by simp [bilin]
  have hx1 : bilin a b T d' 0 t = a + t • T := by simp [bilin]
  have g1 := EdgeFun.C23_trace_C1 hmatch (e0 t).1 (e1 t).1 r0 r1 ho0 ho1 hp0 hp1 hf
    (C51_gluing_exact hn hk hB hpt hw hind db0 (fun s => (e0 s).2.2) hb0 h0 h1) (C51_gluing_exact hn hk hB hpt hw hind db1 (fun s => (e1 s).2.2) hb1 h0 h1) hφ0 hφ1
  have g2 := EdgeFun.C23_normal_C1 hmatch (e0 t).1 (e1 t).1 r0 r1 ho0 ho1 hp0 hp1
    (C51_gluing_exact hn hk hB hpt hw hind da0 (fun s => (e0 s).2.1) ha0 h0 h1) (C51_gluing_exact hn hk hB hpt hw hind da1 (fun s => (e1 s).2.1) ha1 h0 h1) hψ0 hψ1
  rw [hx0, hx1] at g1 g2
  refine ⟨⟨g1.1, g1.2.1, g1.2.2.2.1, ?_, g1.2.2.2.2⟩, g2.1, g2.2.1, g2.2.2.2.1, g2.2.2.2.2.2⟩
  exact EdgeFun.phys_along hφ0 (e0 t).1 hf fun s => (EdgeFun.C23_trace_parameter ho0 hp0 0 false _ f df s).1

/-- Physical functions on the patch `(u, (1 + u) v)` and on its mirror image `(v, -(1 + v) u)`, which are bilinear but not affine. -/
theorem exBilin0 {f : ℝ → ℝ → ℝ} (hf : Differentiable ℝ fun x : ℝ × ℝ => f x.1 x.2) : ∃ φ L, Phys 0 (bilin 0 ![1, 0] ![0, 1] ![0, 1]) f (1 / 2) φ L := by
  have hd : DifferentiableAt ℝ (fun x : Fin 2 → ℝ => f (x 0) (x 1 * (1 + x 0)⁻¹)) (line 0 (bilin 0 ![1, 0] ![0, 1] ![0, 1]) (1 / 2) 0) := by
    have h1 : DifferentiableAt ℝ (fun x : Fin 2 → ℝ => (x 0, x 1 * (1 + x 0)⁻¹)) (line 0 (bilin 0 ![1, 0] ![0, 1] ![0, 1]) (1 / 2) 0) := by
      refine DifferentiableAt.prodMk (by fun_prop) (DifferentiableAt.fun_mul (by fun_prop) (DifferentiableAt.fun_inv (by fun_prop) ?_))
      simp [line, bilin]; norm_num
    exact (hf _).comp _ h1
  refine ⟨_, _, ⟨1 / 2, by norm_num, fun s c hs _ _ => ?_, hd.hasFDerivAt.hasFDerivWithinAt⟩⟩
  have : (1 : ℝ) + s ≠ 0 := by rw [abs_lt] at hs; linarith
  simp only [line, bilin, if_true]
  congr 1
  · simp
  · simp; field_simp

theorem exBilin1 {f : ℝ → ℝ → ℝ} (hf : Differentiable ℝ fun x : ℝ × ℝ => f x.1 x.2) : ∃ φ L, Phys 1 (bilin 0 ![0, -1] ![1, 0] ![0, -1]) f (1 / 2) φ L := by
  have hd : DifferentiableAt ℝ (fun x : Fin 2 → ℝ => f (-(x 1 * (1 + x 0)⁻¹)) (x 0)) (line 1 (bilin 0 ![0, -1] ![1, 0] ![0, -1]) (1 / 2) 0) := by
    have h1 : DifferentiableAt ℝ (fun x : Fin 2 → ℝ => (-(x 1 * (1 + x 0)⁻¹), x 0)) (line 1 (bilin 0 ![0, -1] ![1, 0] ![0, -1]) (1 / 2) 0) := by
      refine DifferentiableAt.prodMk (DifferentiableAt.neg (DifferentiableAt.fun_mul (by fun_prop) (DifferentiableAt.fun_inv (by fun_prop) ?_))) (by fun_prop)
      simp [line, bilin]; norm_num
    exact (hf _).comp _ h1
  refine ⟨_, _, ⟨1 / 2, by norm_num, fun s c hs _ _ => ?_, hd.hasFDerivAt.hasFDerivWithinAt⟩⟩
  have : (1 : ℝ) + s ≠ 0 := by rw [abs_lt] at hs; linarith
  simp only [line, bilin, if_neg one_ne_zero]
  congr 1
  · simp; field_simp; ring
  · simp

/-- The functions `1 - t` and `t` span the polynomials of degree one on one element. -/
theorem exSpans : Spans (fun i => (i : ℝ)) 1 ⟨1, fun _ => 0⟩ (![fun t => 1 - t, fun t => t] : Fin 2 → ℝ → ℝ) := by
  intro f hf
  refine ⟨![(f 0).eval 0, (f 0).eval 1], fun e he t _ _ => ?_⟩
  obtain rfl : e = 0 := by omega
  obtain ⟨a, b, h⟩ := exists_eq_X_add_C_of_natDegree_le_one (hf.deg 0 (by omega))
  rw [h]
  simp [Fin.sum_univ_two]; ring

/-- All hypotheses of `C51_bilinear_C1` at `t = 1 / 2`: gluing data projected with two quadrature points. -/
example : ∃ φ0 L0 φ1 L1, Phys 0 (bilin 0 ![1, 0] ![0, 1] ![0, 1]) (normalDerivBasis 0 false EdgeFun.cubic1 (fun s => ∑ j, ![1, 2] j * (![fun t => 1 - t, fun t => t] : Fin 2 → ℝ → ℝ) j s) fun s => s) (1 / 2) φ0 L0 ∧
    Phys 1 (bilin 0 ![0, -1] ![1, 0] ![0, -1]) (normalDerivBasis 1 false EdgeFun.cubic2 (fun s => ∑ j, ![1, 2] j * (![fun t => 1 - t, fun t => t] : Fin 2 → ℝ → ℝ) j s) fun s => s) (1 / 2) φ1 L1 ∧
    L0 = L1 ∧ L0 ![0, 1] = -1 / 2 := by
  have df : ∀ (uv : ℕ) (b : Comp), Differentiable ℝ fun x : ℝ × ℝ => normalDerivBasis uv false b (fun s => ∑ j, ![1, 2] j * (![fun t => 1 - t, fun t => t] : Fin 2 → ℝ → ℝ) j s) (fun s => s) x.1 x.2 := by
    intro uv b
    simp only [normalDerivBasis, Fin.sum_univ_two]
    by_cases h : uv = 0 <;> simp [h] <;> fun_prop
  have dt : ∀ (uv : ℕ) (b : Comp), Differentiable ℝ fun x : ℝ × ℝ => traceBasis uv false b (fun s => ∑ j, (0 : Fin 2 → ℝ) j * (![fun t => 1 - t, fun t => t] : Fin 2 → ℝ → ℝ) j s) (fun s => s) (fun _ => 1) x.1 x.2 := by
    intro uv b
    simp only [traceBasis, Fin.sum_univ_two]
    by_cases h : uv = 0 <;> simp [h] <;> fun_prop
  obtain ⟨ψ0, M0, h0⟩ := exBilin0 (df 0 EdgeFun.cubic1)
  obtain ⟨ψ1, M1, h1⟩ := exBilin1 (df 1 EdgeFun.cubic2)
  obtain ⟨φ0, L0, g0⟩ := exBilin0 (dt 0 EdgeFun.cubic1)
  obtain ⟨φ1, L1, g1⟩ := exBilin1 (dt 1 EdgeFun.cubic2)
  have key := C51_bilinear_C1 (ι := Fin 2) (κ := Fin 2) (z := fun i => (i : ℝ)) (n := 1) (by omega) (k := ⟨1, fun _ => 0⟩) le_rfl exSpans
    (pt := ![1 / 4, 3 / 4]) (fun q => by fin_cases q <;> simp <;> norm_num) (w := fun _ => 1 / 2) (fun _ => by norm_num)
    (fun x h => by
      have a := h 0; have b := h 1
      simp [Fin.sum_univ_two] at a b
      funext i; fin_cases i <;> simp <;> linarith)
    0 ![0, -1] ![0, 1] ![0, 1] ![0, -1] ![1, 0] (xa0 := ![1, 2]) (xa1 := ![1, 2]) (xb0 := 0) (xb1 := 0)
    (fun i => by simp only [det_two]; fin_cases i <;> simp [projMat, projRhs, Fin.sum_univ_two] <;> norm_num)
    (fun i => by simp only [det_two]; fin_cases i <;> simp [projMat, projRhs, Fin.sum_univ_two] <;> norm_num)
    (fun i => by simp only [betaGeo_eq 0 _ _ _ _ (Or.inl ⟨rfl, rfl, rfl⟩)]; fin_cases i <;> simp [projMat, projRhs, dotProduct, Fin.sum_univ_two])
    (fun i => by simp only [betaGeo_eq 1 _ _ _ _ (Or.inr ⟨rfl, rfl, rfl⟩)]; fin_cases i <;> simp [projMat, projRhs, dotProduct, Fin.sum_univ_two])
    (t := 1 / 2) (by simp) (by norm_num) (by rw [det_two]; simp; norm_num) (by rw [det_two]; simp; norm_num)
    EdgeFun.cubic1_open EdgeFun.cubic2_open (by simp [EdgeFun.cubic1]) (by simp [EdgeFun.cubic2]) (f := fun s => s) (df := fun _ => 1) (m := fun s => s) (hasDerivAt_id _) g0 g1 h0 h1
  refine ⟨ψ0, M0, ψ1, M1, h0, h1, key.2.2.2.1, ?_⟩
  rw [key.2.2.2.2]
  simp [dotProduct, Fin.sum_univ_two]; norm_num

end Verif.Spaces
