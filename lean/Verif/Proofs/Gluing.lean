import Verif.Model.Gluing
import Mathlib.Algebra.BigOperators.Fin
import Mathlib.Algebra.BigOperators.Ring.Finset
import Mathlib.Algebra.BigOperators.Group.List.Basic
import Mathlib.Tactic.FinCases
import Mathlib.Tactic.NormNum
import Mathlib.Tactic.Ring
import Mathlib.Tactic.LinearCombination
/-! # Lemmas for the gluing-data systems -/
set_option autoImplicit false
set_option linter.unusedSectionVars false
set_option linter.unusedSimpArgs false
namespace Verif.Gluing
variable {ι : Type} [Fintype ι]

omit [Fintype ι] in
theorem foldl_pts (f : Pt ι → ℝ) (pts : List (Pt ι)) (a : ℝ) :
    pts.foldl (fun loc p => loc + p.w * f p) a = a + (pts.map fun p => p.w * f p).sum := by
  induction pts generalizing a with
  | nil => simp
  | cons p l ih => simp only [List.foldl_cons, List.map_cons, List.sum_cons, ih]; ring

omit [Fintype ι] in
theorem foldl_els (f : Pt ι → ℝ) (els : List (List (Pt ι))) (a : ℝ) :
    els.foldl (fun sys pts => sys + pts.foldl (fun loc p => loc + p.w * f p) 0) a
      = a + (els.flatten.map fun p => p.w * f p).sum := by
  induction els generalizing a with
  | nil => simp
  | cons p l ih =>
    rw [List.foldl_cons, ih, foldl_pts, List.flatten_cons, List.map_append, List.sum_append]; ring

omit [Fintype ι] in
/-- The loops compute the weighted sum over all points. -/
theorem accumulate_eq (els : List (List (Pt ι))) (f : Pt ι → ℝ) :
    accumulate els f = (els.flatten.map fun p => p.w * f p).sum := by
  rw [accumulate, foldl_els, zero_add]

omit [Fintype ι] in
theorem accumulate_congr (els : List (List (Pt ι))) (f g : Pt ι → ℝ) (h : ∀ p ∈ els.flatten, f p = g p) :
    accumulate els f = accumulate els g := by
  rw [accumulate_eq, accumulate_eq]
  congr 1
  exact List.map_congr_left fun p hp => by rw [h p hp]

omit [Fintype ι] in
theorem accumulate_add (els : List (List (Pt ι))) (f g : Pt ι → ℝ) :
    accumulate els (fun p => f p + g p) = accumulate els f + accumulate els g := by
  simp only [accumulate_eq]
  induction els.flatten with
  | nil => simp
  | cons p l ih => simp only [List.map_cons, List.sum_cons, ih]; ring

omit [Fintype ι] in
theorem accumulate_mul (els : List (List (Pt ι))) (f : Pt ι → ℝ) (c : ℝ) :
    accumulate els (fun p => c * f p) = c * accumulate els f := by
  simp only [accumulate_eq]
  induction els.flatten with
  | nil => simp
  | cons p l ih => simp only [List.map_cons, List.sum_cons, ih]; ring

omit [Fintype ι] in
theorem accumulate_sub (els : List (List (Pt ι))) (f g : Pt ι → ℝ) :
    accumulate els (fun p => f p - g p) = accumulate els f - accumulate els g := by
  simp only [accumulate_eq]
  induction els.flatten with
  | nil => simp
  | cons p l ih => simp only [List.map_cons, List.sum_cons, ih]; ring

omit [Fintype ι] in
theorem accumulate_sum {κ : Type} (s : Finset κ) (els : List (List (Pt ι))) (f : κ → Pt ι → ℝ) :
    accumulate els (fun p => ∑ i ∈ s, f i p) = ∑ i ∈ s, accumulate els (f i) := by
  classical
  induction s using Finset.induction_on with
  | empty => have := accumulate_mul els (fun _ => 0) 0; simpa using this
  | insert a s ha ih => simp only [Finset.sum_insert ha, accumulate_add, ih]

omit [Fintype ι] in
/-- Bilinear form of an assembled matrix. -/
theorem accumulate_form {n : ℕ} (els : List (List (Pt ι))) (b : Pt ι → Fin n → Fin n → ℝ) (h x : Fin n → ℝ) :
    h ⬝ᵥ (Matrix.mulVec (fun i j => accumulate els fun p => b p i j) x)
      = accumulate els fun p => ∑ i, h i * ∑ j, b p i j * x j := by
  rw [accumulate_sum, dotProduct]
  refine Finset.sum_congr rfl fun i _ => ?_
  rw [accumulate_mul, accumulate_sum]
  change h i * ∑ j, accumulate els (fun p => b p i j) * x j = _
  congr 1
  refine Finset.sum_congr rfl fun j _ => ?_
  rw [mul_comm, ← accumulate_mul]
  exact accumulate_congr _ _ _ fun p _ => mul_comm _ _

omit [Fintype ι] in
theorem accumulate_lin {n : ℕ} (els : List (List (Pt ι))) (b : Pt ι → Fin n → ℝ) (h : Fin n → ℝ) :
    h ⬝ᵥ (fun i => accumulate els fun p => b p i) = accumulate els fun p => ∑ i, h i * b p i := by
  rw [accumulate_sum, dotProduct]
  exact Finset.sum_congr rfl fun i _ => by rw [accumulate_mul]

theorem sq_expand (a b c : ℝ) (u v w : ι → ℝ) :
    (a • u + b • v + c • w) ⬝ᵥ (a • u + b • v + c • w)
      = a * a * (u ⬝ᵥ u) + b * b * (v ⬝ᵥ v) + c * c * (w ⬝ᵥ w) + 2 * a * b * (u ⬝ᵥ v) + 2 * b * c * (w ⬝ᵥ v) + 2 * a * c * (u ⬝ᵥ w) := by
  simp only [add_dotProduct, dotProduct_add, smul_dotProduct, dotProduct_smul, smul_eq_mul]
  rw [dotProduct_comm v u, dotProduct_comm w u, dotProduct_comm v w]
  ring

/-- The three polynomials of a coefficient vector. -/
def pR (y : Fin 7 → ℝ) (t : ℝ) : ℝ := (1 - t) * y 0 + t * y 1
def pL (y : Fin 7 → ℝ) (t : ℝ) : ℝ := (1 - t) * y 2 + t * y 3
def pB (y : Fin 7 → ℝ) (t : ℝ) : ℝ := (1 - t) ^ 2 * y 4 + 2 * t * (1 - t) * y 5 + t ^ 2 * y 6

theorem row_form (lam : ℝ) (p : Pt ι) (h x : Fin 7 → ℝ) :
    (∑ i : Fin 7, h i * ∑ j : Fin 7, basisData lam p (i.val * 7 + j.val) * x j)
      = 2 * (pR h p.t * (pR x p.t * (p.ll - lam) + pL x p.t * p.lr + pB x p.t * p.lw)
          + pL h p.t * (pR x p.t * p.lr + pL x p.t * (p.rr - lam) + pB x p.t * p.wr)
          + pB h p.t * (pR x p.t * p.lw + pL x p.t * p.wr + pB x p.t * p.ww)) := by
  have key : ∀ (b : ℕ → ℝ), b = basisData lam p → ∀ i : Fin 7,
      ∑ j : Fin 7, b (i.val * 7 + j.val) * x j
      = (![2 * (1 - p.t) * (pR x p.t * (p.ll - lam) + pL x p.t * p.lr + pB x p.t * p.lw),
          2 * p.t * (pR x p.t * (p.ll - lam) + pL x p.t * p.lr + pB x p.t * p.lw),
          2 * (1 - p.t) * (pR x p.t * p.lr + pL x p.t * (p.rr - lam) + pB x p.t * p.wr),
          2 * p.t * (pR x p.t * p.lr + pL x p.t * (p.rr - lam) + pB x p.t * p.wr),
          2 * (1 - p.t) ^ 2 * (pR x p.t * p.lw + pL x p.t * p.wr + pB x p.t * p.ww),
          4 * p.t * (1 - p.t) * (pR x p.t * p.lw + pL x p.t * p.wr + pB x p.t * p.ww),
          2 * p.t ^ 2 * (pR x p.t * p.lw + pL x p.t * p.wr + pB x p.t * p.ww)] : Fin 7 → ℝ) i := by
    intro b hb i
    simp only [Fin.sum_univ_seven]
    fin_cases i
    all_goals
      norm_num only [Fin.val_zero, Fin.val_one, Fin.val_two, Fin.isValue, Fin.coe_ofNat_eq_mod]
      rw [hb]
      dsimp only [basisData]
      simp [pR, pL, pB]
      ring
  simp only [key _ rfl, Fin.sum_univ_seven]
  simp [pR, pL, pB]
  ring

theorem rhs_form (lam : ℝ) (p : Pt ι) (h : Fin 7 → ℝ) :
    (∑ i : Fin 7, h i * rhsVals lam p i.val) = -2 * lam * (pR h p.t + pL h p.t) := by
  simp only [Fin.sum_univ_seven]
  simp [rhsVals, pR, pL]
  ring

theorem pR_add (x h : Fin 7 → ℝ) (s t : ℝ) : pR (x + s • h) t = pR x t + s * pR h t := by simp [pR]; ring
theorem pL_add (x h : Fin 7 → ℝ) (s t : ℝ) : pL (x + s • h) t = pL x t + s * pL h t := by simp [pL]; ring
theorem pB_add (x h : Fin 7 → ℝ) (s t : ℝ) : pB (x + s • h) t = pB x t + s * pB h t := by simp [pB]; ring

/-- The four-by-four system. -/
def qR (y : Fin 4 → ℝ) (t : ℝ) : ℝ := (1 - t) * y 0 + t * y 1
def qL (y : Fin 4 → ℝ) (t : ℝ) : ℝ := (1 - t) * y 2 + t * y 3

theorem row_form_beta (lam : ℝ) (p : Pt ι) (aR aL : ℝ) (h x : Fin 4 → ℝ) :
    (∑ i : Fin 4, h i * ∑ j : Fin 4, basisDataBeta lam p aR aL (i.val * 4 + j.val) * x j)
      = 2 * ((qR h p.t * aL + qL h p.t * aR) * (qR x p.t * aL + qL x p.t * aR) - lam * (qR h p.t * qR x p.t + qL h p.t * qL x p.t)) := by
  simp only [Fin.sum_univ_four]
  simp [basisDataBeta, qR, qL]
  ring

theorem rhs_form_beta (p : Pt ι) (aR aL be : ℝ) (h : Fin 4 → ℝ) :
    (∑ i : Fin 4, h i * rhsValsBeta p aR aL be i.val) = 2 * be * (qR h p.t * aL + qL h p.t * aR) := by
  simp only [Fin.sum_univ_four]
  simp [rhsValsBeta, qR, qL]
  ring

theorem qR_add (x h : Fin 4 → ℝ) (s t : ℝ) : qR (x + s • h) t = qR x t + s * qR h t := by simp [qR]; ring
theorem qL_add (x h : Fin 4 → ℝ) (s t : ℝ) : qL (x + s • h) t = qL x t + s * qL h t := by simp [qL]; ring

end Verif.Gluing
