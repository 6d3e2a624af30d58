import Verif.Model.Geom
import Mathlib.Tactic.LinearCombination
import Mathlib.Tactic.FinCases
import Mathlib.LinearAlgebra.Matrix.Determinant.Basic
/-! Helper lemmas for the geometry. -/
set_option autoImplicit false
set_option linter.unusedSimpArgs false
set_option linter.unusedVariables false
set_option linter.unnecessarySeqFocus false
set_option linter.unreachableTactic false
set_option linter.unusedTactic false
namespace Verif.Geom
open Matrix

theorem dot3 (v w : V3) : v ⬝ᵥ w = v 0 * w 0 + v 1 * w 1 + v 2 * w 2 := by
  simp [dotProduct, Fin.sum_univ_three]

theorem cross0 (v w : V3) : (v ⨯₃ w) 0 = v 1 * w 2 - v 2 * w 1 := by simp [crossProduct]
theorem cross1 (v w : V3) : (v ⨯₃ w) 1 = v 2 * w 0 - v 0 * w 2 := by simp [crossProduct]
theorem cross2 (v w : V3) : (v ⨯₃ w) 2 = v 0 * w 1 - v 1 * w 0 := by simp [crossProduct]

theorem dot_nonneg (v : V3) : 0 ≤ v ⬝ᵥ v := by rw [dot3]; nlinarith [sq_nonneg (v 0), sq_nonneg (v 1), sq_nonneg (v 2)]

theorem nrm_sq (v : V3) : nrm v ^ 2 = v ⬝ᵥ v := Real.sq_sqrt (dot_nonneg v)
theorem nrm_nonneg (v : V3) : 0 ≤ nrm v := Real.sqrt_nonneg _

theorem nrm_eq_zero {v : V3} : nrm v = 0 ↔ v = 0 := by
  constructor
  · intro h
    have h2 := nrm_sq v
    rw [h, dot3] at h2
    funext i
    fin_cases i <;> simp <;> nlinarith [sq_nonneg (v 0), sq_nonneg (v 1), sq_nonneg (v 2)]
  · rintro rfl; simp [nrm]

theorem nrm_eq_one {v : V3} : nrm v = 1 ↔ v ⬝ᵥ v = 1 := by
  rw [← nrm_sq]
  constructor
  · intro h; rw [h]; norm_num
  · intro h; nlinarith [nrm_nonneg v]

theorem nrm_unit {v : V3} (h : v ≠ 0) : nrm (unit v) = 1 := by
  have h0 : nrm v ≠ 0 := fun e => h (nrm_eq_zero.1 e)
  rw [nrm_eq_one]
  unfold unit
  rw [if_neg h0, dot3]
  have := nrm_sq v
  rw [dot3] at this
  simp only [Pi.smul_apply, smul_eq_mul]
  field_simp
  linarith

theorem unit_zero : unit 0 = 0 := by simp [unit]

/-- Lagrange's identity -/
theorem cross_sq (a b : V3) : (a ⨯₃ b) ⬝ᵥ (a ⨯₃ b) = (a ⬝ᵥ a) * (b ⬝ᵥ b) - (a ⬝ᵥ b) ^ 2 := by
  simp only [dot3, cross0, cross1, cross2]; ring

/-- the closed form of the rotation for unit vectors -/
theorem rotMat_data {a b : V3} (ha : nrm a = 1) (hb : nrm b = 1) :
    ∃ (v : V3) (c s : ℝ), rotMat a b = c • (1 : M3) + s • skew v + (1 - c) • vecMulVec v v ∧ c = a ⬝ᵥ b ∧ c ^ 2 + s ^ 2 = 1 ∧
      s • v = a ⨯₃ b ∧ v ⬝ᵥ a = 0 ∧ ((v = 0 ∧ s = 0) ∨ (v ⬝ᵥ v = 1 ∧ s ≠ 0)) := by
  have ha' := nrm_eq_one.1 ha
  have hb' := nrm_eq_one.1 hb
  have hw := cross_sq a b
  rw [ha', hb'] at hw
  have hd : (a ⬝ᵥ b) ^ 2 ≤ 1 := by nlinarith [dot_nonneg (a ⨯₃ b)]
  have h1 : -1 ≤ a ⬝ᵥ b := by nlinarith
  have h2 : a ⬝ᵥ b ≤ 1 := by nlinarith
  have hs : Real.sin (Real.arccos (a ⬝ᵥ b)) = nrm (a ⨯₃ b) := by
    rw [Real.sin_arccos]
    unfold nrm
    rw [hw]; ring_nf
  refine ⟨unit (a ⨯₃ b), a ⬝ᵥ b, nrm (a ⨯₃ b), ?_, rfl, ?_, ?_, ?_, ?_⟩
  · unfold rotMat
    simp only [ha, hb, mul_one, div_one]
    rw [Real.cos_arccos h1 h2, hs]
  · rw [nrm_sq, hw]; ring
  · unfold unit
    split_ifs with h
    · rw [nrm_eq_zero.1 h]; simp
    · rw [smul_smul, mul_one_div_cancel h, one_smul]
  · have h0 : (a ⨯₃ b) ⬝ᵥ a = 0 := by rw [dot3, cross0, cross1, cross2]; ring
    unfold unit
    split_ifs
    · exact h0
    · rw [smul_dotProduct, h0, smul_zero]
  · by_cases h : a ⨯₃ b = 0
    · left; rw [h]; simp [unit, nrm]
    · right; exact ⟨nrm_eq_one.1 (nrm_unit h), fun e => h (nrm_eq_zero.1 e)⟩

theorem rodrigues_orth (v : V3) (c s : ℝ) (hcs : c ^ 2 + s ^ 2 = 1) (hv : (v = 0 ∧ s = 0) ∨ v ⬝ᵥ v = 1) :
    (c • (1 : M3) + s • skew v + (1 - c) • vecMulVec v v)ᵀ * (c • (1 : M3) + s • skew v + (1 - c) • vecMulVec v v) = 1 := by
  rcases hv with ⟨rfl, rfl⟩ | hv
  · have hc : c * c = 1 := by nlinarith
    ext i j
    fin_cases i <;> fin_cases j <;> simp [Matrix.mul_apply, Fin.sum_univ_three, skew, vecMulVec_apply, hc]
  · rw [dot3] at hv
    ext i j
    fin_cases i <;> fin_cases j <;>
      simp [Matrix.mul_apply, Fin.sum_univ_three, skew, vecMulVec_apply] <;>
      first
      | linear_combination (1 - v 0 * v 0) * hcs + (s ^ 2 + v 0 * v 0 * (1 - c) ^ 2) * hv
      | linear_combination (1 - v 1 * v 1) * hcs + (s ^ 2 + v 1 * v 1 * (1 - c) ^ 2) * hv
      | linear_combination (1 - v 2 * v 2) * hcs + (s ^ 2 + v 2 * v 2 * (1 - c) ^ 2) * hv
      | linear_combination (- (v 0 * v 1)) * hcs + (v 0 * v 1 * (1 - c) ^ 2) * hv
      | linear_combination (- (v 0 * v 2)) * hcs + (v 0 * v 2 * (1 - c) ^ 2) * hv
      | linear_combination (- (v 1 * v 2)) * hcs + (v 1 * v 2 * (1 - c) ^ 2) * hv

theorem rodrigues_det (v : V3) (c s : ℝ) :
    (c • (1 : M3) + s • skew v + (1 - c) • vecMulVec v v).det = (c + (1 - c) * (v ⬝ᵥ v)) * (c ^ 2 + s ^ 2 * (v ⬝ᵥ v)) := by
  rw [Matrix.det_fin_three, dot3]
  simp [skew, vecMulVec_apply]
  ring

theorem rodrigues_mulVec (v x : V3) (c s : ℝ) :
    (c • (1 : M3) + s • skew v + (1 - c) • vecMulVec v v) *ᵥ x = c • x + (s • v) ⨯₃ x + ((1 - c) * (v ⬝ᵥ x)) • v := by
  rw [dot3]
  funext i
  fin_cases i
  · show _ = (c • x) 0 + ((s • v) ⨯₃ x) 0 + (((1 - c) * (v 0 * x 0 + v 1 * x 1 + v 2 * x 2)) • v) 0
    rw [cross0]
    simp [Matrix.mulVec, dotProduct, Fin.sum_univ_three, skew, vecMulVec_apply]; ring
  · show _ = (c • x) 1 + ((s • v) ⨯₃ x) 1 + (((1 - c) * (v 0 * x 0 + v 1 * x 1 + v 2 * x 2)) • v) 1
    rw [cross1]
    simp [Matrix.mulVec, dotProduct, Fin.sum_univ_three, skew, vecMulVec_apply]; ring
  · show _ = (c • x) 2 + ((s • v) ⨯₃ x) 2 + (((1 - c) * (v 0 * x 0 + v 1 * x 1 + v 2 * x 2)) • v) 2
    rw [cross2]
    simp [Matrix.mulVec, dotProduct, Fin.sum_univ_three, skew, vecMulVec_apply]; ring

theorem ext3 {v w : V3} (h0 : v 0 = w 0) (h1 : v 1 = w 1) (h2 : v 2 = w 2) : v = w := by
  funext i; fin_cases i <;> assumption

/-- `(a × b) × a` -/
theorem cross_cross_self (a b : V3) : (a ⨯₃ b) ⨯₃ a = (a ⬝ᵥ a) • b - (a ⬝ᵥ b) • a := by
  apply ext3
  · rw [cross0, cross1, cross2, dot3, dot3]; simp; ring
  · rw [cross1, cross0, cross2, dot3, dot3]; simp; ring
  · rw [cross2, cross1, cross0, dot3, dot3]; simp; ring

theorem rot_some {a b : V3} (ha : nrm a = 1) (hb : nrm b = 1) :
    rot a b = some (rotMat a b) ∧ (rotMat a b)ᵀ * rotMat a b = 1 ∧ rotMat a b *ᵥ a = b := by
  obtain ⟨v, c, s, hR, hc, hcs, hsv, hva, hv⟩ := rotMat_data ha hb
  have hmap : rotMat a b *ᵥ a = b := by
    rw [hR, rodrigues_mulVec, hsv, hva, cross_cross_self, nrm_eq_one.1 ha, ← hc]
    simp
  refine ⟨?_, ?_, hmap⟩
  · unfold rot
    rw [if_pos ⟨ha, hb⟩, if_pos hmap]
  · rw [hR]
    refine rodrigues_orth v c s hcs ?_
    rcases hv with h | h
    · exact Or.inl h
    · exact Or.inr h.1

theorem orth_comm {R : M3} (h : Rᵀ * R = 1) : R * Rᵀ = 1 := mul_eq_one_comm.1 h

theorem orth_dot {R : M3} (h : Rᵀ * R = 1) (x y : V3) : (R *ᵥ x) ⬝ᵥ (R *ᵥ y) = x ⬝ᵥ y := by
  rw [Matrix.dotProduct_mulVec, Matrix.vecMul_mulVec, h, ← Matrix.dotProduct_mulVec, Matrix.one_mulVec]

theorem orth_nrm {R : M3} (h : Rᵀ * R = 1) (x : V3) : nrm (R *ᵥ x) = nrm x := by unfold nrm; rw [orth_dot h]

theorem det_rotMat {a b : V3} (ha : nrm a = 1) (hb : nrm b = 1) : (rotMat a b).det = if b = -a then -1 else 1 := by
  obtain ⟨v, c, s, hR, hc, hcs, hsv, hva, hv⟩ := rotMat_data ha hb
  rw [hR, rodrigues_det]
  have ha' := nrm_eq_one.1 ha
  have hb' := nrm_eq_one.1 hb
  split_ifs with h
  · subst h
    have : c = -1 := by rw [hc, dotProduct_neg, ha']
    have hs : s = 0 := by nlinarith
    rcases hv with ⟨rfl, -⟩ | ⟨-, h⟩
    · rw [this, hs]; simp
    · exact absurd hs h
  · rcases hv with ⟨rfl, rfl⟩ | ⟨h1, -⟩
    · have hc2 : c = 1 := by
        have : (c - 1) * (c + 1) = 0 := by nlinarith
        rcases mul_eq_zero.1 this with h' | h'
        · linarith
        · exfalso
          apply h
          have hm : c = -1 := by linarith
          have : nrm (b + a) = 0 := by
            unfold nrm
            rw [show (b + a) ⬝ᵥ (b + a) = 0 by
              simp only [add_dotProduct, dotProduct_add, ha', hb', dotProduct_comm b a, ← hc, hm]; norm_num]
            simp
          have := nrm_eq_zero.1 this
          exact eq_neg_of_add_eq_zero_left this
      rw [hc2]; simp
    · rw [h1]; simp [hcs]

/-! ### the triangle -/

theorem corners_eq (r : ℝ) : corners r = ![(2 * r, 0), (-r, Real.sqrt 3 * r), (-r, -(Real.sqrt 3 * r))] := by
  have h3 : Real.sqrt 3 * Real.sqrt 3 = 3 := Real.mul_self_sqrt (by norm_num)
  have hp : Real.sqrt 3 ≠ 0 := by positivity
  unfold corners
  simp only
  congr 1
  · congr 1
    field_simp
    ring
  · congr 1
    · congr 1
      field_simp
      rw [sq, h3]; ring
    · congr 2
      field_simp
      rw [sq, h3]; ring

/-- explicit barycentric coordinates -/
noncomputable def lam (r : ℝ) (p : V3) : V3 :=
  ![(p 0 + r) / (3 * r), (2 * r - p 0) / (6 * r) + p 1 / (2 * (Real.sqrt 3 * r)), (2 * r - p 0) / (6 * r) - p 1 / (2 * (Real.sqrt 3 * r))]

theorem baryMat_lam {r : ℝ} (hr : r ≠ 0) (p : V3) : baryMat r *ᵥ lam r p = ![p 0, p 1, 1] := by
  have hp : Real.sqrt 3 ≠ 0 := by positivity
  apply ext3
  · simp [Matrix.mulVec, dotProduct, Fin.sum_univ_three, baryMat, corners_eq, lam]; field_simp; ring
  · simp [Matrix.mulVec, dotProduct, Fin.sum_univ_three, baryMat, corners_eq, lam]; field_simp; ring
  · simp [Matrix.mulVec, dotProduct, Fin.sum_univ_three, baryMat, corners_eq, lam]; field_simp; ring

theorem baryMat_det {r : ℝ} (hr : r ≠ 0) : IsUnit (baryMat r).det := by
  have hp : Real.sqrt 3 ≠ 0 := by positivity
  rw [isUnit_iff_ne_zero, Matrix.det_fin_three]
  simp [baryMat, corners_eq]
  ring_nf
  positivity

theorem bary_eq {r : ℝ} (hr : r ≠ 0) (p : V3) : bary r p = lam r p := by
  unfold bary
  rw [← baryMat_lam hr, Matrix.mulVec_mulVec, Matrix.nonsing_inv_mul _ (baryMat_det hr), Matrix.one_mulVec]

theorem lam_nonneg {r : ℝ} (hr : 0 < r) (p : V3) (hp : p 0 ^ 2 + p 1 ^ 2 ≤ r ^ 2) (i : Fin 3) : 0 ≤ lam r p i := by
  have h3 : Real.sqrt 3 * Real.sqrt 3 = 3 := Real.mul_self_sqrt (by norm_num)
  have hs : 0 < Real.sqrt 3 := by positivity
  have key : ∀ y : ℝ, p 0 ^ 2 + y ^ 2 ≤ r ^ 2 → p 0 + Real.sqrt 3 * y ≤ 2 * r := by
    intro y hy
    by_contra hc
    push Not at hc
    have : (p 0 + Real.sqrt 3 * y) ^ 2 ≤ (2 * r) ^ 2 := by nlinarith [sq_nonneg (Real.sqrt 3 * p 0 - y)]
    nlinarith
  have k1 := key (p 1) hp
  have k2 := key (-p 1) (by rw [neg_sq]; exact hp)
  have e : ∀ y : ℝ, y / (2 * (Real.sqrt 3 * r)) = Real.sqrt 3 * y / (6 * r) := by
    intro y
    field_simp
    rw [sq, h3]; ring
  fin_cases i
  · simp [lam]
    apply div_nonneg _ (by positivity)
    nlinarith [sq_nonneg (p 1)]
  · show 0 ≤ (2 * r - p 0) / (6 * r) + p 1 / (2 * (Real.sqrt 3 * r))
    rw [e, ← add_div]
    apply div_nonneg _ (by positivity)
    linarith
  · show 0 ≤ (2 * r - p 0) / (6 * r) - p 1 / (2 * (Real.sqrt 3 * r))
    rw [e, ← sub_div]
    apply div_nonneg _ (by positivity)
    linarith

theorem farthest_spec (up : List V3) (h : ∃ p ∈ up, p ≠ 0) : ∃ m, (farthest up).2 = some m ∧ m ∈ up ∧ m ≠ 0 ∧
    (farthest up).1 = nrm m ∧ ∀ p ∈ up, nrm p ≤ (farthest up).1 := by
  classical
  have key : ∀ (l pre : List V3) (acc : ℝ × Option V3),
      (0 ≤ acc.1 ∧ (∀ p ∈ pre, nrm p ≤ acc.1) ∧ ((acc = (0, none)) ∨ ∃ m, acc = (nrm m, some m) ∧ m ∈ pre ∧ 0 < nrm m)) →
      (let acc' := l.foldl (fun acc p => if nrm p > acc.1 then (nrm p, some p) else acc) acc
       0 ≤ acc'.1 ∧ (∀ p ∈ pre ++ l, nrm p ≤ acc'.1) ∧ ((acc' = (0, none)) ∨ ∃ m, acc' = (nrm m, some m) ∧ m ∈ pre ++ l ∧ 0 < nrm m)) := by
    intro l
    induction l with
    | nil => intro pre acc h; simpa using h
    | cons x l ih =>
      intro pre acc ⟨h0, h1, h2⟩
      rw [List.foldl_cons]
      have := ih (pre ++ [x]) (if nrm x > acc.1 then (nrm x, some x) else acc) ?_
      · simpa using this
      · split_ifs with hx
        · refine ⟨nrm_nonneg x, ?_, Or.inr ⟨x, rfl, by simp, lt_of_le_of_lt h0 hx⟩⟩
          intro p hp
          simp only [List.mem_append, List.mem_cons, List.not_mem_nil, or_false] at hp
          rcases hp with hp | rfl
          · exact (h1 p hp).trans hx.le
          · exact le_refl _
        · refine ⟨h0, ?_, ?_⟩
          · intro p hp
            simp only [List.mem_append, List.mem_cons, List.not_mem_nil, or_false] at hp
            rcases hp with hp | rfl
            · exact h1 p hp
            · exact not_lt.1 hx
          · rcases h2 with h2 | ⟨m, h2, h3, h4⟩
            · exact Or.inl h2
            · exact Or.inr ⟨m, h2, by simp [h3], h4⟩
  have := key up [] (0, none) ⟨le_refl _, by simp, Or.inl rfl⟩
  simp only [List.nil_append] at this
  obtain ⟨k0, k1, k2⟩ := this
  obtain ⟨p, hp, hne⟩ := h
  rcases k2 with k2 | ⟨m, k2, k3, k4⟩
  · exfalso
    have := k1 p hp
    rw [k2] at this
    exact hne (nrm_eq_zero.1 (le_antisymm this (nrm_nonneg p)))
  · refine ⟨m, ?_, k3, ?_, ?_, k1⟩
    · unfold farthest; rw [k2]
    · rintro rfl; simp [nrm] at k4
    · unfold farthest; rw [k2]

theorem nrm_ex : nrm ex = 1 := by rw [nrm_eq_one, dot3]; simp [ex]
theorem nrm_ez : nrm ez = 1 := by rw [nrm_eq_one, dot3]; simp [ez]

/-- rotating a vector of the xy plane onto the x axis keeps the plane -/
theorem rot_flat {m p : V3} (hm : nrm m = 1) (hm2 : m 2 = 0) (hp : p 2 = 0) : (rotMat m ex *ᵥ p) 2 = 0 := by
  obtain ⟨v, c, s, hR, hc, hcs, hsv, hva, hv⟩ := rotMat_data hm nrm_ex
  have h0 : s * v 0 = 0 := by
    have := congrFun hsv 0
    rw [cross0] at this
    simp [ex, hm2] at this ⊢
    exact this
  have h1 : s * v 1 = 0 := by
    have := congrFun hsv 1
    rw [cross1] at this
    simp [ex, hm2] at this ⊢
    exact this
  rw [hR, rodrigues_mulVec]
  show (c • p) 2 + ((s • v) ⨯₃ p) 2 + (((1 - c) * (v ⬝ᵥ p)) • v) 2 = 0
  rw [cross2]
  simp only [Pi.smul_apply, smul_eq_mul, hp, h0, h1, dot3]
  rcases hv with ⟨rfl, -⟩ | ⟨-, hs⟩
  · simp
  · have g0 : v 0 = 0 := by simpa [hs] using h0
    have g1 : v 1 = 0 := by simpa [hs] using h1
    rw [g0, g1]; simp

theorem lam_sum {r : ℝ} (hr : r ≠ 0) (p : V3) : ∑ i, lam r p i = 1 := by
  rw [Fin.sum_univ_three]
  simp [lam]; field_simp; ring

theorem lam_corners {r : ℝ} (hr : r ≠ 0) {p : V3} (hp : p 2 = 0) : ∑ i, lam r p i • (![(corners r i).1, (corners r i).2, 0] : V3) = p := by
  have h := baryMat_lam hr p
  have h0 := congrFun h 0
  have h1 := congrFun h 1
  simp only [Matrix.mulVec, dotProduct, Fin.sum_univ_three, baryMat] at h0 h1
  rw [Fin.sum_univ_three]
  apply ext3
  · simp at h0 ⊢; linarith
  · simp at h1 ⊢; linarith
  · simp [hp]

theorem unit_smul (n : V3) (hn : n ≠ 0) : unit n = (1 / nrm n) • n := by
  unfold unit; rw [if_neg (fun h => hn (nrm_eq_zero.1 h))]

theorem flat_of {p : V3} (h : p 2 = 0) : flat p = p := by
  apply ext3 <;> simp [flat, h]

/-- the part of `makeTriangle` after the rotation to the plane -/
theorem triangle_core (Rn : M3) (hRn : Rnᵀ * Rn = 1) (mid : V3) (ws : List V3) (h0 : ∀ w ∈ ws, (Rn *ᵥ w) 2 = 0) (hne : ∃ w ∈ ws, w ≠ 0) :
    ∃ umax Rx, (farthest (ws.map (Rn *ᵥ ·))).2 = some umax ∧ rot (unit umax) ex = some Rx ∧ (∀ w ∈ ws,
      (∀ i, 0 ≤ bary (farthest (ws.map (Rn *ᵥ ·))).1 (Rx *ᵥ (Rn *ᵥ w)) i) ∧
      ∑ i, bary (farthest (ws.map (Rn *ᵥ ·))).1 (Rx *ᵥ (Rn *ᵥ w)) i = 1 ∧
      ∑ i, bary (farthest (ws.map (Rn *ᵥ ·))).1 (Rx *ᵥ (Rn *ᵥ w)) i • physical Rn Rx mid (farthest (ws.map (Rn *ᵥ ·))).1 i = w + mid) ∧
      ∑ i, physical Rn Rx mid (farthest (ws.map (Rn *ᵥ ·))).1 i = (3 : ℝ) • mid ∧
      (∀ i, (Rn *ᵥ (physical Rn Rx mid (farthest (ws.map (Rn *ᵥ ·))).1 i - mid)) 2 = 0) ∧
      ∃ wm ∈ ws, (∀ w ∈ ws, nrm w ≤ nrm wm) ∧ physical Rn Rx mid (farthest (ws.map (Rn *ᵥ ·))).1 0 - mid = (2 : ℝ) • wm ∧
        ∀ i, nrm (physical Rn Rx mid (farthest (ws.map (Rn *ᵥ ·))).1 i - mid) = 2 * nrm wm := by
  obtain ⟨w0, hw0, hw0n⟩ := hne
  obtain ⟨m, hm, hmem, hm0, hmr, hmax⟩ := farthest_spec (ws.map (Rn *ᵥ ·)) ⟨Rn *ᵥ w0, List.mem_map_of_mem hw0, by
    intro h
    apply hw0n
    have : nrm w0 = 0 := by rw [← orth_nrm hRn, h]; simp [nrm]
    exact nrm_eq_zero.1 this⟩
  generalize hr : (farthest (ws.map (Rn *ᵥ ·))).1 = r at *
  obtain ⟨wm, hwm, rfl⟩ := List.mem_map.1 hmem
  set m := Rn *ᵥ wm with hmdef
  have hrpos : 0 < r := by
    rw [hmr]
    exact lt_of_le_of_ne (nrm_nonneg m) (fun h => hm0 (nrm_eq_zero.1 h.symm))
  have hum : nrm (unit m) = 1 := nrm_unit hm0
  have hum2 : (unit m) 2 = 0 := by rw [unit_smul m hm0]; simp [h0 wm hwm, hmdef]
  obtain ⟨hrot, horth, hmap⟩ := rot_some hum nrm_ex
  set Rx := rotMat (unit m) ex with hRx
  have hflat : ∀ p : V3, p 2 = 0 → (Rx *ᵥ p) 2 = 0 := fun p hp => rot_flat hum hum2 hp
  have back : ∀ x : V3, Rxᵀ *ᵥ (Rx *ᵥ x) = x := fun x => by rw [Matrix.mulVec_mulVec, horth, Matrix.one_mulVec]
  have backn : ∀ x : V3, Rnᵀ *ᵥ (Rn *ᵥ x) = x := fun x => by rw [Matrix.mulVec_mulVec, hRn, Matrix.one_mulVec]
  have forn : ∀ x : V3, Rn *ᵥ (Rnᵀ *ᵥ x) = x := fun x => by rw [Matrix.mulVec_mulVec, orth_comm hRn, Matrix.one_mulVec]
  have phys : ∀ lam : V3, ∑ i, lam i = 1 → ∑ i, lam i • physical Rn Rx mid r i =
      Rnᵀ *ᵥ (Rxᵀ *ᵥ (∑ i, lam i • (![(corners r i).1, (corners r i).2, 0] : V3))) + mid := by
    intro lam hl
    simp only [physical, smul_add, Finset.sum_add_distrib, ← Finset.sum_smul, hl, one_smul, Matrix.mulVec_sum, Matrix.mulVec_smul]
  refine ⟨m, Rx, hm, hrot, ?_, ?_, ?_, wm, hwm, ?_, ?_, ?_⟩
  · intro w hw
    have hp2 := hflat _ (h0 w hw)
    have hn : nrm (Rx *ᵥ (Rn *ᵥ w)) ≤ r := by rw [orth_nrm horth]; exact hmax _ (List.mem_map_of_mem hw)
    rw [bary_eq hrpos.ne']
    refine ⟨fun i => lam_nonneg hrpos _ ?_ i, lam_sum hrpos.ne' _, ?_⟩
    · have h1 := nrm_sq (Rx *ᵥ (Rn *ᵥ w))
      rw [dot3, hp2] at h1
      have h2 := nrm_nonneg (Rx *ᵥ (Rn *ᵥ w))
      nlinarith
    · rw [phys _ (lam_sum hrpos.ne' _), lam_corners hrpos.ne' hp2, back, backn]
  · have := phys (fun _ => 1 / 3) (by simp)
    have hz : ∑ i, (1 / 3 : ℝ) • (![(corners r i).1, (corners r i).2, 0] : V3) = 0 := by
      rw [Fin.sum_univ_three]
      apply ext3 <;> simp [corners_eq]
      ring
    rw [hz, Matrix.mulVec_zero, Matrix.mulVec_zero, zero_add, ← Finset.smul_sum] at this
    calc _ = (3 : ℝ) • ((1 / 3 : ℝ) • ∑ i, physical Rn Rx mid r i) := by rw [smul_smul]; norm_num
      _ = _ := by rw [this]
  · intro i
    simp only [physical, add_sub_cancel_right, forn]
    -- the transposed rotation also keeps the plane
    have hez : Rx *ᵥ ez = (Rx *ᵥ ez) 2 • ez := by
      have e0 : (Rx *ᵥ ez) 0 = 0 := by
        have h := orth_dot horth (Rxᵀ *ᵥ ex) ez
        have hx : Rxᵀ *ᵥ ex = unit m := by rw [← hmap, back]
        rw [hx, hmap] at h
        rw [dot3, dot3] at h
        simp [ex, ez, hum2] at h
        simpa [ez] using h
      have e1 : (Rx *ᵥ ez) 1 = 0 := by
        obtain ⟨v, c, s, hR, hc, hcs, hsv, hva, hv⟩ := rotMat_data hum nrm_ex
        have g0 : s * v 0 = 0 := by
          have := congrFun hsv 0
          rw [cross0] at this
          simp [ex, hum2] at this ⊢
          exact this
        rw [hRx, hR, rodrigues_mulVec]
        have g1 : s * v 1 = 0 := by
          have := congrFun hsv 1
          rw [cross1] at this
          simp [ex, hum2] at this ⊢
          exact this
        show (c • ez) 1 + ((s • v) ⨯₃ ez) 1 + (((1 - c) * (v ⬝ᵥ ez)) • v) 1 = 0
        rw [cross1, dot3]
        simp only [Pi.smul_apply, smul_eq_mul, g0, ez]
        rcases hv with ⟨rfl, -⟩ | ⟨-, hs⟩
        · simp
        · have : v 1 = 0 := by simpa [hs] using g1
          simp [this]
      apply ext3
      · rw [e0]; simp [ez]
      · rw [e1]; simp [ez]
      · simp [ez]
    have := orth_dot horth (Rxᵀ *ᵥ ![(corners r i).1, (corners r i).2, 0]) ez
    rw [Matrix.mulVec_mulVec, orth_comm horth, Matrix.one_mulVec, hez, dot3, dot3] at this
    simp [ez] at this
    simpa using this.symm
  · intro w hw
    have := hmax _ (List.mem_map_of_mem hw)
    rw [hmr, hmdef, orth_nrm hRn, orth_nrm hRn] at this
    exact this
  · simp only [physical, add_sub_cancel_right]
    have e : (![(corners r 0).1, (corners r 0).2, 0] : V3) = (2 * r) • ex := by
      apply ext3 <;> simp [corners_eq, ex]
    have hx : Rxᵀ *ᵥ ex = unit m := by rw [← hmap, back]
    rw [e, Matrix.mulVec_smul, hx, unit_smul m hm0, smul_smul, ← hmr, show 2 * r * (1 / r) = 2 by field_simp, Matrix.mulVec_smul, hmdef, backn]
  · intro i
    simp only [physical, add_sub_cancel_right]
    have hT : (Rxᵀ)ᵀ * Rxᵀ = 1 := by rw [Matrix.transpose_transpose]; exact orth_comm horth
    have hTn : (Rnᵀ)ᵀ * Rnᵀ = 1 := by rw [Matrix.transpose_transpose]; exact orth_comm hRn
    rw [orth_nrm hTn, orth_nrm hT]
    have : nrm wm = r := by rw [hmr, hmdef, orth_nrm hRn]
    rw [this]
    have h3 : Real.sqrt 3 * Real.sqrt 3 = 3 := Real.mul_self_sqrt (by norm_num)
    have h4 := nrm_sq (![(corners r i).1, (corners r i).2, 0] : V3)
    have h5 := nrm_nonneg (![(corners r i).1, (corners r i).2, 0] : V3)
    have h6 : (![(corners r i).1, (corners r i).2, 0] : V3) ⬝ᵥ ![(corners r i).1, (corners r i).2, 0] = (2 * r) ^ 2 := by
      rw [dot3, corners_eq]
      fin_cases i
      · simp; ring
      · simp; linear_combination r * r * h3
      · simp; linear_combination r * r * h3
    rw [h6] at h4
    exact (pow_left_inj₀ h5 (by positivity) two_ne_zero).1 h4

theorem unit_dot (n x : V3) (hn : n ≠ 0) : (x ⬝ᵥ unit n) • unit n = (x ⬝ᵥ n / (n ⬝ᵥ n)) • n := by
  have h : nrm n ≠ 0 := fun h => hn (nrm_eq_zero.1 h)
  rw [unit_smul n hn, dotProduct_smul, smul_smul, ← nrm_sq]
  congr 1
  simp only [smul_eq_mul]; field_simp

/-- setting the third coordinate to zero after the rotation is the projection along the normal -/
theorem flat_rot {R : M3} (hR : Rᵀ * R = 1) {n : V3} (hn : R *ᵥ n = ez) (x : V3) : flat (R *ᵥ x) = R *ᵥ (x - (x ⬝ᵥ n) • n) := by
  have h : (R *ᵥ x) 2 = x ⬝ᵥ n := by
    rw [← orth_dot hR x n, hn, dot3]; simp [ez]
  rw [Matrix.mulVec_sub, Matrix.mulVec_smul, hn, ← h]
  apply ext3 <;> simp [flat, ez]

theorem rot_perp {R : M3} (hR : Rᵀ * R = 1) {n : V3} (hn : R *ᵥ n = ez) (x : V3) : (R *ᵥ x) 2 = x ⬝ᵥ n := by
  rw [← orth_dot hR x n, hn, dot3]; simp [ez]

end Verif.Geom
