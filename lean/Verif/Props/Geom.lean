import Verif.Proofs.Geom
/-!
# Properties C18, C19, C20: rotations and the triangle at an extraordinary vertex

`nrm v = 1` means unit length, `Rᵀ * R = 1` orthogonality; `ez`, `ex` are the coordinate axes.
-/
set_option autoImplicit false
set_option linter.unusedSimpArgs false
namespace Verif.Geom
open Matrix

/-! ## C19 -/

/-- C19. For unit vectors all assertions of `_getRotationMatrix` hold, the matrix is orthogonal and maps `a` to `b`. Parallel and
antiparallel vectors are included. -/
theorem C19_rotation (a b : V3) (ha : nrm a = 1) (hb : nrm b = 1) :
    ∃ R, rot a b = some R ∧ Rᵀ * R = 1 ∧ R * Rᵀ = 1 ∧ R *ᵥ a = b := by
  obtain ⟨h1, h2, h3⟩ := rot_some ha hb
  exact ⟨_, h1, h2, orth_comm h2, h3⟩

/-- C19. The determinant is one except when `b` is opposite to `a`; then the matrix is the point reflection `-1`. -/
theorem C19_det (a b : V3) (R : M3) (h : rot a b = some R) : (b ≠ -a → R.det = 1) ∧ (b = -a → R = -1) := by
  unfold rot at h
  split_ifs at h with h1 h2
  obtain ⟨ha, hb⟩ := h1
  cases h
  refine ⟨fun hne => by rw [det_rotMat ha hb, if_neg hne], ?_⟩
  rintro rfl
  obtain ⟨v, c, s, hR, hc, hcs, hsv, hva, hv⟩ := rotMat_data ha hb
  have : c = -1 := by rw [hc, dotProduct_neg, nrm_eq_one.1 ha]
  have hs : s = 0 := by nlinarith
  rcases hv with ⟨rfl, -⟩ | ⟨-, h'⟩
  · rw [hR, this, hs]
    ext i j
    simp [vecMulVec_apply]
  · exact absurd hs h'

/-- C19. Vectors orthogonal to both `a` and `b` are the axis and are not moved (unless `b = -a`): the rotation is the one in the plane of
the two vectors, by the angle between them. -/
theorem C19_axis (a b : V3) (R : M3) (h : rot a b = some R) (hne : b ≠ -a) (hne' : b ≠ a) (x : V3) (hx : a ⬝ᵥ x = 0) (hy : b ⬝ᵥ x = 0) : R *ᵥ x = x := by
  unfold rot at h
  split_ifs at h with h1 h2
  obtain ⟨ha, hb⟩ := h1
  cases h
  obtain ⟨v, c, s, hR, hc, hcs, hsv, hva, hv⟩ := rotMat_data ha hb
  have ha' := nrm_eq_one.1 ha
  have hb' := nrm_eq_one.1 hb
  rcases hv with ⟨rfl, rfl⟩ | ⟨hv1, hs⟩
  · exfalso
    have : (c - 1) * (c + 1) = 0 := by nlinarith
    rcases mul_eq_zero.1 this with h' | h'
    · apply hne'
      have : nrm (b - a) = 0 := by
        unfold nrm
        rw [show (b - a) ⬝ᵥ (b - a) = 0 by
          simp only [sub_dotProduct, dotProduct_sub, ha', hb', dotProduct_comm b a, ← hc]; linarith]
        simp
      exact sub_eq_zero.1 (nrm_eq_zero.1 this)
    · apply hne
      have : nrm (b + a) = 0 := by
        unfold nrm
        rw [show (b + a) ⬝ᵥ (b + a) = 0 by
          simp only [add_dotProduct, dotProduct_add, ha', hb', dotProduct_comm b a, ← hc]; linarith]
        simp
      exact eq_neg_of_add_eq_zero_left (nrm_eq_zero.1 this)
  · -- `x` is a multiple of the axis
    have hxx : (s * s) • x = (s * (v ⬝ᵥ x)) • (s • v) := by
      have e : s * (v ⬝ᵥ x) = (a ⨯₃ b) ⬝ᵥ x := by rw [← hsv, smul_dotProduct, smul_eq_mul]
      have hs2 : s * s = (a ⬝ᵥ a) * (b ⬝ᵥ b) - (a ⬝ᵥ b) ^ 2 := by rw [ha', hb', ← hc]; nlinarith
      rw [e, hsv, hs2]
      rw [dot3] at hx hy
      apply ext3
      · simp only [Pi.smul_apply, smul_eq_mul, dot3, cross0, cross1, cross2]
        linear_combination (a 0 * (b 1 ^ 2 + b 2 ^ 2) - b 0 * (a 1 * b 1 + a 2 * b 2)) * hx + (b 0 * (a 1 ^ 2 + a 2 ^ 2) - a 0 * (a 1 * b 1 + a 2 * b 2)) * hy
      · simp only [Pi.smul_apply, smul_eq_mul, dot3, cross0, cross1, cross2]
        linear_combination (a 1 * (b 0 ^ 2 + b 2 ^ 2) - b 1 * (a 0 * b 0 + a 2 * b 2)) * hx + (b 1 * (a 0 ^ 2 + a 2 ^ 2) - a 1 * (a 0 * b 0 + a 2 * b 2)) * hy
      · simp only [Pi.smul_apply, smul_eq_mul, dot3, cross0, cross1, cross2]
        linear_combination (a 2 * (b 1 ^ 2 + b 0 ^ 2) - b 2 * (a 1 * b 1 + a 0 * b 0)) * hx + (b 2 * (a 1 ^ 2 + a 0 ^ 2) - a 2 * (a 1 * b 1 + a 0 * b 0)) * hy
    have hxv : x = (v ⬝ᵥ x) • v := by
      have h4 : (s * s) • x = (s * s) • ((v ⬝ᵥ x) • v) := by rw [hxx, smul_smul, smul_smul]; congr 1; ring
      exact smul_right_injective _ (mul_ne_zero hs hs) h4
    have hcross : (s • v) ⨯₃ x = 0 := by
      rw [hxv]; simp
    rw [hR, rodrigues_mulVec, hcross, add_zero, mul_smul, ← hxv, ← add_smul]
    simp

/-- C19. Vectors that are not of unit length are rejected. -/
theorem C19_unit_required (a b : V3) : (rot a b).isSome ↔ nrm a = 1 ∧ nrm b = 1 := by
  constructor
  · intro h
    unfold rot at h
    split_ifs at h with h1
    · exact h1
    all_goals simp at h
  · rintro ⟨ha, hb⟩
    rw [(rot_some ha hb).1]; rfl

theorem nrm_example : nrm ![3 / 5, 0, 4 / 5] = 1 := by rw [nrm_eq_one, dot3]; norm_num [Matrix.cons_val_two, Matrix.tail_cons]

example : ∃ R, rot ![3 / 5, 0, 4 / 5] ez = some R ∧ Rᵀ * R = 1 ∧ R.det = 1 ∧ R *ᵥ ![3 / 5, 0, 4 / 5] = ez := by
  obtain ⟨R, h1, h2, -, h4⟩ := C19_rotation _ _ nrm_example nrm_ez
  refine ⟨R, h1, h2, (C19_det _ _ R h1).1 ?_, h4⟩
  intro h
  have := congrFun h 0
  norm_num [ez] at this

/-- and the y axis is the axis of this rotation -/
example (R : M3) (h : rot ![3 / 5, 0, 4 / 5] ez = some R) : R *ᵥ ![0, 1, 0] = ![0, 1, 0] := by
  apply C19_axis _ _ R h
  · intro h; have := congrFun h 0; norm_num [ez] at this
  · intro h; have := congrFun h 0; norm_num [ez] at this
  · rw [dot3]; simp
  · rw [dot3]; simp [ez]

/-! ## C18 -/

/-- The orthogonal projection of `u` to the tangent plane through `mid` with normal `n`; planar problems (`none`): `u` itself. -/
noncomputable def onPlane (normal : Option V3) (mid u : V3) : V3 :=
  match normal with
  | none => u
  | some n => u - ((u - mid) ⬝ᵥ n / (n ⬝ᵥ n)) • n

theorem onPlane_perp {n : V3} (hn : n ≠ 0) (mid u : V3) : (onPlane (some n) mid u - mid) ⬝ᵥ n = 0 := by
  have h : n ⬝ᵥ n ≠ 0 := by rw [← nrm_sq]; exact pow_ne_zero _ (fun h => hn (nrm_eq_zero.1 h))
  simp only [onPlane, sub_dotProduct, smul_dotProduct, smul_eq_mul]
  field_simp; ring

theorem forall₂_map {α β : Type} (f : α → β) (P : α → β → Prop) (l : List α) (h : ∀ a ∈ l, P a (f a)) : List.Forall₂ P l (l.map f) := by
  induction l with
  | nil => exact .nil
  | cons a l ih => exact .cons (h a (by simp)) (ih fun b hb => h b (by simp [hb]))

/-- What the triangle `Cg` with weights `ub` must satisfy. -/
def Encloses (normal : Option V3) (mid : V3) (us : List V3) (Cg : Fin 3 → V3) (ub : List V3) : Prop :=
  List.Forall₂ (fun u b => (∀ i, 0 ≤ b i) ∧ ∑ i, b i = 1 ∧ ∑ i, b i • Cg i = onPlane normal mid u) us ub ∧
  ∑ i, Cg i = (3 : ℝ) • mid ∧ (∀ n, normal = some n → ∀ i, (Cg i - mid) ⬝ᵥ n = 0) ∧
  ∃ u ∈ us, (∀ u' ∈ us, nrm (onPlane normal mid u' - mid) ≤ nrm (onPlane normal mid u - mid)) ∧
    Cg 0 - mid = (2 : ℝ) • (onPlane normal mid u - mid) ∧ ∀ i, nrm (Cg i - mid) = 2 * nrm (onPlane normal mid u - mid)

/-- C18. Unless all control points fall on the midpoint, `_makeTriangle` succeeds; every control point (projected to the tangent plane,
for planar problems the point itself) is the convex combination of the three corners with the returned weights; the corners are
centred at the vertex and lie in its tangent plane, all at twice the largest distance of a control point, the first one in the
direction of such a point (so the triangle is equilateral with the smallest circle around the points as incircle). -/
theorem C18_triangle (normal : Option V3) (mid : V3) (us : List V3) (hn : ∀ n, normal = some n → n ≠ 0)
    (h2 : normal = none → mid 2 = 0 ∧ ∀ u ∈ us, u 2 = 0) (h : ∃ u ∈ us, onPlane normal mid u ≠ mid) :
    ∃ Cg ub, makeTriangle normal mid us = some (Cg, ub) ∧ Encloses normal mid us Cg ub := by
  obtain ⟨u0, hu0, hu0n⟩ := h
  cases normal with
  | none =>
    obtain ⟨hm, hus⟩ := h2 rfl
    obtain ⟨umax, Rx, k1, k2, k3, k4, k5, wm, hwm, k6, k7, k8⟩ := triangle_core 1 (by simp) mid (us.map fun u => u - mid) (by
        intro w hw
        obtain ⟨u, hu, rfl⟩ := List.mem_map.1 hw
        simp [hm, hus u hu]) ⟨u0 - mid, List.mem_map_of_mem hu0, sub_ne_zero.2 hu0n⟩
    simp only [Matrix.one_mulVec, List.map_id'] at k1 k2 k3 k4 k5 k6 k7 k8
    refine ⟨_, us.map fun u => bary (farthest (us.map fun u => u - mid)).1 (Rx *ᵥ (u - mid)), ?_, ?_, k4, ?_, ?_⟩
    · simp only [makeTriangle, normalRot, toPlane, Option.bind_eq_bind, Option.bind_some, k1, k2, Option.pure_def, List.map_map]
      rfl
    · apply forall₂_map
      intro u hu
      obtain ⟨g1, g2, g3⟩ := k3 _ (List.mem_map_of_mem hu)
      exact ⟨g1, g2, by rw [g3]; simp [onPlane]⟩
    · intro n h; cases h
    · obtain ⟨u, hu, rfl⟩ := List.mem_map.1 hwm
      exact ⟨u, hu, fun u' hu' => k6 _ (List.mem_map_of_mem hu'), k7, k8⟩
  | some n =>
    have hn0 := hn n rfl
    obtain ⟨r1, r2, r3⟩ := rot_some (nrm_unit hn0) nrm_ez
    set Rn := rotMat (unit n) ez with hRn
    have key : ∀ u : V3, flat (Rn *ᵥ (u - mid)) = Rn *ᵥ (onPlane (some n) mid u - mid) := by
      intro u
      rw [flat_rot r2 r3, unit_dot n _ hn0]
      congr 1
      simp only [onPlane]; abel
    have hup : (us.map fun u => u - mid).map (fun p => flat (Rn *ᵥ p)) = (us.map fun u => onPlane (some n) mid u - mid).map (Rn *ᵥ ·) := by
      rw [List.map_map, List.map_map]
      apply List.map_congr_left
      intro u _
      exact key u
    obtain ⟨umax, Rx, k1, k2, k3, k4, k5, wm, hwm, k6, k7, k8⟩ := triangle_core Rn r2 mid (us.map fun u => onPlane (some n) mid u - mid) (by
        intro w hw
        obtain ⟨u, hu, rfl⟩ := List.mem_map.1 hw
        rw [← key u]; simp [flat]) ⟨_, List.mem_map_of_mem hu0, sub_ne_zero.2 hu0n⟩
    refine ⟨_, us.map fun u => bary (farthest ((us.map fun u => onPlane (some n) mid u - mid).map (Rn *ᵥ ·))).1 (Rx *ᵥ (Rn *ᵥ (onPlane (some n) mid u - mid))), ?_, ?_, k4, ?_, ?_⟩
    · simp only [makeTriangle, normalRot, r1, toPlane, Option.bind_eq_bind, Option.bind_some, hup, k1, k2, Option.pure_def]
      rw [List.map_map, List.map_map, List.map_map]
      rfl
    · apply forall₂_map
      intro u hu
      obtain ⟨g1, g2, g3⟩ := k3 _ (List.mem_map_of_mem hu)
      exact ⟨g1, g2, by rw [g3]; simp⟩
    · rintro n' h i
      cases h
      have := k5 i
      rw [rot_perp r2 r3, unit_smul n hn0, dotProduct_smul, smul_eq_mul] at this
      rcases mul_eq_zero.1 this with h | h
      · exact absurd h (one_div_ne_zero (fun h => hn0 (nrm_eq_zero.1 h)))
      · exact h
    · obtain ⟨u, hu, rfl⟩ := List.mem_map.1 hwm
      exact ⟨u, hu, fun u' hu' => k6 _ (List.mem_map_of_mem hu'), k7, k8⟩

/-- C18. If all control points fall on the midpoint the matrix `umax` is read although it was never assigned. -/
theorem C18_degenerate (normal : Option V3) (mid : V3) (us : List V3) (hn : ∀ n, normal = some n → n ≠ 0)
    (h : ∀ u ∈ us, onPlane normal mid u = mid) : makeTriangle normal mid us = none := by
  have far0 : ∀ up : List V3, (∀ p ∈ up, p = 0) → (farthest up).2 = none := by
    intro up hup
    have : ∀ l : List V3, (∀ p ∈ l, p = 0) → farthest l = (0, none) := by
      intro l
      unfold farthest
      induction l with
      | nil => intro _; rfl
      | cons x l ih =>
        intro hl
        rw [List.foldl_cons, if_neg, ih fun p hp => hl p (by simp [hp])]
        rw [hl x (by simp)]; simp [nrm]
    rw [this up hup]
  cases normal with
  | none =>
    simp only [makeTriangle, normalRot, toPlane, Option.bind_eq_bind, Option.bind_some]
    rw [far0]
    · rfl
    · intro p hp
      obtain ⟨u, hu, rfl⟩ := List.mem_map.1 hp
      have := h u hu
      simp only [onPlane] at this
      rw [this, sub_self]
  | some n =>
    have hn0 := hn n rfl
    obtain ⟨r1, r2, r3⟩ := rot_some (nrm_unit hn0) nrm_ez
    simp only [makeTriangle, normalRot, r1, toPlane, Option.bind_eq_bind, Option.bind_some]
    rw [far0]
    · rfl
    · intro p hp
      simp only [List.map_map, List.mem_map, Function.comp] at hp
      obtain ⟨u, hu, rfl⟩ := hp
      rw [flat_rot r2 r3, unit_dot n _ hn0]
      have := h u hu
      simp only [onPlane] at this
      have e : u - mid - ((u - mid) ⬝ᵥ n / (n ⬝ᵥ n)) • n = 0 := by
        rw [sub_right_comm, this, sub_self]
      rw [e, Matrix.mulVec_zero]

/-- planar example: four control points around the origin -/
example : ∃ Cg ub, makeTriangle none 0 [0, ![1, 0, 0], ![0, 2, 0], ![1, 2, 0]] = some (Cg, ub) ∧
    Encloses none 0 [0, ![1, 0, 0], ![0, 2, 0], ![1, 2, 0]] Cg ub := by
  apply C18_triangle
  · intro n h; cases h
  · intro _; simp
  · refine ⟨![1, 0, 0], by simp, ?_⟩
    intro h; have := congrFun h 0; simp [onPlane] at this

/-- example in space: tilted normal -/
example : ∃ Cg ub, makeTriangle (some ![0, 3, 4]) 0 [0, ![1, 0, 0], ![0, 2, 5]] = some (Cg, ub) ∧
    Encloses (some ![0, 3, 4]) 0 [0, ![1, 0, 0], ![0, 2, 5]] Cg ub := by
  apply C18_triangle
  · intro n h; cases h; intro h; have := congrFun h 1; simp at this
  · intro h; cases h
  · refine ⟨![1, 0, 0], by simp, ?_⟩
    intro h; have := congrFun h 0; simp [onPlane] at this

/-! ## C20 -/

theorem surfRot_eq (n : V3) : surfRot n = (n ⬝ᵥ ez / nrm n) • (1 : M3) + (nrm (n ⨯₃ ez) / nrm n) • skew (n ⨯₃ ez) +
    (1 - n ⬝ᵥ ez / nrm n) • vecMulVec (n ⨯₃ ez) (n ⨯₃ ez) := by
  unfold surfRot
  simp only [nrm_ez, mul_one]
  ext i j
  fin_cases i <;> fin_cases j <;> simp [skew, vecMulVec_apply] <;> ring

theorem nrm_cross_ez (n : V3) : nrm (n ⨯₃ ez) ^ 2 = nrm n ^ 2 - n 2 ^ 2 := by
  rw [nrm_sq, nrm_sq, dot3, dot3, cross0, cross1, cross2]; simp [ez]; ring

theorem dot_ez (n : V3) : n ⬝ᵥ ez = n 2 := by rw [dot3]; simp [ez]

/-- where the normal goes -/
theorem surfRot_n (n : V3) (hn : n ≠ 0) : surfRot n *ᵥ n = (n 2 / nrm n * (1 - nrm (n ⨯₃ ez))) • n + (nrm (n ⨯₃ ez) * nrm n) • ez := by
  have hL : nrm n ≠ 0 := fun h => hn (nrm_eq_zero.1 h)
  rw [surfRot_eq, rodrigues_mulVec]
  have h0 : (n ⨯₃ ez) ⬝ᵥ n = 0 := by rw [dot3, cross0, cross1, cross2]; ring
  rw [h0, mul_zero, zero_smul, add_zero, map_smul, LinearMap.smul_apply, cross_cross_self, dot_ez, ← nrm_sq, smul_sub, smul_smul, smul_smul]
  rw [show nrm (n ⨯₃ ez) / nrm n * nrm n ^ 2 = nrm (n ⨯₃ ez) * nrm n by field_simp]
  rw [show n 2 / nrm n * (1 - nrm (n ⨯₃ ez)) = n 2 / nrm n - nrm (n ⨯₃ ez) / nrm n * n 2 by ring, sub_smul]
  abel

/-- C20 (exact condition). For a non-zero normal the matrix is orthogonal exactly when the normal is parallel to the z axis or the
(not normalised) rotation axis happens to have length one. -/
theorem C20_orthogonal_iff (n : V3) (hn : n ≠ 0) : (surfRot n)ᵀ * surfRot n = 1 ↔ nrm (n ⨯₃ ez) = 0 ∨ nrm (n ⨯₃ ez) = 1 := by
  have hL : nrm n ≠ 0 := fun h => hn (nrm_eq_zero.1 h)
  have hLp : 0 < nrm n := lt_of_le_of_ne (nrm_nonneg n) (Ne.symm hL)
  have hq := nrm_cross_ez n
  have ht := nrm_nonneg (n ⨯₃ ez)
  constructor
  · intro h
    have h1 := orth_dot h n n
    have hnn := nrm_sq n
    have hez := nrm_eq_one.1 nrm_ez
    have hze : ez ⬝ᵥ n = n 2 := by rw [dotProduct_comm, dot_ez]
    rw [surfRot_n n hn, add_dotProduct, dotProduct_add, dotProduct_add] at h1
    simp only [smul_dotProduct, dotProduct_smul, smul_eq_mul, ← hnn, hez, dot_ez, hze] at h1
    generalize nrm (n ⨯₃ ez) = t at *
    generalize nrm n = L at *
    have h2 : (1 - t ^ 2) * (n 2 ^ 2 - L ^ 2) = 0 := by
      field_simp at h1
      nlinarith
    rcases mul_eq_zero.1 h2 with h3 | h3
    · right; nlinarith
    · left; nlinarith
  · intro h
    rw [surfRot_eq, dot_ez]
    apply rodrigues_orth
    · rcases h with h | h
      · rw [h] at hq ⊢; field_simp; nlinarith
      · rw [h] at hq ⊢; field_simp; nlinarith
    · rcases h with h | h
      · left; exact ⟨nrm_eq_zero.1 h, by rw [h]; simp⟩
      · right; exact nrm_eq_one.1 h

/-- C20 (exact condition). Likewise for mapping the normal to the z axis. -/
theorem C20_maps_normal_iff (n : V3) (hn : n ≠ 0) : surfRot n *ᵥ n = nrm n • ez ↔ nrm (n ⨯₃ ez) = 0 ∨ nrm (n ⨯₃ ez) = 1 := by
  have hL : nrm n ≠ 0 := fun h => hn (nrm_eq_zero.1 h)
  have hq := nrm_cross_ez n
  have ht := nrm_nonneg (n ⨯₃ ez)
  rw [surfRot_n n hn]
  constructor
  · intro h
    have h2 := congrFun h 2
    simp only [Pi.add_apply, Pi.smul_apply, smul_eq_mul] at h2
    rw [show ez 2 = 1 by simp [ez], mul_one, mul_one] at h2
    generalize nrm (n ⨯₃ ez) = t at *
    generalize nrm n = L at *
    have h3 : (1 - t) * (n 2 ^ 2 - L ^ 2) = 0 := by
      field_simp at h2
      nlinarith
    rcases mul_eq_zero.1 h3 with h4 | h4
    · right; linarith
    · left; nlinarith
  · rintro (h | h)
    · have h2 : n 2 ^ 2 = nrm n ^ 2 := by rw [h] at hq; linarith
      have hc := nrm_eq_zero.1 h
      have e0 : n 1 = 0 := by have := congrFun hc 0; rw [cross0] at this; simpa [ez] using this
      have e1 : n 0 = 0 := by have := congrFun hc 1; rw [cross1] at this; simpa [ez] using this
      rw [h]
      apply ext3
      · simp [ez, e1]
      · simp [ez, e0]
      · simp [ez]; field_simp; exact h2
    · rw [h]; simp

/-- C20 is false for the code: the normal `(0,3,4)` (of length 5, as produced by a tilted patch). -/
theorem C20_violated : ∃ n : V3, n ≠ 0 ∧ (surfRot n)ᵀ * surfRot n ≠ 1 ∧ surfRot n *ᵥ n ≠ nrm n • ez := by
  have hn : (![0, 3, 4] : V3) ≠ 0 := by intro h; have := congrFun h 1; simp at this
  have h9 : nrm ((![0, 3, 4] : V3) ⨯₃ ez) ^ 2 = 9 := by
    rw [nrm_sq, dot3, cross0, cross1, cross2]; simp [ez]; norm_num
  have hno : ¬ (nrm ((![0, 3, 4] : V3) ⨯₃ ez) = 0 ∨ nrm ((![0, 3, 4] : V3) ⨯₃ ez) = 1) := by
    rintro (h | h) <;> rw [h] at h9 <;> norm_num at h9
  exact ⟨_, hn, fun h => hno ((C20_orthogonal_iff _ hn).1 h), fun h => hno ((C20_maps_normal_iff _ hn).1 h)⟩

/-- C20 is false even for unit normals: whenever the normal is tilted, but not by a right angle. -/
theorem C20_violated_unit (n : V3) (hn : nrm n = 1) (h0 : n 2 ≠ 0) (h1 : n 2 ^ 2 ≠ 1) : (surfRot n)ᵀ * surfRot n ≠ 1 ∧ surfRot n *ᵥ n ≠ nrm n • ez := by
  have hn0 : n ≠ 0 := by rintro rfl; simp [nrm] at hn
  have hq := nrm_cross_ez n
  have hno : ¬ (nrm (n ⨯₃ ez) = 0 ∨ nrm (n ⨯₃ ez) = 1) := by
    rintro (h | h) <;> rw [h, hn] at hq
    · exact h1 (by linarith)
    · exact h0 (by nlinarith)
  exact ⟨fun h => hno ((C20_orthogonal_iff _ hn0).1 h), fun h => hno ((C20_maps_normal_iff _ hn0).1 h)⟩

/-- C20, the part that holds: for normals parallel to the z axis (flat geometry) and for those with a rotation axis of length one the
matrix is orthogonal and maps the normal to the z axis. Missing: all other normals, where it is false (`C20_orthogonal_iff`). -/
theorem C20_partial (n : V3) (hn : n ≠ 0) (h : (n 0 = 0 ∧ n 1 = 0) ∨ n 0 ^ 2 + n 1 ^ 2 = 1) :
    (surfRot n)ᵀ * surfRot n = 1 ∧ surfRot n *ᵥ n = nrm n • ez := by
  have e : nrm (n ⨯₃ ez) ^ 2 = n 0 ^ 2 + n 1 ^ 2 := by
    rw [nrm_sq, dot3, cross0, cross1, cross2]; simp [ez]; ring
  have ht := nrm_nonneg (n ⨯₃ ez)
  have : nrm (n ⨯₃ ez) = 0 ∨ nrm (n ⨯₃ ez) = 1 := by
    rcases h with ⟨h0, h1⟩ | h
    · left; rw [h0, h1] at e; nlinarith
    · right; rw [h] at e; nlinarith
  exact ⟨(C20_orthogonal_iff n hn).2 this, (C20_maps_normal_iff n hn).2 this⟩

example : surfRot ![3 / 5, 4 / 5, 7] *ᵥ ![3 / 5, 4 / 5, 7] = nrm ![3 / 5, 4 / 5, 7] • ez :=
  (C20_partial _ (by intro h; have := congrFun h 0; norm_num at this) (Or.inr (by norm_num))).2

example : (surfRot ![3 / 5, 0, 4 / 5])ᵀ * surfRot ![3 / 5, 0, 4 / 5] ≠ 1 :=
  (C20_violated_unit _ nrm_example (by norm_num [Matrix.cons_val_two, Matrix.tail_cons]) (by norm_num [Matrix.cons_val_two, Matrix.tail_cons])).1

end Verif.Geom
