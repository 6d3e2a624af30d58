import Verif.Proofs.Pi
/-!
# Properties C13, C14 and the projection part of C16

The matrix returned by `_makePi` acts on `3N` control points; rows `j`, `N+j`, `2N+j` (`j < N`) belong to the points
`c11`, `c21`, `c12` of the `j`-th patch around the vertex. `mulVec` is the ordinary matrix-vector product.
-/
set_option autoImplicit false
namespace Verif.Pi
open Finset

/-- Matrix times vector for `n × n` matrices given as functions. -/
noncomputable def mulVec (n : ℕ) (M : ℕ → ℕ → ℝ) (v : ℕ → ℝ) (r : ℕ) : ℝ := ∑ c ∈ range n, M r c * v c
/-- Matrix product for `n × n` matrices given as functions. -/
noncomputable def mulMat (n : ℕ) (A B : ℕ → ℕ → ℝ) (r c : ℕ) : ℝ := ∑ k ∈ range n, A r k * B k c

/-! ## C13 -/

/-- C13. Both projections have unit row sums, for every valence from two on, every beta and refinement level. -/
theorem C13_rows_sum_one (opt : ℤ) (beta : ℝ) (level N : ℕ) (hN : 2 ≤ N) (ho : opt = 0 ∨ opt = 1) :
    ∃ M, makePi opt beta level N = some M ∧ ∀ r < 3 * N, ∑ c ∈ range (3 * N), M r c = 1 := by
  have hN0 : (N : ℝ) ≠ 0 := by exact_mod_cast (by omega : N ≠ 0)
  generalize hps : psi N (betaL beta level) = ps
  rcases ho with rfl | rfl
  · refine ⟨blocks N (tab0 N ps), by simp [makePi, hps], ?_⟩
    intro r hr
    obtain ⟨a, j, ha, hj, rfl⟩ := split_row hr
    have e : ∀ b < 3, ∑ k ∈ range N, blocks N (tab0 N ps) (a * N + j) (b * N + k) = 1 / 3 := by
      intro b hb
      have : ∀ k ∈ range N, blocks N (tab0 N ps) (a * N + j) (b * N + k) =
          1 / (3 * N) + hasCos a b / N * Real.cos (th ps a b + (j - k) * phi N) := by
        intro k hk
        rw [blocks_at a b hj (mem_range.1 hk), tab0_eq hj (mem_range.1 hk) ha hb]
        field_simp
      rw [sum_congr rfl this, sum_add_distrib, ← mul_sum, sum_cos_row hN]
      simp; field_simp
    have e0 := e 0 (by omega); have e1 := e 1 (by omega); have e2 := e 2 (by omega)
    simp only [Nat.zero_mul, Nat.one_mul, Nat.zero_add] at e0 e1 e2
    rw [sum_blocks, e0, e1, e2]; norm_num
  · refine ⟨blocks N (tab1 N ps), by simp [makePi, hps], ?_⟩
    intro r hr
    obtain ⟨a, j, ha, hj, rfl⟩ := split_row hr
    have e : ∀ b < 3, ∑ k ∈ range N, blocks N (tab1 N ps) (a * N + j) (b * N + k) = if b = 0 then 0 else 1 / 2 := by
      intro b hb
      have : ∀ k ∈ range N, blocks N (tab1 N ps) (a * N + j) (b * N + k) =
          (if b = 0 then 0 else 1) * (1 / (2 * N) +
            hasCos a b / (2 * N) * Real.cos (th ps a b + (j - k) * phi N)) := by
        intro k hk
        rw [blocks_at a b hj (mem_range.1 hk), tab1_eq hj (mem_range.1 hk) ha hb]
        field_simp
      rw [sum_congr rfl this, ← mul_sum, sum_add_distrib, ← mul_sum, sum_cos_row hN]
      split_ifs <;> simp; field_simp
    have e0 := e 0 (by omega); have e1 := e 1 (by omega); have e2 := e 2 (by omega)
    simp only [Nat.zero_mul, Nat.one_mul, Nat.zero_add] at e0 e1 e2
    rw [sum_blocks, e0, e1, e2]; norm_num

example : ∃ M, makePi 0 0.4 1 3 = some M ∧ ∀ r < 9, ∑ c ∈ range 9, M r c = 1 :=
  C13_rows_sum_one 0 0.4 1 3 (by omega) (by simp)

/-- C13. Hence equal control points around the vertex stay where they are. -/
theorem C13_constants_fixed (opt : ℤ) (beta : ℝ) (level N : ℕ) (hN : 2 ≤ N) (ho : opt = 0 ∨ opt = 1) (x : ℝ) :
    ∃ M, makePi opt beta level N = some M ∧ ∀ r < 3 * N, mulVec (3 * N) M (fun _ => x) r = x := by
  obtain ⟨M, h, hs⟩ := C13_rows_sum_one opt beta level N hN ho
  refine ⟨M, h, fun r hr => ?_⟩
  unfold mulVec
  rw [← sum_mul, hs r hr, one_mul]

example : ∃ M, makePi 1 0.4 0 5 = some M ∧ ∀ r < 15, mulVec 15 M (fun _ => 7) r = 7 :=
  C13_constants_fixed 1 0.4 0 5 (by omega) (by simp) 7

/-- C13. Only the two documented options exist: anything else is an error. -/
theorem C13_defined_iff (opt : ℤ) (beta : ℝ) (level N : ℕ) :
    (makePi opt beta level N).isSome ↔ opt = 0 ∨ opt = 1 := by
  unfold makePi
  by_cases h0 : opt = 0 <;> by_cases h1 : opt = 1 <;> simp [h0, h1]

/-- C13. The restriction to valences from two on is needed: for valence one a row sum of either matrix is not one
(the middle rows sum to 3 and 2). -/
theorem C13_valence_one_fails (beta : ℝ) (level : ℕ) :
    (∃ M, makePi 0 beta level 1 = some M ∧ ∃ r < 3, ∑ c ∈ range 3, M r c ≠ 1) ∧
    (∃ M, makePi 1 beta level 1 = some M ∧ ∃ r < 3, ∑ c ∈ range 3, M r c ≠ 1) := by
  have hphi : phi 1 = 2 * Real.pi := by rw [phi_eq]; simp
  have hpsi : psi 1 (betaL beta level) = Real.pi := by
    unfold psi
    rw [hphi, Real.sin_two_pi]
    have : (-Complex.I * ((2 * Real.pi : ℝ) : ℂ) / 2) = -(Real.pi * Complex.I) := by push_cast; ring
    rw [this, Complex.exp_neg, Complex.exp_pi_mul_I]
    simp [Complex.arg_neg_one]
  constructor
  · refine ⟨blocks 1 (tab0 1 _), by simp only [makePi, if_true]; rfl, 1, by omega, ?_⟩
    simp [sum_range_succ, blocks, tab0, cyc, hpsi]
    norm_num
  · refine ⟨blocks 1 (tab1 1 _), by simp only [makePi, if_true, if_false, one_ne_zero]; rfl, 1, by omega, ?_⟩
    simp [sum_range_succ, blocks, tab1, cyc, hpsi]
    norm_num

/-! ## C14 -/

private theorem cos_half_neg {N : ℕ} (hN : 2 ≤ N) : Real.cos (((N / 2 : ℕ) : ℝ) * phi N) ≤ -(1 / 2) := by
  have hNr : (0 : ℝ) < N := by exact_mod_cast (by omega : 0 < N)
  rcases Nat.even_or_odd' N with ⟨m, h | h⟩
  · have e : ((N / 2 : ℕ) : ℝ) * phi N = Real.pi := by
      have h2 : N / 2 = m := by omega
      have h3 : (N : ℝ) = 2 * m := by exact_mod_cast h
      have hm : (m : ℝ) ≠ 0 := by exact_mod_cast (by omega : m ≠ 0)
      rw [h2, phi_eq, h3]; field_simp
    rw [e, Real.cos_pi]; norm_num
  · have h2 : N / 2 = m := by omega
    have h3 : (N : ℝ) = 2 * m + 1 := by exact_mod_cast h
    have e : ((N / 2 : ℕ) : ℝ) * phi N = Real.pi - Real.pi / N := by
      rw [h2, phi_eq, h3]; rw [h3] at hNr; field_simp; ring
    rw [e, Real.cos_pi_sub]
    have : Real.cos (Real.pi / 3) ≤ Real.cos (Real.pi / N) := by
      apply Real.cos_le_cos_of_nonneg_of_le_pi
      · positivity
      · have := Real.pi_pos; linarith
      · have h4 : (3 : ℝ) ≤ N := by exact_mod_cast (by omega : 3 ≤ N)
        have := Real.pi_pos
        exact div_le_div_of_nonneg_left this.le (by norm_num) h4
    rw [Real.cos_pi_div_three] at this
    linarith

/-- C14 fails for option 0: documented as "Non-negative", its matrix has a negative entry for every valence from two
on, whatever beta and the refinement level. -/
theorem C14_option0_has_negative_entry (beta : ℝ) (level N : ℕ) (hN : 2 ≤ N) :
    ∃ M, makePi 0 beta level N = some M ∧ ∃ r < 3 * N, ∃ c < 3 * N, M r c < 0 := by
  refine ⟨blocks N (tab0 N _), by simp only [makePi, if_true]; rfl, 1 * N + N / 2, by omega, 1 * N + 0, by omega, ?_⟩
  have hc := cos_half_neg hN
  have hNr : (0 : ℝ) < N := by exact_mod_cast (by omega : 0 < N)
  rw [blocks_at 1 1 (by omega) (by omega), tab0_eq (by omega) (by omega) (by omega) (by omega)]
  simp only [hasCos, th, Nat.cast_zero, sub_zero]
  have : 0 < 1 / (3 * (N : ℝ)) := by positivity
  simp only [one_ne_zero, or_self, if_false, if_true, one_mul, zero_add]
  nlinarith

example : ∃ M, makePi 0 0.4 0 5 = some M ∧ ∃ r < 15, ∃ c < 15, M r c < 0 :=
  C14_option0_has_negative_entry 0.4 0 5 (by omega)

/-- C14 fails for option 1: documented as "Idempotent", it is not for any valence from three on. -/
theorem C14_option1_not_idempotent (beta : ℝ) (level N : ℕ) (hN : 3 ≤ N) :
    ∃ M, makePi 1 beta level N = some M ∧ ∃ r < 3 * N, ∃ c < 3 * N, mulMat (3 * N) M M r c ≠ M r c := by
  generalize hps : psi N (betaL beta level) = ps
  refine ⟨blocks N (tab1 N ps), by simp [makePi, hps], 1 * N + 0, by omega, 1 * N + 0, by omega, ?_⟩
  have hNr : (0 : ℝ) < N := by exact_mod_cast (by omega : 0 < N)
  have e : ∀ b < 3, ∑ k ∈ range N, blocks N (tab1 N ps) (1 * N + 0) (b * N + k) *
      blocks N (tab1 N ps) (b * N + k) (1 * N + 0) = if b = 0 then (0 : ℝ) else 3 / (8 * (N : ℝ)) := by
    intro b hb
    have : ∀ k ∈ range N, blocks N (tab1 N ps) (1 * N + 0) (b * N + k) *
        blocks N (tab1 N ps) (b * N + k) (1 * N + 0) = (if b = 0 then 0 else 1) * (1 / (4 * N ^ 2) *
          (1 + Real.cos (th ps 1 b + ((0 : ℕ) - k) * phi N) + Real.cos (th ps b 1 + (k - (0 : ℕ)) * phi N) +
          Real.cos (th ps 1 b + ((0 : ℕ) - k) * phi N) * Real.cos (th ps b 1 + (k - (0 : ℕ)) * phi N))) := by
      intro k hk
      rw [blocks_at 1 b (by omega) (mem_range.1 hk), blocks_at b 1 (mem_range.1 hk) (by omega),
        tab1_eq (by omega) (mem_range.1 hk) (by omega) hb, tab1_eq (mem_range.1 hk) (by omega) hb (by omega)]
      by_cases hb0 : b = 0
      · simp [hb0]
      · simp only [hb0, hasCos, if_false, one_ne_zero, or_self]
        field_simp
        ring
    rw [sum_congr rfl this, ← mul_sum, ← mul_sum, sum_add_distrib, sum_add_distrib, sum_add_distrib,
      sum_cos_cos hN, sum_cos_row (by omega), sum_cos_col (by omega)]
    by_cases hb0 : b = 0
    · simp [hb0]
    · have ht : th ps 1 b + th ps b 1 = 0 := by
        interval_cases b <;> simp [th] at hb0 ⊢
      simp only [hb0, if_false, ht]
      simp
      field_simp
      norm_num
  have e0 := e 0 (by omega); have e1 := e 1 (by omega); have e2 := e 2 (by omega)
  simp only [Nat.zero_mul, Nat.one_mul, Nat.zero_add] at e0 e1 e2
  unfold mulMat
  rw [sum_blocks]
  simp only [Nat.one_mul]
  rw [e0, e1, e2]
  have hv := blocks_at (N := N) (j := 0) (k := 0) 1 1 (by omega) (by omega) (tab1 N ps)
  rw [tab1_eq (by omega) (by omega) (by omega) (by omega)] at hv
  simp only [Nat.one_mul] at hv
  rw [hv]
  simp [hasCos, th]
  field_simp
  norm_num

example : ∃ M, makePi 1 0.4 2 3 = some M ∧ ∃ r < 9, ∃ c < 9, mulMat 9 M M r c ≠ M r c :=
  C14_option1_not_idempotent 0.4 2 3 (by omega)

/-- C14, what the code does provide: option 0 is the idempotent projection (applying it twice is applying it once) and
its matrix is symmetric, so it is the orthogonal projection onto its range. -/
theorem C14_option0_idempotent_symmetric (beta : ℝ) (level N : ℕ) (hN : 3 ≤ N) :
    ∃ M, makePi 0 beta level N = some M ∧
      (∀ r < 3 * N, ∀ c < 3 * N, mulMat (3 * N) M M r c = M r c) ∧
      (∀ r < 3 * N, ∀ c < 3 * N, M r c = M c r) := by
  generalize hps : psi N (betaL beta level) = ps
  have hNr : (0 : ℝ) < N := by exact_mod_cast (by omega : 0 < N)
  refine ⟨blocks N (tab0 N ps), by simp [makePi, hps], ?_, ?_⟩
  · intro r hr c hc
    obtain ⟨a, j, ha, hj, rfl⟩ := split_row hr
    obtain ⟨d, l, hd, hl, rfl⟩ := split_row hc
    have e : ∀ b < 3, ∑ k ∈ range N, blocks N (tab0 N ps) (a * N + j) (b * N + k) *
        blocks N (tab0 N ps) (b * N + k) (d * N + l) =
        1 / (9 * N) + hasCos a b * hasCos b d * (1 / (2 * N) * Real.cos (th ps a b + th ps b d + (j - l) * phi N)) := by
      intro b hb
      have : ∀ k ∈ range N, blocks N (tab0 N ps) (a * N + j) (b * N + k) *
          blocks N (tab0 N ps) (b * N + k) (d * N + l) =
            1 / (9 * N ^ 2) + hasCos a b / (3 * N ^ 2) * Real.cos (th ps a b + (j - k) * phi N) +
            hasCos b d / (3 * N ^ 2) * Real.cos (th ps b d + (k - l) * phi N) +
            hasCos a b * hasCos b d / N ^ 2 *
            (Real.cos (th ps a b + (j - k) * phi N) * Real.cos (th ps b d + (k - l) * phi N)) := by
        intro k hk
        rw [blocks_at a b hj (mem_range.1 hk), blocks_at b d (mem_range.1 hk) hl,
          tab0_eq hj (mem_range.1 hk) ha hb, tab0_eq (mem_range.1 hk) hl hb hd]
        field_simp
        ring
      rw [sum_congr rfl this, sum_add_distrib, sum_add_distrib, sum_add_distrib, ← mul_sum, ← mul_sum, ← mul_sum,
        sum_cos_cos hN, sum_cos_row (by omega), sum_cos_col (by omega)]
      simp
      field_simp
    have e0 := e 0 (by omega); have e1 := e 1 (by omega); have e2 := e 2 (by omega)
    simp only [Nat.zero_mul, Nat.one_mul, Nat.zero_add] at e0 e1 e2
    unfold mulMat
    rw [sum_blocks, e0, e1, e2, blocks_at a d hj hl, tab0_eq hj hl ha hd]
    interval_cases a <;> interval_cases d <;> simp [hasCos, th] <;> field_simp <;> ring
  · intro r hr c hc
    obtain ⟨a, j, ha, hj, rfl⟩ := split_row hr
    obtain ⟨d, l, hd, hl, rfl⟩ := split_row hc
    rw [blocks_at a d hj hl, blocks_at d a hl hj, tab0_eq hj hl ha hd, tab0_eq hl hj hd ha]
    congr 3
    have : th ps d a + (l - j) * phi N = -(th ps a d + (j - l) * phi N) := by
      interval_cases a <;> interval_cases d <;> simp [th] <;> ring
    rw [this, Real.cos_neg]
    congr 1
    simp [hasCos, or_comm]

example : ∃ M, makePi 0 0.4 0 5 = some M ∧ (∀ r < 15, ∀ c < 15, mulMat 15 M M r c = M r c) ∧
    (∀ r < 15, ∀ c < 15, M r c = M c r) := C14_option0_idempotent_symmetric 0.4 0 5 (by omega)

/-- C14, what the code does provide: option 1 is the one without negative entries, for every valence. -/
theorem C14_option1_nonneg (beta : ℝ) (level N : ℕ) :
    ∃ M, makePi 1 beta level N = some M ∧ ∀ r < 3 * N, ∀ c < 3 * N, 0 ≤ M r c := by
  generalize hps : psi N (betaL beta level) = ps
  refine ⟨blocks N (tab1 N ps), by simp [makePi, hps], ?_⟩
  intro r hr c hc
  obtain ⟨a, j, ha, hj, rfl⟩ := split_row hr
  obtain ⟨d, l, hd, hl, rfl⟩ := split_row hc
  rw [blocks_at a d hj hl, tab1_eq hj hl ha hd]
  have h1 := Real.neg_one_le_cos (th ps a d + (j - l) * phi N)
  have h2 : 0 ≤ 1 + hasCos a d * Real.cos (th ps a d + (j - l) * phi N) := by
    unfold hasCos; split_ifs <;> linarith
  have h3 : (0 : ℝ) ≤ 1 / (2 * N) := by positivity
  have h4 : (0 : ℝ) ≤ if d = 0 then 0 else 1 := by split_ifs <;> norm_num
  exact mul_nonneg h4 (mul_nonneg h3 h2)

/-! ## C16: the tangent plane -/

/-- C16 (projection part). Whatever the control points `v` (one coordinate), after the projection all `c11` points
coincide in the vertex point `m` and all `c21`, `c12` points lie on one ellipse around it:
`m + U cos x + V sin x` at the angles `jφ` and `jφ − 2ψ`. `m`, `U`, `V` are the same for all patches, so with `U`, `V`
taken coordinate-wise all points around the vertex lie in the plane through `m` spanned by `U` and `V`. -/
theorem C16_points_on_common_ellipse (opt : ℤ) (beta : ℝ) (level N : ℕ) (ho : opt = 0 ∨ opt = 1) (v : ℕ → ℝ) :
    ∃ M, makePi opt beta level N = some M ∧ ∃ m U V : ℝ,
      ∀ j < N,
        mulVec (3 * N) M v j = m ∧
        mulVec (3 * N) M v (N + j) = m + (U * Real.cos (j * phi N) + V * Real.sin (j * phi N)) ∧
        mulVec (3 * N) M v (2 * N + j) = m +
          (U * Real.cos (j * phi N - 2 * psi N (betaL beta level)) +
           V * Real.sin (j * phi N - 2 * psi N (betaL beta level))) := by
  generalize hps : psi N (betaL beta level) = ps
  have main : ∀ (tab : ℕ → ℕ → ℝ) (w0 w1 w2 k1 : ℝ),
      (∀ j < N, ∀ k < N, ∀ a < 3, ∀ b < 3, tab (cyc N j k) (3 * a + b) =
        (if b = 0 then w0 else if b = 1 then w1 else w2) +
          k1 * (hasCos a b * Real.cos (th ps a b + (j - k) * phi N))) →
      ∃ m U V : ℝ, ∀ j < N,
        mulVec (3 * N) (blocks N tab) v j = m ∧
        mulVec (3 * N) (blocks N tab) v (N + j) = m + (U * Real.cos (j * phi N) + V * Real.sin (j * phi N)) ∧
        mulVec (3 * N) (blocks N tab) v (2 * N + j) = m +
          (U * Real.cos (j * phi N - 2 * ps) + V * Real.sin (j * phi N - 2 * ps)) := by
    intro tab w0 w1 w2 k1 h
    refine ⟨w0 * ∑ k ∈ range N, v k + w1 * ∑ k ∈ range N, v (N + k) + w2 * ∑ k ∈ range N, v (2 * N + k),
      k1 * (∑ k ∈ range N, Real.cos (k * phi N) * v (N + k) +
        ∑ k ∈ range N, Real.cos (k * phi N - 2 * ps) * v (2 * N + k)),
      k1 * (∑ k ∈ range N, Real.sin (k * phi N) * v (N + k) +
        ∑ k ∈ range N, Real.sin (k * phi N - 2 * ps) * v (2 * N + k)), ?_⟩
    intro j hj
    have e : ∀ a < 3, ∀ b < 3, ∀ k ∈ range N, blocks N tab (a * N + j) (b * N + k) * v (b * N + k) =
        (if b = 0 then w0 else if b = 1 then w1 else w2) * v (b * N + k) +
          k1 * (hasCos a b * Real.cos (th ps a b + (j - k) * phi N)) * v (b * N + k) := by
      intro a ha b hb k hk
      rw [blocks_at a b hj (mem_range.1 hk), h j hj k (mem_range.1 hk) a ha b hb]; ring
    have row : ∀ a < 3, mulVec (3 * N) (blocks N tab) v (a * N + j) =
        (w0 * ∑ k ∈ range N, v k + w1 * ∑ k ∈ range N, v (N + k) + w2 * ∑ k ∈ range N, v (2 * N + k)) +
        k1 * ∑ k ∈ range N, (hasCos a 1 * Real.cos (th ps a 1 + (j - k) * phi N) * v (N + k) +
          hasCos a 2 * Real.cos (th ps a 2 + (j - k) * phi N) * v (2 * N + k)) := by
      intro a ha
      unfold mulVec
      rw [sum_blocks]
      have e0 := sum_congr rfl (e a ha 0 (by omega))
      have e1 := sum_congr rfl (e a ha 1 (by omega))
      have e2 := sum_congr rfl (e a ha 2 (by omega))
      simp only [Nat.zero_mul, Nat.one_mul, Nat.zero_add] at e0 e1 e2
      rw [e0, e1, e2]
      have hz : hasCos a 0 = 0 := by simp [hasCos]
      simp only [hz, one_ne_zero, if_true, if_false, show (2 : ℕ) ≠ 0 from by omega, show (2 : ℕ) ≠ 1 from by omega]
      simp only [mul_sum, ← sum_add_distrib]
      exact sum_congr rfl fun k _ => by ring
    refine ⟨?_, ?_, ?_⟩
    · have := row 0 (by omega)
      simpa [hasCos] using this
    · have := row 1 (by omega)
      simp only [Nat.one_mul] at this
      rw [this]
      congr 1
      simp only [hasCos, th]
      simp only [← sum_add_distrib]
      rw [mul_assoc, mul_assoc, ← mul_add, sum_mul, sum_mul, ← sum_add_distrib]
      congr 1
      refine sum_congr rfl fun k _ => ?_
      have a1 : (0 : ℝ) + (j - k) * phi N = j * phi N - k * phi N := by ring
      have a2 : 2 * ps + (j - k) * phi N = j * phi N - (k * phi N - 2 * ps) := by ring
      simp only [one_ne_zero, or_self, if_false, if_true, show (2 : ℕ) ≠ 0 from by omega,
        show (1 : ℕ) ≠ 2 from by omega, show (1 : ℕ) < 2 from by omega]
      rw [a1, a2, Real.cos_sub (j * phi N) (k * phi N), Real.cos_sub (j * phi N) (k * phi N - 2 * ps)]
      ring
    · have := row 2 (by omega)
      rw [this]
      congr 1
      simp only [hasCos, th]
      simp only [← sum_add_distrib]
      rw [mul_assoc, mul_assoc, ← mul_add, sum_mul, sum_mul, ← sum_add_distrib]
      congr 1
      refine sum_congr rfl fun k _ => ?_
      have a1 : -(2 * ps) + (j - k) * phi N = (j * phi N - 2 * ps) - k * phi N := by ring
      have a2 : (0 : ℝ) + (j - k) * phi N = (j * phi N - 2 * ps) - (k * phi N - 2 * ps) := by ring
      simp only [one_ne_zero, or_self, if_false, if_true, show (2 : ℕ) ≠ 0 from by omega,
        show (2 : ℕ) ≠ 1 from by omega, show ¬ (2 : ℕ) < 1 from by omega]
      rw [a1, a2, Real.cos_sub (j * phi N - 2 * ps) (k * phi N),
        Real.cos_sub (j * phi N - 2 * ps) (k * phi N - 2 * ps)]
      ring
  rcases ho with rfl | rfl
  · refine ⟨blocks N (tab0 N ps), by simp [makePi, hps], ?_⟩
    refine main _ (1 / (3 * N)) (1 / (3 * N)) (1 / (3 * N)) (1 / (3 * N) * 3) ?_
    intro j hj k hk a ha b hb
    rw [tab0_eq hj hk ha hb]
    split_ifs <;> ring
  · refine ⟨blocks N (tab1 N ps), by simp [makePi, hps], ?_⟩
    refine main _ 0 (1 / (2 * N)) (1 / (2 * N)) (1 / (2 * N)) ?_
    intro j hj k hk a ha b hb
    rw [tab1_eq hj hk ha hb]
    by_cases hb0 : b = 0
    · simp [hb0, hasCos]
    · simp only [hb0, if_false]; split_ifs <;> ring

example : ∃ M, makePi 0 0.4 0 3 = some M ∧ ∃ m U V : ℝ, ∀ j < 3,
    mulVec 9 M (fun i => (i : ℝ) ^ 2) j = m ∧
    mulVec 9 M (fun i => (i : ℝ) ^ 2) (3 + j) = m + (U * Real.cos (j * phi 3) + V * Real.sin (j * phi 3)) ∧
    mulVec 9 M (fun i => (i : ℝ) ^ 2) (6 + j) = m + (U * Real.cos (j * phi 3 - 2 * psi 3 (betaL 0.4 0)) +
      V * Real.sin (j * phi 3 - 2 * psi 3 (betaL 0.4 0))) :=
  C16_points_on_common_ellipse 0 0.4 0 3 (by simp) _

/-- C16. On the ellipse the points appear in the order of the patches, without folding: the angle of `c12` of a patch lies
strictly between the angle of `c21` of the same patch and that of `c21` of the next one, for every valence from three
on, every refinement level and every beta in `(0, 1/2]` (the default is 0.4). -/
theorem C16_points_in_order (beta : ℝ) (level N : ℕ) (hN : 3 ≤ N) (h0 : 0 < beta) (h1 : beta ≤ 1 / 2) (j : ℕ) :
    j * phi N < j * phi N - 2 * psi N (betaL beta level) ∧
    j * phi N - 2 * psi N (betaL beta level) < (j + 1 : ℕ) * phi N := by
  have hb0 : 0 < betaL beta level := by unfold betaL; positivity
  have hb1 : betaL beta level ≤ 1 / 2 := by
    unfold betaL
    have : ((1 : ℝ) / 2) ^ level ≤ 1 := pow_le_one₀ (by norm_num) (by norm_num)
    nlinarith
  obtain ⟨a, b⟩ := psi_bounds hN hb0 hb1
  push_cast
  constructor <;> linarith

example : (2 : ℕ) * phi 5 < (2 : ℕ) * phi 5 - 2 * psi 5 (betaL 0.4 3) ∧
    (2 : ℕ) * phi 5 - 2 * psi 5 (betaL 0.4 3) < (2 + 1 : ℕ) * phi 5 :=
  C16_points_in_order 0.4 3 5 (by omega) (by norm_num) (by norm_num) 2

end Verif.Pi
