import Verif.Model.Select
import Verif.Proofs.Kernel
import Mathlib.LinearAlgebra.Dimension.OrzechProperty
import Mathlib.LinearAlgebra.FiniteDimensional.Lemmas
import Mathlib.Algebra.BigOperators.Fin
import Mathlib.Tactic.IntervalCases
/-!
# Property C74: selection of the functions at a boundary vertex of one patch

The six functions of a boundary vertex are combined to six independent ones: first those without value and normal derivative on the boundary, then those without value, then the others.
-/
set_option autoImplicit false
namespace Verif.Select
open Verif.Kernel

/-! ## The rows -/

private theorem pairs (n : ℕ) : ∀ m, (List.range' 1 m).flatMap (fun i => (List.range' i 2).map fun j => i + j + n - 2) = List.range' n (2 * m)
  | 0 => rfl
  | m + 1 => by
      rw [List.range'_concat, List.flatMap_append, pairs n m, show 2 * (m + 1) = 2 * m + 1 + 1 by ring, List.range'_concat, List.range'_concat]
      simp only [List.flatMap_cons, List.flatMap_nil, List.range'_succ, List.range'_zero, List.map_cons, List.map_nil, List.append_nil, List.append_assoc, List.cons_append, List.nil_append]
      congr 2
      · omega
      · congr 1; omega

private theorem big_fst (dimU : ℕ) {dimV : ℕ} (hv : 2 ≤ dimV) : (bigEntries dimU dimV).map Prod.fst = List.range (bigSize dimU dimV) := by
  unfold bigEntries bigSize
  rw [List.map_append, List.map_map, List.map_flatMap]
  simp only [List.map_map, Function.comp_def, List.map_id']
  rw [pairs, List.range_eq_range', List.range_eq_range']
  have := List.range'_append (s := 0) (m := 2 * dimU) (n := 2 * (dimV - 2)) (step := 1)
  simp only [one_mul, zero_add] at this
  rw [this]
  congr 1; omega

private theorem small_fst {dimU dimV : ℕ} (hu : 1 ≤ dimU) (hv : 1 ≤ dimV) : (smallEntries dimU dimV).map Prod.fst = List.range (smallSize dimU dimV) := by
  unfold smallEntries smallSize
  rw [List.map_append, List.map_map, List.map_map]
  simp only [Function.comp_def, List.map_id']
  have e : (List.range' 1 (dimV - 1)).map (fun i => i + dimU - 1) = List.range' dimU (dimV - 1) := by
    apply List.ext_getElem (by simp)
    intro i h1 h2
    simp only [List.getElem_map, List.getElem_range']
    omega
  rw [e, List.range_eq_range', List.range_eq_range']
  have := List.range'_append (s := 0) (m := dimU) (n := dimV - 1) (step := 1)
  simp only [one_mul, zero_add] at this
  rw [this]
  congr 1; omega

private theorem big_snd {dimU dimV : ℕ} (hu : 2 ≤ dimU) (hv : 2 ≤ dimV) (n : ℕ) :
    (∃ e ∈ bigEntries dimU dimV, e.2 = n) ↔ ∃ i k, i < dimU ∧ k < dimV ∧ (i < 2 ∨ k < 2) ∧ n = i + dimU * k := by
  unfold bigEntries
  simp only [List.mem_append, List.mem_map, List.mem_range, List.mem_flatMap, List.mem_range'_1]
  constructor
  · rintro ⟨e, ⟨i, hi, rfl⟩ | ⟨i, hi, j, hj, rfl⟩, rfl⟩
    · by_cases h : i < dimU
      · exact ⟨i, 0, h, by omega, Or.inr (by omega), by simp⟩
      · exact ⟨i - dimU, 1, by omega, by omega, Or.inr (by omega), by simp only; omega⟩
    · refine ⟨j - i, i + 1, by omega, by omega, Or.inl (by omega), ?_⟩
      simp only
      have := Nat.mul_comm dimU (i + 1)
      omega
  · rintro ⟨i, k, hi, hk, h, rfl⟩
    by_cases h2 : k < 2
    · refine ⟨(i + dimU * k, i + dimU * k), Or.inl ⟨_, ?_, rfl⟩, rfl⟩
      have : dimU * k ≤ dimU * 1 := Nat.mul_le_mul_left _ (by omega)
      omega
    · refine ⟨_, Or.inr ⟨k - 1, by omega, k - 1 + i, by omega, rfl⟩, ?_⟩
      have e : k - 1 + 1 = k := by omega
      simp only [e]
      have := Nat.mul_comm dimU k
      omega

private theorem small_snd {dimU dimV : ℕ} (hu : 1 ≤ dimU) (hv : 1 ≤ dimV) (n : ℕ) :
    (∃ e ∈ smallEntries dimU dimV, e.2 = n) ↔ ∃ i k, i < dimU ∧ k < dimV ∧ (i = 0 ∨ k = 0) ∧ n = i + dimU * k := by
  unfold smallEntries
  simp only [List.mem_append, List.mem_map, List.mem_range, List.mem_range'_1]
  constructor
  · rintro ⟨e, ⟨i, hi, rfl⟩ | ⟨i, hi, rfl⟩, rfl⟩
    · exact ⟨i, 0, hi, by omega, Or.inr rfl, by simp⟩
    · exact ⟨0, i, by omega, by omega, Or.inl rfl, by simp [Nat.mul_comm]⟩
  · rintro ⟨i, k, hi, hk, h, rfl⟩
    by_cases h0 : k = 0
    · subst h0
      exact ⟨(i, i), Or.inl ⟨i, hi, rfl⟩, by simp⟩
    · have hi0 : i = 0 := by omega
      subst hi0
      exact ⟨_, Or.inr ⟨k, by omega, rfl⟩, by simp [Nat.mul_comm]⟩

/-- C74. Every row of both matrices is written exactly once for each function. The coefficients in them are those of the first two layers at the two boundary sides, and those of the first layer. -/
theorem C74_rows {dimU dimV : ℕ} (hu : 2 ≤ dimU) (hv : 2 ≤ dimV) :
    (bigEntries dimU dimV).map Prod.fst = List.range (2 * (dimU + dimV - 2)) ∧ (smallEntries dimU dimV).map Prod.fst = List.range (dimU + dimV - 1) ∧
    (∀ n, (∃ e ∈ bigEntries dimU dimV, e.2 = n) ↔ ∃ i k, i < dimU ∧ k < dimV ∧ (i < 2 ∨ k < 2) ∧ n = i + dimU * k) ∧
    (∀ n, (∃ e ∈ smallEntries dimU dimV, e.2 = n) ↔ ∃ i k, i < dimU ∧ k < dimV ∧ (i = 0 ∨ k = 0) ∧ n = i + dimU * k) :=
  ⟨big_fst dimU hv, small_fst (by omega) (by omega), big_snd hu hv, small_snd (by omega) (by omega)⟩

noncomputable section
open Classical

private theorem system_get {c : Fin 6 → ℕ → ℝ} {es : List (ℕ × ℕ)} (hn : (es.map Prod.fst).Nodup) {e : ℕ × ℕ} (he : e ∈ es) (j : Fin 6) :
    system c es e.1 j = if c j e.2 * c j e.2 > eps then c j e.2 else 0 := by
  unfold system
  have key : ∀ (es : List (ℕ × ℕ)) (A : ℕ → V), (∀ e ∈ es, ∀ j, A e.1 j = 0) → (es.map Prod.fst).Nodup →
      (∀ r, r ∉ es.map Prod.fst → ∀ j, es.foldl (fun (A : ℕ → V) e r j => if r = e.1 ∧ c j e.2 * c j e.2 > eps then c j e.2 else A r j) A r j = A r j) ∧
      ∀ e ∈ es, ∀ j, es.foldl (fun (A : ℕ → V) e r j => if r = e.1 ∧ c j e.2 * c j e.2 > eps then c j e.2 else A r j) A e.1 j = if c j e.2 * c j e.2 > eps then c j e.2 else 0 := by
    intro es
    induction es with
    | nil => intro A _ _; exact ⟨fun _ _ _ => rfl, fun _ h => by cases h⟩
    | cons v es ih =>
      intro A hA hn
      rw [List.map_cons, List.nodup_cons] at hn
      obtain ⟨h1, h2⟩ := ih (fun r j => if r = v.1 ∧ c j v.2 * c j v.2 > eps then c j v.2 else A r j) (by
        intro w hw j
        have : w.1 ≠ v.1 := fun h => hn.1 (h ▸ List.mem_map_of_mem hw)
        simp only [this, false_and, if_false]
        exact hA w (List.mem_cons_of_mem _ hw) j) hn.2
      constructor
      · intro r hr j
        rw [List.map_cons, List.mem_cons, not_or] at hr
        rw [List.foldl_cons, h1 r hr.2]
        simp [hr.1]
      · intro w hw j
        rw [List.foldl_cons]
        rcases List.mem_cons.1 hw with rfl | hw
        · rw [h1 _ hn.1]
          simp only [true_and, hA w List.mem_cons_self j]
        · exact h2 w hw j
  exact (key es _ (fun _ _ _ => rfl) hn).2 e he j

/-- The kernel of the first `m` rows. -/
def Ker (A : ℕ → V) (m : ℕ) : Submodule ℝ V where
  carrier := {v | ∀ r < m, ∑ j, A r j * v j = 0}
  zero_mem' := by intro r _; simp
  add_mem' := by
    intro a b ha hb r hr
    simp only [Pi.add_apply, mul_add, Finset.sum_add_distrib, ha r hr, hb r hr, add_zero]
  smul_mem' := by
    intro x a ha r hr
    have := ha r hr
    simp only [Pi.smul_apply, smul_eq_mul, mul_left_comm _ x, ← Finset.mul_sum, this, mul_zero]

private theorem mem_ker {c : Fin 6 → ℕ → ℝ} {es : List (ℕ × ℕ)} {m : ℕ} (hf : es.map Prod.fst = List.range m) (hc : ∀ e ∈ es, ∀ j, c j e.2 = 0 ∨ eps < c j e.2 * c j e.2) (v : V) :
    v ∈ Ker (system c es) m ↔ ∀ n, (∃ e ∈ es, e.2 = n) → ∑ j, c j n * v j = 0 := by
  have hn : (es.map Prod.fst).Nodup := by rw [hf]; exact List.nodup_range
  have row : ∀ e ∈ es, ∀ j, system c es e.1 j = c j e.2 := by
    intro e he j
    rw [system_get hn he]
    rcases hc e he j with h | h
    · simp [h]
    · rw [if_pos h]
  constructor
  · rintro h n ⟨e, he, rfl⟩
    have hr : e.1 < m := by
      have : e.1 ∈ es.map Prod.fst := List.mem_map_of_mem he
      rw [hf] at this
      exact List.mem_range.1 this
    have := h e.1 hr
    simpa only [row e he] using this
  · intro h r hr
    have : r ∈ es.map Prod.fst := by rw [hf]; exact List.mem_range.2 hr
    obtain ⟨e, he, rfl⟩ := List.mem_map.1 this
    simp only [row e he]
    exact h e.2 ⟨e, he, rfl⟩

/-- C74. If no coefficient is so small that it is dropped: the kernels of the two matrices are the combinations of the six functions without coefficients in the first two layers at the boundary (no value
and no normal derivative there), and without coefficients in the first layer (no value). -/
theorem C74_kernels {dimU dimV : ℕ} (hu : 2 ≤ dimU) (hv : 2 ≤ dimV) (c : Fin 6 → ℕ → ℝ) (hc : ∀ j n, c j n = 0 ∨ 1 / 10 ^ 20 < c j n * c j n) (v : V) :
    (v ∈ Ker (system c (bigEntries dimU dimV)) (bigSize dimU dimV) ↔ ∀ i k, i < dimU → k < dimV → (i < 2 ∨ k < 2) → ∑ j, v j * c j (i + dimU * k) = 0) ∧
    (v ∈ Ker (system c (smallEntries dimU dimV)) (smallSize dimU dimV) ↔ ∀ i k, i < dimU → k < dimV → (i = 0 ∨ k = 0) → ∑ j, v j * c j (i + dimU * k) = 0) := by
  constructor
  · rw [mem_ker (big_fst dimU hv) (fun e _ j => hc j e.2)]
    simp only [big_snd hu hv, mul_comm (v _)]
    exact ⟨fun h i k h1 h2 h3 => h _ ⟨i, k, h1, h2, h3, rfl⟩, by rintro h _ ⟨i, k, h1, h2, h3, rfl⟩; exact h i k h1 h2 h3⟩
  · rw [mem_ker (small_fst (by omega) (by omega)) (fun e _ j => hc j e.2)]
    simp only [small_snd (show 1 ≤ dimU by omega) (show 1 ≤ dimV by omega), mul_comm (v _)]
    exact ⟨fun h i k h1 h2 h3 => h _ ⟨i, k, h1, h2, h3, rfl⟩, by rintro h _ ⟨i, k, h1, h2, h3, rfl⟩; exact h i k h1 h2 h3⟩

/-! ## The selection -/

/-- What `FullPivLU` gives for a kernel `W`: its dimension and, if that is not zero, a basis. (For dimension zero `kernel()` has one column.) No entry of a column is so small that `checkValues` changes it. -/
structure KernelOk (W : Submodule ℝ V) (cols : List V) (dim : ℕ) : Prop where
  dim_eq : dim = Module.finrank ℝ W
  length : dim ≠ 0 → cols.length = dim
  span : dim ≠ 0 → Submodule.span ℝ {x | x ∈ cols} = W
  clean : ∀ v ∈ cols, ∀ r, v r = 0 ∨ 1 / 10 ^ 20 ≤ v r * v r

private theorem check_map {l : List V} (h : ∀ v ∈ l, ∀ r, v r = 0 ∨ 1 / 10 ^ 20 ≤ v r * v r) : l.map checkValues = l := by
  conv_rhs => rw [← List.map_id l]
  refine List.map_congr_left fun v hv => ?_
  funext r
  unfold checkValues
  rcases h v hv r with h | h
  · simp [h]
  · rw [if_neg]
    · rfl
    · rw [abs_of_nonneg (mul_self_nonneg _)]
      unfold eps
      exact not_lt.2 h

private theorem ok_indep {W : Submodule ℝ V} {cols : List V} {dim : ℕ} (h : KernelOk W cols dim) (h0 : dim ≠ 0) : indep cols := by
  unfold indep
  rw [linearIndependent_iff_card_eq_finrank_span, range_eq]
  have e : Set.finrank ℝ {x | x ∈ cols} = Module.finrank ℝ W := by
    unfold Set.finrank
    rw [h.span h0]
  rw [e, ← h.dim_eq, Fintype.card_fin, h.length h0]

private theorem addSmall_spec : ∀ (small B : List V), indep B → B <+: addSmallKerBasis B small ∧ indep (addSmallKerBasis B small) ∧
    Submodule.span ℝ {x | x ∈ addSmallKerBasis B small} = Submodule.span ℝ {x | x ∈ B} ⊔ Submodule.span ℝ {x | x ∈ small}
  | [], B, hB => ⟨List.prefix_refl _, hB, by simp [addSmallKerBasis]⟩
  | v :: small, B, hB => by
      have e : addSmallKerBasis B (v :: small) = addSmallKerBasis (if indep (B ++ [v]) then B ++ [v] else B) small := rfl
      have es : {x | x ∈ v :: small} = insert v {x | x ∈ small} := by ext x; simp
      rw [e, es, Submodule.span_insert]
      by_cases hi : indep (B ++ [v])
      · rw [if_pos hi]
        obtain ⟨h1, h2, h3⟩ := addSmall_spec small _ hi
        refine ⟨(List.prefix_append _ _).trans h1, h2, ?_⟩
        have eb : {x | x ∈ B ++ [v]} = insert v {x | x ∈ B} := by ext x; simp [or_comm]
        rw [h3, eb, Submodule.span_insert, sup_comm (Submodule.span ℝ {v}), sup_assoc]
      · rw [if_neg hi]
        obtain ⟨h1, h2, h3⟩ := addSmall_spec small _ hB
        refine ⟨h1, h2, ?_⟩
        rw [indep_snoc hB, not_not] at hi
        have : Submodule.span ℝ {v} ≤ Submodule.span ℝ {x | x ∈ B} := by
          rw [Submodule.span_le]; simpa using hi
        rw [h3, ← sup_assoc, sup_eq_left.2 this]

private theorem finrank_indep {l : List V} (h : indep l) : Module.finrank ℝ (Submodule.span ℝ {x | x ∈ l}) = l.length := by
  have h1 := finrank_span_eq_card h
  rwa [range_eq, Fintype.card_fin] at h1

private theorem take_prefix {l l' : List V} (h : l <+: l') {n : ℕ} (hn : l.length = n) : l'.take n = l := by
  obtain ⟨t, rfl⟩ := h
  rw [← hn, List.take_left']
  rfl

/-- C74. The selection for two kernels, one in the other, ends and gives a basis of six vectors. The first of them, as many as the big kernel has dimensions, are a basis of the big kernel; the first of them, as many
as the small kernel has dimensions, are a basis of the small one.
Partial: the tests of independence are exact (the code has a threshold of `1e-10`), and no entry of the kernels is dropped. -/
theorem C74_select_partial {W W' : Submodule ℝ V} (hW : W ≤ W') {big small : List V} {b s : ℕ} (hb : KernelOk W big b) (hs : KernelOk W' small s) :
    ∃ M, select big b small s = some M ∧ M.length = 6 ∧ LinearIndependent ℝ (fun i : Fin M.length => M[i]) ∧
      Submodule.span ℝ {x | x ∈ M.take b} = W ∧ Submodule.span ℝ {x | x ∈ M.take s} = W' := by
  have zero : ∀ {U : Submodule ℝ V} {cols : List V} {d : ℕ}, KernelOk U cols d → d = 0 → ∀ M : List V, Submodule.span ℝ {x | x ∈ M.take d} = U := by
    intro U cols d h h0 M
    have := h.dim_eq
    rw [h0] at this
    rw [Submodule.finrank_eq_zero.1 this.symm, h0]
    simp
  unfold select
  rw [check_map hb.clean, check_map hs.clean]
  by_cases b0 : b = 0
  · rw [if_neg (not_not.2 b0)]
    by_cases s0 : s = 0
    · rw [if_neg (not_not.2 s0)]
      have hu : LinearIndependent ℝ unit := by
        apply linearIndependent_of_top_le_span_of_card_eq_finrank
        · rw [span_unit]
        · simp
      have hl : indep ((List.finRange 6).map unit) := by
        unfold indep
        have := hu.comp (fun i : Fin ((List.finRange 6).map unit).length => (⟨i.1, by simpa using i.2⟩ : Fin 6)) (by
          intro i j h; exact Fin.ext (by simpa using h))
        convert this using 2
        simp
      exact ⟨_, rfl, by simp, hl, zero hb b0 _, zero hs s0 _⟩
    · rw [if_pos s0]
      obtain ⟨M, h1, h2, h3, h4⟩ := complete_spec small 0 (ok_indep hs s0) fun i hi => absurd hi (Nat.not_lt_zero _)
      refine ⟨M, h1, h3, h4, zero hb b0 _, ?_⟩
      rw [take_prefix h2 (hs.length s0), hs.span s0]
  · have s0 : s ≠ 0 := by
      intro h
      have h1 := hs.dim_eq
      rw [h] at h1
      have h2 := Submodule.finrank_mono hW
      have := hb.dim_eq
      omega
    rw [if_pos b0, if_pos (hs.length s0).ge, List.take_of_length_le (hs.length s0).le]
    obtain ⟨p1, p2, p3⟩ := addSmall_spec small big (ok_indep hb b0)
    rw [hb.span b0, hs.span s0, sup_eq_right.2 hW] at p3
    obtain ⟨M, h1, h2, h3, h4⟩ := complete_spec _ 0 p2 fun i hi => absurd hi (Nat.not_lt_zero _)
    refine ⟨M, h1, h3, h4, ?_, ?_⟩
    · rw [take_prefix (p1.trans h2) (hb.length b0), hb.span b0]
    · have hl := finrank_indep p2
      rw [p3, ← hs.dim_eq] at hl
      rw [take_prefix h2 hl.symm, p3]

/-- C74. A boundary vertex of one patch (`gsC1SurfVertex.h:756-770`): six independent combinations of the functions are selected. Those without value and normal derivative on the boundary are spanned by the first
ones, those without value by the first ones and the next, with the numbers given by the dimensions of the kernels.
Partial: as `C74_select_partial`, and no coefficient is dropped. -/
theorem C74_vertex_partial {dimU dimV : ℕ} (hu : 2 ≤ dimU) (hv : 2 ≤ dimV) (c : Fin 6 → ℕ → ℝ) (hc : ∀ j n, c j n = 0 ∨ 1 / 10 ^ 20 < c j n * c j n) {big small : List V} {b s : ℕ}
    (hb : KernelOk (Ker (system c (bigEntries dimU dimV)) (bigSize dimU dimV)) big b) (hs : KernelOk (Ker (system c (smallEntries dimU dimV)) (smallSize dimU dimV)) small s) :
    ∃ M, select big b small s = some M ∧ M.length = 6 ∧ LinearIndependent ℝ (fun i : Fin M.length => M[i]) ∧ b ≤ s ∧
      (∀ v : V, v ∈ Submodule.span ℝ {x | x ∈ M.take b} ↔ ∀ i k, i < dimU → k < dimV → (i < 2 ∨ k < 2) → ∑ j, v j * c j (i + dimU * k) = 0) ∧
      (∀ v : V, v ∈ Submodule.span ℝ {x | x ∈ M.take s} ↔ ∀ i k, i < dimU → k < dimV → (i = 0 ∨ k = 0) → ∑ j, v j * c j (i + dimU * k) = 0) := by
  have hW : Ker (system c (bigEntries dimU dimV)) (bigSize dimU dimV) ≤ Ker (system c (smallEntries dimU dimV)) (smallSize dimU dimV) := by
    intro v h
    rw [(C74_kernels hu hv c hc v).1] at h
    rw [(C74_kernels hu hv c hc v).2]
    exact fun i k h1 h2 h3 => h i k h1 h2 (by omega)
  obtain ⟨M, h1, h2, h3, h4, h5⟩ := C74_select_partial hW hb hs
  refine ⟨M, h1, h2, h3, ?_, ?_, ?_⟩
  · rw [hb.dim_eq, hs.dim_eq]; exact Submodule.finrank_mono hW
  · intro v; rw [h4]; exact (C74_kernels hu hv c hc v).1
  · intro v; rw [h5]; exact (C74_kernels hu hv c hc v).2

/-! ## The numbers per type -/

/-- C74. The first two of the three numbers are right. -/
theorem C74_numbers_partial {W W' : Submodule ℝ V} (hW : W ≤ W') {big small : List V} {b s : ℕ} (hb : KernelOk W big b) (hs : KernelOk W' small s) :
    (numberPerType big b s)[0]? = some (Module.finrank ℝ W : ℤ) ∧ (numberPerType big b s)[1]? = some (((Module.finrank ℝ W' - Module.finrank ℝ W : ℕ)) : ℤ) := by
  have := Submodule.finrank_mono hW
  rw [← hb.dim_eq, ← hs.dim_eq] at *
  refine ⟨rfl, ?_⟩
  simp only [numberPerType, List.getElem?_cons_succ, List.getElem?_cons_zero, Option.some.injEq]
  omega

/-- C74, negated. The third number, of the functions with values on the boundary, is never right if the big kernel is not zero and not everything: the code takes `bigKernel.cols()`, the dimension of the kernel, for the
number of functions. It is not even positive. -/
theorem C74_numbers_violated {W W' : Submodule ℝ V} (hW : W ≤ W') {big small : List V} {b s : ℕ} (hb : KernelOk W big b) (hs : KernelOk W' small s) (h0 : W ≠ ⊥) (h1 : W ≠ ⊤) :
    ∃ x, (numberPerType big b s)[2]? = some x ∧ x ≤ 0 ∧ x ≠ 6 - (Module.finrank ℝ W' : ℤ) := by
  have b0 : b ≠ 0 := by
    rw [hb.dim_eq]
    exact fun h => h0 (Submodule.finrank_eq_zero.1 h)
  have hl := hb.length b0
  have hm := Submodule.finrank_mono hW
  have h6 : Module.finrank ℝ W < 6 := by
    have := Submodule.finrank_lt h1
    simpa using this
  have e1 := hb.dim_eq
  have e2 := hs.dim_eq
  refine ⟨(big.length : ℤ) - s, rfl, by omega, by omega⟩

/-! ## An example

Four by four coefficients; each of the six functions has one coefficient: three on the boundary, one in the second layer, two inside. -/

/-- coefficients of the example -/
def exC (j : Fin 6) (n : ℕ) : ℝ := if n = (![0, 1, 4, 5, 10, 15] : Fin 6 → ℕ) j then 1 else 0

private theorem exC_ok (j : Fin 6) (n : ℕ) : exC j n = 0 ∨ 1 / 10 ^ 20 < exC j n * exC j n := by
  unfold exC
  split
  · right; norm_num
  · left; rfl

private theorem ex_big (v : V) : v ∈ Ker (system exC (bigEntries 4 4)) (bigSize 4 4) ↔ v 0 = 0 ∧ v 1 = 0 ∧ v 2 = 0 ∧ v 3 = 0 := by
  rw [(C74_kernels (by decide) (by decide) exC exC_ok v).1]
  constructor
  · intro h
    have h0 := h 0 0 (by decide) (by decide) (by decide)
    have h1 := h 1 0 (by decide) (by decide) (by decide)
    have h2 := h 0 1 (by decide) (by decide) (by decide)
    have h3 := h 1 1 (by decide) (by decide) (by decide)
    simp [Fin.sum_univ_succ, exC] at h0 h1 h2 h3
    exact ⟨h0, h1, h2, h3⟩
  · rintro ⟨h0, h1, h2, h3⟩ i k hi hk h
    interval_cases i <;> interval_cases k <;> first | omega | simp [Fin.sum_univ_succ, exC, h0, h1, h2, h3]

private theorem ex_small (v : V) : v ∈ Ker (system exC (smallEntries 4 4)) (smallSize 4 4) ↔ v 0 = 0 ∧ v 1 = 0 ∧ v 2 = 0 := by
  rw [(C74_kernels (by decide) (by decide) exC exC_ok v).2]
  constructor
  · intro h
    have h0 := h 0 0 (by decide) (by decide) (by decide)
    have h1 := h 1 0 (by decide) (by decide) (by decide)
    have h2 := h 0 1 (by decide) (by decide) (by decide)
    simp [Fin.sum_univ_succ, exC] at h0 h1 h2
    exact ⟨h0, h1, h2⟩
  · rintro ⟨h0, h1, h2⟩ i k hi hk h
    interval_cases i <;> interval_cases k <;> first | omega | simp [Fin.sum_univ_succ, exC, h0, h1, h2]

private theorem units_indep (l : List (Fin 6)) (hl : l.Nodup) : indep (l.map unit) := by
  have hu : LinearIndependent ℝ unit := by
    apply linearIndependent_of_top_le_span_of_card_eq_finrank
    · rw [span_unit]
    · simp
  rw [indep_iff]
  refine ⟨hl.map hu.injective, (hu.linearIndepOn_id).mono ?_⟩
  intro x hx
  obtain ⟨i, _, rfl⟩ := List.mem_map.1 hx
  exact ⟨i, rfl⟩

private theorem units_span (l : List (Fin 6)) (v : V) : v ∈ Submodule.span ℝ {x | x ∈ l.map unit} ↔ ∀ i, i ∉ l → v i = 0 := by
  constructor
  · intro h i hi
    induction h using Submodule.span_induction with
    | mem x hx =>
      obtain ⟨j, hj, rfl⟩ := List.mem_map.1 hx
      have : i ≠ j := fun h => hi (h ▸ hj)
      simp [unit, this]
    | zero => rfl
    | add x y _ _ h1 h2 => simp [h1, h2]
    | smul a x _ h => simp [h]
  · intro h
    have e : v = ∑ i, v i • unit i := by
      funext j
      simp [unit, Finset.sum_apply]
    rw [e]
    refine Submodule.sum_mem _ fun i _ => ?_
    by_cases hi : i ∈ l
    · exact Submodule.smul_mem _ _ (Submodule.subset_span (List.mem_map_of_mem hi))
    · rw [h i hi, zero_smul]; exact Submodule.zero_mem _

private theorem units_ok {W : Submodule ℝ V} (l : List (Fin 6)) (hl : l.Nodup) (h : ∀ v : V, v ∈ W ↔ ∀ i, i ∉ l → v i = 0) : KernelOk W (l.map unit) l.length := by
  have e : Submodule.span ℝ {x | x ∈ l.map unit} = W := by
    ext v; rw [units_span, h]
  refine ⟨?_, fun _ => by simp, fun _ => e, ?_⟩
  · rw [← e, finrank_indep (units_indep l hl)]; simp
  · intro v hv r
    obtain ⟨i, _, rfl⟩ := List.mem_map.1 hv
    unfold unit
    split
    · right; norm_num
    · left; rfl

private theorem ex_ok : KernelOk (Ker (system exC (bigEntries 4 4)) (bigSize 4 4)) ([4, 5].map unit) 2 ∧ KernelOk (Ker (system exC (smallEntries 4 4)) (smallSize 4 4)) ([5, 4, 3].map unit) 3 := by
  refine ⟨units_ok [4, 5] (by decide) fun v => ?_, units_ok [5, 4, 3] (by decide) fun v => ?_⟩
  · rw [ex_big]
    constructor
    · rintro ⟨h0, h1, h2, h3⟩ i hi
      fin_cases i <;> first | assumption | exact absurd (by decide) hi
    · intro h; exact ⟨h 0 (by decide), h 1 (by decide), h 2 (by decide), h 3 (by decide)⟩
  · rw [ex_small]
    constructor
    · rintro ⟨h0, h1, h2⟩ i hi
      fin_cases i <;> first | assumption | exact absurd (by decide) hi
    · intro h; exact ⟨h 0 (by decide), h 1 (by decide), h 2 (by decide)⟩

/-- The hypotheses of `C74_vertex_partial` are met, with two functions of the first kind and one of the second. -/
example : ∃ M, select ([4, 5].map unit) 2 ([5, 4, 3].map unit) 3 = some M ∧ M.length = 6 ∧ unit 3 ∈ Submodule.span ℝ {x | x ∈ M.take 3} := by
  obtain ⟨M, h1, h2, _, _, _, h6⟩ := C74_vertex_partial (by decide) (by decide) exC exC_ok ex_ok.1 ex_ok.2
  refine ⟨M, h1, h2, (h6 _).2 ?_⟩
  rw [← (C74_kernels (by decide) (by decide) exC exC_ok (unit 3)).2, ex_small]
  simp [unit]

/-- The third number is -1 although three of the six functions have values on the boundary. -/
example : numberPerType ([4, 5].map unit) 2 3 = [2, 1, -1] ∧ Module.finrank ℝ (Ker (system exC (smallEntries 4 4)) (smallSize 4 4)) = 3 := by
  refine ⟨by simp [numberPerType], ex_ok.2.dim_eq.symm⟩

/-- The hypotheses of `C74_numbers_violated` are met. -/
example : ∃ x, (numberPerType ([4, 5].map unit) 2 3)[2]? = some x ∧ x ≤ 0 ∧ x ≠ 6 - (Module.finrank ℝ (Ker (system exC (smallEntries 4 4)) (smallSize 4 4)) : ℤ) := by
  refine C74_numbers_violated ?_ ex_ok.1 ex_ok.2 ?_ ?_
  · intro v h
    rw [ex_big] at h
    rw [ex_small]
    exact ⟨h.1, h.2.1, h.2.2.1⟩
  · intro h
    have h4 : unit 4 ∈ Ker (system exC (bigEntries 4 4)) (bigSize 4 4) := by rw [ex_big]; simp [unit]
    rw [h, Submodule.mem_bot] at h4
    have := congrFun h4 4
    simp [unit] at this
  · intro h
    have h0 : unit 0 ∈ Ker (system exC (bigEntries 4 4)) (bigSize 4 4) := by rw [h]; trivial
    rw [ex_big] at h0
    simp [unit] at h0

/-- The hypotheses of `C74_rows`: four by three coefficients, ten rows and six rows. -/
example : (bigEntries 4 3).map Prod.snd = [0, 1, 2, 3, 4, 5, 6, 7, 8, 9] ∧ (smallEntries 4 3).map Prod.snd = [0, 1, 2, 3, 4, 8] := by decide

end
end Verif.Select
