import Verif.Proofs.Kernel
import Verif.Proofs.BSpline
import Mathlib.LinearAlgebra.Pi
import Mathlib.LinearAlgebra.Dimension.Constructions
/-!
# Property C46: functions at a boundary vertex

`computeKernel` combines the six functions of a boundary vertex such that as many of them as possible vanish on the boundary (and have no normal derivative there, without option `second`).
-/
set_option autoImplicit false
set_option linter.unusedSimpArgs false
set_option linter.unusedVariables false
namespace Verif.Kernel
open Polynomial

/-- Coefficient `(i,j)` of a patch at a boundary vertex has to vanish: on side 3 (`v = 0`) the first rows, on side 1 (`u = 0`) the first columns; on a patch between two interfaces those that determine
value and first derivatives (with option `second`: the value) at the vertex. -/
def Vanishes (second : Bool) (p : VPatch) (i j : ℕ) : Prop :=
  let n := if second then 0 else 1
  p.free3 = true ∧ j ≤ n ∨ p.free1 = true ∧ i ≤ n ∨ p.free3 = false ∧ p.free1 = false ∧ i ≤ n ∧ j ≤ n

/-- The patch has a boundary side at the vertex. -/
def AtBdy (p : VPatch) : Prop := p.free3 = true ∨ p.free1 = true

private theorem rows_range {ps : List VPatch} (hw : Wide ps) :
    ((wls false 0 (B ps) ++ ils (total false (B ps)) (I ps)).map Write.row).Perm (List.range (collect false ps).dimMat) := by
  rw [List.map_append, List.range_eq_range', dimMat_eq, ← List.range'_append_1]
  exact (wls_rows false _ 0).append (by rw [Nat.zero_add]; exact ils_rows _ _)

private theorem rows_range2 {ps : List VPatch} (h : (I ps).length ≤ (B ps).length) :
    ((wls true 0 (B ps) ++ sls (total true (B ps)) ((B ps).take (I ps).length)).map Write.row).Perm (List.range (collect true ps).dimMat) := by
  rw [List.map_append, List.range_eq_range', dimMat_eq, ← List.range'_append_1]
  refine (wls_rows true _ 0).append ?_
  rw [sls_rows, List.length_take_of_le h, Nat.zero_add]
  have : isz true = 1 := rfl
  rw [this, Nat.one_mul]
  exact List.Perm.refl _

private theorem mem_bdy {second : Bool} {ps : List VPatch} (hw : Wide ps) {np idx s : ℕ} :
    (∃ w ∈ wls second s (B ps), w.patch = np ∧ w.idx = idx) ↔ ∃ p, ps[np]? = some p ∧ ∃ i j, i < p.du ∧ j < p.dv ∧ idx = i + p.du * j ∧
      (p.free3 = true ∧ j ≤ (if second then 0 else 1) ∨ p.free1 = true ∧ i ≤ (if second then 0 else 1)) := by
  rw [mem_wls]
  constructor
  · rintro ⟨e, he, rfl, i, hi, h⟩
    obtain ⟨p, hp, h1, h2, h3⟩ := mem_B he
    obtain ⟨w1, w2⟩ := hw p (List.mem_of_getElem? hp)
    refine ⟨p, hp, ?_⟩
    unfold Ent.d at hi
    rw [h1] at h hi
    rw [h2] at hi
    revert hi h h3
    cases e.isV <;> simp only [Bool.false_eq_true, if_false, if_true] <;> intro hi h h3
    · rcases h with rfl | ⟨rfl, rfl⟩
      · exact ⟨_, 0, hi, by omega, by simp, Or.inl ⟨h3, Nat.zero_le _⟩⟩
      · exact ⟨_, 1, hi, by omega, by simp, Or.inl ⟨h3, by simp⟩⟩
    · rcases h with rfl | ⟨rfl, rfl⟩
      · exact ⟨0, i, by omega, hi, by rw [Nat.mul_comm]; omega, Or.inr ⟨h3, Nat.zero_le _⟩⟩
      · exact ⟨1, i, by omega, hi, by rw [Nat.mul_comm]; omega, Or.inr ⟨h3, by simp⟩⟩
  · rintro ⟨p, hp, i, j, hi, hj, rfl, ⟨hf, h⟩ | ⟨hf, h⟩⟩
    · refine ⟨_, (B_mem hp).1 hf, rfl, i, hi, ?_⟩
      simp only [Bool.false_eq_true, if_false]
      cases second
      · have : j = 0 ∨ j = 1 := by simp at h; omega
        rcases this with rfl | rfl <;> simp
      · have : j = 0 := by simpa using h
        subst this; simp
    · refine ⟨_, (B_mem hp).2 hf, rfl, j, hj, ?_⟩
      simp only [if_true]
      cases second
      · have : i = 0 ∨ i = 1 := by simp at h; omega
        rcases this with rfl | rfl
        · left; rw [Nat.mul_comm]; omega
        · right; exact ⟨rfl, by rw [Nat.mul_comm]; omega⟩
      · have : i = 0 := by simpa using h
        subst this; left; rw [Nat.mul_comm]; omega

private theorem inner_lt {p : VPatch} (h : 2 ≤ p.du ∧ 2 ≤ p.dv) {idx : ℕ} : (idx = 0 ∨ idx = p.du ∨ idx = 1 ∨ idx = 1 + p.du) ↔
    ∃ i j, i < p.du ∧ j < p.dv ∧ idx = i + p.du * j ∧ i ≤ 1 ∧ j ≤ 1 := by
  constructor
  · rintro (rfl | rfl | rfl | rfl)
    · exact ⟨0, 0, by omega, by omega, by omega, by omega, by omega⟩
    · exact ⟨0, 1, by omega, by omega, by omega, by omega, by omega⟩
    · exact ⟨1, 0, by omega, by omega, by omega, by omega, by omega⟩
    · exact ⟨1, 1, by omega, by omega, by omega, by omega, by omega⟩
  · rintro ⟨i, j, _, _, rfl, hi, hj⟩
    have h1 : i = 0 ∨ i = 1 := by omega
    have h2 : j = 0 ∨ j = 1 := by omega
    rcases h1 with rfl | rfl <;> rcases h2 with rfl | rfl <;> simp

/-- C46. Without option `second` every access is in range, every row of the matrix is written exactly once, and the rows hold exactly the coefficients that have to vanish. -/
theorem C46_rows {ps : List VPatch} (hw : ∀ p ∈ ps, 2 ≤ p.du ∧ 2 ≤ p.dv) :
    ∃ ws, rows false ps = some ws ∧ (ws.map Write.row).Perm (List.range (collect false ps).dimMat) ∧
      ∀ np idx, (∃ w ∈ ws, w.patch = np ∧ w.idx = idx) ↔
        ∃ p, ps[np]? = some p ∧ ∃ i j, i < p.du ∧ j < p.dv ∧ idx = i + p.du * j ∧ Vanishes false p i j := by
  refine ⟨_, rows_false hw, rows_range hw, ?_⟩
  intro np idx
  simp only [List.mem_append, or_and_right, exists_or]
  rw [mem_bdy hw, mem_ils]
  constructor
  · rintro (⟨p, hp, i, j, hi, hj, rfl, h⟩ | ⟨⟨p, q⟩, hx, rfl, h⟩)
    · exact ⟨p, hp, i, j, hi, hj, rfl, by unfold Vanishes; rcases h with h | h <;> simp_all⟩
    · obtain ⟨hp, h1, h3⟩ := mem_I.1 hx
      obtain ⟨i, j, hi, hj, e, h⟩ := (inner_lt (hw p (List.mem_of_getElem? hp))).1 h
      exact ⟨p, hp, i, j, hi, hj, e, Or.inr (Or.inr ⟨h3, h1, by simpa using h.1, by simpa using h.2⟩)⟩
  · rintro ⟨p, hp, i, j, hi, hj, rfl, h⟩
    rcases h with h | h | ⟨h3, h1, h⟩
    · exact Or.inl ⟨p, hp, i, j, hi, hj, rfl, Or.inl h⟩
    · exact Or.inl ⟨p, hp, i, j, hi, hj, rfl, Or.inr h⟩
    · exact Or.inr ⟨(p, np), mem_I.2 ⟨hp, h1, h3⟩, rfl, (inner_lt (hw p (List.mem_of_getElem? hp))).2 ⟨i, j, hi, hj, rfl, by simpa using h.1, by simpa using h.2⟩⟩

/-- Number of patches between two interfaces. -/
def nInner (ps : List VPatch) : ℕ := (ps.filter fun p => !p.free1 && !p.free3).length

/-- Number of boundary sides. -/
def nBdy (ps : List VPatch) : ℕ := (ps.map fun p => p.free3.toNat + p.free1.toNat).sum

private theorem I_len (ps : List VPatch) : (I ps).length = nInner ps := by
  have key : ∀ (l : List VPatch) (k : ℕ), ((l.zipIdx k).filter inner).length = (l.filter fun p => !p.free1 && !p.free3).length := by
    intro l
    induction l with
    | nil => intro k; rfl
    | cons p l ih =>
      intro k
      rw [List.zipIdx_cons, List.filter_cons, List.filter_cons]
      unfold inner at *
      split <;> simp [ih]
  exact key ps 0

private theorem B_len (ps : List VPatch) : (B ps).length = nBdy ps := by
  have key : ∀ (l : List VPatch) (k : ℕ), ((l.zipIdx k).flatMap ents).length = (l.map fun p => p.free3.toNat + p.free1.toNat).sum := by
    intro l
    induction l with
    | nil => intro k; rfl
    | cons p l ih =>
      intro k
      rw [List.zipIdx_cons, List.flatMap_cons, List.length_append, ih, List.map_cons, List.sum_cons]
      congr 1
      unfold ents
      cases p.free3 <;> cases p.free1 <;> simp
  exact key ps 0

/-- C46, option `second`: the code works on vertices with at most as many inner patches as boundary sides, that is two; it then writes every row once. The rows hold the coefficients on the boundary, but
none of the patches between two interfaces. -/
theorem C46_rows_second_partial {ps : List VPatch} (hw : ∀ p ∈ ps, 2 ≤ p.du ∧ 2 ≤ p.dv) :
    (nInner ps ≤ nBdy ps → ∃ ws, rows true ps = some ws ∧ (ws.map Write.row).Perm (List.range (collect true ps).dimMat) ∧
      ∀ np idx, (∃ w ∈ ws, w.patch = np ∧ w.idx = idx) ↔
        ∃ p, ps[np]? = some p ∧ AtBdy p ∧ ∃ i j, i < p.du ∧ j < p.dv ∧ idx = i + p.du * j ∧ Vanishes true p i j) ∧
    (nBdy ps < nInner ps → rows true ps = none) := by
  have hr := rows_true hw
  rw [I_len, B_len] at hr
  constructor
  · intro h
    rw [if_pos h] at hr
    refine ⟨_, hr, ?_, ?_⟩
    · rw [← I_len]; exact rows_range2 (by rw [I_len, B_len]; exact h)
    · intro np idx
      simp only [List.mem_append, or_and_right, exists_or]
      rw [mem_bdy hw, mem_sls]
      constructor
      · rintro (⟨p, hp, i, j, hi, hj, rfl, h⟩ | ⟨e, he, rfl, rfl⟩)
        · refine ⟨p, hp, by unfold AtBdy; rcases h with h | h <;> simp [h.1], i, j, hi, hj, rfl, ?_⟩
          unfold Vanishes
          rcases h with h | h <;> simp_all
        · obtain ⟨p, hp, h1, h2, h3⟩ := mem_B (List.mem_of_mem_take he)
          obtain ⟨w1, w2⟩ := hw p (List.mem_of_getElem? hp)
          refine ⟨p, hp, ?_, 0, 0, by omega, by omega, by omega, ?_⟩
          · unfold AtBdy; split at h3 <;> simp [h3]
          · unfold Vanishes; split at h3 <;> simp [h3]
      · rintro ⟨p, hp, ha, i, j, hi, hj, rfl, h⟩
        rcases h with h | h | ⟨h3, h1, h⟩
        · exact Or.inl ⟨p, hp, i, j, hi, hj, rfl, Or.inl h⟩
        · exact Or.inl ⟨p, hp, i, j, hi, hj, rfl, Or.inr h⟩
        · unfold AtBdy at ha; simp [h3, h1] at ha
  · intro h
    rw [hr, if_neg (by omega)]

/-- C46 fails with option `second` at a boundary vertex with five patches: the code reads beyond the end of `patchID`. -/
theorem C46_second_violation : ∃ ps : List VPatch, ps.length = 5 ∧ nBdy ps = 2 ∧ (∀ p ∈ ps, p.du = 8 ∧ p.dv = 8) ∧
    ∀ lu kink F, computeKernel lu true kink ps F = none := by
  refine ⟨[⟨8, 8, true, false⟩, ⟨8, 8, false, false⟩, ⟨8, 8, false, false⟩, ⟨8, 8, false, false⟩, ⟨8, 8, false, true⟩], rfl, rfl, by simp, ?_⟩
  intro lu kink F
  unfold computeKernel
  rw [(C46_rows_second_partial (by simp)).2 (by decide)]
  rfl

/-! ## The kernel -/

noncomputable section
open Classical

/-- Assumptions about `gsEigen::FullPivLU` of the first `m` rows of `A`: at a threshold `t` with a kernel, `kernel()` has `dimensionOfKernel()` independent columns, and the matrix maps them to vectors with
entries of at most `res t`. (In exact arithmetic and with no pivots below the threshold, `res t = 0`.) -/
structure LUOk (A : ℕ → V) (m : ℕ) (lu : LU) (res : ℝ → ℝ) : Prop where
  len : ∀ t > 0, 0 < dimKer lu.piv t → (lu.ker t).length = dimKer lu.piv t
  ind : ∀ t > 0, 0 < dimKer lu.piv t → LinearIndependent ℝ fun i : Fin (lu.ker t).length => (lu.ker t)[i]
  resid : ∀ t > 0, ∀ k ∈ lu.ker t, ∀ r < m, |∑ j, A r j * k j| ≤ res t

/-- C46. The loop over thresholds ends; the threshold is the first one for which the kernel is large enough. -/
theorem C46_threshold (piv : List ℝ) (second kink : Bool) :
    let t₁ := search piv (dofsCorner second kink) (dofs_le second kink) (1 / 10 ^ 10)
    dofsCorner second kink ≤ dimKer piv t₁ ∧
    ∃ n : ℕ, t₁ = 1 / 10 ^ 10 + n * (1 / 10 ^ 8) ∧ n ≤ 10 ^ 8 ∧ ∀ k < n, dimKer piv (1 / 10 ^ 10 + k * (1 / 10 ^ 8)) < dofsCorner second kink := by
  intro t₁
  obtain ⟨n, h1, h2, h3⟩ := search_spec piv (dofsCorner second kink) (dofs_le second kink) (1 / 10 ^ 10)
  refine ⟨h2, n, h1, ?_, h3⟩
  by_contra hc
  have := h3 (10 ^ 8) (by omega)
  have hr : rank piv (1 / 10 ^ 10 + ((10 ^ 8 : ℕ) : ℝ) * (1 / 10 ^ 8)) = 0 := rank_one piv (by norm_num)
  have := dofs_le second kink
  unfold dimKer at *
  omega

/-- C46. The completion with unit vectors never runs out of them, and yields a basis whose first vectors are those of the kernel. -/
theorem C46_completion {K : List V} (hK : LinearIndependent ℝ fun i : Fin K.length => K[i]) :
    ∃ K', complete K 0 = some K' ∧ K <+: K' ∧ K'.length = 6 ∧ LinearIndependent ℝ (fun i : Fin K'.length => K'[i]) ∧ Submodule.span ℝ {x | x ∈ K'} = ⊤ := by
  obtain ⟨K', h1, h2, h3, h4⟩ := complete_spec K 0 hK fun i hi => absurd hi (Nat.not_lt_zero _)
  exact ⟨K', h1, h2, h3, h4, (indep_top h4).1 h3⟩

private theorem search_pos (piv : List ℝ) (dofs : ℕ) (h6 : dofs ≤ 6) : 0 < search piv dofs h6 (1 / 10 ^ 10) := by
  obtain ⟨n, h, _⟩ := search_spec piv dofs h6 (1 / 10 ^ 10)
  rw [h]; positivity

private theorem kernel_spec {A : ℕ → V} {m : ℕ} {lu : LU} {res : ℝ → ℝ} (ok : LUOk A m lu res) (second kink : Bool) :
    ∃ K, kernel lu (dofsCorner second kink) (dofs_le second kink) = some K ∧ K.length = 6 ∧ indep K ∧
      (0 < dofsCorner second kink → lu.ker (search lu.piv (dofsCorner second kink) (dofs_le second kink) (1 / 10 ^ 10)) <+: K) := by
  unfold kernel
  by_cases h : dofsCorner second kink > 0
  · rw [if_pos h]
    obtain ⟨K', h1, h2, h3, h4, _⟩ := C46_completion (ok.ind (search lu.piv (dofsCorner second kink) (dofs_le second kink) (1 / 10 ^ 10)) (search_pos _ _ _)
      (lt_of_lt_of_le h (C46_threshold lu.piv second kink).1))
    exact ⟨K', h1, h3, h4, fun _ => h2⟩
  · rw [if_neg h]
    refine ⟨_, rfl, by simp, ?_, fun hc => absurd hc h⟩
    have ht : Submodule.span ℝ {x | x ∈ (List.finRange 6).map unit} = ⊤ := by
      rw [← span_unit]; congr 1; ext x; simp
    rw [indep_iff]
    have hi : LinearIndependent ℝ unit := by
      rw [linearIndependent_iff']
      intro s g hg i hi
      have := congrFun hg i
      simpa [unit, Finset.sum_apply, hi] using this
    refine ⟨List.Nodup.map hi.injective (List.nodup_finRange 6), ?_⟩
    have := hi.linearIndepOn_id
    convert this using 1
    ext x; simp

/-- The six functions on all patches together. -/
def fam (F : Funs) (j : Fin 6) : ℕ → ℕ → ℝ := fun np idx => F np j idx

/-- No entry of the kernel is dropped for being small. -/
def NoCut (K : List V) : Prop := ∀ k ∈ K, ∀ i, k i = 0 ∨ k i * k i > 1 / 10 ^ 25

private def Phi (F : Funs) : V →ₗ[ℝ] (ℕ → ℕ → ℝ) where
  toFun k := ∑ i, k i • fam F i
  map_add' a b := by simp [add_smul, Finset.sum_add_distrib]
  map_smul' c a := by simp [Finset.smul_sum, smul_smul]

private theorem fam_transform {F : Funs} {K : List V} (h6 : K.length = 6) (hc : NoCut K) (j : Fin 6) : fam (transform F K) j = Phi F (K[j.1]'(by omega)) := by
  have hg : K.getD j.1 0 = K[j.1]'(by omega) := by
    rw [List.getD_eq_getElem?_getD, List.getElem?_eq_getElem (by omega : j.1 < K.length)]; rfl
  funext np idx
  simp only [fam, transform, Phi, LinearMap.coe_mk, AddHom.coe_mk, Finset.sum_apply, Pi.smul_apply, smul_eq_mul]
  rw [hg]
  apply Finset.sum_congr rfl
  intro i _
  rcases hc _ (List.getElem_mem (by omega : j.1 < K.length)) i with h | h
  · rw [h]; simp
  · rw [if_pos h, mul_comm]

/-- C46. The new functions span the same space as the old ones, and are independent if those are. -/
theorem C46_same_space {A : ℕ → V} {m : ℕ} {lu : LU} {res : ℝ → ℝ} (ok : LUOk A m lu res) (second kink : Bool) (F : Funs) :
    ∃ K, kernel lu (dofsCorner second kink) (dofs_le second kink) = some K ∧
      (NoCut K → Submodule.span ℝ (Set.range (fam (transform F K))) = Submodule.span ℝ (Set.range (fam F)) ∧
        (LinearIndependent ℝ (fam F) → LinearIndependent ℝ (fam (transform F K)))) := by
  obtain ⟨K, h1, h6, hi, _⟩ := kernel_spec ok second kink
  refine ⟨K, h1, fun hc => ?_⟩
  have hf := fam_transform (F := F) h6 hc
  have hr : Set.range (fam (transform F K)) = Phi F '' {x | x ∈ K} := by
    ext x
    constructor
    · rintro ⟨j, rfl⟩; exact ⟨_, List.getElem_mem (by omega), (hf j).symm⟩
    · rintro ⟨k, hk, rfl⟩
      obtain ⟨n, hn, rfl⟩ := List.mem_iff_getElem.1 hk
      exact ⟨⟨n, by omega⟩, hf _⟩
  have hF : ∀ i, fam F i = Phi F (unit i) := by
    intro i
    simp [Phi, unit]
  have hrF : Set.range (fam F) = Phi F '' Set.range unit := by
    ext x
    constructor
    · rintro ⟨j, rfl⟩; exact ⟨unit j, ⟨j, rfl⟩, (hF j).symm⟩
    · rintro ⟨_, ⟨j, rfl⟩, rfl⟩; exact ⟨j, hF j⟩
  constructor
  · rw [hr, hrF, Submodule.span_image, Submodule.span_image, span_unit, (indep_top hi).1 h6]
  · intro hl
    have hker : LinearMap.ker (Phi F) = ⊥ := by
      rw [LinearMap.ker_eq_bot']
      intro k hk
      funext i
      exact (Fintype.linearIndependent_iff.1 hl) k hk i
    have h2 : LinearIndependent ℝ fun i : Fin K.length => Phi F K[i] := LinearIndependent.map' hi (Phi F) hker
    have h3 := h2.comp (fun j : Fin 6 => (⟨j.1, by omega⟩ : Fin K.length)) (fun a b h => Fin.ext (by simpa using h))
    have : fam (transform F K) = (fun i : Fin K.length => Phi F K[i]) ∘ fun j : Fin 6 => (⟨j.1, by omega⟩ : Fin K.length) := by
      funext j; exact hf j
    rw [this]; exact h3

private theorem cut_err (x : ℝ) : |x - cut x| ≤ 4 / 10 ^ 13 := by
  unfold cut
  split
  · simp; positivity
  · rename_i h
    rw [sub_zero]
    apply abs_le_of_sq_le_sq _ (by positivity)
    have : (4 / 10 ^ 13 : ℝ) ^ 2 = 16 / 10 ^ 26 := by norm_num
    rw [this]
    have h' := not_lt.1 h
    have : (1 / 10 ^ 25 : ℝ) ≤ 16 / 10 ^ 26 := by norm_num
    nlinarith

private theorem cut_le (x : ℝ) : |cut x| ≤ |x| := by
  unfold cut; split <;> simp

/-- The patches meet in one value at the vertex. -/
def SameValue (ps : List VPatch) (F : Funs) : Prop := ∀ np np' i, np < ps.length → np' < ps.length → F np i 0 = F np' i 0

private theorem bound {F : Funs} {ws : List Write} (hn : (ws.map Write.row).Nodup) {w : Write} (hw : w ∈ ws) {k : V} {r : ℝ} (hk : |∑ j, matrix F ws w.row j * k j| ≤ r) :
    |∑ i, (if k i * k i > 1 / 10 ^ 25 then F w.patch i w.idx * k i else 0)| ≤ r + 4 / 10 ^ 13 * ∑ i, (|k i| + |F w.patch i w.idx|) := by
  have e : ∀ i, (if k i * k i > 1 / 10 ^ 25 then F w.patch i w.idx * k i else 0) = matrix F ws w.row i * k i +
      ((F w.patch i w.idx - cut (F w.patch i w.idx)) * k i - F w.patch i w.idx * (k i - cut (k i))) := by
    intro i
    rw [matrix_get hn hw]
    have : (if k i * k i > 1 / 10 ^ 25 then F w.patch i w.idx * k i else 0) = F w.patch i w.idx * cut (k i) := by
      unfold cut; split <;> simp
    rw [this]; ring
  rw [Finset.sum_congr rfl fun i _ => e i, Finset.sum_add_distrib]
  refine (abs_add_le _ _).trans (add_le_add hk ?_)
  refine (Finset.abs_sum_le_sum_abs _ _).trans ?_
  rw [Finset.mul_sum]
  apply Finset.sum_le_sum
  intro i _
  refine (abs_sub _ _).trans ?_
  rw [abs_mul, abs_mul, mul_add]
  refine add_le_add (mul_le_mul_of_nonneg_right (cut_err _) (abs_nonneg _)) ?_
  rw [mul_comm]
  exact mul_le_mul_of_nonneg_right (cut_err _) (abs_nonneg _)

private theorem written {second : Bool} {ps : List VPatch} (hw : Wide ps) {ws : List Write} (hr : rows second ps = some ws) :
    (ws.map Write.row).Perm (List.range (collect second ps).dimMat) ∧
    ∀ {np : ℕ} {p : VPatch} {i j : ℕ}, ps[np]? = some p → i < p.du → j < p.dv → Vanishes second p i j → (second = true → AtBdy p) → ∃ w ∈ ws, w.patch = np ∧ w.idx = i + p.du * j := by
  cases second
  · obtain ⟨ws', h1, h2, h3⟩ := C46_rows hw
    rw [hr] at h1; cases h1
    exact ⟨h2, fun hp hi hj hv _ => (h3 _ _).2 ⟨_, hp, _, _, hi, hj, rfl, hv⟩⟩
  · by_cases h : nInner ps ≤ nBdy ps
    · obtain ⟨ws', h1, h2, h3⟩ := (C46_rows_second_partial hw).1 h
      rw [hr] at h1; cases h1
      exact ⟨h2, fun hp hi hj hv ha => (h3 _ _).2 ⟨_, hp, ha rfl, _, _, hi, hj, rfl, hv⟩⟩
    · rw [(C46_rows_second_partial hw).2 (by omega)] at hr; cases hr

private theorem some_bdy {ps : List VPatch} (h : nInner ps ≤ nBdy ps) (hi : 0 < nInner ps) : ∃ (np : ℕ) (p : VPatch), ps[np]? = some p ∧ AtBdy p := by
  rw [← B_len] at h
  have : 0 < (B ps).length := by omega
  obtain ⟨p, hp, _, _, h3⟩ := mem_B (List.getElem_mem this)
  exact ⟨_, p, hp, by unfold AtBdy; split at h3 <;> simp [h3]⟩

private theorem inner_pos {ps : List VPatch} {np : ℕ} {p : VPatch} (hp : ps[np]? = some p) (h : ¬ AtBdy p) : 0 < nInner ps := by
  unfold nInner
  apply List.length_pos_of_mem (a := p)
  rw [List.mem_filter]
  refine ⟨List.mem_of_getElem? hp, ?_⟩
  unfold AtBdy at h
  simpa [not_or, and_comm] using h

/-- the row that makes a coefficient vanish -/
private theorem row_for {second : Bool} {ps : List VPatch} (hw : Wide ps) {ws : List Write} (hr : rows second ps = some ws) (F : Funs) (hs : second = true → SameValue ps F)
    {np : ℕ} {p : VPatch} {i j : ℕ} (hp : ps[np]? = some p) (hi : i < p.du) (hj : j < p.dv) (hv : Vanishes second p i j) :
    ∃ w ∈ ws, ∀ q, F w.patch q w.idx = F np q (i + p.du * j) := by
  by_cases ha : second = true → AtBdy p
  · obtain ⟨w, h1, h2, h3⟩ := (written hw hr).2 hp hi hj hv ha
    exact ⟨w, h1, fun q => by rw [h2, h3]⟩
  · rw [Classical.not_imp] at ha
    obtain ⟨hs2, ha⟩ := ha
    subst hs2
    have hin := inner_pos hp ha
    have hle : nInner ps ≤ nBdy ps := by
      by_contra hc
      rw [(C46_rows_second_partial hw).2 (by omega)] at hr; cases hr
    obtain ⟨np', p', hp', ha'⟩ := some_bdy hle hin
    obtain ⟨w1, w2⟩ := hw p' (List.mem_of_getElem? hp')
    obtain ⟨w, h1, h2, h3⟩ := (written hw hr).2 hp' (i := 0) (j := 0) (by omega) (by omega)
      (by unfold AtBdy at ha'; unfold Vanishes; rcases ha' with h | h <;> simp [h]) fun _ => ha'
    have h0 : i = 0 ∧ j = 0 := by
      unfold AtBdy at ha; unfold Vanishes at hv
      rw [not_or] at ha
      rcases hv with h | h | h
      · exact absurd h.1 ha.1
      · exact absurd h.1 ha.2
      · simpa using h.2.2
    obtain ⟨rfl, rfl⟩ := h0
    refine ⟨w, h1, fun q => ?_⟩
    rw [h2, h3, Nat.mul_zero, Nat.mul_zero]
    exact hs rfl _ _ q (List.getElem?_eq_some_iff.1 hp').1 (List.getElem?_eq_some_iff.1 hp).1

/-- C46. The first `dofsCorner` functions vanish on the boundary sides of the vertex, up to the error of the factorisation and that of dropping small numbers. With option `second` this needs that `rows`
succeeds, and that the old functions have one value at the vertex. -/
theorem C46_vanish {second kink : Bool} {ps : List VPatch} (hw : ∀ p ∈ ps, 2 ≤ p.du ∧ 2 ≤ p.dv) {ws : List Write} (hr : rows second ps = some ws) (F : Funs)
    (hs : second = true → SameValue ps F) (lu : (ℕ → V) → LU) {res : ℝ → ℝ} (ok : LUOk (matrix F ws) (collect second ps).dimMat (lu (matrix F ws)) res) :
    let t₁ := search (lu (matrix F ws)).piv (dofsCorner second kink) (dofs_le second kink) (1 / 10 ^ 10)
    ∃ G, computeKernel lu second kink ps F = some G ∧ ∀ q : Fin 6, q.1 < dofsCorner second kink →
      ∃ k, ((lu (matrix F ws)).ker t₁)[q.1]? = some k ∧ ∀ np p i j, ps[np]? = some p → i < p.du → j < p.dv → Vanishes second p i j →
        |G np q (i + p.du * j)| ≤ res t₁ + 4 / 10 ^ 13 * ∑ l, (|k l| + |F np l (i + p.du * j)|) := by
  intro t₁
  obtain ⟨K, h1, h6, hi, hpre⟩ := kernel_spec ok second kink
  refine ⟨transform F K, by unfold computeKernel; rw [hr]; simp [h1], ?_⟩
  intro q hq
  have hd : 0 < dofsCorner second kink := by omega
  have hdim := (C46_threshold (lu (matrix F ws)).piv second kink).1
  have hpos : 0 < t₁ := search_pos _ _ _
  have hlen := ok.len t₁ hpos (by show 0 < dimKer _ _; exact lt_of_lt_of_le hd hdim)
  have hql : q.1 < ((lu (matrix F ws)).ker t₁).length := by rw [hlen]; exact lt_of_lt_of_le hq hdim
  refine ⟨((lu (matrix F ws)).ker t₁)[q.1], List.getElem?_eq_getElem hql, ?_⟩
  intro np p i j hp hi' hj hv
  obtain ⟨w, hw1, hw2⟩ := row_for hw hr F hs hp hi' hj hv
  have hperm := (written hw hr).1
  have hn : (ws.map Write.row).Nodup := hperm.nodup_iff.2 List.nodup_range
  have hrow : w.row < (collect second ps).dimMat := List.mem_range.1 (hperm.subset (List.mem_map_of_mem hw1))
  have hb := bound hn hw1 (ok.resid t₁ hpos _ (List.getElem_mem hql) w.row hrow)
  simp only [hw2] at hb
  have hg : K.getD q.1 0 = ((lu (matrix F ws)).ker t₁)[q.1] := by
    have hqK : q.1 < K.length := by omega
    rw [List.getD_eq_getElem?_getD, List.getElem?_eq_getElem hqK, (hpre hd).getElem hql]; rfl
  unfold transform
  rw [hg]
  exact hb

/-- C46, exact arithmetic: if nothing is dropped and the factorisation is exact, the first `dofsCorner` functions vanish on the boundary sides. -/
theorem C46_vanish_exact {second kink : Bool} {ps : List VPatch} (hw : ∀ p ∈ ps, 2 ≤ p.du ∧ 2 ≤ p.dv) {ws : List Write} (hr : rows second ps = some ws) (F : Funs)
    (hs : second = true → SameValue ps F) (lu : (ℕ → V) → LU) {res : ℝ → ℝ} (ok : LUOk (matrix F ws) (collect second ps).dimMat (lu (matrix F ws)) res)
    (h0 : res (search (lu (matrix F ws)).piv (dofsCorner second kink) (dofs_le second kink) (1 / 10 ^ 10)) = 0)
    (hk : NoCut ((lu (matrix F ws)).ker (search (lu (matrix F ws)).piv (dofsCorner second kink) (dofs_le second kink) (1 / 10 ^ 10))))
    (hF : ∀ np i idx, F np i idx = 0 ∨ F np i idx * F np i idx > 1 / 10 ^ 25) :
    ∃ G, computeKernel lu second kink ps F = some G ∧ ∀ q : Fin 6, q.1 < dofsCorner second kink →
      ∀ np p i j, ps[np]? = some p → i < p.du → j < p.dv → Vanishes second p i j → G np q (i + p.du * j) = 0 := by
  obtain ⟨K, h1, h6, hi, hpre⟩ := kernel_spec ok second kink
  refine ⟨transform F K, by unfold computeKernel; rw [hr]; simp [h1], ?_⟩
  intro q hq np p i j hp hi' hj hv
  have hd : 0 < dofsCorner second kink := by omega
  have hdim := (C46_threshold (lu (matrix F ws)).piv second kink).1
  have hpos := search_pos (lu (matrix F ws)).piv (dofsCorner second kink) (dofs_le second kink)
  generalize search (lu (matrix F ws)).piv (dofsCorner second kink) (dofs_le second kink) (1 / 10 ^ 10) = t₁ at *
  have hlen := ok.len t₁ hpos (lt_of_lt_of_le hd hdim)
  have hql : q.1 < ((lu (matrix F ws)).ker t₁).length := by rw [hlen]; exact lt_of_lt_of_le hq hdim
  obtain ⟨w, hw1, hw2⟩ := row_for hw hr F hs hp hi' hj hv
  have hperm := (written hw hr).1
  have hn : (ws.map Write.row).Nodup := hperm.nodup_iff.2 List.nodup_range
  have hrow : w.row < (collect second ps).dimMat := List.mem_range.1 (hperm.subset (List.mem_map_of_mem hw1))
  have hb := ok.resid t₁ hpos _ (List.getElem_mem hql) w.row hrow
  rw [h0] at hb
  have hz := abs_nonpos_iff.1 hb
  have hg : K.getD q.1 0 = ((lu (matrix F ws)).ker t₁)[q.1] := by
    have hqK : q.1 < K.length := by omega
    rw [List.getD_eq_getElem?_getD, List.getElem?_eq_getElem hqK, (hpre hd).getElem hql]; rfl
  unfold transform
  rw [hg]
  refine Eq.trans (Finset.sum_congr rfl fun l _ => ?_) hz
  rw [matrix_get hn hw1, hw2]
  have hc : cut (F np l (i + p.du * j)) = F np l (i + p.du * j) := by
    unfold cut
    rcases hF np l (i + p.du * j) with h | h
    · rw [h]; simp
    · rw [if_pos h]
  rw [hc]
  rcases hk _ (List.getElem_mem hql) l with h | h
  · simp only [h, mul_zero, ite_self]
  · rw [if_pos h]

end

/-! ## The functions on the boundary -/

/-- A function with coefficients `c` on a line across side 3 as a polynomial in `v` near the side. `M i`: the values of the functions of the first component at the chosen `u`; `t`, `p`: knots and degree of the
second component. -/
noncomputable def across3 (c : ℕ → ℝ) (du dv : ℕ) (M : ℕ → ℝ) (t : ℕ → ℝ) (p : ℕ) : ℝ[X] :=
  ∑ i ∈ Finset.range du, ∑ j ∈ Finset.range dv, C (c (i + du * j) * M i) * BSpline.N t p j

/-- The same for side 1: `M j` are the values of the functions of the second component at the chosen `v`. -/
noncomputable def across1 (c : ℕ → ℝ) (du dv : ℕ) (M : ℕ → ℝ) (t : ℕ → ℝ) (p : ℕ) : ℝ[X] :=
  ∑ i ∈ Finset.range du, ∑ j ∈ Finset.range dv, C (c (i + du * j) * M j) * BSpline.N t p i

private theorem N_value {t : ℕ → ℝ} {p : ℕ} (h : BSpline.Open t p) {j : ℕ} (hj : 1 ≤ j) : (BSpline.N t p j).eval 0 = 0 := by
  by_cases hp : j ≤ p
  · obtain ⟨Q, hQ, _⟩ := BSpline.N_order h j hp
    rw [hQ]; simp; left; omega
  · unfold BSpline.N; rw [BSpline.bs_zero_of_gt (by omega)]; simp

private theorem N_deriv {t : ℕ → ℝ} {p : ℕ} (h : BSpline.Open t p) {j : ℕ} (hj : 2 ≤ j) : (derivative (BSpline.N t p j)).eval 0 = 0 := by
  by_cases hp : j ≤ p
  · obtain ⟨Q, hQ, _⟩ := BSpline.N_order h j hp
    obtain ⟨k, rfl⟩ : ∃ k, j = k + 2 := ⟨j - 2, by omega⟩
    rw [hQ]; exact (BSpline.jet_X_pow Q k).2.1
  · unfold BSpline.N; rw [BSpline.bs_zero_of_gt (by omega)]; simp

/-- C46. A function whose coefficients vanish as above is zero on the boundary sides, and without option `second` so is its derivative across them — at all points of the side, for all knots. -/
theorem C46_trace {second : Bool} {p : VPatch} {c : ℕ → ℝ} (hc : ∀ i j, i < p.du → j < p.dv → Vanishes second p i j → c (i + p.du * j) = 0)
    (M : ℕ → ℝ) {t : ℕ → ℝ} {deg : ℕ} (ht : BSpline.Open t deg) :
    (p.free3 = true → (across3 c p.du p.dv M t deg).eval 0 = 0 ∧ (second = false → (derivative (across3 c p.du p.dv M t deg)).eval 0 = 0)) ∧
    (p.free1 = true → (across1 c p.du p.dv M t deg).eval 0 = 0 ∧ (second = false → (derivative (across1 c p.du p.dv M t deg)).eval 0 = 0)) := by
  refine ⟨fun hf => ⟨?_, fun hs => ?_⟩, fun hf => ⟨?_, fun hs => ?_⟩⟩
  · unfold across3
    rw [eval_finsetSum]
    refine Finset.sum_eq_zero fun i hi => ?_
    rw [eval_finsetSum]
    refine Finset.sum_eq_zero fun j hj => ?_
    rw [Finset.mem_range] at hi hj
    rw [eval_mul, eval_C]
    rcases Nat.eq_zero_or_pos j with rfl | h
    · rw [hc i 0 hi hj (Or.inl ⟨hf, Nat.zero_le _⟩)]; simp
    · rw [N_value ht h, mul_zero]
  · unfold across3
    rw [derivative_sum, eval_finsetSum]
    refine Finset.sum_eq_zero fun i hi => ?_
    rw [derivative_sum, eval_finsetSum]
    refine Finset.sum_eq_zero fun j hj => ?_
    rw [Finset.mem_range] at hi hj
    rw [derivative_C_mul, eval_mul, eval_C]
    by_cases h : j ≤ 1
    · rw [hc i j hi hj (Or.inl ⟨hf, by simpa [hs] using h⟩)]; simp
    · rw [N_deriv ht (by omega), mul_zero]
  · unfold across1
    rw [eval_finsetSum]
    refine Finset.sum_eq_zero fun i hi => ?_
    rw [eval_finsetSum]
    refine Finset.sum_eq_zero fun j hj => ?_
    rw [Finset.mem_range] at hi hj
    rw [eval_mul, eval_C]
    rcases Nat.eq_zero_or_pos i with rfl | h
    · rw [hc 0 j hi hj (Or.inr (Or.inl ⟨hf, Nat.zero_le _⟩))]; simp
    · rw [N_value ht h, mul_zero]
  · unfold across1
    rw [derivative_sum, eval_finsetSum]
    refine Finset.sum_eq_zero fun i hi => ?_
    rw [derivative_sum, eval_finsetSum]
    refine Finset.sum_eq_zero fun j hj => ?_
    rw [Finset.mem_range] at hi hj
    rw [derivative_C_mul, eval_mul, eval_C]
    by_cases h : i ≤ 1
    · rw [hc i j hi hj (Or.inr (Or.inl ⟨hf, by simpa [hs] using h⟩))]; simp
    · rw [N_deriv ht (by omega), mul_zero]

/-! ## Example -/

noncomputable section
open Classical

/-- Two patches at a boundary vertex, three with an inner one, and a patch with a corner on the boundary. -/
example : (rows false [⟨4, 5, true, false⟩, ⟨5, 4, false, true⟩]).map List.length = some 16 := by decide +kernel
example : (rows false [⟨4, 4, true, false⟩, ⟨4, 4, false, false⟩, ⟨4, 4, false, true⟩]).map List.length = some 20 := by decide +kernel
example : (rows true [⟨4, 4, true, false⟩, ⟨4, 4, false, false⟩, ⟨4, 4, false, true⟩]).map List.length = some 9 := by decide +kernel

/-- A corner of one patch with nine coefficients; function `j` is a single one of them, the last one at the inner coefficient. -/
private def exF : Funs := fun _ j idx => if idx = (if j.1 = 5 then 8 else j.1) then 1 else 0

private def exPs : List VPatch := [⟨3, 3, true, true⟩]

private def exLU : LU := { piv := [1, 1, 1, 1, 1], ker := fun t => if t < 1 then [unit 5] else (List.finRange 6).map unit }

private theorem ex_rank {t : ℝ} (h : t < 1) : rank exLU.piv t = 5 := by
  unfold rank exLU
  simp [h]

private theorem ex_wide : ∀ p ∈ exPs, 2 ≤ p.du ∧ 2 ≤ p.dv := by simp [exPs]

private theorem unit_indep : LinearIndependent ℝ unit := by
  rw [linearIndependent_iff']
  intro s g hg i hi
  have := congrFun hg i
  simpa [unit, Finset.sum_apply, hi] using this

private theorem ex_ok : ∃ ws, rows false exPs = some ws ∧ LUOk (matrix exF ws) (collect false exPs).dimMat exLU fun t => if t < 1 then 0 else 1 := by
  obtain ⟨ws, h1, h2, h3⟩ := C46_rows ex_wide
  refine ⟨ws, h1, ⟨?_, ?_, ?_⟩⟩
  · intro t _ _
    by_cases h : t < 1
    · unfold dimKer; rw [ex_rank h]; simp [exLU, h]
    · unfold dimKer; rw [rank_one _ (not_lt.1 h)]; simp [exLU, h]
  · intro t _ _
    show indep _
    rw [indep_iff]
    by_cases h : t < 1
    · simp only [exLU, h, if_true]
      refine ⟨by simp, ?_⟩
      have : {x | x ∈ [unit 5]} = unit '' {5} := by ext x; simp
      rw [this]
      exact (unit_indep.linearIndepOn_id).mono (by rintro _ ⟨i, _, rfl⟩; exact ⟨i, rfl⟩)
    · simp only [exLU, h, if_false]
      refine ⟨List.Nodup.map unit_indep.injective (List.nodup_finRange 6), ?_⟩
      exact (unit_indep.linearIndepOn_id).mono (by intro x hx; simpa using hx)
  · intro t _ k hk r hr
    have hr' : r ∈ ws.map Write.row := h2.symm.subset (List.mem_range.2 hr)
    obtain ⟨w, hw, rfl⟩ := List.mem_map.1 hr'
    have hn : (ws.map Write.row).Nodup := h2.nodup_iff.2 List.nodup_range
    simp only [matrix_get hn hw]
    by_cases h : t < 1
    · simp only [exLU, h, if_true, List.mem_singleton] at hk ⊢
      subst hk
      obtain ⟨p, hp, i, j, hi, hj, he, hv⟩ := (h3 _ _).1 ⟨w, hw, rfl, rfl⟩
      have h8 : w.idx ≠ 8 := by
        have hp0 : p = ⟨3, 3, true, true⟩ := by simpa [exPs] using List.mem_of_getElem? hp
        subst hp0
        simp [Vanishes] at hv hi hj he
        omega
      simp [unit, exF, h8, cut]
    · simp only [exLU, h, if_false, List.mem_map] at hk ⊢
      obtain ⟨i, _, rfl⟩ := hk
      simp only [unit, mul_ite, mul_one, mul_zero, Finset.sum_ite_eq', Finset.mem_univ, if_true]
      refine (cut_le _).trans ?_
      unfold exF
      split <;> split <;> simp

/-- The first function of the example vanishes on both sides of the corner. -/
example : ∃ G, computeKernel (fun _ => exLU) false false exPs exF = some G ∧ ∀ i j, i < 3 → j < 3 → i ≤ 1 ∨ j ≤ 1 → G 0 0 (i + 3 * j) = 0 := by
  obtain ⟨ws, h1, ok⟩ := ex_ok
  have h6 : dofsCorner false false ≤ 6 := dofs_le _ _
  have hd : ¬ dimKer exLU.piv (1 / 10 ^ 10) < dofsCorner false false := by
    unfold dimKer; rw [ex_rank (by norm_num)]; decide
  have hs : search exLU.piv (dofsCorner false false) (dofs_le false false) (1 / 10 ^ 10) = 1 / 10 ^ 10 := by rw [search, if_neg hd]
  have hlt : (1 / 10 ^ 10 : ℝ) < 1 := by norm_num
  obtain ⟨G, hG, hz⟩ := C46_vanish_exact (kink := false) ex_wide h1 exF (fun h => by cases h) (fun _ => exLU) ok (by rw [hs]; simp only [hlt, if_true])
    (by rw [hs]; simp only [exLU, hlt, if_true]
        intro k hk i
        rw [List.mem_singleton] at hk
        subst hk
        unfold unit
        split
        · right; norm_num
        · left; rfl)
    (by intro np i idx
        unfold exF
        by_cases h : idx = (if i.1 = 5 then 8 else i.1)
        · right; rw [if_pos h]; norm_num
        · left; rw [if_neg h])
  refine ⟨G, hG, fun i j hi hj h => hz 0 (by decide) 0 ⟨3, 3, true, true⟩ i j rfl hi hj ?_⟩
  unfold Vanishes
  rcases h with h | h <;> simp [h]


/-- Value of the quadratic polynomial with coefficients `c` of `1, x, y, x², xy, y²`. -/
def quad (c : V) (x y : ℝ) : ℝ := c 0 + c 1 * x + c 2 * y + c 3 * x ^ 2 + c 4 * (x * y) + c 5 * y ^ 2

/-- The polynomial vanishes on the line through the vertex in direction `(a,b)`; without option `second` its gradient vanishes there as well. -/
def OnLine (second : Bool) (a b : ℝ) (c : V) : Prop :=
  ∀ t : ℝ, quad c (t * a) (t * b) = 0 ∧ (second = false → c 1 + 2 * c 3 * (t * a) + c 4 * (t * b) = 0 ∧ c 2 + c 4 * (t * a) + 2 * c 5 * (t * b) = 0)

/-- The quadratic polynomials at a boundary vertex with the required boundary values: the boundary leaves the vertex in the directions `(1,0)` and `(a,b)`. -/
def jets (second : Bool) (a b : ℝ) : Submodule ℝ V where
  carrier := {c | OnLine second 1 0 c ∧ OnLine second a b c}
  zero_mem' := by simp [OnLine, quad]
  add_mem' := by
    rintro x y ⟨h1, h2⟩ ⟨h3, h4⟩
    constructor
    · intro t
      refine ⟨?_, fun h => ⟨?_, ?_⟩⟩
      · have := (h1 t).1; have := (h3 t).1; simp only [quad, Pi.add_apply] at *; linarith
      · have := ((h1 t).2 h).1; have := ((h3 t).2 h).1; simp only [Pi.add_apply] at *; linarith
      · have := ((h1 t).2 h).2; have := ((h3 t).2 h).2; simp only [Pi.add_apply] at *; linarith
    · intro t
      refine ⟨?_, fun h => ⟨?_, ?_⟩⟩
      · have := (h2 t).1; have := (h4 t).1; simp only [quad, Pi.add_apply] at *; linarith
      · have := ((h2 t).2 h).1; have := ((h4 t).2 h).1; simp only [Pi.add_apply] at *; linarith
      · have := ((h2 t).2 h).2; have := ((h4 t).2 h).2; simp only [Pi.add_apply] at *; linarith
  smul_mem' := by
    rintro k x ⟨h1, h2⟩
    constructor
    · intro t
      refine ⟨?_, fun h => ⟨?_, ?_⟩⟩
      · have := (h1 t).1; simp only [quad, Pi.smul_apply, smul_eq_mul] at *; linear_combination k * this
      · have := ((h1 t).2 h).1; simp only [Pi.smul_apply, smul_eq_mul] at *; linear_combination k * this
      · have := ((h1 t).2 h).2; simp only [Pi.smul_apply, smul_eq_mul] at *; linear_combination k * this
    · intro t
      refine ⟨?_, fun h => ⟨?_, ?_⟩⟩
      · have := (h2 t).1; simp only [quad, Pi.smul_apply, smul_eq_mul] at *; linear_combination k * this
      · have := ((h2 t).2 h).1; simp only [Pi.smul_apply, smul_eq_mul] at *; linear_combination k * this
      · have := ((h2 t).2 h).2; simp only [Pi.smul_apply, smul_eq_mul] at *; linear_combination k * this

private theorem line_x {second : Bool} {c : V} (h : OnLine second 1 0 c) : c 0 = 0 ∧ c 1 = 0 ∧ c 3 = 0 ∧ (second = false → c 2 = 0 ∧ c 4 = 0) := by
  have h0 := (h 0).1
  have h1 := (h 1).1
  have h2 := (h (-1)).1
  simp only [quad] at h0 h1 h2
  refine ⟨by linarith, by linarith, by linarith, fun hs => ?_⟩
  have h3 := ((h 0).2 hs).2
  have h4 := ((h 1).2 hs).2
  exact ⟨by linarith, by linarith⟩

private theorem mem_jets {second : Bool} {a b : ℝ} {c : V} : c ∈ jets second a b ↔
    c 0 = 0 ∧ c 1 = 0 ∧ c 3 = 0 ∧ c 2 * b = 0 ∧ c 4 * (a * b) + c 5 * b ^ 2 = 0 ∧ (second = false → c 2 = 0 ∧ c 4 = 0 ∧ c 5 * b = 0) := by
  constructor
  · rintro ⟨h, h'⟩
    obtain ⟨e0, e1, e3, e⟩ := line_x h
    have h1 := (h' 1).1
    have h2 := (h' (-1)).1
    simp only [quad, e0, e1, e3] at h1 h2
    refine ⟨e0, e1, e3, by linarith, by linarith, fun hs => ?_⟩
    obtain ⟨e2, e4⟩ := e hs
    have h3 := ((h' 1).2 hs).2
    simp only [e2, e4] at h3
    exact ⟨e2, e4, by linarith⟩
  · rintro ⟨e0, e1, e3, e2, e5, e⟩
    refine ⟨fun t => ⟨?_, fun hs => ?_⟩, fun t => ⟨?_, fun hs => ?_⟩⟩
    · simp [quad, e0, e1, e3]
    · simp [e hs, e1, e3]
    · simp only [quad, e0, e1, e3]; linear_combination t * e2 + t ^ 2 * e5
    · obtain ⟨f2, f4, f5⟩ := e hs
      simp only [e1, e3, f2, f4]
      exact ⟨by ring, by linear_combination 2 * t * f5⟩

/-- C46. `dofsCorner` is the right number: it is the dimension of the space of the quadratic polynomials (Taylor polynomials at the vertex) with the required boundary values, with a kink of the boundary (the two
directions are independent) and without. -/
theorem C46_dofs (second : Bool) (a b : ℝ) : Module.finrank ℝ (jets second a b) = dofsCorner second (decide (b ≠ 0)) := by
  classical
  by_cases hb : b = 0
  · cases second
    · let e : jets false a b ≃ₗ[ℝ] ℝ :=
        { toFun := fun c => c.1 5
          map_add' := fun _ _ => rfl
          map_smul' := fun _ _ => rfl
          invFun := fun x => ⟨fun i => if i = 5 then x else 0, mem_jets.2 (by simp [hb, Fin.ext_iff])⟩
          left_inv := by
            rintro ⟨c, hc⟩
            obtain ⟨e0, e1, e3, e2, e5, e⟩ := mem_jets.1 hc
            obtain ⟨f2, f4, f5⟩ := e rfl
            apply Subtype.ext
            funext i
            fin_cases i <;> simp [*, Fin.ext_iff]
          right_inv := fun x => by simp }
      rw [e.finrank_eq]
      simp [dofsCorner, hb]
    · let e : jets true a b ≃ₗ[ℝ] (Fin 3 → ℝ) :=
        { toFun := fun c => ![c.1 2, c.1 4, c.1 5]
          map_add' := fun x y => by funext i; fin_cases i <;> rfl
          map_smul' := fun k x => by funext i; fin_cases i <;> rfl
          invFun := fun x => ⟨![0, 0, x 0, 0, x 1, x 2], mem_jets.2 (by simp [hb])⟩
          left_inv := by
            rintro ⟨c, hc⟩
            obtain ⟨e0, e1, e3, e2, e5, e⟩ := mem_jets.1 hc
            apply Subtype.ext
            funext i
            fin_cases i <;> simp [*]
          right_inv := fun x => by funext i; fin_cases i <;> rfl }
      rw [e.finrank_eq]
      simp [dofsCorner, hb]
  · cases second
    · have hz : jets false a b = ⊥ := by
        rw [Submodule.eq_bot_iff]
        intro c hc
        obtain ⟨e0, e1, e3, e2, e5, e⟩ := mem_jets.1 hc
        obtain ⟨f2, f4, f5⟩ := e rfl
        have f5' : c 5 = 0 := (mul_eq_zero.1 f5).resolve_right hb
        funext i
        fin_cases i <;> simp [*]
      rw [hz, finrank_bot]
      simp [dofsCorner, hb]
    · let e : jets true a b ≃ₗ[ℝ] ℝ :=
        { toFun := fun c => c.1 4
          map_add' := fun _ _ => rfl
          map_smul' := fun _ _ => rfl
          invFun := fun x => ⟨![0, 0, 0, 0, x, - x * a / b], mem_jets.2 (by simp; field_simp; ring)⟩
          left_inv := by
            rintro ⟨c, hc⟩
            obtain ⟨e0, e1, e3, e2, e5, e⟩ := mem_jets.1 hc
            have f2 : c 2 = 0 := (mul_eq_zero.1 e2).resolve_right hb
            have f5 : c 5 = - c 4 * a / b := by
              rw [eq_div_iff hb]
              have : b * (c 4 * a + c 5 * b) = 0 := by linear_combination e5
              have := (mul_eq_zero.1 this).resolve_left hb
              linarith
            apply Subtype.ext
            funext i
            fin_cases i <;> simp [*]
          right_inv := fun x => rfl }
      rw [e.finrank_eq]
      simp [dofsCorner, hb]

/-- A vertex with a right angle. -/
example : Module.finrank ℝ (jets true 0 1) = 1 ∧ Module.finrank ℝ (jets false 0 1) = 0 := by
  rw [C46_dofs, C46_dofs]; simp [dofsCorner]

/-- A straight boundary. -/
example : Module.finrank ℝ (jets true (-1) 0) = 3 ∧ Module.finrank ℝ (jets false (-1) 0) = 1 := by
  rw [C46_dofs, C46_dofs]; simp [dofsCorner]

end
end Verif.Kernel
