import Verif.Proofs.DofMap
import Mathlib.Algebra.Order.BigOperators.Group.Finset

/-!
# C35: boundary conditions split the unknowns

`setMapperForBiharmonic` marks some functions as fixed; `gsDirichletNeumannValuesL2Projection` builds a second mapper with the roles exchanged,
solves for its free unknowns and writes the solution *vector* into the fixed part of the first mapper.  The theorems say who is free, that the second
mapper has exactly the fixed functions as unknowns, that the two numberings agree, and that the values the solver then reads for the fixed
functions are the ones the projection computed for them.
The second half treats the variant for a `gsMultiBasis`, where the interfaces couple functions and the values have to be reordered.
-/

set_option autoImplicit false

open Finset

namespace Verif.DofMap

section Identity

variable (np n : ℕ) (bnd bnd1 : ℕ → ℕ → List ℕ) (bc : BC)

/-- The flat list of functions that `setMapper` eliminates. -/
private def marked : List ℕ :=
  (bc.dirichlet.flatMap fun it => bnd it.1 it.2) ++ (bc.neumann.flatMap fun it => bnd1 it.1 it.2)

private theorem setMapper_eq : setMapper np n bnd bnd1 bc = elimAll (setIdentity np n) (marked bnd bnd1 bc) := by
  unfold setMapper marked
  simp only
  rw [foldMark_eq, foldMark_eq, elimAll_append]
  simp [setIdentity]

private theorem conn_id (i j : ℕ) : (setIdentity np n).conn i j ↔ i = j := by simp [DM.conn, setIdentity]

private theorem elim_id (l : List ℕ) : (∀ i j, (elimAll (setIdentity np n) l).conn i j ↔ i = j) ∧
    (∀ i, (elimAll (setIdentity np n) l).tag i ≤ 0) ∧ ∀ i, (elimAll (setIdentity np n) l).isFree i = true ↔ i ∉ l := by
  obtain ⟨-, h2, h3⟩ := elimAll_spec (good_setIdentity np n) l
  refine ⟨fun i j => (h2 i j).trans (conn_id np n i j), fun i => ?_, fun i => ?_⟩
  · suffices h : ∀ d : DM, d.cur ≤ -1 → (∀ i, d.tag i ≤ 0) → ∀ i, (elimAll d l).tag i ≤ 0 from
      h _ (by simp [setIdentity]) (by simp [setIdentity]) i
    clear h2 h3
    induction l with
    | nil => exact fun d _ h => h
    | cons a l ih =>
      intro d h1 h2
      refine ih (eliminate d a) ?_ ?_
      · unfold eliminate; split_ifs <;> (try simp only) <;> omega
      · intro i
        have := h2 i; have := h2 a
        unfold eliminate; split_ifs <;> (try simp only [Function.update_apply]) <;> (try split_ifs) <;> omega
  · have := h3 i
    simp only [conn_id] at this
    unfold DM.isFree
    simp only [decide_eq_true_eq]
    rw [← not_lt, this]
    simp [setIdentity]

/-- C35: an unknown is free exactly when no boundary condition fixes it: it is not among the functions of a Dirichlet side nor among the
functions next to a Neumann side. -/
theorem C35_free_iff (g : ℕ) : (setMapper np n bnd bnd1 bc).isFree g = true ↔
    (∀ it ∈ bc.dirichlet, g ∉ bnd it.1 it.2) ∧ ∀ it ∈ bc.neumann, g ∉ bnd1 it.1 it.2 := by
  rw [setMapper_eq, (elim_id np n _).2.2 g]
  simp [marked]

private theorem lead_id (l : List ℕ) {g : ℕ} (h : (elimAll (setIdentity np n) l).tag g < 0) : (elimAll (setIdentity np n) l).lead g := by
  intro k hk e
  have := ((elim_id np n l).1 k g).1 (Or.inr ⟨e, by omega⟩)
  omega

private theorem index_id (l : List ℕ) (g : ℕ) :
    (g ∉ l → (elimAll (setIdentity np n) l).index g = #{h ∈ range g | h ∉ l}) ∧
    (g ∈ l → (elimAll (setIdentity np n) l).bindex g = #{h ∈ range g | h ∈ l}) ∧
    (elimAll (setIdentity np n) l).freeSize = #{h ∈ range n | h ∉ l} ∧
    (elimAll (setIdentity np n) l).boundarySize = #{h ∈ range n | h ∈ l} := by
  obtain ⟨h1, h2, h3⟩ := elim_id np n l
  have t0 : ∀ i, (elimAll (setIdentity np n) l).tag i = 0 ↔ i ∉ l := by
    intro i
    rw [← h3 i]; have := h2 i; simp [DM.isFree]; omega
  have tn : ∀ i, (elimAll (setIdentity np n) l).tag i < 0 ↔ i ∈ l := by
    intro i
    have := h2 i
    by_cases hi : i ∈ l
    · simp only [hi, iff_true]; have : (elimAll (setIdentity np n) l).tag i ≠ 0 := fun h => ((t0 i).1 h) hi
      omega
    · simp only [hi, iff_false]; have := (t0 i).2 hi; omega
  have tl : ∀ i, ((elimAll (setIdentity np n) l).tag i < 0 ∧ (elimAll (setIdentity np n) l).lead i) ↔ i ∈ l :=
    fun i => ⟨fun h => (tn i).1 h.1, fun h => ⟨(tn i).2 h, lead_id np n l ((tn i).2 h)⟩⟩
  have nn : (elimAll (setIdentity np n) l).n = n := by simp [setIdentity]
  refine ⟨fun hg => ?_, fun hg => ?_, ?_, ?_⟩
  · unfold DM.index; rw [if_pos ((t0 g).2 hg)]; simp only [t0]
  · unfold DM.bindex; rw [index_fixed ((tn g).2 hg), first_of_lead (lead_id np n l ((tn g).2 hg))]
    simp only [tl]; omega
  · unfold DM.freeSize DM.nUncoupled DM.nCoupled
    rw [nn]
    simp only [t0]
    have : #{h ∈ range n | 0 < (elimAll (setIdentity np n) l).tag h ∧ (elimAll (setIdentity np n) l).lead h} = 0 := by
      rw [Finset.card_eq_zero, Finset.filter_eq_empty_iff]
      intro i _ h
      have := h2 i; omega
    rw [this, add_zero]
  · unfold DM.boundarySize; rw [nn]; simp only [tl]

/-- C35: free and fixed unknowns are numbered without gaps or repetitions: the free ones by `0 … freeSize-1`, the fixed ones by
`freeSize … n-1`, every number belonging to exactly one function. -/
theorem C35_numbering : let m := setMapper np n bnd bnd1 bc
    m.freeSize + m.boundarySize = n ∧
    (∀ g < n, m.isFree g = true ↔ m.index g < m.freeSize) ∧
    (∀ g < n, m.isFree g = false → m.index g = m.freeSize + m.bindex g ∧ m.bindex g < m.boundarySize) ∧
    ∀ r < n, ∃! g, g < n ∧ m.index g = r := by
  intro m
  have hm : m = elimAll (setIdentity np n) (marked bnd bnd1 bc) := setMapper_eq ..
  have nn : m.n = n := by rw [hm]; simp [setIdentity]
  obtain ⟨-, -, h3, h4⟩ := index_id np n (marked bnd bnd1 bc) 0
  have hs : m.freeSize + m.boundarySize = n := by
    rw [hm, h3, h4, add_comm, Finset.card_filter_add_card_filter_not]
    simp
  have hfix : ∀ g, m.isFree g = false → m.tag g < 0 := by
    intro g h; simpa [DM.isFree] using h
  refine ⟨hs, fun g hg => (index_free_iff (nn ▸ hg)).symm, fun g hg hf => ?_, fun r hr => ?_⟩
  · exact ⟨index_of_bindex (hfix g hf), bindex_lt (nn ▸ hg) (hfix g hf)⟩
  · have hex : ∃ g < n, m.index g = r := by
      by_cases c : r < m.freeSize
      · obtain ⟨g, h1, -, h2⟩ := index_onto_free c
        exact ⟨g, nn ▸ h1, h2⟩
      · obtain ⟨g, h1, hf, h2⟩ := bindex_onto (d := m) (r := r - m.freeSize) (by omega)
        exact ⟨g, nn ▸ h1, by rw [index_of_bindex (hfix g hf)]; omega⟩
    obtain ⟨g, hg, e⟩ := hex
    refine ⟨g, ⟨hg, e⟩, ?_⟩
    rintro k ⟨hk, e'⟩
    have := conn_of_index (d := m) (nn ▸ hk) (nn ▸ hg) (e'.trans e.symm)
    rw [hm] at this
    exact ((elim_id np n _).1 k g).1 this

private theorem findFree_id (hnp : 0 < np) (l : List ℕ) (g : ℕ) :
    g ∈ (elimAll (setIdentity np n) l).findFree (np - 1) ↔ g < n ∧ g ∉ l := by
  unfold DM.findFree DM.patchSize
  simp only [elimAll_np, elimAll_off, elimAll_n, List.mem_filter, List.mem_range, (elim_id np n l).2.2]
  simp [setIdentity, show np - 1 + 1 = np by omega]

private theorem bdyMapper_eq (m : DM) :
    bdyMapper np n m = elimAll (setIdentity np n) (m.findFree (m.np - 1)) := by
  unfold bdyMapper; rw [markBoundary_eq]; simp [setIdentity]

/-- C35: the unknowns of the boundary projection are exactly the functions fixed by a boundary condition. -/
theorem C35_complement (hnp : 0 < np) (g : ℕ) (hg : g < n) :
    let m := setMapper np n bnd bnd1 bc
    (bdyMapper np n m).isFree g = true ↔ m.isFree g = false := by
  intro m
  have hm : m = elimAll (setIdentity np n) (marked bnd bnd1 bc) := setMapper_eq ..
  have hp : m.np = np := by rw [hm]; simp [setIdentity]
  rw [bdyMapper_eq, (elim_id np n _).2.2, hp]
  have h1 := findFree_id np n hnp (marked bnd bnd1 bc) g
  have h2 := (elim_id np n (marked bnd bnd1 bc)).2.2 g
  rw [← hm] at h1 h2
  rw [h1, ← h2]
  simp [hg]

/-- C35: the projection has as many unknowns as there are fixed ones, and the number of a fixed function in the projection is its position among the
fixed functions of the solver, so that the solution vector can be taken over as it is. -/
theorem C35_same_order (hnp : 0 < np) :
    let m := setMapper np n bnd bnd1 bc
    let b := bdyMapper np n m
    b.freeSize = m.boundarySize ∧ ∀ g < n, m.isFree g = false → b.index g = m.bindex g := by
  intro m b
  have hm : m = elimAll (setIdentity np n) (marked bnd bnd1 bc) := setMapper_eq ..
  have hp : m.np = np := by rw [hm]; simp [setIdentity]
  have hb : b = elimAll (setIdentity np n) (m.findFree (m.np - 1)) := bdyMapper_eq ..
  have hmem : ∀ g, g ∈ m.findFree (m.np - 1) ↔ g < n ∧ g ∉ marked bnd bnd1 bc := by
    intro g; rw [hp, hm]; exact findFree_id np n hnp _ g
  constructor
  · rw [hb, (index_id np n _ 0).2.2.1, hm, (index_id np n _ 0).2.2.2]
    congr 1
    apply Finset.filter_congr
    intro x hx
    rw [← hm, hmem]
    simp at hx
    simp [hx]
  · intro g hg hf
    have hgm : g ∈ marked bnd bnd1 bc := by
      by_contra hc
      have := ((elim_id np n (marked bnd bnd1 bc)).2.2 g).2 hc
      rw [← hm, hf] at this; exact absurd this (by simp)
    rw [hb, (index_id np n _ g).1 (by rw [hmem]; simp [hgm]), hm, (index_id np n _ g).2.1 hgm]
    congr 1
    apply Finset.filter_congr
    intro x hx
    rw [← hm, hmem]
    simp at hx
    have : x < n := by omega
    simp [this]

/-- C35: the boundary projection solves exactly for the fixed unknowns.  Let `a` be the matrix of the form `∫ u v + λ ∫ ∂u ∂v` over all functions and
`l` the load.  The vector `x` solves the assembled projection system if and only if the values the solver reads for the fixed
functions satisfy every equation of a fixed function, with all other functions left out. -/
theorem C35_projection (hnp : 0 < np) (a : ℕ → ℕ → ℝ) (l x y : ℕ → ℝ) :
    let m := setMapper np n bnd bnd1 bc
    (bdyMapper np n m).Solves a l (fun _ => 0) x ↔
      ∀ g < n, m.isFree g = false → ∑ h ∈ range n with m.isFree h = false, a g h * m.coef y x h = l g := by
  intro m
  have hb : bdyMapper np n m = elimAll (setIdentity np n) (m.findFree (m.np - 1)) := bdyMapper_eq ..
  have nb : (bdyMapper np n m).n = n := by rw [hb]; simp [setIdentity]
  have hc := C35_complement np n bnd bnd1 bc hnp
  have ho := (C35_same_order np n bnd bnd1 bc hnp).2
  simp only at hc ho
  rw [solves_iff, nb]
  refine forall_congr' fun g => forall_congr' fun hg => ?_
  have hcl : (range n).filter (fun k => (bdyMapper np n m).index k = (bdyMapper np n m).index g) = {g} := by
    ext k
    simp only [mem_filter, mem_range, mem_singleton]
    constructor
    · rintro ⟨hk, e⟩
      have := conn_of_index (d := bdyMapper np n m) (nb.symm ▸ hk) (nb.symm ▸ hg) e
      rw [hb] at this
      exact ((elim_id np n _).1 k g).1 this
    · rintro rfl; exact ⟨hg, rfl⟩
  rw [hcl, Finset.sum_singleton, Finset.sum_singleton, hc g hg]
  have hs : ∑ h ∈ range n with (bdyMapper np n m).isFree h = true, a g h * x ((bdyMapper np n m).index h)
      = ∑ h ∈ range n with m.isFree h = false, a g h * m.coef y x h := by
    apply Finset.sum_congr
    · apply Finset.filter_congr
      intro h hh
      exact hc h (by simpa using hh)
    · intro h hh
      simp only [mem_filter, mem_range] at hh
      have : m.isFree h = false := hh.2
      unfold DM.coef
      simp only [this, Bool.false_eq_true, if_false]
      rw [← ho h hh.1 hh.2]
  rw [hs]

end Identity

/-! ### A concrete case: seven functions on two patches, a Dirichlet side, a Neumann side sharing a function with it, a Laplace side -/

section Example

private def exBnd : ℕ → ℕ → List ℕ := fun k s => if k = 0 ∧ s = 1 then [4, 0, 2] else [6]
private def exBnd1 : ℕ → ℕ → List ℕ := fun k s => if k = 1 ∧ s = 3 then [2, 5] else []
private def exBC : BC := ⟨[(0, 1)], [(1, 3)], [(1, 2)]⟩

example : let m := setMapper 2 7 exBnd exBnd1 exBC
    (List.range 7).map m.isFree = [false, true, false, true, false, false, true] ∧
    m.freeSize = 3 ∧ m.boundarySize = 4 ∧ (List.range 7).map m.index = [3, 0, 4, 1, 5, 6, 2] := by decide +kernel

example : let m := setMapper 2 7 exBnd exBnd1 exBC
    let b := bdyMapper 2 7 m
    b.freeSize = 4 ∧ [0, 2, 4, 5].map b.index = [0, 1, 2, 3] := by decide +kernel

end Example

/-! ## The variant for a `gsMultiBasis` -/

section Multi

variable (np : ℕ) (sz : ℕ → ℕ) (ms : List (ℕ × ℕ)) (bnd bnd1 : ℕ → ℕ → List ℕ) (bc : BC)

/-- Functions identified by the matched interfaces: the equivalence generated by the listed pairs. -/
def Same (i j : ℕ) : Prop := Relation.EqvGen (fun x y => (x, y) ∈ ms) i j

/-- A boundary condition fixes function `g` (flat number) itself. -/
def Marked (g : ℕ) : Prop :=
  (∃ it ∈ bc.dirichlet, ∃ i ∈ bnd it.1 it.2, g = ∑ l ∈ range it.1, sz l + i) ∨
    ∃ it ∈ bc.neumann, ∃ i ∈ bnd1 it.1 it.2, g = ∑ l ∈ range it.1, sz l + i

private def base : DM := matchAll (init np sz) ms

private theorem base_spec : (base np sz ms).Good ∧ (∀ i, 0 ≤ (base np sz ms).tag i) ∧ (base np sz ms).n = ∑ k ∈ range np, sz k ∧
    (base np sz ms).np = np ∧ (base np sz ms).off = fun k => ∑ l ∈ range k, sz l :=
  matchAll_spec (good_init np sz) (by simp [init]) ms

private theorem conn_base (i j : ℕ) : (base np sz ms).conn i j ↔ Same ms i j := by
  have h := conn_matchAll (good_init np sz) (fun _ _ => False) (fun i j => ?_) ms i j
  · simpa [Same, base] using h
  · constructor
    · intro h
      simp only [DM.conn, init] at h
      rcases h with rfl | h
      · exact .refl _
      · exact absurd rfl h.2
    · intro h
      induction h with
      | rel _ _ h => exact h.elim
      | refl => exact Or.inl rfl
      | symm _ _ _ ih => exact conn_symm ih
      | trans _ _ _ _ _ h1 h2 => exact conn_trans h1 h2

private def markedMB : List ℕ :=
  (bc.dirichlet.flatMap fun it => (bnd it.1 it.2).map (∑ l ∈ range it.1, sz l + ·)) ++
    (bc.neumann.flatMap fun it => (bnd1 it.1 it.2).map (∑ l ∈ range it.1, sz l + ·))

private theorem mem_markedMB (g : ℕ) : g ∈ markedMB sz bnd bnd1 bc ↔ Marked sz bnd bnd1 bc g := by
  unfold markedMB Marked
  simp only [List.mem_append, List.mem_flatMap, List.mem_map]
  constructor <;> rintro (⟨a, b, c, d, e⟩ | ⟨a, b, c, d, e⟩)
  · exact Or.inl ⟨a, b, c, d, e.symm⟩
  · exact Or.inr ⟨a, b, c, d, e.symm⟩
  · exact Or.inl ⟨a, b, c, d, e.symm⟩
  · exact Or.inr ⟨a, b, c, d, e.symm⟩

private theorem setMapperMB_eq : setMapperMB np sz ms bnd bnd1 bc = elimAll (base np sz ms) (markedMB sz bnd bnd1 bc) := by
  unfold setMapperMB markedMB
  simp only
  rw [foldMark_eq, foldMark_eq, elimAll_append]
  simp only [elimAll_off]
  rw [show matchAll (init np sz) ms = base np sz ms from rfl, (base_spec np sz ms).2.2.2.2]

private theorem elim_base (l : List ℕ) : (∀ i j, (elimAll (base np sz ms) l).conn i j ↔ Same ms i j) ∧
    (∀ i, (elimAll (base np sz ms) l).isFree i = true ↔ ∀ h, Same ms i h → h ∉ l) ∧ (elimAll (base np sz ms) l).n = ∑ k ∈ range np, sz k ∧
    (elimAll (base np sz ms) l).np = np ∧ (elimAll (base np sz ms) l).off = fun k => ∑ l ∈ range k, sz l := by
  obtain ⟨b1, b2, b3, b4, b5⟩ := base_spec np sz ms
  obtain ⟨-, h2, h3⟩ := elimAll_spec b1 l
  refine ⟨fun i j => (h2 i j).trans (conn_base np sz ms i j), fun i => ?_, by rw [elimAll_n, b3], by rw [elimAll_np, b4],
    by rw [elimAll_off, b5]⟩
  have := h3 i
  simp only [conn_base] at this
  unfold DM.isFree
  simp only [decide_eq_true_eq]
  rw [← not_lt, this]
  have := b2 i
  constructor
  · intro h k hk hl
    exact h (Or.inr ⟨k, hl, hk⟩)
  · rintro h (h' | ⟨k, h1, h2⟩)
    · omega
    · exact h k h2 h1

/-- C35, several patches: a function is free exactly when no function identified with it is fixed by a boundary condition. -/
theorem C35_multi_free_iff (g : ℕ) : (setMapperMB np sz ms bnd bnd1 bc).isFree g = true ↔
    ∀ h, Same ms g h → ¬ Marked sz bnd bnd1 bc h := by
  rw [setMapperMB_eq, (elim_base np sz ms _).2.1 g]
  simp only [mem_markedMB]

/-- C35, several patches: two functions share their unknown exactly when the interfaces identify them. -/
theorem C35_multi_index_iff (g h : ℕ) (hg : g < ∑ k ∈ range np, sz k) (hh : h < ∑ k ∈ range np, sz k) :
    let m := setMapperMB np sz ms bnd bnd1 bc
    m.index g = m.index h ↔ Same ms g h := by
  intro m
  have hm : m = elimAll (base np sz ms) (markedMB sz bnd bnd1 bc) := setMapperMB_eq ..
  obtain ⟨h1, -, h3, -, -⟩ := elim_base np sz ms (markedMB sz bnd bnd1 bc)
  rw [← hm] at h1 h3
  rw [← h1]
  exact ⟨conn_of_index (h3 ▸ hg) (h3 ▸ hh), index_conn⟩

private theorem patchSize_base (l : List ℕ) {k : ℕ} (hk : k < np) : (elimAll (base np sz ms) l).patchSize k = sz k := by
  obtain ⟨-, -, h3, h4, h5⟩ := elim_base np sz ms l
  unfold DM.patchSize
  rw [h3, h4, h5]
  simp only
  split_ifs with h
  · subst h; rw [Finset.sum_range_succ]; omega
  · rw [Finset.sum_range_succ]; omega

private theorem covers (g : ℕ) (hg : g < ∑ k ∈ range np, sz k) : ∃ k < np, ∃ i < sz k, g = ∑ l ∈ range k, sz l + i := by
  induction np with
  | zero => simp at hg
  | succ n ih =>
    rw [Finset.sum_range_succ] at hg
    by_cases h : g < ∑ k ∈ range n, sz k
    · obtain ⟨k, h1, i, h2, h3⟩ := ih h
      exact ⟨k, by omega, i, h2, h3⟩
    · exact ⟨n, by omega, g - ∑ k ∈ range n, sz k, by omega, by omega⟩

private def freeFlat (m : DM) : List ℕ :=
  (List.range np).flatMap fun k => (m.findFree k).map (∑ l ∈ range k, sz l + ·)

private theorem mem_freeFlat (l : List ℕ) (g : ℕ) (hg : g < ∑ k ∈ range np, sz k) :
    g ∈ freeFlat np sz (elimAll (base np sz ms) l) ↔ (elimAll (base np sz ms) l).isFree g = true := by
  obtain ⟨-, -, -, -, h5⟩ := elim_base np sz ms l
  unfold freeFlat DM.findFree
  simp only [List.mem_flatMap, List.mem_range, List.mem_map, List.mem_filter, h5]
  constructor
  · rintro ⟨k, hk, i, ⟨-, h⟩, rfl⟩; exact h
  · intro h
    obtain ⟨k, hk, i, hi, rfl⟩ := covers np sz g hg
    exact ⟨k, hk, i, ⟨by rw [patchSize_base np sz ms l hk]; exact hi, h⟩, rfl⟩

private theorem bdyMapperMB_eq (m : DM) : bdyMapperMB np sz ms m = elimAll (base np sz ms) (freeFlat np sz m) := by
  unfold bdyMapperMB freeFlat
  rw [show matchAll (init np sz) ms = base np sz ms from rfl]
  suffices h : ∀ (L : List ℕ) (e : DM), e.off = (fun k => ∑ l ∈ range k, sz l) →
      L.foldl (fun d k => markBoundary d k (m.findFree k)) e
        = elimAll e (L.flatMap fun k => (m.findFree k).map (∑ l ∈ range k, sz l + ·)) from
    h _ _ (base_spec np sz ms).2.2.2.2
  intro L
  induction L with
  | nil => intros; rfl
  | cons a L ih =>
    intro e he
    simp only [List.foldl_cons, List.flatMap_cons, elimAll_append]
    rw [ih _ (by simp [markBoundary_eq, he]), markBoundary_eq, he]

/-- The coupled pairs are pairs of existing functions. -/
def InRange : Prop := ∀ p ∈ ms, p.1 < ∑ k ∈ range np, sz k ∧ p.2 < ∑ k ∈ range np, sz k

private theorem same_range {np : ℕ} {sz : ℕ → ℕ} {ms : List (ℕ × ℕ)} (hr : InRange np sz ms) {i j : ℕ} (h : Same ms i j) :
    (i < ∑ k ∈ range np, sz k ↔ j < ∑ k ∈ range np, sz k) := by
  induction h with
  | rel x y h => have := hr _ h; tauto
  | refl => rfl
  | symm _ _ _ ih => exact ih.symm
  | trans _ _ _ _ _ h1 h2 => exact h1.trans h2

private theorem free_congr (l : List ℕ) {g h : ℕ} (hs : Same ms g h) :
    (elimAll (base np sz ms) l).isFree g = (elimAll (base np sz ms) l).isFree h := by
  have := neg_conn (((elim_base np sz ms l).1 g h).2 hs)
  unfold DM.isFree
  rw [decide_eq_decide, ← not_lt, ← not_lt, this]

/-- C35, several patches: the unknowns of the boundary projection are exactly the functions fixed by a boundary condition, and the projection couples the
same functions. -/
theorem C35_multi_complement (hr : InRange np sz ms) (g : ℕ) (hg : g < ∑ k ∈ range np, sz k) :
    let m := setMapperMB np sz ms bnd bnd1 bc
    let b := bdyMapperMB np sz ms m
    (b.isFree g = true ↔ m.isFree g = false) ∧
      ∀ h < ∑ k ∈ range np, sz k, (b.index g = b.index h ↔ m.index g = m.index h) := by
  intro m b
  have hm : m = elimAll (base np sz ms) (markedMB sz bnd bnd1 bc) := setMapperMB_eq ..
  have hb : b = elimAll (base np sz ms) (freeFlat np sz m) := bdyMapperMB_eq ..
  constructor
  · rw [hb, (elim_base np sz ms _).2.1]
    constructor
    · intro h
      have := h g (.refl _)
      rw [hm, mem_freeFlat _ _ _ _ _ hg, ← hm] at this
      simpa using this
    · intro h k hk
      rw [hm, mem_freeFlat _ _ _ _ _ ((same_range hr hk).1 hg), ← free_congr np sz ms _ hk, ← hm, h]
      simp
  · intro k hk
    rw [show m.index g = m.index k ↔ _ from C35_multi_index_iff np sz ms bnd bnd1 bc g k hg hk]
    obtain ⟨h1, -, h3, -, -⟩ := elim_base np sz ms (freeFlat np sz m)
    rw [← hb] at h1 h3
    rw [← h1]
    exact ⟨conn_of_index (h3 ▸ hg) (h3 ▸ hk), index_conn⟩

private theorem reorder_loop (m b : DM) (temp : ℕ → ℝ) (hps : ∀ k < b.np, b.patchSize k = sz k) (K : ℕ) (hK : K ≤ b.np) :
    (List.range K).foldl (reorderStep m b temp) (fun _ => 0, 0)
      = (((List.range K).flatMap fun k => (b.findFree k).map (∑ l ∈ range k, sz l + ·)).foldl
          (fun f g => Function.update f (m.bindex g) (temp (b.index g))) (fun _ => 0), ∑ l ∈ range K, sz l) := by
  induction K with
  | zero => rfl
  | succ K ih =>
    rw [List.range_succ, List.foldl_append, ih (by omega), List.flatMap_append, List.foldl_append]
    simp only [List.foldl_cons, List.foldl_nil, reorderStep, List.flatMap_cons, List.flatMap_nil, List.append_nil, List.foldl_map,
      Finset.sum_range_succ]
    rw [hps K (by omega)]

/-- C35, several patches: after the reordering loop the value the solver reads for a fixed function is the one the projection computed for it. -/
theorem C35_multi_reorder (hr : InRange np sz ms) (temp : ℕ → ℝ) (g : ℕ) (hg : g < ∑ k ∈ range np, sz k) :
    let m := setMapperMB np sz ms bnd bnd1 bc
    let b := bdyMapperMB np sz ms m
    m.isFree g = false → reorder m b temp (m.bindex g) = temp (b.index g) := by
  intro m b hf
  have hm : m = elimAll (base np sz ms) (markedMB sz bnd bnd1 bc) := setMapperMB_eq ..
  have hb : b = elimAll (base np sz ms) (freeFlat np sz m) := bdyMapperMB_eq ..
  have hnp : b.np = np := by rw [hb]; exact (elim_base np sz ms _).2.2.2.1
  have hps : ∀ k < b.np, b.patchSize k = sz k := by
    intro k hk; rw [hb]; exact patchSize_base np sz ms _ (hnp ▸ hk)
  unfold reorder
  rw [reorder_loop sz m b temp hps b.np le_rfl]
  simp only
  have hc := fun k hk => C35_multi_complement np sz ms bnd bnd1 bc hr k hk
  simp only at hc
  have hlist : (List.range b.np).flatMap (fun k => (b.findFree k).map (∑ l ∈ range k, sz l + ·)) = freeFlat np sz b := by
    rw [hnp]; rfl
  rw [hlist]
  have hrange : ∀ e ∈ freeFlat np sz b, e < ∑ k ∈ range np, sz k := by
    intro e he
    unfold freeFlat DM.findFree at he
    simp only [List.mem_flatMap, List.mem_range, List.mem_map, List.mem_filter] at he
    obtain ⟨k, hk, i, ⟨hi, -⟩, rfl⟩ := he
    rw [hps k (hnp ▸ hk)] at hi
    calc ∑ l ∈ range k, sz l + i < ∑ l ∈ range (k + 1), sz l := by rw [Finset.sum_range_succ]; omega
      _ ≤ ∑ l ∈ range np, sz l := Finset.sum_le_sum_of_subset (by
          intro x hx; simp only [mem_range] at hx ⊢; omega)
  have hneg : ∀ k, m.isFree k = false → m.tag k < 0 := fun k h => by simpa [DM.isFree] using h
  rw [foldl_update _ _ _ _ _ (temp (b.index g)), if_pos]
  · refine ⟨g, ?_, rfl⟩
    rw [hb, mem_freeFlat _ _ _ _ _ hg, ← hb]
    exact (hc g hg).1.2 hf
  · intro e he hp
    have hen := hrange e he
    have hef : m.isFree e = false := by
      rw [hb, mem_freeFlat _ _ _ _ _ hen, ← hb] at he
      exact (hc e hen).1.1 he
    have : m.index e = m.index g := by
      rw [index_of_bindex (hneg e hef), index_of_bindex (hneg g hf), hp]
    rw [((hc e hen).2 g hg).2 this]

/-- C35, several patches: the boundary projection solves exactly for the fixed unknowns: `x` solves the assembled projection system if and only if the
reordered values satisfy, for every fixed unknown, the sum of the equations of the functions sharing it. -/
theorem C35_multi_projection (hr : InRange np sz ms) (a : ℕ → ℕ → ℝ) (l x y : ℕ → ℝ) :
    let n := ∑ k ∈ range np, sz k
    let m := setMapperMB np sz ms bnd bnd1 bc
    let b := bdyMapperMB np sz ms m
    b.Solves a l (fun _ => 0) x ↔ ∀ g < n, m.isFree g = false →
      ∑ k ∈ range n with m.index k = m.index g, ∑ h ∈ range n with m.isFree h = false, a k h * m.coef y (reorder m b x) h
        = ∑ k ∈ range n with m.index k = m.index g, l k := by
  intro n m b
  have hb : b = elimAll (base np sz ms) (freeFlat np sz m) := bdyMapperMB_eq ..
  have nb : b.n = n := by rw [hb]; exact (elim_base np sz ms _).2.2.1
  have hc := fun k hk => C35_multi_complement np sz ms bnd bnd1 bc hr k hk
  have ho := fun g hg => C35_multi_reorder np sz ms bnd bnd1 bc hr x g hg
  simp only at hc ho
  rw [solves_iff, nb]
  refine forall_congr' fun g => forall_congr' fun hg => ?_
  rw [(hc g hg).1]
  refine forall_congr' fun hf => ?_
  have hcl : (range n).filter (fun k => b.index k = b.index g) = (range n).filter (fun k => m.index k = m.index g) := by
    apply Finset.filter_congr
    intro k hk
    exact (hc k (by simpa using hk)).2 g hg
  rw [hcl]
  have hs : ∀ k, ∑ h ∈ range n with b.isFree h = true, a k h * x (b.index h)
      = ∑ h ∈ range n with m.isFree h = false, a k h * m.coef y (reorder m b x) h := by
    intro k
    apply Finset.sum_congr
    · apply Finset.filter_congr
      intro h hh
      exact (hc h (by simpa using hh)).1
    · intro h hh
      simp only [mem_filter, mem_range] at hh
      have : m.isFree h = false := hh.2
      unfold DM.coef
      simp only [this, Bool.false_eq_true, if_false]
      rw [← ho h hh.1 hh.2]
  simp only [hs]

/-! ### A concrete case: two patches of four and three functions, functions 3~4 and 1~6 coupled, a coupled function fixed -/

private def mSz : ℕ → ℕ := fun k => if k = 0 then 4 else 3
private def mMs : List (ℕ × ℕ) := [(3, 4), (1, 6)]
private def mBnd : ℕ → ℕ → List ℕ := fun k _ => if k = 0 then [0, 1] else [1]
private def mBnd1 : ℕ → ℕ → List ℕ := fun _ _ => [3]

example : InRange 2 mSz mMs := by unfold InRange; decide

/-- Both numberings: the fixed unknowns are 0, 1~6, 5, 3~4 (in this order for the solver, 0, 5, then the coupled ones for the projection), so the
reordering is not the identity. -/
example : let m := setMapperMB 2 mSz mMs mBnd mBnd1 ⟨[(0, 1), (1, 2)], [(0, 1)], []⟩
    let b := bdyMapperMB 2 mSz mMs m
    (List.range 7).map m.isFree = [false, false, true, false, false, false, false] ∧
    [0, 1, 3, 4, 5, 6].map m.bindex = [0, 1, 2, 2, 3, 1] ∧ [0, 1, 3, 4, 5, 6].map b.index = [0, 2, 3, 3, 1, 2] := by
  decide +kernel

end Multi

end Verif.DofMap
