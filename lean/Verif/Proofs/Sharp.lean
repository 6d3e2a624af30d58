import Verif.Model.Sharp
import Verif.Proofs.SmoothExport
import Mathlib.Combinatorics.SimpleGraph.Acyclic
import Mathlib.Combinatorics.SimpleGraph.DegreeSum
import Mathlib.Data.ZMod.Basic
/-! Helper lemmas: the number of boundary sides at a vertex. -/
set_option autoImplicit false
set_option linter.unusedSectionVars false
set_option linter.unusedVariables false
set_option linter.unusedSimpArgs false
namespace Verif.Sharp
open Verif Smooth

variable {P : Type} [DecidableEq P]

/-- all sides at the corners of a vertex -/
def darts (T : Topo P) (c : PC P) : List (Dart P) := (T.cl c).flatMap fun d => d.2.sides.map fun s => (d, s)

theorem sides_nodup (c : Corner) : c.sides.Nodup := by cases c <;> decide

theorem mem_darts {T : Topo P} {c : PC P} {a : Dart P} : a ∈ darts T c ↔ a.1 ∈ T.cl c ∧ a.2 ∈ a.1.2.sides := by
  unfold darts
  simp only [List.mem_flatMap, List.mem_map]
  constructor
  · rintro ⟨d, hd, s, hs, rfl⟩; exact ⟨hd, hs⟩
  · rintro ⟨h1, h2⟩; exact ⟨a.1, h1, a.2, h2, rfl⟩

theorem darts_nodup {T : Topo P} (ok : Ok T) (c : PC P) : (darts T c).Nodup := by
  unfold darts
  rw [List.nodup_flatMap]
  refine ⟨fun d _ => (sides_nodup d.2).map (fun a b h => by simpa using h), ?_⟩
  apply (ok.cl_nodup c).imp
  intro d e hne
  simp only [Function.onFun, List.disjoint_left, List.mem_map, not_exists, not_and]
  rintro a ⟨s, -, rfl⟩ s' - h
  exact hne (by simpa using (congrArg Prod.fst h).symm)

theorem boundaries_eq (T : Topo P) (c : PC P) : boundaries T c = (darts T c).filter fun a => ! isIface T a.1.1 a.2 := by
  unfold boundaries darts
  rw [List.filter_flatMap]
  congr 1
  funext d
  rw [List.filter_map]
  rfl

/-- sides with a neighbour -/
def inner (T : Topo P) (c : PC P) : List (Dart P) := (darts T c).filter fun a => isIface T a.1.1 a.2

theorem length_darts (T : Topo P) (c : PC P) : (darts T c).length = 2 * (T.cl c).length := by
  unfold darts
  rw [List.length_flatMap]
  have : (fun d : PC P => (List.map (fun s => (d, s)) d.2.sides).length) = fun _ => 2 := by
    funext d; simp [Corner.sides]
  rw [this]; simp [mul_comm]

theorem length_split (T : Topo P) (c : PC P) : (inner T c).length + (boundaries T c).length = 2 * (T.cl c).length := by
  rw [← length_darts, boundaries_eq, inner, ← List.countP_eq_length_filter, ← List.countP_eq_length_filter]
  have := List.length_eq_countP_add_countP (fun a : Dart P => isIface T a.1.1 a.2) (l := darts T c)
  rw [this]
  congr 1
  apply List.countP_congr
  intro a _; simp

/-- the other end of an interface side -/
def opp (T : Topo P) (a : Dart P) : Dart P := match cross T a.1 a.2, T.nb (a.1.1, a.2) with
  | some d, some t => (d, t.2)
  | _, _ => a

theorem opp_spec {T : Topo P} (ok : Ok T) {c : PC P} {a : Dart P} (h : a ∈ inner T c) : opp T a ∈ inner T c ∧ opp T a ≠ a ∧ opp T (opp T a) = a ∧ cross T a.1 a.2 = some (opp T a).1 := by
  unfold inner at h ⊢
  rw [List.mem_filter, mem_darts] at h
  obtain ⟨⟨h1, h2⟩, h3⟩ := h
  unfold isIface at h3
  rw [cross_isSome] at h3
  obtain ⟨d, hd⟩ := Option.isSome_iff_exists.1 h3
  obtain ⟨t, ht, htm, -⟩ := cross_data hd
  have e : opp T a = (d, t) := by unfold opp; rw [hd, ht]
  have cb := cross_back ok h2 hd ht
  have nbb := ok.nb_symm _ _ ht
  have e2 : opp T (d, t) = a := by unfold opp; simp only [cb, nbb]
  rw [e]
  refine ⟨?_, ?_, e2, hd⟩
  · rw [List.mem_filter, mem_darts]
    refine ⟨⟨(ok.cl_same c a.1 h1 d).1 (ok.cl_cross a.1 a.2 d h2 hd), htm⟩, ?_⟩
    unfold isIface; rw [nbb]; rfl
  · intro heq
    exact cross_ne ok h2 hd (congrArg Prod.fst heq)

theorem even_inner {T : Topo P} (ok : Ok T) (c : PC P) : Even (inner T c).length := by
  have hn : (inner T c).Nodup := (darts_nodup ok c).filter _
  rw [← List.toFinset_card_of_nodup hn]
  rw [← ZMod.natCast_eq_zero_iff_even]
  have : ∑ a ∈ (inner T c).toFinset, (1 : ZMod 2) = 0 := by
    apply Finset.sum_involution (fun a _ => opp T a)
    · intro a ha; decide
    · intro a ha _; exact (opp_spec ok (List.mem_toFinset.1 ha)).2.1
    · intro a ha; exact List.mem_toFinset.2 (opp_spec ok (List.mem_toFinset.1 ha)).1
    · intro a ha; exact (opp_spec ok (List.mem_toFinset.1 ha)).2.2.1
  simpa using this

/-- the graph of the corners of a vertex -/
def graph (T : Topo P) (c : PC P) : SimpleGraph {d // d ∈ T.cl c} where
  Adj := fun d e => d ≠ e ∧ (Step T d.1 e.1 ∨ Step T e.1 d.1)
  symm := ⟨fun d e h => ⟨h.1.symm, h.2.symm⟩⟩
  loopless := ⟨fun d h => h.1 rfl⟩

theorem graph_connected {T : Topo P} (ok : Ok T) (c : PC P) : (graph T c).Connected := by
  have key : ∀ d, Relation.ReflTransGen (Step T) c d → ∀ hd : d ∈ T.cl c, (graph T c).Reachable ⟨c, ok.cl_self c⟩ ⟨d, hd⟩ := by
    intro d h
    induction h with
    | refl => intro _; exact SimpleGraph.Reachable.refl _
    | tail h1 h2 ih =>
      rename_i y z
      intro hz
      obtain ⟨s, hs, hx⟩ := h2
      have hy : y ∈ T.cl c := by
        clear hx hs ih hz
        induction h1 with
        | refl => exact ok.cl_self c
        | tail _ g ih => obtain ⟨s, hs, hx⟩ := g; exact (ok.cl_same c _ ih _).1 (ok.cl_cross _ s _ hs hx)
      refine (ih hy).trans (SimpleGraph.Adj.reachable ?_)
      refine ⟨?_, Or.inl ⟨s, hs, hx⟩⟩
      intro heq
      exact cross_ne ok hs hx (congrArg Subtype.val heq).symm
  haveI : Nonempty {d // d ∈ T.cl c} := ⟨⟨c, ok.cl_self c⟩⟩
  refine SimpleGraph.Connected.mk ?_
  intro d e
  exact (key d.1 (ok.cl_conn c d.1 d.2) d.2).symm.trans (key e.1 (ok.cl_conn c e.1 e.2) e.2)

theorem step_symm {T : Topo P} (ok : Ok T) {d e : PC P} (h : Step T d e) : Step T e d := by
  obtain ⟨s, hs, hx⟩ := h
  obtain ⟨t, ht, htm, -⟩ := cross_data hx
  exact ⟨t, htm, cross_back ok hs hx ht⟩

theorem inner_ge {T : Topo P} (ok : Ok T) (c : PC P) : 2 * (T.cl c).length ≤ (inner T c).length + 2 := by
  classical
  have h1 := (graph_connected ok c).card_vert_le_card_edgeSet_add_one
  have h2 := (graph T c).sum_degrees_eq_twice_card_edges
  have hcard : Nat.card {d // d ∈ T.cl c} = (T.cl c).length := by
    rw [Nat.card_eq_fintype_card, Fintype.card_of_subtype (T.cl c).toFinset (by simp), List.toFinset_card_of_nodup (ok.cl_nodup c)]
  have hedge : Nat.card (graph T c).edgeSet = (graph T c).edgeFinset.card := by
    rw [Nat.card_eq_fintype_card, SimpleGraph.edgeFinset_card]
  have hdeg : ∀ d : {d // d ∈ T.cl c}, (graph T c).degree d ≤ (d.1.2.sides.filter fun s => isIface T d.1.1 s).length := by
    intro d
    unfold SimpleGraph.degree
    have hsub : (graph T c).neighborFinset d ⊆ (((d.1.2.sides.filter fun s => isIface T d.1.1 s).toFinset).image fun s => (opp T (d.1, s)).1).subtype (fun e => e ∈ T.cl c) := by
      intro e he
      rw [SimpleGraph.mem_neighborFinset] at he
      have hst : Step T d.1 e.1 := he.2.elim id (step_symm ok)
      obtain ⟨s, hs, hx⟩ := hst
      obtain ⟨t, ht, htm, -⟩ := cross_data hx
      rw [Finset.mem_subtype, Finset.mem_image]
      refine ⟨s, ?_, ?_⟩
      · rw [List.mem_toFinset, List.mem_filter]
        refine ⟨hs, ?_⟩
        unfold isIface; rw [ht]; rfl
      · unfold opp; rw [hx, ht]
    refine (Finset.card_le_card hsub).trans ?_
    rw [Finset.card_subtype]
    refine (Finset.card_filter_le _ _).trans (Finset.card_image_le.trans ?_)
    exact List.toFinset_card_le _
  have hsum : ∑ d : {d // d ∈ T.cl c}, (d.1.2.sides.filter fun s => isIface T d.1.1 s).length = (inner T c).length := by
    have e : (inner T c).length = ((T.cl c).map fun d => (d.2.sides.filter fun s => isIface T d.1 s).length).sum := by
      unfold inner darts
      rw [List.filter_flatMap, List.length_flatMap]
      congr 1
      apply List.map_congr_left
      intro d _
      rw [List.filter_map, List.length_map]
      rfl
    rw [e, ← List.sum_toFinset _ (ok.cl_nodup c)]
    exact (Finset.sum_subtype (T.cl c).toFinset (by simp) fun d => (d.2.sides.filter fun s => isIface T d.1 s).length).symm
  have hle : ∑ d, (graph T c).degree d ≤ (inner T c).length := by
    rw [← hsum]; exact Finset.sum_le_sum fun d _ => hdeg d
  rw [hcard, hedge] at h1
  omega

theorem boundaries_cases {T : Topo P} (ok : Ok T) (c : PC P) : (T.interior c = true ∧ boundaries T c = []) ∨ (T.interior c = false ∧ (boundaries T c).length = 2) := by
  have h1 := length_split T c
  have h2 := inner_ge ok c
  obtain ⟨k, hk⟩ := even_inner ok c
  cases hi : T.interior c
  · right
    refine ⟨rfl, ?_⟩
    have : boundaries T c ≠ [] := by
      intro hnil
      have : T.interior c = true := by
        rw [ok.interior_iff]
        intro d hd s hs
        by_contra hcon
        have : (d, s) ∈ boundaries T c := by
          rw [boundaries_eq, List.mem_filter, mem_darts]
          exact ⟨⟨hd, hs⟩, by unfold isIface; simpa using hcon⟩
        rw [hnil] at this; cases this
      rw [hi] at this; cases this
    have := List.length_pos_iff.2 this
    omega
  · left
    refine ⟨rfl, ?_⟩
    rw [ok.interior_iff] at hi
    rw [List.eq_nil_iff_forall_not_mem]
    intro a ha
    rw [boundaries_eq, List.mem_filter, mem_darts] at ha
    have := hi a.1 ha.1.1 a.2 ha.1.2
    have h := ha.2
    unfold isIface at h
    rw [this] at h; simp at h

theorem boundaries_perm {T : Topo P} (ok : Ok T) {c d : PC P} (h : d ∈ T.cl c) : (boundaries T d).Perm (boundaries T c) :=
  ((List.perm_ext_iff_of_nodup (ok.cl_nodup d) (ok.cl_nodup c)).2 (ok.cl_same c d h)).flatMap_right _

end Verif.Sharp
