import Verif.Proofs.Sharp
import Verif.Props.DPatchMap
/-!
# Property C45: sharp corners are found, and all patches of a vertex agree on them
-/
set_option autoImplicit false
set_option linter.unusedSectionVars false
set_option linter.unusedVariables false
set_option linter.unusedSimpArgs false
namespace Verif.Sharp
open Verif Smooth
open _root_.Verif.DPatch (fan3 fan3_ok fan3V)

variable {P : Type} [DecidableEq P] {K : Type} [CommRing K] [LinearOrder K]

/-- Side `a.2` of the patch of corner `a.1` is a boundary side at the vertex of `c`. -/
def AtBoundary (T : Topo P) (c : PC P) (a : Dart P) : Prop := a.1 ∈ T.cl c ∧ a.2 ∈ a.1.2.sides ∧ T.nb (a.1.1, a.2) = none

private theorem mem_boundaries {T : Topo P} {c : PC P} {a : Dart P} : a ∈ boundaries T c ↔ AtBoundary T c a := by
  rw [boundaries_eq, List.mem_filter, mem_darts]
  unfold AtBoundary isIface
  cases T.nb (a.1.1, a.2) <;> simp [and_assoc]

/-- C45. A vertex on the boundary has exactly two boundary sides, whatever the number of its patches; an interior vertex has none. So the error of `getSharpCorners` cannot occur. -/
theorem C45_two_boundary_sides {T : Topo P} (ok : Ok T) (c : PC P) :
    (T.interior c = true → ∀ a, ¬ AtBoundary T c a) ∧
    (T.interior c = false → ∃ a b, a ≠ b ∧ ∀ e, AtBoundary T c e ↔ e = a ∨ e = b) := by
  rcases boundaries_cases ok c with ⟨hi, hb⟩ | ⟨hi, hb⟩
  · refine ⟨fun _ a ha => ?_, fun h => by rw [hi] at h; cases h⟩
    have := mem_boundaries.2 ha
    rw [hb] at this; cases this
  · refine ⟨fun h => by (rw [hi] at h; cases h), fun _ => ?_⟩
    have hn : (boundaries T c).Nodup := by rw [boundaries_eq]; exact (darts_nodup ok c).filter _
    have hm : ∀ e, e ∈ boundaries T c ↔ AtBoundary T c e := fun _ => mem_boundaries
    revert hb hn hm
    rcases boundaries T c with _ | ⟨a, _ | ⟨b, _ | ⟨x, l⟩⟩⟩ <;> intro hb hn hm <;> simp at hb
    refine ⟨a, b, ?_, fun e => by rw [← hm]; simp⟩
    simp at hn; exact hn

/-- a vertex is sharp -/
private def sharp {m : ℕ} (T : Topo P) (n : Dart P → Fin m → K) (tol : K) (c : PC P) : Bool :=
  match boundaries T c with
  | [a, b] => decide (|dot n a b - 1| > tol)
  | _ => false

private theorem dot_comm {m : ℕ} (n : Dart P → Fin m → K) (a b : Dart P) : dot n a b = dot n b a := by
  unfold dot; apply Finset.sum_congr rfl; intro i _; ring

private theorem sharp_same {m : ℕ} {T : Topo P} (ok : Ok T) (n : Dart P → Fin m → K) (tol : K) {c d : PC P} (h : d ∈ T.cl c) : sharp T n tol d = sharp T n tol c := by
  have hp := boundaries_perm ok h
  have hl := hp.length_eq
  unfold sharp
  revert hp hl
  rcases boundaries T d with _ | ⟨a, _ | ⟨b, _ | ⟨x, l⟩⟩⟩ <;> rcases boundaries T c with _ | ⟨a', _ | ⟨b', _ | ⟨x', l'⟩⟩⟩ <;> intro hp hl <;> simp at hl <;> try rfl
  have hm : a ∈ [a', b'] := hp.subset (by simp)
  simp only [List.mem_cons, List.not_mem_nil, or_false] at hm
  rcases hm with rfl | rfl
  · have := List.Perm.cons_inv hp
    rw [List.singleton_perm_singleton] at this
    rw [this]
  · have := List.Perm.cons_inv (hp.trans (List.Perm.swap _ _ _))
    rw [List.singleton_perm_singleton] at this
    simp only [this, dot_comm n a a']

private theorem turn_ok {m : ℕ} {T : Topo P} (ok : Ok T) (n : Dart P → Fin m → K) (tol : K) (st : SharpSt P) (c : PC P) :
    turn T n tol st c = some (if st.chk c then st else
      { res := fun d => (decide (d ∈ T.cl c) && sharp T n tol c) || st.res d, chk := fun d => decide (d ∈ T.cl c) || st.chk d }) := by
  unfold turn sharp
  by_cases hc : st.chk c = true
  · simp [hc]
  · rw [if_neg hc, if_neg hc]
    have hb : boundaries T c = [] ∨ (boundaries T c).length = 2 := (boundaries_cases ok c).imp (·.2) (·.2)
    rcases hh : boundaries T c with _ | ⟨a, _ | ⟨b, _ | ⟨x, l⟩⟩⟩ <;> rw [hh] at hb <;> simp at hb
    · simp
    · by_cases ht : |dot n a b - 1| > tol
      · simp [ht]
      · simp [ht]

private theorem run {m : ℕ} {T : Topo P} (ok : Ok T) (n : Dart P → Fin m → K) (tol : K) : ∀ vl : List (PC P), ∃ st, sharpCorners T n tol vl = some st ∧
    (∀ c, st.chk c = vl.any fun d => decide (d ∈ T.cl c)) ∧ ∀ c, st.res c = (st.chk c && sharp T n tol c) := by
  intro vl
  unfold sharpCorners
  induction vl using List.reverseRecOn with
  | nil => exact ⟨_, rfl, by intro c; rfl, by intro c; rfl⟩
  | append_singleton l c ih =>
    obtain ⟨st, h1, h2, h3⟩ := ih
    rw [List.foldlM_append, h1]
    simp only [Option.bind_eq_bind, Option.bind_some, List.foldlM_cons, List.foldlM_nil, turn_ok ok, Option.pure_def]
    have sym : ∀ x y : PC P, x ∈ T.cl y ↔ y ∈ T.cl x := by
      intro x y
      constructor <;> intro h
      · exact (ok.cl_same y x h y).2 (ok.cl_self y)
      · exact (ok.cl_same x y h x).2 (ok.cl_self x)
    by_cases hc : st.chk c = true
    · refine ⟨st, by simp [hc], ?_, h3⟩
      intro c'
      rw [List.any_append, ← h2]
      by_cases hm : c ∈ T.cl c'
      · have : st.chk c' = true := by
          rw [h2] at hc ⊢
          rw [List.any_eq_true] at hc ⊢
          obtain ⟨d, hd, he⟩ := hc
          exact ⟨d, hd, by rw [decide_eq_true_eq] at he ⊢; exact (ok.cl_same c' c hm d).1 he⟩
        simp [this]
      · simp [hm]
    · refine ⟨_, rfl, ?_, ?_⟩
      · intro c'
        rw [if_neg hc, List.any_append, ← h2]
        simp only [List.any_cons, List.any_nil, Bool.or_false]
        rw [Bool.or_comm]
        congr 1
        rw [decide_eq_decide]; exact sym c' c
      · intro c'
        rw [if_neg hc]
        simp only [h3]
        by_cases hm : c' ∈ T.cl c
        · simp [hm, sharp_same ok n tol hm]
        · simp [hm]

/-- C45. `getSharpCorners` does not fail; it marks a patch corner if and only if the vertex lies on the boundary and the unit normals of the two boundary sides there, `a` and `b`, have a scalar product
that differs from 1 by more than the tolerance. The result does not depend on the patch or the order in which the corners are visited. -/
theorem C45_sharp_iff {m : ℕ} {T : Topo P} (ok : Ok T) (n : Dart P → Fin m → K) (tol : K) (vl : List (PC P)) (hv : ∀ c, c ∈ vl) :
    ∃ st, sharpCorners T n tol vl = some st ∧ ∀ c, st.res c = true ↔ ∃ a b, a ≠ b ∧ AtBoundary T c a ∧ AtBoundary T c b ∧ |∑ i, n a i * n b i - 1| > tol := by
  obtain ⟨st, h1, h2, h3⟩ := run ok n tol vl
  refine ⟨st, h1, fun c => ?_⟩
  have hchk : st.chk c = true := by
    rw [h2, List.any_eq_true]; exact ⟨c, hv c, by simpa using ok.cl_self c⟩
  rw [h3, hchk, Bool.true_and]
  have hn : (boundaries T c).Nodup := by rw [boundaries_eq]; exact (darts_nodup ok c).filter _
  have hm : ∀ e, e ∈ boundaries T c ↔ AtBoundary T c e := fun _ => mem_boundaries
  have hb : boundaries T c = [] ∨ (boundaries T c).length = 2 := (boundaries_cases ok c).imp (·.2) (·.2)
  unfold sharp
  rcases hh : boundaries T c with _ | ⟨a, _ | ⟨b, _ | ⟨x, l⟩⟩⟩ <;> rw [hh] at hb <;> simp at hb
  · simp only [Bool.false_eq_true, false_iff]
    rintro ⟨a, b, -, ha, -⟩
    rw [← hm, hh] at ha; cases ha
  · rw [hh] at hm hn
    simp at hn
    simp only [decide_eq_true_eq]
    constructor
    · intro ht
      exact ⟨a, b, hn, (hm a).1 (by simp), (hm b).1 (by simp), ht⟩
    · rintro ⟨a', b', hne, ha, hb', ht⟩
      rw [← hm] at ha hb'
      simp only [List.mem_cons, List.not_mem_nil, or_false] at ha hb'
      rcases ha with rfl | rfl <;> rcases hb' with rfl | rfl
      · exact absurd rfl hne
      · exact ht
      · rw [dot_comm]; exact ht
      · exact absurd rfl hne

/-- C45. All patches of a vertex agree: the marks computed by `getSharpCorners` satisfy the requirement of the smoothing theory (`Ok.c0_same`), so a topology with these marks meets all its hypotheses. -/
theorem C45_marks_ok {m : ℕ} {T : Topo P} (ok : Ok T) (n : Dart P → Fin m → K) (tol : K) (vl : List (PC P)) (hv : ∀ c, c ∈ vl) :
    ∃ st, sharpCorners T n tol vl = some st ∧ (∀ c d, d ∈ T.cl c → st.res d = st.res c) ∧ Ok { T with c0 := st.res } := by
  obtain ⟨st, h1, h2, h3⟩ := run ok n tol vl
  have hsame : ∀ c d, d ∈ T.cl c → st.res d = st.res c := by
    intro c d hd
    have hc : ∀ c, st.chk c = true := fun c => by rw [h2, List.any_eq_true]; exact ⟨c, hv c, by simpa using ok.cl_self c⟩
    rw [h3, h3, hc, hc, sharp_same ok n tol hd]
  refine ⟨st, h1, hsame, ?_⟩
  exact ⟨ok.n0_ge, ok.n1_ge, ok.nb_symm, ok.flip_symm, ok.nb_len, ok.no_fold, ok.cl_self, ok.cl_nodup, ok.cl_same, ok.cl_cross, ok.cl_conn, ok.interior_iff, hsame⟩

/-! ## Example -/

/-- Normals for `fan3`: the two boundary sides at the common vertex are orthogonal; at the ends of the interfaces the boundary is straight. -/
def fan3n (a : Dart (Fin 3)) : Fin 2 → ℚ := match a.2 with
  | .west => ![-1, 0] | .south => ![0, -1] | .east => ![1, 0] | .north => ![1, 0]

/-- The common vertex is sharp at all its three corners; the vertex with straight boundary is not. -/
example : (sharpCorners fan3 fan3n (1 / 100) fan3V).map (fun st => [(0, .sw), (1, .sw), (2, .sw), (0, .nw), (1, .se)].map fun c => (st.res c)) =
    some [true, true, true, false, false] := by decide +kernel

/-- The topology `fan3` with the computed marks. -/
example : ∃ st, sharpCorners fan3 fan3n (1 / 100) fan3V = some st ∧ Ok { fan3 with c0 := st.res } := by
  obtain ⟨st, h1, -, h2⟩ := C45_marks_ok fan3_ok fan3n (1 / 100) fan3V (by decide +kernel)
  exact ⟨st, h1, h2⟩

end Verif.Sharp
