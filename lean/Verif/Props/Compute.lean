import Verif.Model.Compute
import Mathlib.Tactic.Linarith
import Mathlib.Tactic.SplitIfs
/-!
# C17: recomputing gives the same space
-/
set_option autoImplicit false

namespace Verif.Compute

variable {Y : Types}

/-- The members set before `compute()`: geometry, bases, topology, options. -/
def State.input (s : State Y) := (s.patches, s.bbases, s.topology, s.options)

/-- What users get: bases, number of functions, mappers, matrix, sharp corners, checks. -/
def State.output (s : State Y) := (s.bases, s.size, s.mapModified, s.mapOriginal, s.matrix, s.c0s, s.checks, s.computed)

/-- The transfer matrix, which `Tmatrix()` returns. -/
def State.transfer (s : State Y) := s.tMatrix

/-- Number of calls of `compute()`. -/
def computeTimes (F : Parts Y) (C : Class Y) : ℕ → State Y → State Y
  | 0, s => s
  | n + 1, s => compute F C (computeTimes F C n s)

/-- C17 for `gsSmoothInterfaces`: the result of `compute()` depends on geometry, bases, topology and options only; not on what happened to the object before. -/
theorem C17_smoothInterfaces (F : Parts Y) (s t : State Y) (h : s.input = t.input) :
    (compute F smoothInterfaces s).output = (compute F smoothInterfaces t).output := by
  obtain ⟨p, bb, tp, op, ⟨_, _, _, _, _⟩, _, _, _, _, _, _, _, _, _, _, _⟩ := s
  obtain ⟨p', bb', tp', op', ⟨_, _, _, _, _⟩, _, _, _, _, _, _, _, _, _, _, _⟩ := t
  simp only [State.input, Prod.mk.injEq] at h
  obtain ⟨rfl, rfl, rfl, rfl⟩ := h
  by_cases hs : F.sharp op = true <;>
    simp [compute, initializeAll, initChecks, initSharp, initMappers, countDoFs, resetChecks, computeMapper, computeSmoothMatrix, smoothInterfaces, State.output, hs]

/-- C17 for `gsAlmostC1`: the same. -/
theorem C17_almostC1 (F : Parts Y) (s t : State Y) (h : s.input = t.input) : (compute F (almostC1 F) s).output = (compute F (almostC1 F) t).output := by
  obtain ⟨p, bb, tp, op, ⟨_, _, _, _, _⟩, _, _, _, _, _, _, _, _, _, _, _⟩ := s
  obtain ⟨p', bb', tp', op', ⟨_, _, _, _, _⟩, _, _, _, _, _, _, _, _, _, _, _⟩ := t
  simp only [State.input, Prod.mk.injEq] at h
  obtain ⟨rfl, rfl, rfl, rfl⟩ := h
  by_cases hs : F.sharp op = true
  · by_cases h1 : F.special (F.thbPatches p) (F.sharpCorners op p bb tp (4 * bb.length)).1 = true <;>
      simp [compute, initializeAll, initChecks, initSharp, initMappers, countDoFs, resetChecks, computeMapper, computeSmoothMatrix, almostC1, State.output, hs, h1]
    split_ifs <;> simp
  · by_cases h1 : F.special (F.thbPatches p) (List.replicate (4 * bb.length) false) = true <;>
      simp [compute, initializeAll, initChecks, initSharp, initMappers, countDoFs, resetChecks, computeMapper, computeSmoothMatrix, almostC1, State.output, hs, h1]
    split_ifs <;> simp

private theorem input_compute (F : Parts Y) (C : Class Y) (h1 : ∀ s, (C.initTHB s).input = s.input) (h2 : ∀ s, (C.initBasis s).input = s.input)
    (h3 : ∀ s, (C.makeTHB s).input = s.input) (h4 : ∀ s, (C.computeEVs s).input = s.input) (s : State Y) : (compute F C s).input = s.input := by
  have a : ∀ t : State Y, (initSharp F t).input = t.input := by intro t; unfold initSharp; split_ifs <;> rfl
  show (C.computeEVs (C.makeTHB (computeSmoothMatrix F (computeMapper F (initializeAll F C s))))).input = _
  rw [h4, h3]
  show (initializeAll F C s).input = _
  show (C.initBasis (C.initTHB (initSharp F (initChecks F s)))).input = _
  rw [h2, h1, a]
  rfl

private theorem input_almost (F : Parts Y) (s : State Y) : (compute F (almostC1 F) s).input = s.input := by
  apply input_compute
  · intro s; rfl
  · intro s; rfl
  · intro s; simp only [almostC1]; split_ifs <;> rfl
  · intro s; simp only [almostC1]; split_ifs <;> rfl

/-- C17 for `gsSmoothInterfaces` and every number of calls: the same result as after one call. -/
theorem C17_smoothInterfaces_times (F : Parts Y) (n : ℕ) (s : State Y) :
    (computeTimes F smoothInterfaces (n + 1) s).output = (compute F smoothInterfaces s).output := by
  apply C17_smoothInterfaces
  induction n with
  | zero => rfl
  | succ n ih => rw [computeTimes, input_compute] <;> first | exact ih | (intro s; rfl)

/-- C17 for `gsAlmostC1` and every number of calls: the same result as after one call. -/
theorem C17_almostC1_times (F : Parts Y) (n : ℕ) (s : State Y) :
    (computeTimes F (almostC1 F) (n + 1) s).output = (compute F (almostC1 F) s).output := by
  apply C17_almostC1
  induction n with
  | zero => rfl
  | succ n ih => rw [computeTimes, input_almost]; exact ih

/-- C17 for `gsDPatch`, the first call: if there are no bases in `m_bases0` yet, the result depends on geometry, bases, topology and options only.

The full claim drops the hypothesis; it is false, see `C17_dPatch_violated`. -/
theorem C17_dPatch_partial (F : Parts Y) (s t : State Y) (h : s.input = t.input) (hs : s.bases0 = []) (ht : t.bases0 = []) :
    (compute F (dPatch F) s).output = (compute F (dPatch F) t).output ∧ (compute F (dPatch F) s).transfer = (compute F (dPatch F) t).transfer := by
  obtain ⟨p, bb, tp, op, ⟨_, _, _, _, _⟩, _, _, _, _, _, _, _, _, _, _, _⟩ := s
  obtain ⟨p', bb', tp', op', ⟨_, _, _, _, _⟩, _, _, _, _, _, _, _, _, _, _, _⟩ := t
  simp only [State.input, Prod.mk.injEq] at h
  simp only at hs ht
  subst hs ht
  obtain ⟨rfl, rfl, rfl, rfl⟩ := h
  by_cases hs : F.sharp op = true <;>
    simp [compute, initializeAll, initChecks, initSharp, initMappers, countDoFs, resetChecks, computeMapper, computeSmoothMatrix, dPatch, State.output, State.transfer, hs]

private theorem dPatch_bases (F : Parts Y) (h1 : ∀ l a b, (F.refine l a b).length = l.length) (h2 : ∀ l m a b, (F.refineAgain l m a b).1.length = l.length) (s : State Y) :
    (compute F (dPatch F) s).bases.length = s.bases0.length + s.bbases.length ∧ (compute F (dPatch F) s).bases0.length = s.bases0.length + s.bbases.length ∧
    (compute F (dPatch F) s).bbases = s.bbases := by
  unfold compute initializeAll initSharp
  split_ifs <;> simp [initChecks, initMappers, countDoFs, resetChecks, computeMapper, computeSmoothMatrix, dPatch, h1, h2]

/-- C17 for `gsDPatch` is violated by the unchanged code: `_initTHB` appends to `m_bases0`, so after `k` calls there are `k` bases for every patch, whatever the other
steps compute, if only refinement keeps the number of bases. -/
theorem C17_dPatch_violated (F : Parts Y) (h1 : ∀ l a b, (F.refine l a b).length = l.length) (h2 : ∀ l m a b, (F.refineAgain l m a b).1.length = l.length)
    (s : State Y) (hs : s.bases0 = []) (n : ℕ) : (computeTimes F (dPatch F) (n + 1) s).bases.length = (n + 1) * s.bbases.length := by
  have key : ∀ n, (computeTimes F (dPatch F) n s).bases0.length = n * s.bbases.length ∧ (computeTimes F (dPatch F) n s).bbases = s.bbases := by
    intro n
    induction n with
    | zero => simp [computeTimes, hs]
    | succ n ih =>
      obtain ⟨-, e1, e2⟩ := dPatch_bases F h1 h2 (computeTimes F (dPatch F) n s)
      refine ⟨?_, by rw [computeTimes, e2, ih.2]⟩
      rw [computeTimes, e1, ih.1, ih.2, Nat.succ_mul]
  rw [computeTimes, (dPatch_bases F h1 h2 _).1, (key n).1, (key n).2, Nat.succ_mul]

/-! ### Concrete parts -/

/-- Bases are numbers of refinements, matrices are lists of row counts and mappers lists; options are `SharpCorners`. -/
abbrev toyTypes : Types := ⟨ℕ, Bool, ℕ, ℕ, List ℕ, List ℕ⟩

/-- Steps that use all they read. -/
def toy : Parts toyTypes where
  nSides t := 4 * t
  sharp o := o
  sharpCorners _ _ _ _ n := (List.replicate n true, List.replicate n true)
  count l t c := l.sum + t + (c.filter id).length
  mapper l := l
  zero n _ := [n]
  zeroFree n m := n :: m
  mappers _ _ _ c m o := (m ++ [c.nVerts], o, c)
  smooth l _ c k m o a := (a ++ l ++ m ++ o ++ [(c.filter id).length], k)
  thb b := b
  refine l _ _ := l.map fun (b : ℕ) => ((b + 1, [b]) : ℕ × List ℕ)
  refineAgain l _ _ _ := ((l.map fun (b : ℕ) => b + 1), l)
  evs _ _ _ _ _ a t := a ++ t
  thbPatches p := p
  basesOf p := [p]
  special _ c := c.any id
  refinePatches p _ _ _ _ _ := ((p : ℕ) + 1, [p])
  triangles _ _ _ _ _ _ n _ _ a t := (a ++ t, List.replicate n true)

/-- A new object with one patch. -/
def fresh (o : Bool) : State toyTypes := ⟨5, [7], (1 : ℕ), o, ⟨0, 0, [], [], []⟩, [], [], [], (0 : ℕ), 0, [], [], [], [], [], false⟩

/-- The hypotheses of `C17_dPatch_violated` hold, and two calls give two bases. -/
example : (fresh true).bases0 = [] ∧ (computeTimes toy (dPatch toy) 2 (fresh true)).bases = ([10, 9] : List ℕ) ∧
    (computeTimes toy (dPatch toy) 1 (fresh true)).bases = ([9] : List ℕ) := by decide

/-- A second call after the first, and after `SharpCorners` was changed and changed back. -/
example : (computeTimes toy (almostC1 toy) 2 (fresh true)).matrix = (compute toy (almostC1 toy) (fresh true)).matrix ∧
    (compute toy (almostC1 toy) { compute toy (almostC1 toy) (fresh false) with options := true }).matrix = (compute toy (almostC1 toy) (fresh true)).matrix ∧
    (compute toy (almostC1 toy) (fresh true)).matrix ≠ (compute toy (almostC1 toy) (fresh false)).matrix := by decide

/-- C17, the transfer matrix of `gsAlmostC1`: not covered by the theorems above, and violated by the unchanged code if options change between calls. Without special
corners `m_tMatrix` keeps its old value, so `Tmatrix()` of an object computed first with and then without `SharpCorners` differs from that of a new object. -/
theorem C17_transfer_violated : ∃ (Y : Types) (F : Parts Y) (s t : State Y), s.input = t.input ∧
    (compute F (almostC1 F) s).output = (compute F (almostC1 F) t).output ∧ (compute F (almostC1 F) s).transfer ≠ (compute F (almostC1 F) t).transfer := by
  refine ⟨toyTypes, toy, fresh false, { compute toy (almostC1 toy) (fresh true) with options := false }, rfl, C17_almostC1 _ _ _ rfl, ?_⟩
  intro h
  have : ([] : List ℕ) = [5] := h
  simp at this

private theorem transfer_step (F : Parts Y) (s t : State Y) (h : s.input = t.input) (e : (compute F (almostC1 F) s).transfer = t.transfer) :
    (compute F (almostC1 F) t).transfer = (compute F (almostC1 F) s).transfer := by
  obtain ⟨p, bb, tp, op, ⟨_, _, _, _, _⟩, _, _, _, _, _, _, _, _, _, _, _⟩ := s
  obtain ⟨p', bb', tp', op', ⟨_, _, _, _, _⟩, _, _, _, _, _, _, _, _, _, _, _⟩ := t
  simp only [State.input, Prod.mk.injEq] at h
  obtain ⟨rfl, rfl, rfl, rfl⟩ := h
  revert e
  by_cases hs : F.sharp op = true
  · simp only [compute, initializeAll, initChecks, initSharp, initMappers, countDoFs, resetChecks, computeMapper, computeSmoothMatrix, almostC1, State.transfer, hs, if_true]
    intro e
    split_ifs at e ⊢ <;> simp_all
  · simp only [compute, initializeAll, initChecks, initSharp, initMappers, countDoFs, resetChecks, computeMapper, computeSmoothMatrix, almostC1, State.transfer, hs]
    intro e
    split_ifs at e ⊢ <;> simp_all

/-- C17, the transfer matrix of `gsAlmostC1` for repeated calls with unchanged input: the same after every call. -/
theorem C17_transfer_times (F : Parts Y) (n : ℕ) (s : State Y) :
    (computeTimes F (almostC1 F) (n + 1) s).transfer = (compute F (almostC1 F) s).transfer := by
  have key : ∀ n, (computeTimes F (almostC1 F) (n + 1) s).transfer = (compute F (almostC1 F) s).transfer ∧ (computeTimes F (almostC1 F) (n + 1) s).input = s.input := by
    intro n
    induction n with
    | zero => exact ⟨rfl, input_almost F s⟩
    | succ n ih =>
      rw [computeTimes, input_almost]
      exact ⟨transfer_step F s _ ih.2.symm ih.1.symm, ih.2⟩
  exact (key n).1

end Verif.Compute
