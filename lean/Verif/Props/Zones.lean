import Verif.Model.Distances
import Verif.Props.MPBES
import Verif.Props.MPBESState
import Mathlib.Tactic.SplitIfs
import Mathlib.Data.List.GetD
/-!
# Properties C59, C60: the length kept C0 at a special vertex under refinement and in a hierarchical basis
-/
set_option autoImplicit false
namespace Verif.Distances
open Verif MPBES

/-! ## C59: refinement -/

/-- Specification: the length of the part of a side, from the corner, that is covered by the supports of the first `n` functions: for the corner at the lower end, function
`n-1` has its support in `[k_{n-1}, k_{n+deg}]`; for the corner at the upper end, function `N-n` of `N = size - deg - 1` has its support in
`[k_{N-n}, k_{N-n+deg+1}]`. -/
def zone (deg : ℕ) (k : List ℚ) (low : Bool) (n : ℕ) : ℚ :=
  if n = 0 then 0
  else if low then k.getD (n + deg) 0 - k.headD 0
  else k.getLastD 0 - k.getD (k.length - 1 - (n + deg)) 0

theorem open_head (deg : ℕ) (a b : ℚ) (mid : List ℚ) : (openKnots deg a mid b).headD 0 = a := by simp [openKnots, List.replicate_succ]

theorem open_last (deg : ℕ) (a b : ℚ) (mid : List ℚ) : (openKnots deg a mid b).getLastD 0 = b := by
  unfold openKnots
  rw [List.replicate_succ' (a := b), ← List.append_assoc, ← List.append_assoc, List.getLastD_concat]

theorem open_length (deg : ℕ) (a b : ℚ) (mid : List ℚ) : (openKnots deg a mid b).length = 2 * (deg + 1) + mid.length := by
  simp [openKnots]; omega

theorem open_get (deg : ℕ) (a b : ℚ) (mid : List ℚ) (m : ℕ) (hm : m < (mid ++ [b]).length) : (openKnots deg a mid b).getD (m + 1 + deg) 0 = (mid ++ [b])[m] := by
  have e : openKnots deg a mid b = List.replicate (deg + 1) a ++ ((mid ++ [b]) ++ List.replicate deg b) := by
    simp [openKnots, List.replicate_succ]
  rw [e, List.getD_append_right _ _ _ _ (by simp; omega), List.getD_append _ _ _ _ (by simp at hm ⊢; omega)]
  have : m + 1 + deg - (List.replicate (deg + 1) a).length = m := by simp; omega
  rw [this, List.getD_eq_getElem _ _ hm]

/-- From the upper end the zone is that of the reversed knots from the lower end. -/
theorem zone_reverse (deg : ℕ) (a b : ℚ) (mid : List ℚ) (n : ℕ) (hn : n ≤ mid.length + 1) :
    zone deg (openKnots deg a mid b) false n = zone deg (reverseKnots (openKnots deg a mid b)) true n := by
  unfold zone
  by_cases hz : n = 0
  · rw [if_pos hz, if_pos hz]
  rw [if_neg hz, if_neg hz, if_neg (by decide), if_pos rfl]
  have hl := open_length deg a b mid
  have h1 : n + deg < (openKnots deg a mid b).length := by omega
  have h2 : (openKnots deg a mid b).length - 1 - (n + deg) < (openKnots deg a mid b).length := by omega
  have e : (reverseKnots (openKnots deg a mid b)).getD (n + deg) 0 = a + b - (openKnots deg a mid b).getD ((openKnots deg a mid b).length - 1 - (n + deg)) 0 := by
    unfold reverseKnots
    rw [open_head, open_last, List.getD_eq_getElem _ _ (by simpa using h1), List.getD_eq_getElem _ _ h2, List.getElem_map, List.getElem_reverse]
  rw [e, reverse_open, open_head, open_last]
  ring

/-- The count read for a parameter that is an end point of the functions: the functions up to it. -/
theorem count_at (deg : ℕ) (a b : ℚ) (mid : List ℚ) (h0 : 0 ≤ a) (h : (a :: mid ++ [b]).Pairwise (· < ·)) (x : ℚ) (hx : x ∈ mid ++ [b]) :
    zone deg (openKnots deg a mid b) true (getDistance deg (openKnots deg a mid b) false x) = x - a ∧
      getDistance deg (openKnots deg a mid b) false x ≤ mid.length + 1 := by
  obtain ⟨m, hm, rfl⟩ := List.getElem_of_mem hx
  obtain ⟨y, h1, h2, h3⟩ := roundtrip deg a b mid h0 h (m + 1) (by omega) (by simp at hm; omega)
  rw [uknots_open _ _ _ _ h, List.cons_append, List.getElem?_cons_succ, List.getElem?_eq_getElem hm, Option.some.injEq] at h1
  subst h1
  have e : getDistance deg (openKnots deg a mid b) false (mid ++ [b])[m] = m + 1 := by
    unfold getDistance
    rw [if_neg h2]
    simpa using h3
  rw [e]
  refine ⟨?_, by simp at hm; omega⟩
  unfold zone
  rw [if_neg (by omega), if_pos rfl, open_get _ _ _ _ _ hm, open_head]

theorem zone_param (deg : ℕ) (a b : ℚ) (mid : List ℚ) (h : (a :: mid ++ [b]).Pairwise (· < ·)) (n : ℕ) (hz : n ≠ 0) (x : ℚ)
    (hx : findParameter (openKnots deg a mid b) false n = some x) : x ∈ mid ++ [b] ∧ zone deg (openKnots deg a mid b) true n = x - a := by
  obtain ⟨m, rfl⟩ : ∃ m, n = m + 1 := ⟨n - 1, by omega⟩
  unfold findParameter at hx
  simp only [hz, if_false, Bool.false_eq_true, uknots_open _ _ _ _ h, List.cons_append, List.getElem?_cons_succ] at hx
  obtain ⟨hm, rfl⟩ := List.getElem?_eq_some_iff.1 hx
  refine ⟨List.getElem_mem hm, ?_⟩
  unfold zone
  rw [if_neg hz, if_pos rfl, open_get _ _ _ _ _ hm, open_head]

theorem far_false (deg : ℕ) (a b : ℚ) (mid mid' : List ℚ) (h0 : 0 ≤ a) (h : (a :: mid ++ [b]).Pairwise (· < ·)) (h' : (a :: mid' ++ [b]).Pairwise (· < ·))
    (hs : ∀ z ∈ mid, z ∈ mid') (n : ℕ) (x : ℚ) (hx : findParameter (openKnots deg a mid b) false n = some x) :
    zone deg (openKnots deg a mid' b) true (getDistance deg (openKnots deg a mid' b) false x) = zone deg (openKnots deg a mid b) true n ∧
      getDistance deg (openKnots deg a mid' b) false x ≤ mid'.length + 1 := by
  by_cases hz : n = 0
  · subst hz
    simp [findParameter] at hx
    subst hx
    simp [getDistance, zone]
  · obtain ⟨h1, h2⟩ := zone_param deg a b mid h n hz x hx
    obtain ⟨h3, h4⟩ := count_at deg a b mid' h0 h' x (by
      rw [List.mem_append] at h1 ⊢
      exact h1.imp (hs x) id)
    exact ⟨by rw [h3, h2], h4⟩

/-- C59. What is kept under refinement: `n` functions are asked for at one end of a side, the knots are refined, and the number of functions is read again from the parameter
stored. The length that stays the same is the one at the *other* end of the side. -/
theorem C59_far_end (deg : ℕ) (a b : ℚ) (mid mid' : List ℚ) (h0 : 0 ≤ a) (h : (a :: mid ++ [b]).Pairwise (· < ·)) (h' : (a :: mid' ++ [b]).Pairwise (· < ·))
    (hs : ∀ z ∈ mid, z ∈ mid') (low : Bool) (n : ℕ) (x : ℚ) (hx : findParameter (openKnots deg a mid b) low n = some x) :
    zone deg (openKnots deg a mid' b) (!low) (getDistance deg (openKnots deg a mid' b) low x) = zone deg (openKnots deg a mid b) (!low) n := by
  cases low
  · exact (far_false deg a b mid mid' h0 h h' hs n x hx).1
  · have hx' : findParameter (openKnots deg a (mid.reverse.map fun x => a + b - x) b) false n = some x := by
      rw [← hx]; simp [findParameter, reverse_open]
    have hn : n ≤ mid.length + 1 := by
      by_contra hc
      have := (C37_past_end deg a b mid h true n).2 (by omega)
      rw [this] at hx; cases hx
    have e : getDistance deg (openKnots deg a mid' b) true x = getDistance deg (openKnots deg a (mid'.reverse.map fun x => a + b - x) b) false x := by
      simp [getDistance, reverse_open]
    obtain ⟨h1, h2⟩ := far_false deg a b _ (mid'.reverse.map fun x => a + b - x) h0 (reverse_pairwise a b mid h) (reverse_pairwise a b mid' h') (by
      intro z hz
      simp only [List.mem_map, List.mem_reverse] at hz ⊢
      obtain ⟨y, hy, rfl⟩ := hz
      exact ⟨y, hs y hy, rfl⟩) n x hx'
    rw [e]
    rw [show (!true) = false from rfl, zone_reverse _ _ _ _ _ hn, zone_reverse _ _ _ _ _ (by simpa using h2), reverse_open, reverse_open]
    exact h1

/-- C59. With knots symmetric about the middle of the side, before and after the refinement, the length kept C0 at the vertex stays the same. -/
theorem C59_symmetric_partial (deg : ℕ) (a b : ℚ) (mid mid' : List ℚ) (h0 : 0 ≤ a) (h : (a :: mid ++ [b]).Pairwise (· < ·)) (h' : (a :: mid' ++ [b]).Pairwise (· < ·))
    (hs : ∀ z ∈ mid, z ∈ mid') (hm : reverseKnots (openKnots deg a mid b) = openKnots deg a mid b) (hm' : reverseKnots (openKnots deg a mid' b) = openKnots deg a mid' b)
    (low : Bool) (n : ℕ) (x : ℚ) (hx : findParameter (openKnots deg a mid b) low n = some x) :
    zone deg (openKnots deg a mid' b) low (getDistance deg (openKnots deg a mid' b) low x) = zone deg (openKnots deg a mid b) low n := by
  have hn : n ≤ mid.length + 1 := by
    by_contra hc
    have := (C37_past_end deg a b mid h low n).2 (by omega)
    rw [this] at hx; cases hx
  have f : findParameter (openKnots deg a mid b) (!low) n = some x := by
    rw [← hx]; cases low <;> simp [findParameter, hm]
  have g : getDistance deg (openKnots deg a mid' b) low x = getDistance deg (openKnots deg a mid' b) (!low) x := by
    cases low <;> simp [getDistance, hm']
  have := C59_far_end deg a b mid mid' h0 h h' hs (!low) n x f
  rw [Bool.not_not] at this
  rw [g, this]

/-! ### Uniform refinement -/

open _root_.Verif.MPBESState (spanKnots uniformKnots uniform_mirror)

/-- Interior knots after a uniform refinement. -/
def umid (nk : ℕ) : ℚ → List ℚ → ℚ → List ℚ
  | a, [], b => spanKnots nk 1 a b
  | a, m :: l, b => spanKnots nk 1 a m ++ m :: umid nk m l b

theorem span_self (nk mul : ℕ) (a : ℚ) : spanKnots nk mul a a = [] := by simp [spanKnots]

theorem uniform_rep (nk k : ℕ) (a : ℚ) (l : List ℚ) : uniformKnots nk 1 (List.replicate (k + 1) a ++ l) = List.replicate k a ++ uniformKnots nk 1 (a :: l) := by
  induction k with
  | zero => rfl
  | succ k ih =>
    rw [List.replicate_succ] at ih ⊢
    rw [List.replicate_succ]
    simp only [List.cons_append, uniformKnots, span_self, List.nil_append] at ih ⊢
    rw [ih]

theorem uniform_mid (nk deg : ℕ) (a b : ℚ) (mid : List ℚ) :
    uniformKnots nk 1 (a :: (mid ++ List.replicate (deg + 1) b)) = a :: (umid nk a mid b ++ List.replicate (deg + 1) b) := by
  induction mid generalizing a with
  | nil =>
    have h := uniform_rep nk deg b []
    rw [List.append_nil] at h
    rw [List.nil_append, umid]
    rw [List.replicate_succ] at h ⊢
    rw [uniformKnots, h, uniformKnots]
    · rw [← List.replicate_succ', List.replicate_succ]
    · simp
  | cons m l ih =>
    rw [umid, List.cons_append, uniformKnots, ih]
    simp

theorem uniform_open (nk deg : ℕ) (a b : ℚ) (mid : List ℚ) : uniformKnots nk 1 (openKnots deg a mid b) = openKnots deg a (umid nk a mid b) b := by
  unfold openKnots
  rw [uniform_rep, uniform_mid, ← List.singleton_append, ← List.append_assoc, ← List.replicate_succ']

theorem span_mem (nk : ℕ) (x y z : ℚ) (h : z ∈ spanKnots nk 1 x y) : x < z ∧ z < y := by
  unfold spanKnots at h
  split_ifs at h with hxy
  · simp only [List.mem_flatMap, List.mem_range, List.mem_replicate] at h
    obtain ⟨i, hi, -, rfl⟩ := h
    have hn : (0 : ℚ) < (nk : ℚ) + 1 := by positivity
    have hi' : (i : ℚ) + 1 < (nk : ℚ) + 1 := by exact_mod_cast Nat.add_lt_add_right hi 1
    have h1 : 0 < (y - x) / ((nk : ℚ) + 1) := div_pos (by linarith) hn
    refine ⟨by have := mul_pos (show (0 : ℚ) < (i : ℚ) + 1 by positivity) h1; linarith, ?_⟩
    have h2 := mul_lt_mul_of_pos_right hi' h1
    have h3 : ((nk : ℚ) + 1) * ((y - x) / ((nk : ℚ) + 1)) = y - x := by field_simp
    linarith
  · cases h

theorem span_sorted (nk : ℕ) (x y : ℚ) : (spanKnots nk 1 x y).Pairwise (· < ·) := by
  unfold spanKnots
  split_ifs with hxy
  · simp only [List.replicate_one]
    rw [← List.map_eq_flatMap, List.pairwise_map]
    refine List.pairwise_lt_range.imp fun {i j} hij => ?_
    have hn : (0 : ℚ) < (nk : ℚ) + 1 := by positivity
    have h1 : 0 < (y - x) / ((nk : ℚ) + 1) := div_pos (by linarith) hn
    have hij' : (i : ℚ) + 1 < (j : ℚ) + 1 := by exact_mod_cast Nat.add_lt_add_right hij 1
    have := mul_lt_mul_of_pos_right hij' h1
    linarith
  · exact List.Pairwise.nil

theorem umid_sorted (nk : ℕ) (a b : ℚ) (mid : List ℚ) (h : (a :: mid ++ [b]).Pairwise (· < ·)) : (a :: umid nk a mid b ++ [b]).Pairwise (· < ·) := by
  induction mid generalizing a with
  | nil =>
    simp only [umid, List.cons_append, List.pairwise_cons, List.pairwise_append]
    have hab : a < b := by simpa using h
    refine ⟨?_, span_sorted nk a b, by simp, ?_⟩
    · intro z hz
      rcases List.mem_append.1 hz with hz | hz
      · exact (span_mem nk a b z hz).1
      · simp at hz; rwa [hz]
    · intro z hz y hy
      simp at hy; rw [hy]; exact (span_mem nk a b z hz).2
  | cons m l ih =>
    rw [List.cons_append, List.cons_append, List.pairwise_cons] at h
    have ih := ih m h.2
    have ham : a < m := h.1 m (by simp)
    rw [List.cons_append, List.pairwise_cons] at ih
    simp only [umid, List.cons_append, List.append_assoc, List.pairwise_cons, List.pairwise_append]
    have hm : ∀ z ∈ m :: (umid nk m l b ++ [b]), m ≤ z := by
      intro z hz
      rcases List.mem_cons.1 hz with rfl | hz
      · exact le_rfl
      · exact (ih.1 z hz).le
    refine ⟨?_, span_sorted nk a m, ⟨ih.1, ?_⟩, ?_⟩
    · intro z hz
      rcases List.mem_append.1 hz with hz | hz
      · exact (span_mem nk a m z hz).1
      · exact lt_of_lt_of_le ham (hm z hz)
    · have := List.pairwise_append.1 ih.2; simp only [List.pairwise_cons] at this
      exact this
    · intro z hz y hy
      exact lt_of_lt_of_le (span_mem nk a m z hz).2 (hm y hy)

theorem umid_sub (nk : ℕ) (a b : ℚ) (mid : List ℚ) : ∀ z ∈ mid, z ∈ umid nk a mid b := by
  induction mid generalizing a with
  | nil => simp
  | cons m l ih =>
    intro z hz
    rw [umid, List.mem_append]
    right
    rcases List.mem_cons.1 hz with rfl | hz
    · exact List.mem_cons_self
    · exact List.mem_cons_of_mem _ (ih m z hz)

/-- C59. Uniform refinement of symmetric knots, any number of times, keeps the length. -/
theorem C59_uniform_partial (nks : List ℕ) (deg : ℕ) (a b : ℚ) (mid : List ℚ) (h0 : 0 ≤ a) (h : (a :: mid ++ [b]).Pairwise (· < ·))
    (hm : reverseKnots (openKnots deg a mid b) = openKnots deg a mid b) (low : Bool) (n : ℕ) (x : ℚ)
    (hx : findParameter (openKnots deg a mid b) low n = some x) :
    zone deg (nks.foldl (fun k nk => uniformKnots nk 1 k) (openKnots deg a mid b)) low
      (getDistance deg (nks.foldl (fun k nk => uniformKnots nk 1 k) (openKnots deg a mid b)) low x) = zone deg (openKnots deg a mid b) low n := by
  have key : ∀ (nks : List ℕ) (mid' : List ℚ), (a :: mid' ++ [b]).Pairwise (· < ·) → reverseKnots (openKnots deg a mid' b) = openKnots deg a mid' b →
      (∀ z ∈ mid, z ∈ mid') → ∃ m, nks.foldl (fun k nk => uniformKnots nk 1 k) (openKnots deg a mid' b) = openKnots deg a m b ∧
        (a :: m ++ [b]).Pairwise (· < ·) ∧ reverseKnots (openKnots deg a m b) = openKnots deg a m b ∧ ∀ z ∈ mid, z ∈ m := by
    intro nks
    induction nks with
    | nil => exact fun m h1 h2 h3 => ⟨m, rfl, h1, h2, h3⟩
    | cons nk nks ih =>
      intro m h1 h2 h3
      rw [List.foldl_cons, uniform_open]
      apply ih _ (umid_sorted nk a b m h1)
      · rw [← uniform_open]
        have e : reverseKnots (uniformKnots nk 1 (openKnots deg a m b)) = ((uniformKnots nk 1 (openKnots deg a m b)).map (a + b - ·)).reverse := by
          unfold reverseKnots
          rw [uniform_open, open_head, open_last, List.map_reverse]
        rw [e, ← uniform_mirror]
        congr 1
        rw [← List.map_reverse]
        unfold reverseKnots at h2
        rwa [open_head, open_last] at h2
      · exact fun z hz => umid_sub nk a b m z (h3 z hz)
  obtain ⟨m, e, h1, h2, h3⟩ := key nks mid h hm (fun z hz => hz)
  rw [e]
  exact C59_symmetric_partial deg a b mid m h0 h h1 h3 hm h2 low n x hx

example : ((0 : ℚ) :: [1/4, 1/2, 3/4] ++ [1]).Pairwise (· < ·) ∧ reverseKnots (openKnots 2 0 [1/4, 1/2, 3/4] 1) = openKnots 2 0 [1/4, 1/2, 3/4] 1 ∧
    findParameter (openKnots 2 0 [1/4, 1/2, 3/4] 1) true 2 = some (1/2) ∧ zone 2 (openKnots 2 0 [1/4, 1/2, 3/4] 1) true 2 = 1/2 := by
  refine ⟨by norm_num, by decide +kernel, by decide +kernel, by decide +kernel⟩

/-- C59. In general it is not kept: quadratic splines on four elements of length one, one function kept C0 at the lower end, that is `[0,1]`; after a knot is inserted at `1/2`
only `[0,1/2]` is kept C0. So a spline of the basis before the refinement, with a kink between `1/2` and `1`, is not one of the refined basis. -/
theorem C59_violated : ¬ ∀ (deg : ℕ) (a b : ℚ) (mid mid' : List ℚ) (low : Bool) (n : ℕ) (x : ℚ), 0 ≤ a → (a :: mid ++ [b]).Pairwise (· < ·) →
    (a :: mid' ++ [b]).Pairwise (· < ·) → (∀ z ∈ mid, z ∈ mid') → findParameter (openKnots deg a mid b) low n = some x →
    zone deg (openKnots deg a mid' b) low (getDistance deg (openKnots deg a mid' b) low x) = zone deg (openKnots deg a mid b) low n := by
  intro H
  have h : ((0 : ℚ) :: [1, 2, 3] ++ [4]).Pairwise (· < ·) := by norm_num
  have h' : ((0 : ℚ) :: [1/2, 1, 2, 3] ++ [4]).Pairwise (· < ·) := by norm_num
  have hx : findParameter (openKnots 2 0 [1, 2, 3] 4) true 1 = some 1 := by
    unfold findParameter
    simp only [if_true, reverse_open, uknots_open _ _ _ _ (reverse_pairwise _ _ _ h)]
    norm_num
  have hx' : findParameter (openKnots 2 0 [1/2, 1, 2, 3] 4) true 1 = some 1 := by
    unfold findParameter
    simp only [if_true, reverse_open, uknots_open _ _ _ _ (reverse_pairwise _ _ _ h')]
    norm_num
  obtain ⟨y, h1, h2⟩ := C37_roundtrip_partial 2 0 4 [1/2, 1, 2, 3] le_rfl h' true 1 (by decide)
  rw [hx', Option.some.injEq] at h1
  subst h1
  have := H 2 0 4 [1, 2, 3] [1/2, 1, 2, 3] true 1 1 le_rfl h h' (by simp) hx
  rw [h2] at this
  norm_num [zone, openKnots, List.replicate_succ] at this

/-! ## C60: hierarchical bases -/

/-- The side of a hierarchical basis: the levels have open knot vectors with simple interior knots on the same interval, and a flag for every function. -/
def Side (deg : ℕ) (a b : ℚ) (levels : List (List ℚ × List Bool)) : Prop := ∀ l ∈ levels, ∃ mid, l.1 = openKnots deg a mid b ∧ (a :: mid ++ [b]).Pairwise (· < ·) ∧
  l.2.length = mid.length + (deg + 1)

/-- The knots of all levels are symmetric about the middle. -/
def Symmetric (levels : List (List ℚ × List Bool)) : Prop := ∀ l ∈ levels, reverseKnots l.1 = l.1

/-- Specification: the flags of the functions of a level, from the corner on. -/
def fromCorner (low : Bool) (act : List Bool) : List Bool := if low then act else act.reverse

/-- Specification: how many active functions are among the functions reserved on the levels. -/
def reserved (deg : ℕ) (levels : List (List ℚ × List Bool)) (low : Bool) (x : ℚ) : ℕ :=
  ((List.range levels.length).map fun l => ((fromCorner low (levels.getD l ([], [])).2).take (hGetDistance deg levels low x l)).count true).sum

theorem open_drop (deg : ℕ) (a b : ℚ) (mid : List ℚ) : (openKnots deg a mid b).drop (deg + 1) = (mid ++ [b]) ++ List.replicate deg b := by
  unfold openKnots
  rw [List.drop_left' (by simp), List.replicate_succ]; simp

theorem open_ends_sorted (deg : ℕ) (a b : ℚ) (mid : List ℚ) (h : (a :: mid ++ [b]).Pairwise (· < ·)) :
    ((openKnots deg a mid b).drop (deg + 1)).Pairwise (· ≤ ·) ∧ ∀ x, x < b → ((openKnots deg a mid b).drop (deg + 1)).Pairwise fun p q => p < q ∨ x < q := by
  rw [open_drop]
  rw [List.cons_append, List.pairwise_cons] at h
  have hp := h.2
  have hb : ∀ z ∈ mid ++ [b], z ≤ b := by
    intro z hz
    rcases List.mem_append.1 hz with hz | hz
    · exact ((List.pairwise_append.1 hp).2.2 z hz b (by simp)).le
    · simp at hz; rw [hz]
  constructor
  · rw [List.pairwise_append]
    refine ⟨hp.imp fun h => h.le, ?_, ?_⟩
    · rw [List.pairwise_replicate]; right; exact le_rfl
    · intro z hz y hy
      rw [(List.mem_replicate.1 hy).2]; exact hb z hz
  · intro x hx
    rw [List.pairwise_append]
    refine ⟨hp.imp fun h => Or.inl h, ?_, ?_⟩
    · rw [List.pairwise_replicate]; right; exact Or.inr hx
    · intro z hz y hy
      rw [(List.mem_replicate.1 hy).2]; exact Or.inr hx

theorem getDistance_eq (deg : ℕ) (a b : ℚ) (mid : List ℚ) (h : (a :: mid ++ [b]).Pairwise (· < ·)) (low : Bool)
    (hs : reverseKnots (openKnots deg a mid b) = openKnots deg a mid b) (x : ℚ) (hx : x ≠ 0) :
    getDistance deg (openKnots deg a mid b) low x = firstGe x ((openKnots deg a mid b).drop (deg + 1)) + 1 := by
  unfold getDistance
  rw [if_neg hx]
  have e : (if low then reverseKnots (openKnots deg a mid b) else openKnots deg a mid b) = openKnots deg a mid b := by
    cases low <;> simp [hs]
  simp only [e]
  rw [List.mergeSort_of_pairwise]
  exact (open_ends_sorted deg a b mid h).1.imp fun h => by simpa using h

theorem level_enough (x : ℚ) (E : List ℚ) (act : List Bool) (h : E.Pairwise fun p q => p < q ∨ x < q) :
    ((((E.zip act).filter fun y => y.2).map fun y => y.1).countP fun z => z ≤ x) ≤ (act.take (firstGe x E + 1)).count true := by
  induction E generalizing act with
  | nil => simp
  | cons e E ih =>
    cases act with
    | nil => simp
    | cons f act =>
      rw [List.pairwise_cons] at h
      by_cases hx : x ≤ e
      · have h0 : ((((E.zip act).filter fun y => y.2).map fun y => y.1).countP fun z => z ≤ x) = 0 := by
          rw [List.countP_eq_zero]
          intro z hz
          simp only [List.mem_map, List.mem_filter] at hz
          obtain ⟨⟨y, g⟩, ⟨h1, -⟩, rfl⟩ := hz
          have := h.1 y (List.of_mem_zip h1).1
          simp only [decide_eq_true_eq, not_le]
          rcases this with h2 | h2
          · exact lt_of_le_of_lt hx h2
          · exact h2
        rw [firstGe, if_pos hx]
        cases f
        · simpa using h0
        · simp only [List.zip_cons_cons, List.filter_cons_of_pos, List.map_cons, List.countP_cons, h0]
          simp
          split_ifs <;> omega
      · rw [firstGe, if_neg hx]
        have ih := ih act h.2
        cases f
        · simp only [List.zip_cons_cons]
          rw [show 1 + firstGe x E + 1 = (firstGe x E + 1) + 1 by omega]
          simpa using ih
        · rw [show 1 + firstGe x E + 1 = (firstGe x E + 1) + 1 by omega]
          simp only [List.zip_cons_cons, List.filter_cons_of_pos, List.map_cons, List.countP_cons, List.take_succ_cons, List.count_cons_self]
          have : (if decide (e ≤ x) = true then 1 else 0) ≤ 1 := by split_ifs <;> omega
          omega

theorem count_sorted (L : List ℚ) (h : L.Pairwise (· ≤ ·)) (n : ℕ) (x : ℚ) (hx : L[n]? = some x) : n + 1 ≤ L.countP fun z => z ≤ x := by
  obtain ⟨hn, hx'⟩ := List.getElem?_eq_some_iff.1 hx
  have h1 : (L.take (n + 1)).countP (fun z => z ≤ x) = n + 1 := by
    rw [List.countP_eq_length.2, List.length_take, min_eq_left (by omega)]
    intro z hz
    obtain ⟨i, hi, rfl⟩ := List.getElem_of_mem hz
    rw [List.length_take] at hi
    rw [List.getElem_take, ← hx']
    simp only [decide_eq_true_eq]
    rcases Nat.lt_or_ge i n with h2 | h2
    · exact List.pairwise_iff_getElem.1 h i n (by omega) hn h2
    · have : i = n := by omega
      subst this; exact le_rfl
  rw [← h1]
  exact (List.take_sublist (n + 1) L).countP_le

theorem sum_le {α : Type} (l : List α) (f g : α → ℕ) (h : ∀ y ∈ l, f y ≤ g y) : (l.map f).sum ≤ (l.map g).sum := by
  induction l with
  | nil => simp
  | cons y l ih =>
    simp only [List.map_cons, List.sum_cons]
    have := h y List.mem_cons_self
    have := ih fun z hz => h z (List.mem_cons_of_mem _ hz)
    omega

/-- C60. With symmetric knots, at least as many active functions are reserved on all levels together as were asked for. -/
theorem C60_enough_partial (deg : ℕ) (a b : ℚ) (h0 : 0 ≤ a) (levels : List (List ℚ × List Bool)) (hl : Side deg a b levels) (hs : Symmetric levels) (low : Bool)
    (n : ℕ) (x : ℚ) (hx : hFindParameter deg levels low n = some x) (hb : x < b) : n ≤ reserved deg levels low x := by
  by_cases hn : n = 0
  · omega
  unfold hFindParameter at hx
  rw [if_neg hn] at hx
  have hsort : ((ends deg (!low) levels).mergeSort (· ≤ ·)).Pairwise (· ≤ ·) := by
    have := List.pairwise_mergeSort (le := fun p q : ℚ => decide (p ≤ q)) (by intro p q r; simp; exact le_trans) (by intro p q; simp; exact le_total p q) (ends deg (!low) levels)
    exact this.imp fun h => by simpa using h
  have h1 := count_sorted _ hsort (n - 1) x hx
  have h2 : ((ends deg (!low) levels).mergeSort (· ≤ ·)).countP (fun z => z ≤ x) = (ends deg (!low) levels).countP fun z => z ≤ x :=
    (List.mergeSort_perm _ _).countP_eq _
  rw [h2] at h1
  have hmem : x ∈ ends deg (!low) levels := (List.mergeSort_perm _ _).mem_iff.1 (List.mem_of_getElem? hx)
  have hx0 : x ≠ 0 := by
    unfold ends at hmem
    rw [List.mem_flatMap] at hmem
    obtain ⟨l, hl1, hl2⟩ := hmem
    obtain ⟨mid, e1, e2, e3⟩ := hl l hl1
    simp only [hs l hl1, ite_self, List.mem_map, List.mem_filter] at hl2
    obtain ⟨⟨y, g⟩, ⟨h3, -⟩, rfl⟩ := hl2
    have h4 := (List.of_mem_zip h3).1
    rw [e1, open_drop] at h4
    have : a < y := by
      rw [List.cons_append, List.pairwise_cons] at e2
      rcases List.mem_append.1 h4 with h5 | h5
      · exact e2.1 y h5
      · rw [(List.mem_replicate.1 h5).2]; exact e2.1 b (by simp)
    exact ne_of_gt (lt_of_le_of_lt h0 this)
  have h3 : (ends deg (!low) levels).countP (fun z => z ≤ x) ≤ reserved deg levels low x := by
    unfold ends reserved
    rw [List.countP_flatMap]
    have e : levels = (List.range levels.length).map fun l => levels.getD l ([], []) := by
      apply List.ext_getElem
      · simp
      · intro i hi _
        rw [List.getElem_map, List.getElem_range, List.getD_eq_getElem _ _ hi]
    conv_lhs => rw [e, List.map_map]
    apply sum_le
    intro i hi
    have hi := List.mem_range.1 hi
    have hm : levels.getD i ([], []) ∈ levels := by rw [List.getD_eq_getElem _ _ hi]; exact List.getElem_mem hi
    obtain ⟨mid, e1, e2, e3⟩ := hl _ hm
    have hsy := hs _ hm
    simp only [Function.comp, hsy, ite_self]
    unfold hGetDistance fromCorner
    rw [e1] at hsy ⊢
    rw [getDistance_eq deg a b mid e2 low hsy x hx0]
    have hle := level_enough x _ (if (!low) then (levels.getD i ([], [])).2.reverse else (levels.getD i ([], [])).2) ((open_ends_sorted deg a b mid e2).2 x hb)
    cases low
    · simpa using hle
    · simpa using hle
  omega

theorem firstGe_iff (x : ℚ) (E : List ℚ) (h : E.Pairwise (· ≤ ·)) (i : ℕ) (hi : i < E.length) : i < firstGe x E ↔ E[i] < x := by
  induction E generalizing i with
  | nil => simp at hi
  | cons e E ih =>
    rw [List.pairwise_cons] at h
    unfold firstGe
    cases i with
    | zero =>
      split_ifs with hx
      · simp [hx]
      · simpa using hx
    | succ i =>
      have hi' : i < E.length := by simpa using hi
      split_ifs with hx
      · have := h.1 _ (List.getElem_mem hi')
        simp
        linarith
      · rw [List.getElem_cons_succ, ← ih h.2 i hi']
        omega

/-- C60. Which functions a level reserves, with symmetric knots: function `i` from the corner is reserved if and only if the functions before it do not cover the length yet. So on a
level that has a knot at the end, exactly the functions whose support is in this length; on other levels one more. -/
theorem C60_reserved_partial (deg : ℕ) (a b : ℚ) (mid : List ℚ) (h : (a :: mid ++ [b]).Pairwise (· < ·)) (hs : reverseKnots (openKnots deg a mid b) = openKnots deg a mid b)
    (low : Bool) (x : ℚ) (hx : x ≠ 0) (ha : a < x) (i : ℕ) (hi : i ≤ mid.length + 1) :
    i < getDistance deg (openKnots deg a mid b) low x ↔ zone deg (openKnots deg a mid b) low i < x - a := by
  rw [getDistance_eq deg a b mid h low hs x hx]
  have hz : zone deg (openKnots deg a mid b) low i = zone deg (openKnots deg a mid b) true i := by
    cases low
    · rw [zone_reverse _ _ _ _ _ hi, hs]
    · rfl
  rw [hz]
  cases i with
  | zero => simp [zone, ha]
  | succ m =>
    have hm : m < (mid ++ [b]).length := by simp; omega
    unfold zone
    rw [if_neg (by omega), if_pos rfl, open_get _ _ _ _ _ hm, open_head]
    have hm' : m < ((openKnots deg a mid b).drop (deg + 1)).length := by rw [open_drop]; simp; omega
    have := firstGe_iff x _ (open_ends_sorted deg a b mid h).1 m hm'
    have e : ((openKnots deg a mid b).drop (deg + 1))[m] = (mid ++ [b])[m] := by
      simp only [open_drop]
      rw [List.getElem_append_left hm]
    rw [e] at this
    constructor
    · intro h1
      have := this.1 (by omega)
      linarith
    · intro h1
      have := this.2 (by linarith)
      omega

/-- C60. A request for more functions than are active on the side reads past the end. -/
theorem C60_past_end (deg : ℕ) (a b : ℚ) (levels : List (List ℚ × List Bool)) (hl : Side deg a b levels) (low : Bool) (n : ℕ) :
    hFindParameter deg levels low n = none ↔ (levels.map fun l => l.2.count true).sum < n := by
  unfold hFindParameter
  have key : ∀ (E : List ℚ) (act : List Bool), E.length = act.length → (((E.zip act).filter fun y => y.2).map fun y => y.1).length = act.count true := by
    intro E act
    induction E generalizing act with
    | nil => intro h; rw [List.length_nil] at h; rw [List.length_eq_zero_iff.1 h.symm]; rfl
    | cons e E ih =>
      intro h
      cases act with
      | nil => simp at h
      | cons f act =>
        have := ih act (by simpa using h)
        cases f <;> simpa using this
  have e : (ends deg (!low) levels).length = (levels.map fun l => l.2.count true).sum := by
    unfold ends
    rw [List.length_flatMap]
    congr 1
    apply List.map_congr_left
    intro l hm
    obtain ⟨mid, e1, -, e3⟩ := hl l hm
    have hlen : ∀ m : List ℚ, m.length = mid.length → ((openKnots deg a m b).drop (deg + 1)).length = l.2.length := by
      intro m hm'
      rw [e3, open_drop]; simp [hm']
    cases low
    · simp only [Bool.not_false, if_true]
      rw [key _ _ (by rw [e1, reverse_open, hlen _ (by simp), List.length_reverse]), List.count_reverse]
    · simp only [Bool.not_true, Bool.false_eq_true, if_false]
      rw [key _ _ (by rw [e1, hlen _ rfl])]
  by_cases hn : n = 0
  · simp [hn]
  · rw [if_neg hn, List.getElem?_eq_none_iff, List.length_mergeSort, e]
    omega

/-! ### Graded knots -/

/-- One level, linear splines on elements of lengths `1/8, 1/8, 1/8, 5/8`. -/
def graded : List (List ℚ × List Bool) := [(openKnots 1 0 [1/8, 1/4, 3/8] 1, List.replicate 5 true)]

theorem graded_sorted : ((0 : ℚ) :: [1/8, 1/4, 3/8] ++ [1]).Pairwise (· < ·) := by norm_num

theorem graded_side : Side 1 0 1 graded := by
  intro l hl
  simp only [graded, List.mem_singleton] at hl
  subst hl
  exact ⟨_, rfl, graded_sorted, by decide⟩

theorem graded_low : hFindParameter 1 graded true 3 = some (3/8) := by
  unfold hFindParameter
  rw [show ends 1 (!true) graded = [1/8, 1/4, 3/8, 1, 1] by decide +kernel, List.mergeSort_of_pairwise (by norm_num)]
  rfl

theorem graded_high : hFindParameter 1 graded false 1 = some (5/8) := by
  unfold hFindParameter
  rw [show ends 1 (!false) graded = [5/8, 3/4, 7/8, 1, 1] by decide +kernel, List.mergeSort_of_pairwise (by norm_num)]
  rfl

theorem graded_read_low : hGetDistance 1 graded true (3/8) 0 = 1 := by
  unfold hGetDistance getDistance
  rw [if_neg (by norm_num)]
  simp only [if_true]
  rw [show (reverseKnots (graded.getD 0 ([], [])).1).drop (1 + 1) = [5/8, 3/4, 7/8, 1, 1] by decide +kernel, List.mergeSort_of_pairwise (by norm_num)]
  norm_num [firstGe]

theorem graded_read_high : hGetDistance 1 graded false (5/8) 0 = 4 := by
  unfold hGetDistance getDistance
  rw [if_neg (by norm_num)]
  simp only [Bool.false_eq_true, if_false]
  rw [show ((graded.getD 0 ([], [])).1).drop (1 + 1) = [1/8, 1/4, 3/8, 1, 1] by decide +kernel, List.mergeSort_of_pairwise (by norm_num)]
  norm_num [firstGe]

/-- C60. With graded knots three functions are asked for and one is reserved. -/
theorem C60_enough_violated : ¬ ∀ (deg : ℕ) (a b : ℚ) (levels : List (List ℚ × List Bool)) (low : Bool) (n : ℕ) (x : ℚ), 0 ≤ a → Side deg a b levels →
    hFindParameter deg levels low n = some x → x < b → n ≤ reserved deg levels low x := by
  intro H
  have := H 1 0 1 graded true 3 (3/8) le_rfl graded_side graded_low (by norm_num)
  revert this
  unfold reserved
  rw [show List.range graded.length = [0] from rfl]
  simp only [List.map_cons, List.map_nil, graded_read_low]
  decide

/-- C60. At the other end one function is asked for and four are reserved: the whole side. -/
theorem C60_too_many : hFindParameter 1 graded false 1 = some (5/8) ∧ hGetDistance 1 graded false (5/8) 0 = 4 ∧ zone 1 (openKnots 1 0 [1/8, 1/4, 3/8] 1) false 4 = 1 :=
  ⟨graded_high, graded_read_high, by norm_num [zone, openKnots, List.replicate_succ]⟩

/-- Two levels, linear splines: the side is refined in its first half. -/
def twoLevels : List (List ℚ × List Bool) :=
  [(openKnots 1 0 [1/4, 1/2, 3/4] 1, [false, false, true, true, true]),
   (openKnots 1 0 [1/8, 1/4, 3/8, 1/2, 5/8, 3/4, 7/8] 1, [true, true, true, true, false, false, false, false, false])]

example : Side 1 0 1 twoLevels ∧ Symmetric twoLevels ∧ hFindParameter 1 twoLevels true 3 = some (3/8) := by
  refine ⟨?_, ?_, ?_⟩
  · intro l hl
    simp only [twoLevels, List.mem_cons, List.not_mem_nil, or_false] at hl
    rcases hl with rfl | rfl
    · exact ⟨_, rfl, by norm_num, by decide⟩
    · exact ⟨_, rfl, by norm_num, by decide⟩
  · intro l hl
    simp only [twoLevels, List.mem_cons, List.not_mem_nil, or_false] at hl
    rcases hl with rfl | rfl <;> decide +kernel
  · unfold hFindParameter
    have hp : (ends 1 (!true) twoLevels).Perm [1/8, 1/4, 3/8, 1/2, 3/4, 1, 1] := by decide +kernel
    have h1 := (List.mergeSort_perm (ends 1 (!true) twoLevels) (fun p q => decide (p ≤ q))).trans hp
    have h2 : ((ends 1 (!true) twoLevels).mergeSort fun p q => decide (p ≤ q)) = [1/8, 1/4, 3/8, 1/2, 3/4, 1, 1] := by
      refine h1.eq_of_pairwise (le := fun p q : ℚ => decide (p ≤ q) = true) ?_ ?_ (by norm_num)
      · intro p q _ _ h3 h4; simp at h3 h4; exact le_antisymm h3 h4
      · exact List.pairwise_mergeSort (by intro p q r; simp; exact le_trans) (by intro p q; simp; exact le_total p q) _
    rw [if_neg (by decide), h2]
    rfl

end Verif.Distances
