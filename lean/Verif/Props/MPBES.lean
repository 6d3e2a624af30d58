import Verif.Model.MPBES
import Mathlib.Tactic.Linarith
import Mathlib.Tactic.Ring
import Mathlib.Data.Rat.Cast.Order
import Mathlib.Tactic.NormNum
import Mathlib.Data.List.Induction
/-!
# Properties C28, C29, C33, C37, C38: bookkeeping of the MPBES basis
-/
set_option autoImplicit false
namespace Verif.MPBES
open Verif

/-! ## C28: interface weights -/
section weights
variable {S W : Type} [DecidableEq S]

theorem setLoop_found (q : S) (w : W) (l : List (S × W)) : (setLoop q w l).2 = true ↔ ∃ v, (q, v) ∈ l := by
  induction l with
  | nil => simp [setLoop]
  | cons x l ih =>
    obtain ⟨s, v⟩ := x
    unfold setLoop
    by_cases h : s = q
    · simp [h]
    · simp [h, ih, Ne.symm h]

theorem get_setLoop (one : W) (q : S) (w : W) (l : List (S × W)) (r : S) :
    getWeight one (setLoop q w l).1 r = if r = q ∧ (setLoop q w l).2 then w else getWeight one l r := by
  induction l with
  | nil => simp [setLoop, getWeight]
  | cons x l ih =>
    obtain ⟨s, v⟩ := x
    unfold setLoop
    by_cases h : s = q
    · subst h
      simp only [if_true, getWeight]
      by_cases hr : s = r
      · simp [hr]
      · simp [hr, Ne.symm hr, ih]
    · simp only [h, if_false, getWeight]
      by_cases hr : s = r
      · subst hr; simp [h]
      · simp [hr, ih]

theorem get_append (one : W) (l : List (S × W)) (q : S) (w : W) (r : S) (hn : ¬ ∃ v, (q, v) ∈ l) :
    getWeight one (l ++ [(q, w)]) r = if r = q then w else getWeight one l r := by
  induction l with
  | nil => simp [getWeight, eq_comm]
  | cons x l ih =>
    obtain ⟨s, v⟩ := x
    have hs : s ≠ q := by rintro rfl; exact hn ⟨v, by simp⟩
    have := ih (fun ⟨v, hv⟩ => hn ⟨v, by simp [hv]⟩)
    simp only [List.cons_append, getWeight, this]
    by_cases hr : s = r
    · subst hr; simp [hs]
    · simp [hr]

theorem setLoop_keys (q : S) (w : W) (l : List (S × W)) (s : S) :
    (∃ v, (s, v) ∈ (setLoop q w l).1) ↔ ∃ v, (s, v) ∈ l := by
  induction l with
  | nil => simp [setLoop]
  | cons x l ih =>
    obtain ⟨t, v⟩ := x
    unfold setLoop
    by_cases h : t = q <;> simp only [h, if_true, if_false, List.mem_cons, Prod.mk.injEq] <;>
      (constructor
       · rintro ⟨u, h1 | h1⟩
         · exact ⟨v, Or.inl ⟨h1.1, rfl⟩⟩
         · obtain ⟨u', h2⟩ := ih.1 ⟨u, h1⟩; exact ⟨u', Or.inr h2⟩
       · rintro ⟨u, h1 | h1⟩
         · exact ⟨_, Or.inl ⟨h1.1, rfl⟩⟩
         · obtain ⟨u', h2⟩ := ih.2 ⟨u, h1⟩; exact ⟨u', Or.inr h2⟩)

/-- C28. One call: it succeeds exactly if the side is an interface or was set before; if it succeeds, the side has the new
weight and every other side keeps its weight; if it fails nothing changes. -/
theorem C28_set_get (isI : S → Bool) (one : W) (l : List (S × W)) (q : S) (w : W) :
    ((setWeight isI q w l).2 = true ↔ isI q = true ∨ ∃ v, (q, v) ∈ l) ∧
    ((setWeight isI q w l).2 = true → getWeight one (setWeight isI q w l).1 q = w) ∧
    ((setWeight isI q w l).2 = false → ∀ r, getWeight one (setWeight isI q w l).1 r = getWeight one l r) ∧
    (∀ r, r ≠ q → getWeight one (setWeight isI q w l).1 r = getWeight one l r) := by
  have hf := setLoop_found q w l
  have hg := get_setLoop one q w l
  have hk : ¬ (setLoop q w l).2 = true → ¬ ∃ v, (q, v) ∈ (setLoop q w l).1 := by
    intro h; rw [setLoop_keys, ← hf]; exact h
  unfold setWeight
  by_cases h : (setLoop q w l).2 = true
  · have h' := hf.1 h
    simp only [h, Bool.not_true, Bool.false_and, Bool.false_eq_true, if_false]
    refine ⟨by simp [h'], fun _ => by simp [hg, h], fun h0 => absurd h0 (by simp), fun r hr => by simp [hg, hr]⟩
  · have h' := mt hf.2 h
    have hfalse : (setLoop q w l).2 = false := by simpa using h
    cases hi : isI q
    · simp only [hfalse, Bool.and_false, Bool.false_eq_true, if_false]
      refine ⟨by simp only [Bool.false_eq_true, false_or, false_iff]; exact h', fun h0 => absurd h0 (by simp),
        fun _ r => by simp [hg, hfalse], fun r _ => by simp [hg, hfalse]⟩
    · simp only [hfalse, Bool.not_false, Bool.and_self, if_true]
      refine ⟨by simp, fun _ => ?_, fun h0 => absurd h0 (by simp), fun r hr => ?_⟩
      · rw [get_append one _ _ _ _ (hk h)]; simp
      · rw [get_append one _ _ _ _ (hk h)]; simp [hr, hg]

/-- Weights after a history of `setWeight` calls, starting with no weights. -/
def run (isI : S → Bool) (h : List (S × W)) : List (S × W) :=
  h.foldl (fun l c => (setWeight isI c.1 c.2 l).1) []

/-- Specification: the weight of the last call for `q`, if `q` is an interface; one otherwise. -/
def lastWeight (isI : S → Bool) (one : W) (h : List (S × W)) (q : S) : W :=
  match isI q, h.reverse.find? (fun c => c.1 = q) with
  | true, some c => c.2
  | _, _ => one

theorem run_keys (isI : S → Bool) (h : List (S × W)) (s : S) (v : W) (hm : (s, v) ∈ run isI h) : isI s = true := by
  induction h using List.reverseRecOn generalizing s v with
  | nil => simp [run] at hm
  | append_singleton h c ih =>
    unfold run at hm ih
    rw [List.foldl_append] at hm
    simp only [List.foldl_cons, List.foldl_nil] at hm
    set l := h.foldl (fun l c => (setWeight isI c.1 c.2 l).1) [] with hl
    unfold setWeight at hm
    simp only [] at hm
    split at hm
    · rename_i hc
      simp only [List.mem_append, List.mem_singleton] at hm
      rcases hm with hm | hm
      · obtain ⟨v', h'⟩ := (setLoop_keys c.1 c.2 l s).1 ⟨v, hm⟩
        exact ih s v' h'
      · simp only [Prod.mk.injEq] at hm
        rw [hm.1]; simp only [Bool.and_eq_true] at hc; exact hc.2
    · obtain ⟨v', h'⟩ := (setLoop_keys c.1 c.2 l s).1 ⟨v, hm⟩
      exact ih s v' h'

/-- C28. After every history of calls, each query returns the weight of the last call for that side (one if the side is no
interface or was never set), and a call is refused exactly for a side that is no interface. -/
theorem C28_histories (isI : S → Bool) (one : W) (h : List (S × W)) :
    (∀ q, getWeight one (run isI h) q = lastWeight isI one h q) ∧
    (∀ q w, (setWeight isI q w (run isI h)).2 = false ↔ isI q = false) := by
  have href : ∀ h : List (S × W), ∀ q w, (setWeight isI q w (run isI h)).2 = true ↔ isI q = true := by
    intro h q w
    rw [(C28_set_get isI one (run isI h) q w).1]
    constructor
    · rintro (h1 | ⟨v, hv⟩)
      · exact h1
      · exact run_keys isI h q v hv
    · exact Or.inl
  refine ⟨?_, fun q w => ?_⟩
  · induction h using List.reverseRecOn with
    | nil => intro q; unfold lastWeight run; cases isI q <;> simp [getWeight]
    | append_singleton h c ih =>
      intro q
      have e : run isI (h ++ [c]) = (setWeight isI c.1 c.2 (run isI h)).1 := by
        unfold run; rw [List.foldl_append]; rfl
      obtain ⟨-, h2, h3, h4⟩ := C28_set_get isI one (run isI h) c.1 c.2
      have hlast : lastWeight isI one (h ++ [c]) q =
          if isI q = true ∧ c.1 = q then c.2 else lastWeight isI one h q := by
        unfold lastWeight
        rw [List.reverse_append, List.reverse_singleton, List.singleton_append, List.find?_cons]
        by_cases hc : c.1 = q <;> cases isI q <;> simp [hc]
      rw [e, hlast]
      by_cases hc : c.1 = q
      · subst hc
        cases hi : isI c.1
        · have hfail : (setWeight isI c.1 c.2 (run isI h)).2 = false := by
            have := (href h c.1 c.2).not; rw [hi] at this; simpa using this
          rw [h3 hfail, ih]; simp
        · rw [h2 ((href h c.1 c.2).2 hi)]; simp
      · rw [h4 q (Ne.symm hc), ih]; simp [hc]
  · have := (href h q w).not
    simpa using this

/-- Sides as numbers, even ones being interfaces: an odd side is refused, an even one overwritten. -/
example : (run (fun s : ℕ => s % 2 == 0) [(2, (5 : ℚ)), (3, 7), (2, 9)]) = [(2, 9)] ∧
    getWeight (1 : ℚ) (run (fun s : ℕ => s % 2 == 0) [(2, (5 : ℚ)), (3, 7), (2, 9)]) 3 = 1 := by decide

end weights

/-! ## C38: marking a vertex as C0 -/

/-- C38. Marking a vertex marks exactly the patch corners of that vertex; all other corners keep their mark, whatever was
marked before. -/
theorem C38_setC0 {S : Type} [DecidableEq S] (l : List (S × Bool)) (corners : List S) (q : S) :
    isSpecial (setC0 l corners) q = (isSpecial l q || decide (q ∈ corners)) := by
  unfold setC0 isSpecial
  induction corners generalizing l with
  | nil => simp
  | cons c cs ih =>
    rw [List.foldl_cons, ih]
    obtain ⟨h1, h2, -, h4⟩ := C28_set_get (fun _ : S => true) false l c true
    by_cases hq : q = c
    · subst hq
      rw [h2 (h1.2 (Or.inl rfl))]; simp
    · rw [h4 q hq]; simp [hq]

example : isSpecial (setC0 [(4, false), (5, true)] [4, 7]) 4 = true ∧
    isSpecial (setC0 [(4, false), (5, true)] [4, 7]) 6 = false := by decide

/-! ## C29: reserved distances fit on the side -/

/-- C29, exact form. Given distances below 2³¹ and a side with at least `degree` functions, the functions reserved at the two
ends overlap exactly in one situation: no special vertex, interfaces at both ends and `2·degree` larger than the side. -/
theorem C29_exact (ls rs li ri : Bool) (dist degree max : ℕ) (hd : dist < 2 ^ 31) (hm : max < 2 ^ 32) (hdm : degree ≤ max) :
    (determineValues ls rs li ri dist degree max).1 + (determineValues ls rs li ri dist degree max).2 ≤ max ↔
      ¬ (ls = false ∧ rs = false ∧ li = true ∧ ri = true ∧ max < 2 * degree) := by
  have e1 : uadd dist dist = dist + dist := Nat.mod_eq_of_lt (by simp [U]; omega)
  have e2 : ∀ a b, b ≤ a → a < 2 ^ 32 → usub a b = a - b := by
    intro a b hba ha
    unfold usub
    have hb : b % U = b := Nat.mod_eq_of_lt (by simp [U]; omega)
    rw [hb]
    have : a + (U - b) = (a - b) + U := by simp [U]; omega
    rw [this, Nat.add_mod_right, Nat.mod_eq_of_lt (by simp [U]; omega)]
  unfold determineValues
  rw [e1, e2 max degree hdm hm, e2 max (max / 2) (by omega) hm]
  cases ls <;> cases rs <;> cases li <;> cases ri <;> simp <;> (try split_ifs) <;> omega

/-- C29. What each end gets: an end whose vertex is not special gets `degree` functions at an interface and none at a
boundary; a special vertex gets the wanted distance cut to the room left by the other end; two special vertices share
the side evenly if it is too short. -/
theorem C29_ends (ls rs li ri : Bool) (dist degree max : ℕ) (hd : dist < 2 ^ 31) (hm : max < 2 ^ 32) (hdm : degree ≤ max) :
    let r := determineValues ls rs li ri dist degree max
    (ls = false → r.1 = if li then degree else 0) ∧
    (rs = false → r.2 = if ri then degree else 0) ∧
    (ls = true → rs = false → r.1 = min dist (max - if ri then degree else 0)) ∧
    (ls = false → rs = true → r.2 = min dist (max - if li then degree else 0)) ∧
    (ls = true → rs = true → r = if 2 * dist ≤ max then (dist, dist) else (max / 2, (max + 1) / 2)) := by
  have e1 : uadd dist dist = dist + dist := Nat.mod_eq_of_lt (by simp [U]; omega)
  have e2 : ∀ a b, b ≤ a → a < 2 ^ 32 → usub a b = a - b := by
    intro a b hba ha
    unfold usub
    have hb : b % U = b := Nat.mod_eq_of_lt (by simp [U]; omega)
    rw [hb]
    have : a + (U - b) = (a - b) + U := by simp [U]; omega
    rw [this, Nat.add_mod_right, Nat.mod_eq_of_lt (by simp [U]; omega)]
  have e3 : max - max / 2 = (max + 1) / 2 := by omega
  unfold determineValues
  rw [e1, e2 max degree hdm hm, e2 max (max / 2) (by omega) hm, e3, ← two_mul]
  cases ls <;> cases rs <;> cases li <;> cases ri <;> simp <;> (try split_ifs) <;> omega

example : determineValues true false true true 7 3 8 = (5, 3) ∧ determineValues true true true true 5 3 7 = (3, 4) := by
  decide

/-- C29. At the call made by the code (`degree` and `dist` as computed in the constructor, the side having at least `deg + 1`
functions): the reserved numbers do not overlap if some end vertex is special, or some end is not an interface, or the
side has at least `2·min(deg, incr+1)` functions. Missing for the full claim: the remaining case, where it is false. -/
theorem C29_fits_partial (ls rs li ri : Bool) (deg : ℕ) (incr minDist : ℤ) (max : ℕ)
    (hmax : deg + 1 ≤ max) (hm : max < 2 ^ 31) (hmin : minDist < 2 ^ 31)
    (h : ls = true ∨ rs = true ∨ li = false ∨ ri = false ∨ 2 * (min (deg : ℤ) (incr + 1)) ≤ max) :
    (determineValues ls rs li ri (distDist deg incr minDist) (distDegree deg incr) max).1 +
      (determineValues ls rs li ri (distDist deg incr minDist) (distDegree deg incr) max).2 ≤ max := by
  rw [C29_exact _ _ _ _ _ _ _ _ (by omega) (by unfold distDegree; omega)]
  · rintro ⟨rfl, rfl, rfl, rfl, h5⟩
    simp at h
    unfold distDegree at h5
    omega
  · unfold distDist distDegree; omega

/-- C29 is false in general: quadratic splines with one element per patch (three functions on the side), interfaces on
both ends and no special vertex: two functions are reserved at each end. -/
theorem C29_overlap_possible : ¬ ∀ (ls rs li ri : Bool) (deg : ℕ) (incr minDist : ℤ) (max : ℕ),
    deg + 1 ≤ max → max < 2 ^ 31 → 0 ≤ incr → minDist < 2 ^ 31 →
    (determineValues ls rs li ri (distDist deg incr minDist) (distDegree deg incr) max).1 +
      (determineValues ls rs li ri (distDist deg incr minDist) (distDegree deg incr) max).2 ≤ max := by
  intro H
  have := H false false true true 2 1 0 3 (by omega) (by omega) (by omega) (by omega)
  revert this; decide

/-- The hypotheses are satisfiable with a tight outcome: the two ends take exactly the whole side. -/
example : determineValues true true true true (distDist 3 2 5) (distDegree 3 2) 7 = (3, 4) := by decide

/-! ## C33: connectivity -/

theorem setInter_comm (l m : List ℕ) : setInter l m = setInter m l := by
  fun_induction setInter l m with
  | case1 m => cases m <;> simp [setInter]
  | case2 a l => simp [setInter]
  | case3 a l b m h ih =>
    rw [setInter.eq_def (b :: m)]
    simp only [if_neg (Nat.lt_asymm h), if_pos h, ih]
  | case4 a l b m h1 h2 ih =>
    rw [setInter.eq_def (b :: m)]
    simp only [if_pos h2, ih]
  | case5 a l b m h1 h2 ih =>
    have : a = b := by omega
    subst this
    rw [setInter.eq_def (a :: m)]
    simp [ih]

/-- C33. For every symmetric local connectivity, connectivity of two global functions does not depend on their order. -/
theorem C33_symmetric (lc : ℕ → ℕ → Bool) (hlc : ∀ a b, lc a b = lc b a) (li lj : List ℕ) :
    isConnected lc li lj = isConnected lc lj li := by
  unfold isConnected
  by_cases h1 : li.length = 1 <;> by_cases h2 : lj.length = 1
  · simp [h1, h2, hlc]
  · simp [h1, h2]
  · simp [h1, h2]
  · have hX : (li.all fun a => lj.any fun b => lc a b) = (li.all fun b => lj.any fun a => lc a b) := by
      congr 1; funext a; congr 1; funext b; exact hlc a b
    have hY : (lj.all fun b => li.any fun a => lc a b) = (lj.all fun a => li.any fun b => lc a b) := by
      congr 1; funext a; congr 1; funext b; exact hlc b a
    simp only [h1, h2, false_and, or_self, if_false, setInter_comm li lj, hX, hY]
    generalize (li.all fun b => lj.any fun a => lc a b) = X
    generalize (lj.all fun a => li.any fun b => lc a b) = Y
    by_cases g1 : (setInter lj li).length + 1 = li.length <;>
      by_cases g2 : (setInter lj li).length + 1 = lj.length <;> simp [g1, g2]
    cases X <;> cases Y <;> simp

theorem locallyConnected_comm (dims : List (ℕ × ℕ)) (a b : ℕ) : locallyConnected dims a b = locallyConnected dims b a := by
  have habs : ∀ x y : ℤ, (x - y).natAbs = (y - x).natAbs := by intro x y; omega
  unfold locallyConnected
  simp only [eq_comm (a := Index.getPatch (dims.map fun d => d.1 * d.2) a)]
  rw [habs, habs (Index.getPar dims a true : ℤ)]

/-- C33 for the B-spline class: for every set of patches, connectivity is symmetric. -/
theorem C33_bspline (dims : List (ℕ × ℕ)) (li lj : List ℕ) :
    isConnected (locallyConnected dims) li lj = isConnected (locallyConnected dims) lj li :=
  C33_symmetric _ (locallyConnected_comm dims) li lj

/-- Two patches of 2×2 functions, glued along a side (functions 1,4 and 3,6 identified): the two joint functions are
connected, function 0 is connected with the joint function {1,4} but not with {3,6}. -/
example : isConnected (locallyConnected [(2, 2), (2, 2)]) [1, 4] [3, 6] = true ∧
    isConnected (locallyConnected [(2, 2), (2, 2)]) [0] [1, 4] = true ∧
    isConnected (locallyConnected [(2, 2), (2, 2)]) [3, 6] [0] = false := by
  have h : ∀ a b, locallyConnected [(2, 2), (2, 2)] a b = locallyConnected [(2, 2), (2, 2)] a b := fun _ _ => rfl
  refine ⟨?_, ?_, ?_⟩
  · unfold isConnected; simp [setInter]; decide
  · decide
  · decide

/-- C33 for the hierarchical class is not even defined: the local test reads outside its two-entry index vector as soon as the
second function number is at least two. -/
theorem C33_hierarchical_out_of_bounds (vi vj : ℕ × ℕ) (j : ℕ) : hLocallyConnected vi vj j = none ↔ 2 ≤ j := by
  unfold hLocallyConnected
  by_cases h0 : j = 0
  · simp [h0]
  · by_cases h1 : j = 1
    · simp [h1]
    · simp [h0, h1]; omega

/-- and where it is defined it is not symmetric: function 0 at (0,1), function 1 at (1,1). -/
theorem C33_hierarchical_not_symmetric :
    ¬ ∀ (vi vj : ℕ × ℕ), hLocallyConnected vi vj 1 = hLocallyConnected vj vi 0 := by
  intro H; exact absurd (H (0, 1) (1, 1)) (by decide)

/-! ## C37: parameters of reserved functions -/

/-- Specification of an open knot vector with simple interior knots: end knots repeated `deg + 1` times. -/
def openKnots (deg : ℕ) (a : ℚ) (mid : List ℚ) (b : ℚ) : List ℚ :=
  List.replicate (deg + 1) a ++ (mid ++ List.replicate (deg + 1) b)

theorem uknots_rep_left (m : ℕ) (a : ℚ) (l : List ℚ) : uknots (List.replicate (m + 1) a ++ l) = uknots (a :: l) := by
  induction m with
  | zero => simp
  | succ m ih =>
    rw [List.replicate_succ, List.replicate_succ]
    simp only [List.cons_append]
    rw [uknots, if_pos rfl, ← List.cons_append, ← List.replicate_succ, ih]

theorem uknots_rep_right (m : ℕ) (b : ℚ) (l : List ℚ) (h : (l ++ [b]).Pairwise (· < ·)) :
    uknots (l ++ List.replicate (m + 1) b) = l ++ [b] := by
  induction l with
  | nil =>
    have := uknots_rep_left m b []
    simpa [uknots] using this
  | cons x l ih =>
    have h2 : (l ++ [b]).Pairwise (· < ·) := (List.pairwise_cons.1 h).2
    cases l with
    | nil =>
      have hx : x ≠ b := ne_of_lt ((List.pairwise_cons.1 h).1 b (by simp))
      have := ih h2
      rw [List.replicate_succ] at this ⊢
      simp only [List.cons_append, List.nil_append] at this ⊢
      rw [uknots, if_neg hx, this]
    | cons y l =>
      have hx : x ≠ y := ne_of_lt ((List.pairwise_cons.1 h).1 y (by simp))
      have := ih h2
      simp only [List.cons_append] at this ⊢
      rw [uknots, if_neg hx, this]

theorem uknots_open (deg : ℕ) (a b : ℚ) (mid : List ℚ) (h : (a :: mid ++ [b]).Pairwise (· < ·)) :
    uknots (openKnots deg a mid b) = a :: mid ++ [b] := by
  unfold openKnots
  rw [uknots_rep_left, ← List.cons_append]
  exact uknots_rep_right _ _ _ h

theorem firstGe_spec (l r : List ℚ) (h : l.Pairwise (· < ·)) (i : ℕ) (hi : i < l.length) : firstGe l[i] (l ++ r) = i := by
  induction l generalizing i with
  | nil => simp at hi
  | cons x l ih =>
    cases i with
    | zero => simp [firstGe]
    | succ i =>
      have hi' : i < l.length := by simpa using hi
      have hx : x < l[i] := (List.pairwise_cons.1 h).1 _ (List.getElem_mem hi')
      simp only [List.cons_append, List.getElem_cons_succ, firstGe]
      rw [if_neg (not_le.2 hx), ih (List.pairwise_cons.1 h).2 i hi']
      omega

theorem reverse_open (deg : ℕ) (a b : ℚ) (mid : List ℚ) :
    reverseKnots (openKnots deg a mid b) = openKnots deg a (mid.reverse.map fun x => a + b - x) b := by
  have h1 : (openKnots deg a mid b).headD 0 = a := by simp [openKnots, List.replicate_succ]
  have h2 : (openKnots deg a mid b).getLastD 0 = b := by
    unfold openKnots
    rw [List.replicate_succ' (a := b), ← List.append_assoc, ← List.append_assoc, List.getLastD_concat]
  unfold reverseKnots
  rw [h1, h2]
  unfold openKnots
  simp

theorem reverse_pairwise (a b : ℚ) (mid : List ℚ) (h : (a :: mid ++ [b]).Pairwise (· < ·)) :
    (a :: (mid.reverse.map fun x => a + b - x) ++ [b]).Pairwise (· < ·) := by
  have e : a :: (mid.reverse.map fun x => a + b - x) ++ [b] = ((a :: mid ++ [b]).reverse).map fun x => a + b - x := by
    simp
  rw [e, List.pairwise_map, List.pairwise_reverse]
  exact h.imp (fun {x y} hxy => by linarith)

theorem roundtrip (deg : ℕ) (a b : ℚ) (mid : List ℚ) (h0 : 0 ≤ a) (h : (a :: mid ++ [b]).Pairwise (· < ·)) (n : ℕ)
    (h1 : 1 ≤ n) (hn : n ≤ mid.length + 1) :
    ∃ x, (uknots (openKnots deg a mid b))[n]? = some x ∧ x ≠ 0 ∧
      firstGe x (((openKnots deg a mid b).drop (deg + 1)).mergeSort (· ≤ ·)) + 1 = n := by
  obtain ⟨m, rfl⟩ : ∃ m, n = m + 1 := ⟨n - 1, by omega⟩
  have hm : m < (mid ++ [b]).length := by simp; omega
  have hp : (mid ++ [b]).Pairwise (· < ·) := by
    rw [List.cons_append] at h; exact (List.pairwise_cons.1 h).2
  refine ⟨(mid ++ [b])[m], ?_, ?_, ?_⟩
  · rw [uknots_open _ _ _ _ h, List.cons_append, List.getElem?_cons_succ, List.getElem?_eq_getElem hm]
  · rw [List.cons_append] at h
    have := (List.pairwise_cons.1 h).1 _ (List.getElem_mem hm)
    intro hx; rw [hx] at this; linarith
  · have e : (openKnots deg a mid b).drop (deg + 1) = (mid ++ [b]) ++ List.replicate deg b := by
      unfold openKnots
      rw [List.drop_left' (by simp), List.replicate_succ]; simp
    have hs : ((mid ++ [b]) ++ List.replicate deg b).Pairwise (fun x y : ℚ => decide (x ≤ y) = true) := by
      rw [List.pairwise_append]
      refine ⟨hp.imp (fun {x y} hxy => by simpa using le_of_lt hxy), ?_, ?_⟩
      · rw [List.pairwise_replicate]; right; simp
      · intro x hx y hy
        have hy' : y = b := (List.mem_replicate.1 hy).2
        subst hy'
        rw [List.mem_append] at hx
        rcases hx with hx | hx
        · rw [List.pairwise_append] at hp
          simpa using le_of_lt (hp.2.2 x hx y (by simp))
        · simp at hx; simp [hx]
    rw [e, List.mergeSort_of_pairwise hs, firstGe_spec _ _ hp m hm]

/-- C37. Storing a reserved number of functions as a parameter and reading it back gives the same number: for every degree,
every open knot vector with simple interior knots on a non-negative interval, both ends of the side, and every number up
to the number of knot spans. -/
theorem C37_roundtrip_partial (deg : ℕ) (a b : ℚ) (mid : List ℚ) (h0 : 0 ≤ a) (h : (a :: mid ++ [b]).Pairwise (· < ·))
    (low : Bool) (n : ℕ) (hn : n ≤ mid.length + 1) :
    ∃ x, findParameter (openKnots deg a mid b) low n = some x ∧ getDistance deg (openKnots deg a mid b) low x = n := by
  by_cases hz : n = 0
  · exact ⟨0, by simp [findParameter, hz], by simp [getDistance, hz]⟩
  · unfold findParameter getDistance
    rw [if_neg hz]
    cases low
    · obtain ⟨x, hx, hx0, hx1⟩ := roundtrip deg a b mid h0 h n (by omega) hn
      exact ⟨x, by simpa using hx, by rw [if_neg hx0]; simpa using hx1⟩
    · obtain ⟨x, hx, hx0, hx1⟩ := roundtrip deg a b _ h0 (reverse_pairwise a b mid h) n (by omega) (by simpa using hn)
      refine ⟨x, by simpa [reverse_open] using hx, ?_⟩
      rw [if_neg hx0]
      simpa [reverse_open] using hx1

/-- C37. A request beyond the number of knot spans reads past the end of the knots. -/
theorem C37_past_end (deg : ℕ) (a b : ℚ) (mid : List ℚ) (h : (a :: mid ++ [b]).Pairwise (· < ·)) (low : Bool) (n : ℕ) :
    findParameter (openKnots deg a mid b) low n = none ↔ mid.length + 1 < n := by
  unfold findParameter
  by_cases hz : n = 0
  · simp [hz]
  · rw [if_neg hz]
    cases low
    · simp only [Bool.false_eq_true, if_false, uknots_open _ _ _ _ h, List.getElem?_eq_none_iff]
      simp; omega
    · simp only [if_true, reverse_open, uknots_open _ _ _ _ (reverse_pairwise a b mid h), List.getElem?_eq_none_iff]
      simp; omega

/-- C37. The code does make such requests: quadratic patch with one element, one special vertex, no other interface:
two functions are reserved but there is only one span. -/
theorem C37_requests_past_end : ¬ ∀ (ls rs li ri : Bool) (deg : ℕ) (incr minDist : ℤ) (mid : List ℚ),
    ((0 : ℚ) :: mid ++ [1]).Pairwise (· < ·) → 0 ≤ incr →
    let v := determineValues ls rs li ri (distDist deg incr minDist) (distDegree deg incr) (deg + mid.length + 1)
    (storedParams (openKnots deg 0 mid 1) true false v.1 v.2).1 ≠ none := by
  intro H
  have := H true false false false 2 1 0 [] (by simp) (by omega)
  apply this
  have e : determineValues true false false false (distDist 2 1 0) (distDegree 2 1) (2 + ([] : List ℚ).length + 1) = (2, 0) := by
    decide
  rw [e]
  exact (C37_past_end 2 0 1 [] (by simp) true 2).2 (by simp)

/-- C37. The parameter stored for the second corner is measured from the wrong end. -/
theorem C37_second_corner_wrong : ¬ ∀ (deg : ℕ) (a b : ℚ) (mid : List ℚ) (n : ℕ), (a :: mid ++ [b]).Pairwise (· < ·) →
    (storedParams (openKnots deg a mid b) true false n n).2 = findParameter (openKnots deg a mid b) false n := by
  intro H
  have h : ((0 : ℚ) :: [1/4] ++ [1]).Pairwise (· < ·) := by norm_num
  have := H 1 0 1 [1/4] 1 h
  unfold storedParams findParameter at this
  simp only [Bool.false_eq_true, if_false, if_true, reverse_open, uknots_open _ _ _ _ h,
    uknots_open _ _ _ _ (reverse_pairwise _ _ _ h)] at this
  norm_num at this

/-- C37. It is right when the knots are symmetric. -/
theorem C37_second_corner_partial (knots : List ℚ) (hs : reverseKnots knots = knots) (low1 low2 : Bool) (v1 v2 : ℕ) :
    storedParams knots low1 low2 v1 v2 = (findParameter knots low1 v1, findParameter knots low2 v2) := by
  unfold storedParams findParameter
  cases low1 <;> cases low2 <;> simp [hs]

example : ((0 : ℚ) :: [1/4, 1/2, 3/4] ++ [1]).Pairwise (· < ·) ∧
    findParameter (openKnots 2 0 [1/4, 1/2, 3/4] 1) false 2 = some (1/2) := by
  have h : ((0 : ℚ) :: [1/4, 1/2, 3/4] ++ [1]).Pairwise (· < ·) := by norm_num
  refine ⟨h, ?_⟩
  unfold findParameter
  simp only [Bool.false_eq_true, if_false, uknots_open _ _ _ _ h]
  simp

end Verif.MPBES
