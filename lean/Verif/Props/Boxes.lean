import Verif.Model.Boxes
import Mathlib.Data.List.Sort
import Mathlib.Data.Rat.Cast.Order
import Mathlib.Algebra.Order.Field.Rat
import Mathlib.Tactic.Linarith
import Mathlib.Tactic.Ring
import Mathlib.Tactic.NormNum
import Mathlib.Tactic.Push
import Mathlib.Tactic.SplitIfs
/-!
# C66: refinement by boxes halves exactly the elements in the boxes
-/
set_option autoImplicit false
namespace Verif.Boxes
open Repair

/-- `[a,c]` is an element: consecutive knots further apart than the tolerance of the code. -/
def Element (L : List ℚ) (a c : ℚ) : Prop := ∃ A C, L = A ++ a :: c :: C ∧ 1 / 1000000000 < c - a

/-- Number of boxes that have `x` strictly inside. -/
def over (boxes : List (ℚ × ℚ)) (x : ℚ) : ℕ := boxes.countP fun b => decide (b.1 < x ∧ x < b.2)

private theorem count_one (boxes : List (ℚ × ℚ)) (m x : ℚ) : (boxes.filterMap fun b => if b.1 < m ∧ m < b.2 then some m else none).count x = if m = x then over boxes x else 0 := by
  induction boxes with
  | nil => simp [over]
  | cons b bs ih =>
    rw [List.filterMap_cons]
    unfold over at ih ⊢
    rw [List.countP_cons]
    by_cases h : b.1 < m ∧ m < b.2
    · rw [if_pos h]
      simp only [List.count_cons, ih]
      by_cases e : m = x
      · subst e; simp [h]
      · simp [e]
    · rw [if_neg h]
      simp only [ih]
      by_cases e : m = x
      · subst e; simp [h]
      · simp [e]

/-- Midpoints of a sorted vector lie at or after its first knot. -/
private theorem mid_ge (boxes : List (ℚ × ℚ)) : ∀ (a : ℚ) (L : List ℚ), (a :: L).Pairwise (· ≤ ·) → ∀ x ∈ midpoints boxes (a :: L), a < x
  | a, [], _, x, hx => by simp [midpoints] at hx
  | a, b :: L, h, x, hx => by
    have hab : a ≤ b := by rw [List.pairwise_cons] at h; exact h.1 b (by simp)
    rw [midpoints, List.mem_append] at hx
    rcases hx with hx | hx
    · split_ifs at hx with hg
      · obtain ⟨c, _, hc⟩ := List.mem_filterMap.1 hx
        split_ifs at hc
        cases hc
        linarith
      · simp at hx
    · exact lt_of_le_of_lt hab (mid_ge boxes b L (List.pairwise_cons.1 h).2 x hx)

/-- C66: what is inserted. The midpoint of an element is inserted as often as there are boxes with it strictly inside, and nothing else is inserted. -/
theorem C66_count (boxes : List (ℚ × ℚ)) (L : List ℚ) (hs : L.Pairwise (· ≤ ·)) : (∀ a c, Element L a c → (midpoints boxes L).count (a + (c - a) / 2) = over boxes (a + (c - a) / 2)) ∧
    ∀ x ∈ midpoints boxes L, ∃ a c, Element L a c ∧ x = a + (c - a) / 2 := by
  induction L with
  | nil =>
    refine ⟨?_, by simp [midpoints]⟩
    rintro a c ⟨A, C, h, _⟩
    simp at h
  | cons y L ih =>
    rcases L with _ | ⟨z, L⟩
    · refine ⟨?_, by simp [midpoints]⟩
      rintro a c ⟨A, C, h, _⟩
      have := congrArg List.length h
      simp at this
      omega
    · obtain ⟨i1, i2⟩ := ih (List.pairwise_cons.1 hs).2
      have hyz : y ≤ z := (List.pairwise_cons.1 hs).1 z (by simp)
      have hg : ∀ x ∈ midpoints boxes (z :: L), z < x := mid_ge boxes z L (List.pairwise_cons.1 hs).2
      constructor
      · rintro a c ⟨A, C, h, hgap⟩
        rw [midpoints, List.count_append]
        rcases A with _ | ⟨y', A⟩
        · simp only [List.nil_append, List.cons.injEq] at h
          obtain ⟨rfl, rfl, rfl⟩ := h
          rw [if_pos hgap, count_one, if_pos rfl, List.count_eq_zero_of_not_mem, add_zero]
          intro hm
          have := hg _ hm
          linarith
        · simp only [List.cons_append, List.cons.injEq] at h
          have hE : Element (z :: L) a c := ⟨A, C, h.2, hgap⟩
          rw [i1 a c hE]
          have hza : z ≤ a := by
            have := (List.pairwise_cons.1 hs).2
            rw [h.2] at this
            rcases A with _ | ⟨z', A⟩
            · simp only [List.nil_append, List.cons.injEq] at h
              exact h.2.1.le
            · simp only [List.cons_append, List.cons.injEq] at h
              rw [List.cons_append, List.pairwise_cons] at this
              rw [h.2.1]
              exact this.1 a (by simp)
          split_ifs with hh
          · rw [count_one, if_neg, zero_add]
            intro e
            linarith
          · simp
      · intro x hx
        rw [midpoints, List.mem_append] at hx
        rcases hx with hx | hx
        · split_ifs at hx with hh
          · obtain ⟨b, _, hb⟩ := List.mem_filterMap.1 hx
            split_ifs at hb
            cases hb
            exact ⟨y, z, ⟨[], L, rfl, hh⟩, rfl⟩
          · simp at hx
        · obtain ⟨a, c, ⟨A, C, h, hgap⟩, e⟩ := i2 x hx
          exact ⟨a, c, ⟨y :: A, C, by rw [h]; rfl, hgap⟩, e⟩

/-- Knots of the vector are not strictly inside an element. -/
private theorem no_knot {L : List ℚ} (hs : L.Pairwise (· ≤ ·)) {a c : ℚ} (h : Element L a c) {x : ℚ} (hx : x ∈ L) : x ≤ a ∨ c ≤ x := by
  obtain ⟨A, C, rfl, _⟩ := h
  rw [List.pairwise_append, List.pairwise_cons, List.pairwise_cons] at hs
  rcases List.mem_append.1 hx with hx | hx
  · exact Or.inl (hs.2.2 x hx a (by simp))
  · rcases List.mem_cons.1 hx with rfl | hx
    · exact Or.inl le_rfl
    · rcases List.mem_cons.1 hx with rfl | hx
      · exact Or.inr le_rfl
      · exact Or.inr (hs.2.1.2.1 x hx)

/-- Two elements are the same or do not overlap. -/
private theorem apart {L : List ℚ} (hs : L.Pairwise (· ≤ ·)) {a c a' c' : ℚ} (h : Element L a c) (h' : Element L a' c') : (a = a' ∧ c = c') ∨ c ≤ a' ∨ c' ≤ a := by
  have g : 1 / 1000000000 < c - a := by obtain ⟨_, _, _, g⟩ := h; exact g
  have g' : 1 / 1000000000 < c' - a' := by obtain ⟨_, _, _, g⟩ := h'; exact g
  have m : ∀ {a c}, Element L a c → a ∈ L ∧ c ∈ L := by
    rintro a c ⟨A, C, rfl, _⟩
    simp
  rcases no_knot hs h (m h').1 with h1 | h1
  · rcases no_knot hs h (m h').2 with h2 | h2
    · exact Or.inr (Or.inr h2)
    · rcases no_knot hs h' (m h).1 with h3 | h3
      · rcases no_knot hs h' (m h).2 with h4 | h4
        · linarith
        · exact Or.inl ⟨le_antisymm h3 h1, le_antisymm h2 h4⟩
      · linarith
  · exact Or.inr (Or.inl h1)

private theorem mid_mem {boxes : List (ℚ × ℚ)} {L : List ℚ} (hs : L.Pairwise (· ≤ ·)) {a c : ℚ} (h : Element L a c) {x : ℚ} (hx : x ∈ midpoints boxes L) (h1 : a < x) (h2 : x < c) :
    x = a + (c - a) / 2 ∧ 0 < over boxes x := by
  obtain ⟨q1, q2⟩ := C66_count boxes L hs
  obtain ⟨a', c', h', e⟩ := q2 x hx
  have g' : 1 / 1000000000 < c' - a' := by obtain ⟨_, _, _, g⟩ := h'; exact g
  rcases apart hs h h' with ⟨rfl, rfl⟩ | h3 | h3
  · refine ⟨e, ?_⟩
    rw [e, ← q1 a c h', ← e]
    exact List.count_pos_iff.2 hx
  · linarith
  · linarith

/-- The knots of a direction after refinement by boxes. -/
theorem insertBoxes_mem (K : Knots) (p : ℕ) (boxes : List ((ℚ × ℚ) × (ℚ × ℚ))) (d : Bool) (x : ℚ) :
    x ∈ insertBoxes K p boxes p d ↔ x ∈ K p d ∨ x ∈ midpoints (boxes.map fun b => if d then b.2 else b.1) (K p d) := by
  rw [insertBoxes, insertKnots, if_pos rfl, (List.perm_insertionSort _ _).mem_iff, List.mem_append]

/-- C66: refinement of a patch by boxes halves every element that lies in a box: its midpoint becomes a knot in both directions, and there are no other knots inside. Other patches are not changed, and no knot is lost. -/
theorem C66_halved (K : Knots) (p : ℕ) (boxes : List ((ℚ × ℚ) × (ℚ × ℚ))) (hs : ∀ d, (K p d).Pairwise (· ≤ ·)) {b : (ℚ × ℚ) × (ℚ × ℚ)} (hb : b ∈ boxes) (d : Bool) {a c : ℚ} (h : Element (K p d) a c)
    (h1 : (if d then b.2 else b.1).1 ≤ a) (h2 : c ≤ (if d then b.2 else b.1).2) :
    (∀ x, a < x → x < c → (x ∈ insertBoxes K p boxes p d ↔ x = a + (c - a) / 2)) ∧ (∀ x ∈ K p d, x ∈ insertBoxes K p boxes p d) ∧ ∀ q, q ≠ p → insertBoxes K p boxes q = K q := by
  have g : 1 / 1000000000 < c - a := by obtain ⟨_, _, _, g⟩ := h; exact g
  refine ⟨fun x hx1 hx2 => ?_, fun x hx => (insertBoxes_mem _ _ _ _ _).2 (Or.inl hx), fun q hq => ?_⟩
  · rw [insertBoxes_mem]
    constructor
    · rintro (hx | hx)
      · rcases no_knot (hs d) h hx with h3 | h3 <;> linarith
      · exact (mid_mem (hs d) h hx hx1 hx2).1
    · rintro rfl
      right
      rw [← List.count_pos_iff, (C66_count _ _ (hs d)).1 a c h]
      refine List.countP_pos_iff.2 ⟨if d then b.2 else b.1, List.mem_map.2 ⟨b, hb, rfl⟩, ?_⟩
      rw [decide_eq_true_eq]
      constructor <;> linarith
  · funext d
    rw [insertBoxes, insertKnots, if_neg hq]

/-- C66: an element that no box meets in a direction keeps its length in that direction. -/
theorem C66_kept (K : Knots) (p : ℕ) (boxes : List ((ℚ × ℚ) × (ℚ × ℚ))) (d : Bool) (hs : (K p d).Pairwise (· ≤ ·)) {a c : ℚ} (h : Element (K p d) a c)
    (hb : ∀ b ∈ boxes, (if d then b.2 else b.1).2 ≤ a ∨ c ≤ (if d then b.2 else b.1).1) : ∀ x, a < x → x < c → x ∉ insertBoxes K p boxes p d := by
  have g : 1 / 1000000000 < c - a := by obtain ⟨_, _, _, g⟩ := h; exact g
  intro x hx1 hx2
  rw [insertBoxes_mem]
  rintro (hx | hx)
  · rcases no_knot hs h hx with h3 | h3 <;> linarith
  · obtain ⟨_, ho⟩ := mid_mem hs h hx hx1 hx2
    obtain ⟨b', hb', hd⟩ := List.countP_pos_iff.1 ho
    obtain ⟨b, hbm, rfl⟩ := List.mem_map.1 hb'
    rw [decide_eq_true_eq] at hd
    rcases hb b hbm with h3 | h3
    · have := hd.2; linarith
    · have := hd.1; linarith

/-- C66: how often. A new knot inside an element has as many copies as there are boxes over its midpoint in that direction, so that boxes next to each other in the other direction make it a repeated knot. -/
theorem C66_copies (K : Knots) (p : ℕ) (boxes : List ((ℚ × ℚ) × (ℚ × ℚ))) (d : Bool) (hs : (K p d).Pairwise (· ≤ ·)) {a c : ℚ} (h : Element (K p d) a c) :
    (insertBoxes K p boxes p d).count (a + (c - a) / 2) = over (boxes.map fun b => if d then b.2 else b.1) (a + (c - a) / 2) := by
  have g : 1 / 1000000000 < c - a := by obtain ⟨_, _, _, g⟩ := h; exact g
  rw [insertBoxes, insertKnots, if_pos rfl, (List.perm_insertionSort _ _).count_eq, List.count_append, (C66_count _ _ hs).1 a c h, List.count_eq_zero_of_not_mem, zero_add]
  intro hm
  rcases no_knot hs h hm with h3 | h3 <;> linarith

/-! ### Boxes of element numbers -/

/-- Five numbers for every box. -/
def flat (boxes : List (ℤ × (ℤ × ℤ) × (ℤ × ℤ))) : List ℤ := boxes.flatMap fun b => [b.1, b.2.1.1, b.2.2.1, b.2.1.2, b.2.2.2]

theorem boxMatrix_flat (boxes : List (ℤ × (ℤ × ℤ) × (ℤ × ℤ))) :
    boxMatrix (flat boxes) = some (boxes.map fun b => (((b.2.1.1 : ℚ), (b.2.1.2 : ℚ)), ((b.2.2.1 : ℚ), (b.2.2.2 : ℚ)))) := by
  induction boxes with
  | nil => rfl
  | cons b bs ih =>
    unfold flat at ih ⊢
    rw [List.flatMap_cons]
    simp only [List.cons_append, List.nil_append, boxMatrix, ih, Option.map_some, List.map_cons]

/-- C66, `refineElements`, as far as it holds: where knots are integers, so that element number `k` is the interval from `k` to `k + 1`, exactly the elements with the numbers in a box are halved, whatever its level. Full statement: this for all knot
vectors; missing is everything else, see `C66_elements_violated`. -/
theorem C66_elements_partial (K : Knots) (p : ℕ) (boxes : List (ℤ × (ℤ × ℤ) × (ℤ × ℤ))) (d : Bool) (hs : ∀ d, (K p d).Pairwise (· ≤ ·)) (k : ℤ) (h : Element (K p d) k (k + 1)) :
    ∃ K', insertElements K p (flat boxes) = some K' ∧
      ∀ x : ℚ, (k : ℚ) < x → x < k + 1 → (x ∈ K' p d ↔ x = k + 1 / 2 ∧ ∃ b ∈ boxes, (if d then b.2.2 else b.2.1).1 ≤ k ∧ k < (if d then b.2.2 else b.2.1).2) := by
  refine ⟨_, by rw [insertElements, boxMatrix_flat]; rfl, fun x hx1 hx2 => ?_⟩
  rw [insertBoxes_mem]
  have e2 : (k : ℚ) + (k + 1 - k) / 2 = k + 1 / 2 := by ring
  constructor
  · rintro (hx | hx)
    · rcases no_knot (hs d) h hx with h3 | h3 <;> linarith
    · obtain ⟨e, ho⟩ := mid_mem (hs d) h hx hx1 hx2
      rw [e2] at e
      refine ⟨e, ?_⟩
      obtain ⟨b', hb', hd⟩ := List.countP_pos_iff.1 ho
      rw [List.map_map] at hb'
      obtain ⟨b, hbm, rfl⟩ := List.mem_map.1 hb'
      refine ⟨b, hbm, ?_⟩
      rw [decide_eq_true_eq, e] at hd
      rcases d
      · simp only [Function.comp_apply, Bool.false_eq_true, if_false] at hd ⊢
        refine ⟨?_, ?_⟩
        · have : ((b.2.1.1 : ℤ) : ℚ) < ((k + 1 : ℤ) : ℚ) := by push_cast; linarith [hd.1]
          have := Int.cast_lt.1 this
          omega
        · have : ((k : ℤ) : ℚ) < ((b.2.1.2 : ℤ) : ℚ) := by linarith [hd.2]
          exact Int.cast_lt.1 this
      · simp only [Function.comp_apply, if_true] at hd ⊢
        refine ⟨?_, ?_⟩
        · have : ((b.2.2.1 : ℤ) : ℚ) < ((k + 1 : ℤ) : ℚ) := by push_cast; linarith [hd.1]
          have := Int.cast_lt.1 this
          omega
        · have : ((k : ℤ) : ℚ) < ((b.2.2.2 : ℤ) : ℚ) := by linarith [hd.2]
          exact Int.cast_lt.1 this
  · rintro ⟨rfl, b, hb, hk⟩
    right
    rw [← e2, ← List.count_pos_iff, (C66_count _ _ (hs d)).1 _ _ h]
    refine List.countP_pos_iff.2 ⟨_, List.mem_map.2 ⟨_, List.mem_map.2 ⟨b, hb, rfl⟩, rfl⟩, ?_⟩
    rw [decide_eq_true_eq, e2]
    rcases d
    · simp only [Bool.false_eq_true, if_false] at hk ⊢
      have h3 : ((b.2.1.1 : ℤ) : ℚ) ≤ ((k : ℤ) : ℚ) := by exact_mod_cast hk.1
      have h4 : ((k + 1 : ℤ) : ℚ) ≤ ((b.2.1.2 : ℤ) : ℚ) := by exact_mod_cast hk.2
      push_cast at h4
      constructor <;> linarith
    · simp only [if_true] at hk ⊢
      have h3 : ((b.2.2.1 : ℤ) : ℚ) ≤ ((k : ℤ) : ℚ) := by exact_mod_cast hk.1
      have h4 : ((k + 1 : ℤ) : ℚ) ≤ ((b.2.2.2 : ℤ) : ℚ) := by exact_mod_cast hk.2
      push_cast at h4
      constructor <;> linarith

/-- C66, `refineElements`: the numbers of the elements are taken for parameters. On a patch with knots between 0 and 1, whatever the elements are, boxes that do not begin with element 0 insert nothing in their direction, and a box that begins with
element 0 and has at least one element halves *all* elements. -/
theorem C66_elements_violated (K : Knots) (p : ℕ) (boxes : List (ℤ × (ℤ × ℤ) × (ℤ × ℤ))) (d : Bool) (hs : ∀ d, (K p d).Pairwise (· ≤ ·)) (h01 : ∀ x ∈ K p d, 0 ≤ x ∧ x ≤ 1) :
    ∃ K', insertElements K p (flat boxes) = some K' ∧
      ((∀ b ∈ boxes, 1 ≤ (if d then b.2.2 else b.2.1).1) → K' p d = K p d) ∧
      ((∃ b ∈ boxes, (if d then b.2.2 else b.2.1).1 ≤ 0 ∧ 1 ≤ (if d then b.2.2 else b.2.1).2) → ∀ a c, Element (K p d) a c → a + (c - a) / 2 ∈ K' p d) := by
  refine ⟨_, by rw [insertElements, boxMatrix_flat]; rfl, fun hb => ?_, ?_⟩
  · rw [insertBoxes, insertKnots, if_pos rfl]
    have : midpoints ((boxes.map fun b => (((b.2.1.1 : ℚ), (b.2.1.2 : ℚ)), ((b.2.2.1 : ℚ), (b.2.2.2 : ℚ)))).map fun b => if d then b.2 else b.1) (K p d) = [] := by
      rw [List.eq_nil_iff_forall_not_mem]
      intro x hx
      obtain ⟨q1, q2⟩ := C66_count ((boxes.map fun b => (((b.2.1.1 : ℚ), (b.2.1.2 : ℚ)), ((b.2.2.1 : ℚ), (b.2.2.2 : ℚ)))).map fun b => if d then b.2 else b.1) _ (hs d)
      obtain ⟨a, c, h, e⟩ := q2 x hx
      have hc : c ≤ 1 := by obtain ⟨A, C, e', _⟩ := h; exact (h01 c (by rw [e']; simp)).2
      have g : 1 / 1000000000 < c - a := by obtain ⟨_, _, _, g⟩ := h; exact g
      have ho := List.count_pos_iff.2 hx
      rw [e, q1 a c h] at ho
      obtain ⟨b', hb', hd⟩ := List.countP_pos_iff.1 ho
      rw [List.map_map] at hb'
      obtain ⟨b, hbm, rfl⟩ := List.mem_map.1 hb'
      rw [decide_eq_true_eq] at hd
      have := hb b hbm
      rcases d
      · simp only [Function.comp_apply, Bool.false_eq_true, if_false] at hd this
        have : (1 : ℚ) ≤ ((b.2.1.1 : ℤ) : ℚ) := by exact_mod_cast this
        linarith [hd.1]
      · simp only [Function.comp_apply, if_true] at hd this
        have : (1 : ℚ) ≤ ((b.2.2.1 : ℤ) : ℚ) := by exact_mod_cast this
        linarith [hd.1]
    rw [this, List.append_nil]
    exact List.Pairwise.insertionSort_eq (hs d)
  · rintro ⟨b, hb, hk⟩ a c h
    have ha : 0 ≤ a := by obtain ⟨A, C, e', _⟩ := h; exact (h01 a (by rw [e']; simp)).1
    have hc : c ≤ 1 := by obtain ⟨A, C, e', _⟩ := h; exact (h01 c (by rw [e']; simp)).2
    have g : 1 / 1000000000 < c - a := by obtain ⟨_, _, _, g⟩ := h; exact g
    refine ((C66_halved K p _ hs (List.mem_map.2 ⟨b, hb, rfl⟩) d h ?_ ?_).1 _ (by linarith) (by linarith)).2 rfl
    · rcases d
      · simp only [Bool.false_eq_true, if_false] at hk ⊢
        have : ((b.2.1.1 : ℤ) : ℚ) ≤ 0 := by exact_mod_cast hk.1
        linarith
      · simp only [if_true] at hk ⊢
        have : ((b.2.2.1 : ℤ) : ℚ) ≤ 0 := by exact_mod_cast hk.1
        linarith
    · rcases d
      · simp only [Bool.false_eq_true, if_false] at hk ⊢
        have : (1 : ℚ) ≤ ((b.2.1.2 : ℤ) : ℚ) := by exact_mod_cast hk.2
        linarith
      · simp only [if_true] at hk ⊢
        have : (1 : ℚ) ≤ ((b.2.2.2 : ℤ) : ℚ) := by exact_mod_cast hk.2
        linarith

/-- The repair removes no knots. -/
private theorem loop_keeps (T : Topo) (eps : ℚ) {K' : Knots} (q : ℕ) (d : Bool) (x : ℚ) : ∀ (m : ℕ) (K : Knots) (c : List ℕ), repairLoop T eps m K c = .done K' → x ∈ K q d → x ∈ K' q d := by
  intro m
  induction m with
  | zero =>
    intro K c h hx
    rcases c with _ | ⟨p, c⟩
    · rw [repairLoop] at h
      cases h
      exact hx
    · simp [repairLoop] at h
  | succ m ih =>
    intro K c h hx
    rcases c with _ | ⟨p, c⟩
    · rw [repairLoop] at h
      cases h
      exact hx
    · rw [repairLoop] at h
      split at h
      · cases h
      · refine ih _ _ h ?_
        split_ifs
        · exact hx
        · unfold insertKnots
          split_ifs
          · rw [(List.perm_insertionSort _ _).mem_iff, List.mem_append]
            exact Or.inl hx
          · exact hx

/-- C66: after the repair of the patches, whatever the topology, all the elements in a box have been halved and all knots are still there, in all patches. -/
theorem C66_repaired (T : Topo) (eps : ℚ) (turns : ℕ) (K K' : Knots) (p : ℕ) (boxes : List ((ℚ × ℚ) × (ℚ × ℚ))) (h : refineBoxes T eps turns K p boxes = .done K') (hs : ∀ d, (K p d).Pairwise (· ≤ ·)) :
    (∀ q d, ∀ x ∈ K q d, x ∈ K' q d) ∧
    ∀ b ∈ boxes, ∀ d a c, Element (K p d) a c → (if d then b.2 else b.1).1 ≤ a → c ≤ (if d then b.2 else b.1).2 → a + (c - a) / 2 ∈ K' p d := by
  have hk : ∀ q d x, x ∈ insertBoxes K p boxes q d → x ∈ K' q d := fun q d x => loop_keeps T eps q d x _ _ _ h
  constructor
  · intro q d x hx
    refine hk q d x ?_
    by_cases e : q = p
    · subst e
      exact (insertBoxes_mem _ _ _ _ _).2 (Or.inl hx)
    · rw [insertBoxes, insertKnots, if_neg e]
      exact hx
  · intro b hb d a c hE h1 h2
    have g : 1 / 1000000000 < c - a := by obtain ⟨_, _, _, g⟩ := hE; exact g
    exact hk p d _ (((C66_halved K p boxes hs hb d hE h1 h2).1 _ (by linarith) (by linarith)).2 rfl)

/-- C66: element numbers with repair are refinement by the boxes with these numbers as parameters, and no repair of anything where the numbers do not make up boxes. -/
theorem C66_elements (T : Topo) (eps : ℚ) (turns : ℕ) (K : Knots) (p : ℕ) : (∀ boxes : List (ℤ × (ℤ × ℤ) × (ℤ × ℤ)),
      refineElements T eps turns K p (boxes.flatMap fun b => [b.1, b.2.1.1, b.2.2.1, b.2.1.2, b.2.2.2]) =
        refineBoxes T eps turns K p (boxes.map fun b => (((b.2.1.1 : ℚ), (b.2.1.2 : ℚ)), ((b.2.2.1 : ℚ), (b.2.2.2 : ℚ))))) ∧
    ∀ l : List ℤ, l.length % 5 ≠ 0 → refineElements T eps turns K p l = .undefined := by
  constructor
  · intro boxes
    have := boxMatrix_flat boxes
    unfold flat at this
    rw [refineElements, this]
  · intro l hl
    have : boxMatrix l = none := by
      induction l using boxMatrix.induct with
      | case1 => simp at hl
      | case2 a b c e f l ih =>
        rw [boxMatrix, ih (by simp at hl; omega)]
        rfl
      | case3 l h1 h2 =>
        rw [boxMatrix.eq_def]
        split
        · exact absurd rfl h1
        · exact absurd rfl (h2 _ _ _ _ _ _)
        · rfl
    rw [refineElements, this]

/-! ### Cases -/

/-- Four elements in each direction. -/
def quarters : Knots := fun _ _ => [0, 0, 0, 1/4, 1/2, 3/4, 1, 1, 1]

/-- Two boxes: elements 0 and 1 of direction u are halved, element 0 of direction v twice. -/
example : insertBoxes quarters 0 [((0, 1/4), (0, 1/4)), ((1/4, 1/2), (0, 1/4))] 0 false = [0, 0, 0, 1/8, 1/4, 3/8, 1/2, 3/4, 1, 1, 1] ∧
    insertBoxes quarters 0 [((0, 1/4), (0, 1/4)), ((1/4, 1/2), (0, 1/4))] 0 true = [0, 0, 0, 1/8, 1/8, 1/4, 1/2, 3/4, 1, 1, 1] ∧ Element (quarters 0 true) 0 (1/4) := by
  refine ⟨by decide +kernel, by decide +kernel, [0, 0], [1/2, 3/4, 1, 1, 1], rfl, by norm_num⟩

/-- Two patches side by side: with repair the element is halved in both. -/
example : (match refineBoxes ⟨2, fun p s => if p = 0 ∧ s = .east then some (1, .west, true) else if p = 1 ∧ s = .west then some (0, .east, true) else none⟩ (1/1000) 8 quarters 0 [((3/4, 1), (1/4, 1/2))] with
    | .done K => some (K 0 true, K 1 true)
    | _ => none) = some ([0, 0, 0, 1/4, 3/8, 1/2, 3/4, 1, 1, 1], [0, 0, 0, 1/4, 3/8, 1/2, 3/4, 1, 1, 1]) := by decide +kernel

/-- Elements 1 and 2 are asked for: nothing happens. Element 0 is asked for: all elements are halved. -/
example : (insertElements quarters 0 (flat [(0, (1, 3), (1, 3))])).map (fun K => K 0 false) = some [0, 0, 0, 1/4, 1/2, 3/4, 1, 1, 1] ∧
    (insertElements quarters 0 (flat [(0, (0, 1), (0, 1))])).map (fun K => K 0 false) = some [0, 0, 0, 1/8, 1/4, 3/8, 1/2, 5/8, 3/4, 7/8, 1, 1, 1] := by decide +kernel

/-- Knots at integers: element 1 is halved. -/
example : (insertElements (fun _ _ => [0, 0, 1, 2, 3, 3]) 0 (flat [(0, (1, 2), (0, 3))])).map (fun K => K 0 false) = some [0, 0, 1, 3/2, 2, 3, 3] ∧ Element [0, 0, 1, 2, 3, 3] ((1 : ℤ) : ℚ) ((1 : ℤ) + 1) :=
  ⟨by decide +kernel, [0, 0], [3, 3], by norm_num, by norm_num⟩

end Verif.Boxes
