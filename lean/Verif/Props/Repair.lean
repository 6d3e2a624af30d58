import Verif.Model.Repair
import Mathlib.Tactic.Linarith
import Mathlib.Tactic.SplitIfs
import Mathlib.Tactic.NormNum
import Mathlib.Data.List.Count
import Mathlib.Data.List.Sort
import Mathlib.Algebra.Order.BigOperators.Group.Finset
import Mathlib.Algebra.BigOperators.Group.Finset.Basic
import Mathlib.Data.Finset.Union
import Mathlib.Data.Fintype.Basic
/-!
# C34: knot repair makes interfaces conforming
-/
set_option autoImplicit false

namespace Verif.Repair

/-- An increasing knot vector of the interval `[a,b]` whose two ends have multiplicity `k`. -/
structure Clamped (k : ℕ) (a b : ℚ) (l : List ℚ) : Prop where
  sorted : l.Pairwise (· ≤ ·)
  pos : 0 < k
  lt : a < b
  countLo : l.count a = k
  countHi : l.count b = k
  range : ∀ x ∈ l, a ≤ x ∧ x ≤ b

/-- Multiplicity of the ends and interval of the knot vectors of every patch and direction. -/
structure Ends where
  mult : ℕ → Bool → ℕ
  lo : ℕ → Bool → ℚ
  hi : ℕ → Bool → ℚ

/-- Interfaces are known from both sides, and the knot vectors along the two sides have the same interval and end multiplicity (that is, degree). -/
structure Topo.Good (T : Topo) (E : Ends) : Prop where
  lt : ∀ p s q s' o, T.nb p s = some (q, s', o) → q < T.n
  sym : ∀ p s q s' o, T.nb p s = some (q, s', o) → T.nb q s' = some (p, s, o)
  mult : ∀ p s q s' o, T.nb p s = some (q, s', o) → E.mult p (!s.dir) = E.mult q (!s'.dir)
  lo : ∀ p s q s' o, T.nb p s = some (q, s', o) → E.lo p (!s.dir) = E.lo q (!s'.dir)
  hi : ∀ p s q s' o, T.nb p s = some (q, s', o) → E.hi p (!s.dir) = E.hi q (!s'.dir)

/-- The parameter on the other side of an interface: the same, or mirrored in the interval with ends adding up to `c`. -/
def mirror (o : Bool) (c x : ℚ) : ℚ := if o then x else c - x

/-- A knot of some patch, or the mirror image of one. -/
def Value (T : Topo) (E : Ends) (K : Knots) (x : ℚ) : Prop := ∃ p < T.n, ∃ d o, mirror o (E.lo p d + E.hi p d) x ∈ K p d

/-- The knots are as required: different knots differ by at least the tolerance. -/
structure Valid (T : Topo) (E : Ends) (eps : ℚ) (K : Knots) : Prop where
  pos : 0 < eps
  clamped : ∀ p < T.n, ∀ d, Clamped (E.mult p d) (E.lo p d) (E.hi p d) (K p d)
  sep : ∀ x y, Value T E K x → Value T E K y → x = y ∨ eps ≤ |x - y|

/-! ### The comparison of two knot vectors -/

private theorem compare_spec (eps : ℚ) (he : 0 < eps) (b : ℚ) (xs ys : List ℚ) (hx : xs.Pairwise (· ≤ ·)) (hy : ys.Pairwise (· ≤ ·))
    (bx : ∀ x ∈ xs, x ≤ b) (bY : ∀ y ∈ ys, y ≤ b) (hs : ∀ x ∈ xs, ∀ y ∈ ys, x = y ∨ eps ≤ |x - y|)
    (hc : xs = [] ∧ ys = [] ∨ xs.count b = ys.count b ∧ 0 < xs.count b) :
    ∃ f ins, compare eps xs ys = some (f, ins) ∧ (∀ z, ins.count z = ys.count z - xs.count z) ∧
      (f = true ↔ ∃ z, ys.count z < xs.count z) := by
  induction hn : xs.length + ys.length using Nat.strong_induction_on generalizing xs ys with
  | _ n ih =>
    subst hn
    rcases xs with _ | ⟨x, xs⟩ <;> rcases ys with _ | ⟨y, ys⟩
    · exact ⟨false, [], by simp [compare], by simp, by simp⟩
    · simp at hc
    · exfalso
      rcases hc with ⟨h, -⟩ | ⟨h, h'⟩
      · simp at h
      · rw [h] at h'; simp at h'
    · have hc' : (x :: xs).count b = (y :: ys).count b ∧ 0 < (x :: xs).count b := by
        rcases hc with ⟨h, -⟩ | h
        · simp at h
        · exact h
      obtain ⟨hc1, hc2⟩ := hc'
      rw [List.pairwise_cons] at hx hy
      have bxx := bx x (by simp)
      have byy := bY y (by simp)
      rw [compare]
      split_ifs with h1 h2
      · have hxy : x = y := by
          rcases hs x (by simp) y (by simp) with h | h
          · exact h
          · exact absurd h1 (not_lt.2 h)
        subst hxy
        have hc3 : xs = [] ∧ ys = [] ∨ xs.count b = ys.count b ∧ 0 < xs.count b := by
          simp only [List.count_cons] at hc1 hc2
          have e1 : xs.count b = ys.count b := by omega
          rcases Nat.eq_zero_or_pos (xs.count b) with h0 | h0
          · left
            by_cases hxb : x = b
            · subst hxb
              constructor
              · apply List.eq_nil_iff_forall_not_mem.2
                intro z hz
                have : z = x := le_antisymm (bx z (by simp [hz])) (hx.1 z hz)
                rw [this] at hz
                exact absurd h0 (by have := List.count_pos_iff.2 hz; omega)
              · apply List.eq_nil_iff_forall_not_mem.2
                intro z hz
                have : z = x := le_antisymm (bY z (by simp [hz])) (hy.1 z hz)
                rw [this] at hz
                exact absurd (e1 ▸ h0) (by have := List.count_pos_iff.2 hz; omega)
            · simp [hxb, h0] at hc2
          · exact Or.inr ⟨e1, h0⟩
        obtain ⟨f, ins, q1, q2, q3⟩ := ih _ (by simp; omega) xs ys hx.2 hy.2 (fun z hz => bx z (by simp [hz])) (fun z hz => bY z (by simp [hz]))
          (fun z hz w hw => hs z (by simp [hz]) w (by simp [hw])) hc3 rfl
        refine ⟨f, ins, q1, fun z => ?_, ?_⟩
        · rw [q2 z, List.count_cons, List.count_cons]; omega
        · rw [q3]
          simp only [List.count_cons, Nat.add_lt_add_iff_right]
      · have hxb : x ≠ b := by rintro rfl; exact absurd h2 (not_lt.2 byy)
        have hxc : (y :: ys).count x = 0 := by
          apply List.count_eq_zero.2
          intro hm
          rcases List.mem_cons.1 hm with h | h
          · exact absurd h (ne_of_lt h2)
          · exact absurd (hy.1 x h) (not_le.2 h2)
        have hcx : (x :: xs).count b = xs.count b := by rw [List.count_cons]; simp [hxb]
        obtain ⟨f, ins, q1, q2, q3⟩ := ih _ (by simp) xs (y :: ys) hx.2 (List.pairwise_cons.2 hy) (fun z hz => bx z (by simp [hz]))
          bY (fun z hz w hw => hs z (by simp [hz]) w hw) (Or.inr ⟨by rw [← hcx]; exact hc1, by rw [← hcx]; exact hc2⟩) rfl
        refine ⟨true, ins, by rw [q1]; rfl, fun z => ?_, ?_⟩
        · rw [q2 z, List.count_cons (b := x)]
          split_ifs with hz
          · have : x = z := by simpa using hz
            subst this; omega
          · rfl
        · simp only [true_iff]
          exact ⟨x, by rw [hxc]; simp⟩
      · have hyx : y < x := by
          rcases lt_trichotomy x y with h | h | h
          · exact absurd h h2
          · subst h; simp [he] at h1
          · exact h
        have hyb : y ≠ b := by rintro rfl; exact absurd hyx (not_lt.2 bxx)
        have hyc : (x :: xs).count y = 0 := by
          apply List.count_eq_zero.2
          intro hm
          rcases List.mem_cons.1 hm with h | h
          · exact absurd h (ne_of_lt hyx)
          · exact absurd (hx.1 y h) (not_le.2 hyx)
        have hcy : (y :: ys).count b = ys.count b := by rw [List.count_cons]; simp [hyb]
        obtain ⟨f, ins, q1, q2, q3⟩ := ih _ (by simp) (x :: xs) ys (List.pairwise_cons.2 hx) hy.2 bx (fun z hz => bY z (by simp [hz]))
          (fun z hz w hw => hs z hz w (by simp [hw])) (Or.inr ⟨by rw [← hcy]; exact hc1, hc2⟩) rfl
        refine ⟨f, y :: ins, by rw [q1]; rfl, fun z => ?_, ?_⟩
        · rw [List.count_cons, q2 z, List.count_cons (b := y)]
          split_ifs with hz
          · have : y = z := by simpa using hz
            subst this; omega
          · rfl
        · rw [q3]
          constructor
          · rintro ⟨z, hz⟩
            refine ⟨z, ?_⟩
            rw [List.count_cons]
            split_ifs with h
            · have : y = z := by simpa using h
              subst this; omega
            · exact hz
          · rintro ⟨z, hz⟩
            refine ⟨z, ?_⟩
            rw [List.count_cons] at hz
            omega

/-! ### Mirrored knot vectors -/

private theorem headD_clamped {k : ℕ} {a b : ℚ} {l : List ℚ} (h : Clamped k a b l) : l.headD 0 = a := by
  obtain ⟨h1, h2, h3, h4, h5, h6⟩ := h
  rcases l with _ | ⟨x, l⟩
  · simp at h4; omega
  · simp only [List.headD_cons]
    have hm : a ∈ x :: l := List.count_pos_iff.1 (by omega)
    have := (h6 x (by simp)).1
    rcases List.mem_cons.1 hm with e | e
    · exact e.symm
    · exact le_antisymm ((List.pairwise_cons.1 h1).1 a e) this

private theorem getLastD_clamped {k : ℕ} {a b : ℚ} {l : List ℚ} (h : Clamped k a b l) : l.getLastD 0 = b := by
  obtain ⟨h1, h2, h3, h4, h5, h6⟩ := h
  rcases List.eq_nil_or_concat l with rfl | ⟨l', x, rfl⟩
  · simp at h5; omega
  · rw [List.concat_eq_append] at *
    have hm : b ∈ l' ++ [x] := List.count_pos_iff.1 (by omega)
    have hx := (h6 x (by simp)).2
    have : (l' ++ [x]).getLastD 0 = x := by simp
    rw [this]
    rcases List.mem_append.1 hm with e | e
    · exact le_antisymm hx ((List.pairwise_append.1 h1).2.2 b e x (by simp))
    · exact (List.mem_singleton.1 e).symm

theorem count_reverseKnots {k : ℕ} {a b : ℚ} {l : List ℚ} (h : Clamped k a b l) (z : ℚ) : (reverseKnots l).count z = l.count (a + b - z) := by
  unfold reverseKnots
  rw [headD_clamped h, getLastD_clamped h, List.count_reverse]
  have : z = (fun t => a + b - t) (a + b - z) := by simp
  conv_lhs => rw [this]
  rw [List.count_map_of_injective]
  intro s t e
  have e : a + b - s = a + b - t := e
  linarith

theorem clamped_reverse {k : ℕ} {a b : ℚ} {l : List ℚ} (h : Clamped k a b l) : Clamped k a b (reverseKnots l) := by
  have hc := count_reverseKnots h
  refine ⟨?_, h.pos, h.lt, ?_, ?_, ?_⟩
  · unfold reverseKnots
    rw [List.pairwise_reverse, List.pairwise_map]
    exact h.sorted.imp fun {s t} e => by linarith
  · rw [hc, ← h.countHi]; congr 1; linarith
  · rw [hc, ← h.countLo]; congr 1; linarith
  · intro x hx
    have : 0 < (reverseKnots l).count x := List.count_pos_iff.2 hx
    rw [hc] at this
    have := h.range _ (List.count_pos_iff.1 this)
    constructor <;> linarith

/-! ### Removing duplicates -/

private theorem unique_mem (l : List ℚ) (x : ℚ) : x ∈ unique l ↔ x ∈ l := by
  induction l using unique.induct with
  | case1 y l ih => rw [unique, if_pos rfl, ih]; simp
  | case2 a y l h ih => rw [unique, if_neg h]; simp [ih]
  | case3 l h => rw [unique]; exact h

private theorem unique_nodup (l : List ℚ) (hs : l.Pairwise (· ≤ ·)) : (unique l).Nodup := by
  induction l using unique.induct with
  | case1 y l ih => rw [unique, if_pos rfl]; exact ih (List.pairwise_cons.1 hs).2
  | case2 a y l h ih =>
    rw [unique, if_neg h]
    have h2 := List.pairwise_cons.1 hs
    refine List.nodup_cons.2 ⟨?_, ih h2.2⟩
    rw [unique_mem]
    intro hm
    have h3 := (List.pairwise_cons.1 h2.2).1
    rcases List.mem_cons.1 hm with e | e
    · exact h e
    · exact h (le_antisymm (h2.1 y (by simp)) (h3 a e))
  | case3 l h =>
    rw [unique]
    · rcases l with _ | ⟨a, _ | ⟨b, l⟩⟩
      · simp
      · simp
      · exact absurd rfl (h a b l)
    · exact h

/-! ### One turn of the loop -/

/-- How often the knot `z` of patch `p` along side `s` appears on the other side. -/
def far (T : Topo) (E : Ends) (K : Knots) (p : ℕ) (s : Side) (z : ℚ) : ℕ :=
  match T.nb p s with
  | none => 0
  | some (q, s', o) => (K q (!s'.dir)).count (mirror o (E.lo p (!s.dir) + E.hi p (!s.dir)) z)

structure Inv (T : Topo) (E : Ends) (eps : ℚ) (S : Finset ℚ) (B : ℕ) (K : Knots) : Prop where
  pos : 0 < eps
  sep : ∀ x ∈ S, ∀ y ∈ S, x = y ∨ eps ≤ |x - y|
  clamped : ∀ p < T.n, ∀ d, Clamped (E.mult p d) (E.lo p d) (E.hi p d) (K p d)
  vals : ∀ p < T.n, ∀ d, ∀ x ∈ K p d, x ∈ S ∧ E.lo p d + E.hi p d - x ∈ S
  cnt : ∀ p < T.n, ∀ d x, (K p d).count x ≤ B

private theorem mirror_mirror (o : Bool) (c z : ℚ) : mirror o c (mirror o c z) = z := by
  unfold mirror; cases o <;> simp

private theorem neigh_spec {T : Topo} {E : Ends} {eps : ℚ} {S : Finset ℚ} {B : ℕ} {K : Knots} (hg : T.Good E) (hi : Inv T E eps S B K) {p : ℕ} {s : Side} {q : ℕ}
    {s' : Side} {o : Bool} (hn : T.nb p s = some (q, s', o)) :
    Clamped (E.mult p (!s.dir)) (E.lo p (!s.dir)) (E.hi p (!s.dir)) (neighKnots K (q, s', o)) ∧
    (∀ z, (neighKnots K (q, s', o)).count z = (K q (!s'.dir)).count (mirror o (E.lo p (!s.dir) + E.hi p (!s.dir)) z)) ∧
    ∀ z ∈ neighKnots K (q, s', o), z ∈ S ∧ E.lo p (!s.dir) + E.hi p (!s.dir) - z ∈ S := by
  have hq := hg.lt _ _ _ _ _ hn
  have hcl := hi.clamped q hq (!s'.dir)
  have hv := hi.vals q hq (!s'.dir)
  rw [hg.mult _ _ _ _ _ hn, hg.lo _ _ _ _ _ hn, hg.hi _ _ _ _ _ hn]
  unfold neighKnots mirror
  cases o
  · simp only [Bool.false_eq_true, if_false]
    refine ⟨clamped_reverse hcl, count_reverseKnots hcl, fun z hz => ?_⟩
    have h0 : 0 < (reverseKnots (K q (!s'.dir))).count z := List.count_pos_iff.2 hz
    rw [count_reverseKnots hcl] at h0
    have := hv _ (List.count_pos_iff.1 h0)
    refine ⟨?_, this.1⟩
    have e := this.2
    rwa [sub_sub_cancel] at e
  · simp only [if_true]
    exact ⟨hcl, fun _ => trivial, hv⟩

private theorem side_spec {T : Topo} {E : Ends} {eps : ℚ} {S : Finset ℚ} {B : ℕ} {K : Knots} (hg : T.Good E) (hi : Inv T E eps S B K) {p : ℕ} (hp : p < T.n) (s : Side) :
    ∃ r, sideMatch T eps K p s = some r ∧ (∀ z, r.2.count z = far T E K p s z - (K p (!s.dir)).count z) ∧
      (r.1 = true ↔ (T.nb p s).isSome ∧ ∃ z, far T E K p s z < (K p (!s.dir)).count z) := by
  rcases hn : T.nb p s with _ | ⟨q, s', o⟩
  · exact ⟨(false, []), by simp [sideMatch, hn], by simp [far, hn], by simp⟩
  · obtain ⟨n1, n2, n3⟩ := neigh_spec hg hi hn
    have hcl := hi.clamped p hp (!s.dir)
    obtain ⟨f, ins, h1, h2, h3⟩ := compare_spec eps hi.pos (E.hi p (!s.dir)) (K p (!s.dir)) (neighKnots K (q, s', o)) hcl.sorted n1.sorted
      (fun x hx => (hcl.range x hx).2) (fun x hx => (n1.range x hx).2)
      (fun x hx y hy => hi.sep x (hi.vals p hp _ x hx).1 y (n3 y hy).1)
      (Or.inr ⟨by rw [hcl.countHi, n1.countHi], by rw [hcl.countHi]; exact hcl.pos⟩)
    refine ⟨(f, ins), by simp [sideMatch, hn, h1], fun z => ?_, ?_⟩
    · simp only [far, hn, h2, n2]
    · simp only [h3, far, hn, n2, Option.isSome_some, true_and]

/-- What one turn of the loop does. -/
structure Turn (T : Topo) (E : Ends) (K : Knots) (p : ℕ) (K' : Knots) (chk : List ℕ) : Prop where
  same : ∀ q, q ≠ p → K' q = K q
  sorted : ∀ d, (K' p d).Pairwise (· ≤ ·)
  grow : ∀ d z, (∃ s : Side, (!s.dir) = d ∧ (K p d).count z < far T E K p s z) → (K' p d).count z = (K p d).count z + 1
  keep : ∀ d z, ¬ (∃ s : Side, (!s.dir) = d ∧ (K p d).count z < far T E K p s z) → (K' p d).count z = (K p d).count z
  chk : ∀ x, x ∈ chk ↔ ∃ s s' o, T.nb p s = some (x, s', o) ∧
    ((∃ z, far T E K p s z < (K p (!s.dir)).count z) ∨ ∃ z, (K p (!s.dir)).count z < far T E K p (opposite s) z)
  stay : (∀ d z, ¬ ∃ s : Side, (!s.dir) = d ∧ (K p d).count z < far T E K p s z) → K' = K

private theorem opposite_dir (s : Side) : (opposite s).dir = s.dir := by cases s <;> rfl

private theorem sort_sorted (l : List ℚ) : (l.insertionSort (· ≤ ·)).Pairwise (· ≤ ·) := List.pairwise_insertionSort _ l

private theorem turn_spec {T : Topo} {E : Ends} {eps : ℚ} {S : Finset ℚ} {B : ℕ} {K : Knots} (hg : T.Good E) (hi : Inv T E eps S B K) {p : ℕ} (hp : p < T.n) :
    ∃ ins chk, knotsMatchNeighbours T eps K p = some (ins, chk) ∧
      Turn T E K p (if ins false = [] ∧ ins true = [] then K else insertKnots K p ins) chk := by
  obtain ⟨w, w1, w2, w3⟩ := side_spec hg hi hp .west
  obtain ⟨e, e1, e2, e3⟩ := side_spec hg hi hp .east
  obtain ⟨u, u1, u2, u3⟩ := side_spec hg hi hp .south
  obtain ⟨n, n1, n2, n3⟩ := side_spec hg hi hp .north
  let r : Side → Bool × List ℚ := fun x => match x with | .west => w | .east => e | .south => u | .north => n
  have hr2 : ∀ s z, (r s).2.count z = far T E K p s z - (K p (!s.dir)).count z := by rintro (_ | _ | _ | _) z <;> simp only [r, w2, e2, u2, n2]
  have hr3 : ∀ s, (r s).1 = true ↔ (T.nb p s).isSome ∧ ∃ z, far T E K p s z < (K p (!s.dir)).count z := by
    rintro (_ | _ | _ | _) <;> simp only [r, w3, e3, u3, n3]
  have hmem : ∀ s z, z ∈ (r s).2 ↔ (K p (!s.dir)).count z < far T E K p s z := by
    intro s z; rw [← List.count_pos_iff, hr2]; omega
  have hins : ∀ d z, z ∈ toInsert r d ↔ ∃ s : Side, (!s.dir) = d ∧ (K p d).count z < far T E K p s z := by
    intro d z
    unfold toInsert
    rw [unique_mem, List.mem_insertionSort]
    constructor
    · intro h
      cases d
      · simp only [Bool.false_eq_true, if_false, List.mem_append, hmem] at h
        rcases h with h | h
        · exact ⟨.south, rfl, h⟩
        · exact ⟨.north, rfl, h⟩
      · simp only [if_true, List.mem_append, hmem] at h
        rcases h with h | h
        · exact ⟨.west, rfl, h⟩
        · exact ⟨.east, rfl, h⟩
    · rintro ⟨s, rfl, h⟩
      have := (hmem s z).2 h
      cases s <;> simp only [Side.dir, Bool.not_false, Bool.not_true, if_true, if_false, List.mem_append, Bool.false_eq_true] <;> tauto
  have hnd : ∀ d, (toInsert r d).Nodup := fun d => unique_nodup _ (sort_sorted _)
  have hcount : ∀ d z, (insertKnots K p (toInsert r) p d).count z = (K p d).count z + (toInsert r d).count z := by
    intro d z
    unfold insertKnots
    rw [if_pos rfl, (List.perm_insertionSort _ _).count_eq, List.count_append]
  have hnil : (toInsert r false = [] ∧ toInsert r true = []) ↔ ∀ d z, ¬ ∃ s : Side, (!s.dir) = d ∧ (K p d).count z < far T E K p s z := by
    constructor
    · rintro ⟨a, b⟩ d z h
      rw [← hins] at h
      cases d <;> simp_all
    · intro h
      constructor <;> apply List.eq_nil_iff_forall_not_mem.2 <;> intro z hz <;> exact h _ z ((hins _ z).1 hz)
  refine ⟨toInsert r, checkPatches T r p, ?_, ?_, ?_, ?_, ?_, ?_, ?_⟩
  · unfold knotsMatchNeighbours
    rw [w1, e1, u1, n1]
    rfl
  · intro q hq
    split_ifs
    · rfl
    · funext d; unfold insertKnots; rw [if_neg hq]
  · intro d
    split_ifs
    · exact (hi.clamped p hp d).sorted
    · unfold insertKnots; rw [if_pos rfl]; exact sort_sorted _
  · intro d z h
    have hm := (hins d z).2 h
    split_ifs with h0
    · exact absurd h (hnil.1 h0 d z)
    · rw [hcount, List.count_eq_one_of_mem (hnd d) hm]
  · intro d z h
    have hm := mt (hins d z).1 h
    split_ifs with h0
    · rfl
    · rw [hcount, List.count_eq_zero.2 hm, Nat.add_zero]
  · intro x
    unfold checkPatches
    rw [List.mem_filterMap]
    have hc : ∀ s, sideToCheck r s = true ↔ ((T.nb p s).isSome ∧ ∃ z, far T E K p s z < (K p (!s.dir)).count z) ∨
        ∃ z, (K p (!s.dir)).count z < far T E K p (opposite s) z := by
      intro s
      unfold sideToCheck
      rw [Bool.or_eq_true, hr3]
      apply or_congr Iff.rfl
      rw [Bool.not_eq_true', List.isEmpty_eq_false_iff_exists_mem]
      simp only [hmem, opposite_dir]
    constructor
    · rintro ⟨s, -, h⟩
      split_ifs at h with h1
      rcases hnb : T.nb p s with _ | ⟨q, s', o⟩
      · simp [hnb] at h
      · simp [hnb] at h
        subst h
        refine ⟨s, s', o, hnb, ?_⟩
        rcases (hc s).1 h1 with ⟨-, h⟩ | h
        · exact Or.inl h
        · exact Or.inr h
    · rintro ⟨s, s', o, hnb, h⟩
      refine ⟨s, Side.mem_all s, ?_⟩
      rw [if_pos, hnb]
      · rfl
      · rw [hc, hnb]
        rcases h with h | h
        · exact Or.inl ⟨by simp, h⟩
        · exact Or.inr h
  · intro h
    rw [if_pos (hnil.2 h)]

private theorem inv_turn {T : Topo} {E : Ends} {eps : ℚ} {S : Finset ℚ} {B : ℕ} {K : Knots} (hg : T.Good E) (hi : Inv T E eps S B K) {p : ℕ} {K' : Knots} {chk : List ℕ}
    (ht : Turn T E K p K' chk) : Inv T E eps S B K' := by
  have hfar : ∀ (s : Side) (z : ℚ), 0 < far T E K p s z → ∃ q s' o, T.nb p s = some (q, s', o) ∧ far T E K p s z = (neighKnots K (q, s', o)).count z := by
    intro s z h
    rcases hn : T.nb p s with _ | ⟨q, s', o⟩
    · simp [far, hn] at h
    · exact ⟨q, s', o, rfl, by rw [(neigh_spec hg hi hn).2.1]; simp [far, hn]⟩
  have hmem : ∀ d z, z ∈ K' p d → z ∈ K p d ∨ ∃ s : Side, (!s.dir) = d ∧ ∃ q s' o, T.nb p s = some (q, s', o) ∧ z ∈ neighKnots K (q, s', o) := by
    intro d z hz
    by_cases hc : ∃ s : Side, (!s.dir) = d ∧ (K p d).count z < far T E K p s z
    · obtain ⟨s, hs, hlt⟩ := hc
      obtain ⟨q, s', o, h1, h2⟩ := hfar s z (by omega)
      exact Or.inr ⟨s, hs, q, s', o, h1, List.count_pos_iff.1 (by omega)⟩
    · have := ht.keep d z hc
      left
      rw [← List.count_pos_iff, ← this, List.count_pos_iff]
      exact hz
  have hend : ∀ (hp : p < T.n) (d : Bool) (z : ℚ), (∀ l, Clamped (E.mult p d) (E.lo p d) (E.hi p d) l → l.count z = E.mult p d) → (K' p d).count z = (K p d).count z := by
    intro hp d z h
    apply ht.keep
    rintro ⟨s, rfl, hlt⟩
    obtain ⟨q, s', o, h1, h2⟩ := hfar s z (by omega)
    rw [h2, h _ (neigh_spec hg hi h1).1, h _ (hi.clamped p hp _)] at hlt
    omega
  refine ⟨hi.pos, hi.sep, ?_, ?_, ?_⟩
  · intro q hq d
    by_cases hqp : q = p
    · subst hqp
      have hcl := hi.clamped q hq d
      refine ⟨ht.sorted d, hcl.pos, hcl.lt, ?_, ?_, ?_⟩
      · rw [hend hq d _ fun l h => h.countLo]; exact hcl.countLo
      · rw [hend hq d _ fun l h => h.countHi]; exact hcl.countHi
      · intro x hx
        rcases hmem d x hx with h | ⟨s, rfl, q', s', o, h1, h2⟩
        · exact hcl.range x h
        · exact (neigh_spec hg hi h1).1.range x h2
    · rw [ht.same q hqp]; exact hi.clamped q hq d
  · intro q hq d x hx
    by_cases hqp : q = p
    · subst hqp
      rcases hmem d x hx with h | ⟨s, rfl, q', s', o, h1, h2⟩
      · exact hi.vals q hq d x h
      · exact (neigh_spec hg hi h1).2.2 x h2
    · rw [ht.same q hqp] at hx; exact hi.vals q hq d x hx
  · intro q hq d x
    by_cases hqp : q = p
    · subst hqp
      by_cases hc : ∃ s : Side, (!s.dir) = d ∧ (K q d).count x < far T E K q s x
      · rw [ht.grow d x hc]
        obtain ⟨s, hs, hlt⟩ := hc
        obtain ⟨q', s', o, h1, h2⟩ := hfar s x (by omega)
        have : far T E K q s x ≤ B := by
          simp only [far, h1]
          exact hi.cnt q' (hg.lt _ _ _ _ _ h1) _ _
        omega
      · rw [ht.keep d x hc]; exact hi.cnt q hq d x
    · rw [ht.same q hqp]; exact hi.cnt q hq d x

/-! ### Termination -/

private theorem length_le {T : Topo} {E : Ends} {eps : ℚ} {S : Finset ℚ} {B : ℕ} {K : Knots} (hi : Inv T E eps S B K) {p : ℕ} (hp : p < T.n) (d : Bool) :
    (K p d).length ≤ S.card * B := by
  have h1 : (K p d).length = ∑ x ∈ (K p d).toFinset, (K p d).count x := (List.sum_toFinset_count_eq_length _).symm
  rw [h1]
  calc ∑ x ∈ (K p d).toFinset, (K p d).count x ≤ ∑ _x ∈ (K p d).toFinset, B := Finset.sum_le_sum fun x _ => hi.cnt p hp d x
    _ = (K p d).toFinset.card * B := Finset.sum_const_nat fun _ _ => rfl
    _ ≤ S.card * B := by
      apply Nat.mul_le_mul_right
      apply Finset.card_le_card
      intro x hx
      exact (hi.vals p hp d x (List.mem_toFinset.1 hx)).1

/-- The number of knots of a patch, both directions. -/
def total (T : Topo) (K : Knots) : ℕ := ∑ p ∈ Finset.range T.n, ((K p false).length + (K p true).length)

private theorem total_le {T : Topo} {E : Ends} {eps : ℚ} {S : Finset ℚ} {B : ℕ} {K : Knots} (hi : Inv T E eps S B K) : total T K ≤ T.n * (2 * (S.card * B)) := by
  unfold total
  calc _ ≤ ∑ _p ∈ Finset.range T.n, 2 * (S.card * B) := Finset.sum_le_sum fun p hp => by
          have h1 := length_le hi (Finset.mem_range.1 hp) false
          have h2 := length_le hi (Finset.mem_range.1 hp) true
          omega
    _ = _ := by rw [Finset.sum_const_nat fun _ _ => rfl, Finset.card_range]

/-- A neighbour of the patch has a knot that the patch has not. -/
def Lacks (T : Topo) (E : Ends) (K : Knots) (p : ℕ) : Prop := ∃ (s : Side) (z : ℚ), (K p (!s.dir)).count z < far T E K p s z

private theorem count_le_turn {T : Topo} {E : Ends} {K : Knots} {p : ℕ} {K' : Knots} {chk : List ℕ} (ht : Turn T E K p K' chk) (q : ℕ) (d : Bool) (z : ℚ) :
    (K q d).count z ≤ (K' q d).count z := by
  by_cases hqp : q = p
  · subst hqp
    by_cases hc : ∃ s : Side, (!s.dir) = d ∧ (K q d).count z < far T E K q s z
    · rw [ht.grow d z hc]; omega
    · rw [ht.keep d z hc]
  · rw [ht.same q hqp]

private theorem length_le_turn {T : Topo} {E : Ends} {K : Knots} {p : ℕ} {K' : Knots} {chk : List ℕ} (ht : Turn T E K p K' chk) (q : ℕ) (d : Bool) :
    (K q d).length ≤ (K' q d).length := (List.subperm_ext_iff.2 fun z _ => count_le_turn ht q d z).length_le

private theorem total_lt {T : Topo} {E : Ends} {K : Knots} {p : ℕ} (hp : p < T.n) {K' : Knots} {chk : List ℕ} (ht : Turn T E K p K' chk) (hl : Lacks T E K p) :
    total T K < total T K' := by
  unfold total
  apply Finset.sum_lt_sum
  · intro q _
    exact Nat.add_le_add (length_le_turn ht q _) (length_le_turn ht q _)
  · refine ⟨p, Finset.mem_range.2 hp, ?_⟩
    obtain ⟨s, z, h⟩ := hl
    have hlt : (K p (!s.dir)).length < (K' p (!s.dir)).length := by
      rcases Nat.lt_or_ge (K p (!s.dir)).length (K' p (!s.dir)).length with h' | h'
      · exact h'
      · exfalso
        have hp' : (K p (!s.dir)).Perm (K' p (!s.dir)) := (List.subperm_ext_iff.2 fun z _ => count_le_turn ht p _ z).perm_of_length_le h'
        have e1 := hp'.count_eq z
        have e2 := ht.grow (!s.dir) z ⟨s, rfl, h⟩
        omega
    have h0 := length_le_turn ht p false
    have h1 := length_le_turn ht p true
    cases hd : (!s.dir) <;> rw [hd] at hlt <;> omega

private theorem mem_insertSet (x y : ℕ) (l : List ℕ) : y ∈ insertSet x l ↔ y = x ∨ y ∈ l := by
  induction l with
  | nil => simp [insertSet]
  | cons z l ih =>
    unfold insertSet
    split_ifs with h1 h2
    · simp
    · subst h2; simp
    · simp only [List.mem_cons, ih]; tauto

private theorem insertSet_sorted (x : ℕ) (l : List ℕ) (h : l.Pairwise (· < ·)) : (insertSet x l).Pairwise (· < ·) := by
  induction l with
  | nil => simp [insertSet]
  | cons z l ih =>
    rw [List.pairwise_cons] at h
    unfold insertSet
    split_ifs with h1 h2
    · refine List.pairwise_cons.2 ⟨fun y hy => ?_, List.pairwise_cons.2 h⟩
      rcases List.mem_cons.1 hy with rfl | hy
      · exact h1
      · exact lt_trans h1 (h.1 y hy)
    · exact List.pairwise_cons.2 h
    · refine List.pairwise_cons.2 ⟨fun y hy => ?_, ih h.2⟩
      rcases (mem_insertSet x y l).1 hy with rfl | hy
      · omega
      · exact h.1 y hy

private theorem mem_addAll (chk : List ℕ) : ∀ (c : List ℕ) (y : ℕ), y ∈ chk.foldl (fun l x => insertSet x l) c ↔ y ∈ chk ∨ y ∈ c := by
  induction chk with
  | nil => simp
  | cons x chk ih => intro c y; rw [List.foldl_cons, ih, mem_insertSet, List.mem_cons]; tauto

private theorem addAll_sorted (chk : List ℕ) : ∀ c : List ℕ, c.Pairwise (· < ·) → (chk.foldl (fun l x => insertSet x l) c).Pairwise (· < ·) := by
  induction chk with
  | nil => exact fun c h => h
  | cons x chk ih => intro c h; exact ih _ (insertSet_sorted x c h)

private theorem lacks_of_more {T : Topo} {E : Ends} {K : Knots} (hg : T.Good E) {p : ℕ} {s : Side} {q : ℕ} {s' : Side} {o : Bool} (hn : T.nb p s = some (q, s', o))
    (h : ∃ z, far T E K p s z < (K p (!s.dir)).count z) : Lacks T E K q := by
  obtain ⟨z, hz⟩ := h
  refine ⟨s', mirror o (E.lo p (!s.dir) + E.hi p (!s.dir)) z, ?_⟩
  simp only [far, hn] at hz
  simp only [far, hg.sym _ _ _ _ _ hn, ← hg.lo _ _ _ _ _ hn, ← hg.hi _ _ _ _ _ hn, mirror_mirror]
  exact hz

/-- The loop ends, and a property kept by every turn holds at the end. -/
private theorem loop_ends {T : Topo} {E : Ends} {eps : ℚ} {S : Finset ℚ} {B : ℕ} (hg : T.Good E) (Q : Knots → List ℕ → Prop)
    (hQ : ∀ K p c K' chk c', Inv T E eps S B K → p < T.n → Turn T E K p K' chk → (∀ y, y ∈ c' ↔ y ∈ chk ∨ y ∈ c) → Q K (p :: c) → Q K' c')
    (K : Knots) (c : List ℕ) (hi : Inv T E eps S B K) (hc : c.Pairwise (· < ·)) (hlt : ∀ p ∈ c, p < T.n) (h0 : Q K c) :
    ∃ m K', (∀ j, repairLoop T eps (m + j) K c = .done K') ∧ Inv T E eps S B K' ∧ Q K' [] := by
  classical
  induction hD : T.n * (2 * (S.card * B)) - total T K using Nat.strong_induction_on generalizing K c with
  | _ D ihD =>
  induction hN : (c.filter fun p => ¬ Lacks T E K p).length using Nat.strong_induction_on generalizing c with
  | _ N ihN =>
  rcases c with _ | ⟨p, c⟩
  · exact ⟨0, K, fun j => by cases j <;> simp [repairLoop], hi, h0⟩
  · have hp : p < T.n := hlt p (by simp)
    obtain ⟨ins, chk, hk, ht⟩ := turn_spec hg hi hp
    have hi' := inv_turn hg hi ht
    have hmem := mem_addAll chk c
    have hq' := hQ _ _ _ _ _ _ hi hp ht hmem h0
    have hs' := addAll_sorted chk c (List.pairwise_cons.1 hc).2
    have hlt' : ∀ y ∈ chk.foldl (fun l x => insertSet x l) c, y < T.n := by
      intro y hy
      rcases (hmem y).1 hy with h | h
      · obtain ⟨s, s', o, hn, -⟩ := (ht.chk y).1 h
        exact hg.lt _ _ _ _ _ hn
      · exact hlt y (by simp [h])
    have key : ∃ m K', (∀ j, repairLoop T eps (m + j) (if ins false = [] ∧ ins true = [] then K else insertKnots K p ins)
        (chk.foldl (fun l x => insertSet x l) c) = .done K') ∧ Inv T E eps S B K' ∧ Q K' [] := by
      by_cases hl : Lacks T E K p
      · have h1 := total_lt hp ht hl
        have h2 := total_le hi'
        exact ihD _ (by omega) _ _ hi' hs' hlt' hq' rfl
      · have hstay := ht.stay (by rintro d z ⟨s, rfl, h⟩; exact hl ⟨s, z, h⟩)
        rw [hstay] at ht hq' ⊢
        refine ihN _ ?_ _ hs' hlt' hq' rfl
        subst hN
        have hnd : (chk.foldl (fun l x => insertSet x l) c).Nodup := hs'.imp fun h => ne_of_lt h
        have hsub : (chk.foldl (fun l x => insertSet x l) c).filter (fun p => ¬ Lacks T E K p) ⊆ c.filter fun p => ¬ Lacks T E K p := by
          intro y hy
          rw [List.mem_filter] at hy ⊢
          refine ⟨?_, hy.2⟩
          rcases (hmem y).1 hy.1 with h | h
          · exfalso
            obtain ⟨s, s', o, hn, h | ⟨z, h⟩⟩ := (ht.chk y).1 h
            · exact (of_decide_eq_true hy.2) (lacks_of_more hg hn h)
            · exact hl ⟨opposite s, z, by rw [opposite_dir]; exact h⟩
          · exact h
        have hle := (List.Nodup.subperm (hnd.filter _) hsub).length_le
        have : ((p :: c).filter fun p => ¬ Lacks T E K p) = p :: c.filter fun p => ¬ Lacks T E K p := by
          rw [List.filter_cons, if_pos (by simpa using hl)]
        rw [this, List.length_cons]
        omega
    obtain ⟨m, K', h1, h2, h3⟩ := key
    refine ⟨m + 1, K', fun j => ?_, h2, h3⟩
    rw [show m + 1 + j = m + j + 1 by omega]
    simp only [repairLoop, hk]
    exact h1 j

/-! ### What holds at the end -/

private theorem far_pos_of_mem {T : Topo} {E : Ends} {K : Knots} (hg : T.Good E) {p : ℕ} {s : Side} {q : ℕ} {s' : Side} {o : Bool} (hn : T.nb p s = some (q, s', o))
    {z : ℚ} (hz : z ∈ K p (!s.dir)) : 0 < far T E K q s' (mirror o (E.lo p (!s.dir) + E.hi p (!s.dir)) z) := by
  simp only [far, hg.sym _ _ _ _ _ hn, ← hg.lo _ _ _ _ _ hn, ← hg.hi _ _ _ _ _ hn, mirror_mirror]
  exact List.count_pos_iff.2 hz

private theorem far_le_turn {T : Topo} {E : Ends} {K : Knots} {p : ℕ} {K' : Knots} {chk : List ℕ} (ht : Turn T E K p K' chk) (q : ℕ) (s : Side) (z : ℚ) :
    far T E K q s z ≤ far T E K' q s z := by
  unfold far
  rcases T.nb q s with _ | ⟨r, s', o⟩
  · exact le_refl _
  · exact count_le_turn ht r _ _

/-- Every interface between patches that need not be checked has on the far side the knots of the near side. -/
private def Shared (T : Topo) (E : Ends) (K : Knots) (c : List ℕ) : Prop :=
  ∀ p s q s' o, p < T.n → T.nb p s = some (q, s', o) → p ∈ c ∨ q ∈ c ∨ ∀ z ∈ K p (!s.dir), 0 < far T E K p s z

private theorem shared_turn {T : Topo} {E : Ends} (hg : T.Good E) (K : Knots) (r : ℕ) (c : List ℕ) (K' : Knots) (chk c' : List ℕ) (ht : Turn T E K r K' chk)
    (hc : ∀ y, y ∈ c' ↔ y ∈ chk ∨ y ∈ c) (h : Shared T E K (r :: c)) : Shared T E K' c' := by
  intro p s q s' o hp hn
  by_cases h1 : p ∈ c
  · exact Or.inl ((hc p).2 (Or.inr h1))
  by_cases h2 : q ∈ c
  · exact Or.inr (Or.inl ((hc q).2 (Or.inr h2)))
  by_cases hpr : p = r
  · subst hpr
    right
    by_cases hk : q ∈ chk
    · exact Or.inl ((hc q).2 (Or.inl hk))
    right
    intro z hz
    have hno := mt (ht.chk q).2 hk
    have n1 : ¬ ∃ z, far T E K p s z < (K p (!s.dir)).count z := fun h => hno ⟨s, s', o, hn, Or.inl h⟩
    have n2 : ¬ ∃ z, (K p (!s.dir)).count z < far T E K p (opposite s) z := fun h => hno ⟨s, s', o, hn, Or.inr h⟩
    push Not at n1 n2
    have : 0 < far T E K p s z := by
      by_cases hg' : ∃ s2 : Side, (!s2.dir) = (!s.dir) ∧ (K p (!s.dir)).count z < far T E K p s2 z
      · obtain ⟨s2, e, hlt⟩ := hg'
        have : s2 = s ∨ s2 = opposite s := by cases s <;> cases s2 <;> simp_all [Side.dir, opposite]
        rcases this with rfl | rfl
        · omega
        · have := n2 z; omega
      · have e := ht.keep _ z hg'
        have := n1 z
        have : 0 < (K' p (!s.dir)).count z := List.count_pos_iff.2 hz
        omega
    exact lt_of_lt_of_le this (far_le_turn ht p s z)
  · by_cases hqr : q = r
    · subst hqr
      right; right
      intro z hz
      rw [ht.same p hpr] at hz
      have hf := far_pos_of_mem hg hn hz
      simp only [far, hn]
      generalize mirror o (E.lo p (!s.dir) + E.hi p (!s.dir)) z = w at hf ⊢
      by_cases h0 : (K q (!s'.dir)).count w < far T E K q s' w
      · rw [ht.grow _ w ⟨s', rfl, h0⟩]; omega
      · have := count_le_turn ht q (!s'.dir) w; omega
    · right; right
      intro z hz
      rw [ht.same p hpr] at hz
      rcases h p s q s' o hp hn with h | h | h
      · rcases List.mem_cons.1 h with h | h
        · exact absurd h hpr
        · exact absurd h h1
      · rcases List.mem_cons.1 h with h | h
        · exact absurd h hqr
        · exact absurd h h2
      · have := h z hz
        simpa only [far, hn, ht.same q hqr] using this

/-- The knots and their mirror images. -/
private def values (T : Topo) (E : Ends) (K : Knots) : Finset ℚ :=
  (Finset.range T.n).biUnion fun p => (Finset.univ : Finset Bool).biUnion fun d =>
    (K p d).toFinset ∪ ((K p d).map fun x => E.lo p d + E.hi p d - x).toFinset

private theorem mem_values (T : Topo) (E : Ends) (K : Knots) (x : ℚ) : x ∈ values T E K ↔ Value T E K x := by
  unfold values Value mirror
  simp only [Finset.mem_biUnion, Finset.mem_range, Finset.mem_univ, true_and, Finset.mem_union, List.mem_toFinset, List.mem_map, Bool.exists_bool,
    if_true, Bool.false_eq_true, if_false]
  have e : ∀ p d, (∃ a ∈ K p d, E.lo p d + E.hi p d - a = x) ↔ E.lo p d + E.hi p d - x ∈ K p d := by
    intro p d
    constructor
    · rintro ⟨a, ha, rfl⟩; rwa [sub_sub_cancel]
    · intro h; exact ⟨_, h, sub_sub_cancel _ _⟩
  constructor
  · rintro ⟨p, hp, (h | h) | (h | h)⟩
    · exact ⟨p, hp, Or.inl (Or.inr h)⟩
    · exact ⟨p, hp, Or.inl (Or.inl ((e p false).1 h))⟩
    · exact ⟨p, hp, Or.inr (Or.inr h)⟩
    · exact ⟨p, hp, Or.inr (Or.inl ((e p true).1 h))⟩
  · rintro ⟨p, hp, (h | h) | (h | h)⟩
    · exact ⟨p, hp, Or.inl (Or.inr ((e p false).2 h))⟩
    · exact ⟨p, hp, Or.inl (Or.inl h)⟩
    · exact ⟨p, hp, Or.inr (Or.inr ((e p true).2 h))⟩
    · exact ⟨p, hp, Or.inr (Or.inl h)⟩

private theorem inv_start {T : Topo} {E : Ends} {eps : ℚ} {K : Knots} (h : Valid T E eps K) : Inv T E eps (values T E K) (total T K) K := by
  refine ⟨h.pos, fun x hx y hy => h.sep x y ((mem_values ..).1 hx) ((mem_values ..).1 hy), h.clamped, ?_, ?_⟩
  · intro p hp d x hx
    refine ⟨(mem_values ..).2 ⟨p, hp, d, true, hx⟩, (mem_values ..).2 ⟨p, hp, d, false, ?_⟩⟩
    simp only [mirror, Bool.false_eq_true, if_false, sub_sub_cancel]
    exact hx
  · intro p hp d x
    have h1 : (K p d).count x ≤ (K p d).length := List.count_le_length
    have h2 : (K p false).length + (K p true).length ≤ total T K :=
      Finset.single_le_sum (f := fun p => (K p false).length + (K p true).length) (fun _ _ => Nat.zero_le _) (Finset.mem_range.2 hp)
    cases d <;> omega

/-- The two knot vectors along an interface agree, with multiplicities. -/
def Agree (E : Ends) (K : Knots) (p : ℕ) (s : Side) (q : ℕ) (s' : Side) (o : Bool) : Prop :=
  ∀ z, (K p (!s.dir)).count z = (K q (!s'.dir)).count (mirror o (E.lo p (!s.dir) + E.hi p (!s.dir)) z)

/-- Which knot vectors must agree before the repair: none if all patches are checked at first; if only patch `r` is, those along interfaces of other patches. -/
def Before (T : Topo) (E : Ends) (K : Knots) : Option ℕ → Prop
  | none => True
  | some r => r < T.n ∧ ∀ p s q s' o, T.nb p s = some (q, s', o) → p ≠ r → q ≠ r → Agree E K p s q s' o

/-- A bound on the multiplicity of every possible knot in every patch that does not change across interfaces. -/
def Carried (T : Topo) (E : Ends) (W : ℕ → Bool → ℚ → ℕ) : Prop :=
  ∀ p s q s' o, T.nb p s = some (q, s', o) → ∀ z, W q (!s'.dir) (mirror o (E.lo p (!s.dir) + E.hi p (!s.dir)) z) = W p (!s.dir) z

/-- C34, as far as it is true. For every number of patches, all interfaces (also of a patch with itself), both ways to call the repair, and all knot vectors
with equal degrees and intervals along interfaces and different knots at least `eps` apart:
the loop ends without reading a knot vector past its end, and the knots are valid again; no knot is removed;
knots are only inserted that come from neighbours, and not more often than there;
both sides of every interface have the same knots, up to multiplicity;
if no knot inside an interval was repeated, both sides of every interface have the same knot vectors.

The full claim has the last part without its hypothesis; it is false, see `C34_repeated_violated`, and so is it without equal degrees, see `C34_degrees_violated`.
For the coefficients that are carried along see C61. -/
theorem C34_repair_partial (T : Topo) (E : Ends) (hg : T.Good E) (eps : ℚ) (K : Knots) (hv : Valid T E eps K) (start : Option ℕ) (hs : Before T E K start) :
    ∃ m K', (∀ j, repairPatches T eps (m + j) K start = .done K') ∧ Valid T E eps K' ∧ (∀ p d z, (K p d).count z ≤ (K' p d).count z) ∧
      (∀ W, Carried T E W → (∀ p < T.n, ∀ d z, (K p d).count z ≤ W p d z) → ∀ p < T.n, ∀ d z, (K' p d).count z ≤ W p d z) ∧
      (∀ p s q s' o, p < T.n → T.nb p s = some (q, s', o) → ∀ z, z ∈ K' p (!s.dir) ↔ mirror o (E.lo p (!s.dir) + E.hi p (!s.dir)) z ∈ K' q (!s'.dir)) ∧
      ((∀ p < T.n, ∀ d z, z ≠ E.lo p d → z ≠ E.hi p d → (K p d).count z ≤ 1) →
        ∀ p s q s' o, p < T.n → T.nb p s = some (q, s', o) → Agree E K' p s q s' o) := by
  let Q : Knots → List ℕ → Prop := fun L c => Shared T E L c ∧ (∀ p d z, (K p d).count z ≤ (L p d).count z) ∧
    (∀ W, Carried T E W → (∀ p < T.n, ∀ d z, (K p d).count z ≤ W p d z) → ∀ p < T.n, ∀ d z, (L p d).count z ≤ W p d z) ∧
    ((∀ p < T.n, ∀ d z, z ≠ E.lo p d → z ≠ E.hi p d → (K p d).count z ≤ 1) → ∀ p < T.n, ∀ d z, z ≠ E.lo p d → z ≠ E.hi p d → (L p d).count z ≤ 1)
  have hQ : ∀ L p c L' chk c', Inv T E eps (values T E K) (total T K) L → p < T.n → Turn T E L p L' chk → (∀ y, y ∈ c' ↔ y ∈ chk ∨ y ∈ c) → Q L (p :: c) → Q L' c' := by
    rintro L p c L' chk c' hi hp ht hc ⟨q1, q2, q3, q4⟩
    refine ⟨shared_turn hg L p c L' chk c' ht hc q1, fun r d z => (q2 r d z).trans (count_le_turn ht r d z), ?_, ?_⟩
    · intro W hW h0 r hr d z
      by_cases hrp : r = p
      · subst hrp
        by_cases hgr : ∃ s : Side, (!s.dir) = d ∧ (L r d).count z < far T E L r s z
        · rw [ht.grow d z hgr]
          obtain ⟨s, rfl, hlt⟩ := hgr
          rcases hn : T.nb r s with _ | ⟨q, s', o⟩
          · simp [far, hn] at hlt
          · simp only [far, hn] at hlt
            have := q3 W hW h0 q (hg.lt _ _ _ _ _ hn) (!s'.dir) (mirror o (E.lo r (!s.dir) + E.hi r (!s.dir)) z)
            rw [hW _ _ _ _ _ hn] at this
            omega
        · rw [ht.keep d z hgr]; exact q3 W hW h0 r hr d z
      · rw [ht.same r hrp]; exact q3 W hW h0 r hr d z
    · intro h0 r hr d z hz1 hz2
      have q4 := q4 h0
      by_cases hrp : r = p
      · subst hrp
        by_cases hgr : ∃ s : Side, (!s.dir) = d ∧ (L r d).count z < far T E L r s z
        · rw [ht.grow d z hgr]
          obtain ⟨s, rfl, hlt⟩ := hgr
          rcases hn : T.nb r s with _ | ⟨q, s', o⟩
          · simp [far, hn] at hlt
          · simp only [far, hn] at hlt
            have hlo := hg.lo _ _ _ _ _ hn
            have hhi := hg.hi _ _ _ _ _ hn
            have := q4 q (hg.lt _ _ _ _ _ hn) (!s'.dir) (mirror o (E.lo r (!s.dir) + E.hi r (!s.dir)) z)
              (by
                rw [← hlo]; unfold mirror; split_ifs
                · exact hz1
                · intro e; apply hz2; linarith)
              (by
                rw [← hhi]; unfold mirror; split_ifs
                · exact hz2
                · intro e; apply hz1; linarith)
            omega
        · rw [ht.keep d z hgr]; exact q4 r hr d z hz1 hz2
      · rw [ht.same r hrp]; exact q4 r hr d z hz1 hz2
  have h0 : Q K (startSet T start) ∧ (startSet T start).Pairwise (· < ·) ∧ ∀ p ∈ startSet T start, p < T.n := by
    refine ⟨⟨?_, fun _ _ _ => le_refl _, fun _ _ h => h, fun h => h⟩, ?_, ?_⟩
    · intro p s q s' o hp hn
      rcases start with _ | r
      · exact Or.inl (List.mem_range.2 hp)
      · obtain ⟨hr, hs⟩ := hs
        by_cases h1 : p = r
        · exact Or.inl (by simp [startSet, h1])
        · by_cases h2 : q = r
          · exact Or.inr (Or.inl (by simp [startSet, h2]))
          · right; right
            intro z hz
            have := hs p s q s' o hn h1 h2 z
            simp only [far, hn]
            rw [← this]
            exact List.count_pos_iff.2 hz
    · rcases start with _ | r
      · exact List.pairwise_lt_range
      · exact List.pairwise_singleton _ _
    · rcases start with _ | r
      · intro p hp; exact List.mem_range.1 hp
      · intro p hp; rw [List.mem_singleton.1 hp]; exact hs.1
  obtain ⟨m, K', e1, e2, e3, e4, e5, e6⟩ := loop_ends hg Q hQ K (startSet T start) (inv_start hv) h0.2.1 h0.2.2 h0.1
  have hval : ∀ p s q s' o, p < T.n → T.nb p s = some (q, s', o) → ∀ z, z ∈ K' p (!s.dir) ↔ mirror o (E.lo p (!s.dir) + E.hi p (!s.dir)) z ∈ K' q (!s'.dir) := by
    intro p s q s' o hp hn z
    have h1 : ∀ p s q s' o, p < T.n → T.nb p s = some (q, s', o) → ∀ z, z ∈ K' p (!s.dir) → mirror o (E.lo p (!s.dir) + E.hi p (!s.dir)) z ∈ K' q (!s'.dir) := by
      intro p s q s' o hp hn z hz
      rcases e3 p s q s' o hp hn with h | h | h
      · simp at h
      · simp at h
      · have := h z hz
        simp only [far, hn] at this
        exact List.count_pos_iff.1 this
    refine ⟨h1 p s q s' o hp hn z, fun hz => ?_⟩
    have := h1 q s' p s o (hg.lt _ _ _ _ _ hn) (hg.sym _ _ _ _ _ hn) _ hz
    rwa [← hg.lo _ _ _ _ _ hn, ← hg.hi _ _ _ _ _ hn, mirror_mirror] at this
  refine ⟨m, K', e1, ⟨hv.pos, e2.clamped, ?_⟩, e4, e5, hval, ?_⟩
  · intro x y hx hy
    have hin : ∀ x, Value T E K' x → x ∈ values T E K := by
      rintro x ⟨p, hp, d, o, h⟩
      have := e2.vals p hp d _ h
      cases o
      · have h2 := this.2
        simpa only [mirror, Bool.false_eq_true, if_false, sub_sub_cancel] using h2
      · exact this.1
    exact e2.sep x (hin x hx) y (hin y hy)
  · intro hone p s q s' o hp hn z
    have h6 := e6 hone
    have hq := hg.lt _ _ _ _ _ hn
    have hlo := hg.lo _ _ _ _ _ hn
    have hhi := hg.hi _ _ _ _ _ hn
    have hc1 := e2.clamped p hp (!s.dir)
    have hc2 := e2.clamped q hq (!s'.dir)
    have hm := hg.mult _ _ _ _ _ hn
    by_cases hz1 : z = E.lo p (!s.dir)
    · subst hz1
      rw [hc1.countLo, hm]
      unfold mirror
      split_ifs
      · rw [hlo, hc2.countLo]
      · rw [show E.lo p (!s.dir) + E.hi p (!s.dir) - E.lo p (!s.dir) = E.hi q (!s'.dir) by rw [← hhi]; linarith, hc2.countHi]
    · by_cases hz2 : z = E.hi p (!s.dir)
      · subst hz2
        rw [hc1.countHi, hm]
        unfold mirror
        split_ifs
        · rw [hhi, hc2.countHi]
        · rw [show E.lo p (!s.dir) + E.hi p (!s.dir) - E.hi p (!s.dir) = E.lo q (!s'.dir) by rw [← hlo]; linarith, hc2.countLo]
      · have a1 := h6 p hp (!s.dir) z hz1 hz2
        have a2 := h6 q hq (!s'.dir) (mirror o (E.lo p (!s.dir) + E.hi p (!s.dir)) z)
          (by
            rw [← hlo]; unfold mirror; split_ifs
            · exact hz1
            · intro e; apply hz2; linarith)
          (by
            rw [← hhi]; unfold mirror; split_ifs
            · exact hz2
            · intro e; apply hz1; linarith)
        have a3 := hval p s q s' o hp hn z
        rw [← List.count_pos_iff, ← List.count_pos_iff] at a3
        omega

/-! ### Refinement in boxes -/

private theorem mid_between (x y : ℚ) (h : x < y) : x < x + (y - x) / 2 ∧ x + (y - x) / 2 < y := by constructor <;> linarith

/-- The number of the intervals that have `z` strictly inside. -/
def covers (boxes : List (ℚ × ℚ)) (z : ℚ) : ℕ := (boxes.filter fun b => b.1 < z ∧ z < b.2).length

private theorem count_filterMap_const (boxes : List (ℚ × ℚ)) (m z : ℚ) :
    (boxes.filterMap fun b => if b.1 < m ∧ m < b.2 then some m else none).count z = if z = m then covers boxes m else 0 := by
  induction boxes with
  | nil => simp [covers]
  | cons b l ih =>
    unfold covers at *
    by_cases h : b.1 < m ∧ m < b.2
    · rw [List.filterMap_cons_some (by rw [if_pos h]), List.filter_cons_of_pos (by simpa using h), List.count_cons, ih]
      by_cases hz : z = m
      · simp [hz]
      · rw [if_neg hz, if_neg hz, if_neg (by simpa using fun e => hz e.symm)]
    · rw [List.filterMap_cons_none (by rw [if_neg h]), List.filter_cons_of_neg (by simpa using h), ih]

private theorem midpoints_spec (boxes : List (ℚ × ℚ)) (l : List ℚ) (hs : l.Pairwise (· ≤ ·)) (z : ℚ) :
    (midpoints boxes l).count z ≤ covers boxes z ∧ (z ∈ midpoints boxes l → z ∉ l ∧ (∃ x ∈ l, x < z) ∧ ∃ y ∈ l, z < y) := by
  induction l with
  | nil => simp [midpoints]
  | cons x l ih =>
    rcases l with _ | ⟨y, l⟩
    · simp [midpoints]
    · have hs' := (List.pairwise_cons.1 hs)
      have hs2 := List.pairwise_cons.1 hs'.2
      obtain ⟨i1, i2⟩ := ih hs'.2
      have hxy : x ≤ y := hs'.1 y (by simp)
      by_cases hw : y - x > 1 / 1000000000
      · have hlt : x < y := by
          have : (0 : ℚ) < 1 / 1000000000 := by norm_num
          linarith
        obtain ⟨m1, m2⟩ := mid_between x y hlt
        rw [midpoints, if_pos hw, List.count_append, List.mem_append, count_filterMap_const]
        generalize x + (y - x) / 2 = m at *
        have hno : ∀ w ∈ midpoints boxes (y :: l), y < w := by
          intro w hw'
          have := (midpoints_gt boxes (y :: l) hs'.2 w hw')
          simpa using this
        constructor
        · by_cases hz : z = m
          · subst hz
            have : (midpoints boxes (y :: l)).count z = 0 := List.count_eq_zero.2 fun h => absurd (hno z h) (not_lt.2 (le_of_lt m2))
            rw [if_pos rfl, this]; exact le_refl _
          · rw [if_neg hz]; omega
        · rintro (h | h)
          · obtain ⟨b, -, hb⟩ := List.mem_filterMap.1 h
            split_ifs at hb
            simp only [Option.some.injEq] at hb
            subst hb
            refine ⟨?_, ⟨x, by simp, m1⟩, ⟨y, by simp, m2⟩⟩
            intro hm
            rcases List.mem_cons.1 hm with e | e
            · exact absurd e (ne_of_gt m1)
            · rcases List.mem_cons.1 e with e | e
              · exact absurd e (ne_of_lt m2)
              · exact absurd (hs2.1 _ e) (not_le.2 m2)
          · obtain ⟨j1, ⟨a, j2, j3⟩, ⟨b, j4, j5⟩⟩ := i2 h
            refine ⟨?_, ⟨a, by simp [j2], j3⟩, ⟨b, by simp [j4], j5⟩⟩
            intro hm
            rcases List.mem_cons.1 hm with e | e
            · have := hno z h; rw [e] at this; exact absurd this (not_lt.2 hxy)
            · exact j1 e
      · rw [midpoints, if_neg hw, List.nil_append]
        refine ⟨i1, fun h => ?_⟩
        obtain ⟨j1, ⟨a, j2, j3⟩, ⟨b, j4, j5⟩⟩ := i2 h
        refine ⟨?_, ⟨a, by simp [j2], j3⟩, ⟨b, by simp [j4], j5⟩⟩
        intro hm
        rcases List.mem_cons.1 hm with e | e
        · have : y ≤ a := by
            rcases List.mem_cons.1 j2 with e' | e'
            · exact le_of_eq e'.symm
            · exact hs2.1 a e'
          rw [e] at j3
          exact absurd (lt_of_le_of_lt this j3) (not_lt.2 hxy)
        · exact j1 e
where
  midpoints_gt (boxes : List (ℚ × ℚ)) (l : List ℚ) (hs : l.Pairwise (· ≤ ·)) (w : ℚ) (hw : w ∈ midpoints boxes l) : l.headD 0 < w := by
    induction l with
    | nil => simp [midpoints] at hw
    | cons x l ih =>
      rcases l with _ | ⟨y, l⟩
      · simp [midpoints] at hw
      · have hs' := (List.pairwise_cons.1 hs)
        have hxy : x ≤ y := hs'.1 y (by simp)
        rw [midpoints, List.mem_append] at hw
        simp only [List.headD_cons] at ih ⊢
        rcases hw with h | h
        · split_ifs at h with hw
          · have hlt : x < y := by
              have : (0 : ℚ) < 1 / 1000000000 := by norm_num
              linarith
            obtain ⟨b, -, hb⟩ := List.mem_filterMap.1 h
            split_ifs at hb
            simp only [Option.some.injEq] at hb
            rw [← hb]
            exact (mid_between x y hlt).1
          · simp at h
        · exact lt_of_le_of_lt hxy (ih hs'.2 h)

/-- The knots after the insertion in `refine`, before the repair. -/
def inserted (K : Knots) (p : ℕ) (boxes : List ((ℚ × ℚ) × (ℚ × ℚ))) : Knots :=
  insertKnots K p fun d => midpoints (boxes.map fun b => if d then b.2 else b.1) (K p d)

/-- C34 for `refine` in boxes: if inner knots are simple, and no point of an axis is inside the projections of two boxes, then the repair ends and all
interfaces are conforming, provided that the new knots are at least `eps` apart from others.

The condition on the boxes is necessary, see `C34_repeated_violated`. -/
theorem C34_refine_partial (T : Topo) (E : Ends) (hg : T.Good E) (eps : ℚ) (he : 0 < eps) (K : Knots)
    (hc : ∀ p < T.n, ∀ d, Clamped (E.mult p d) (E.lo p d) (E.hi p d) (K p d))
    (hone : ∀ p < T.n, ∀ d z, z ≠ E.lo p d → z ≠ E.hi p d → (K p d).count z ≤ 1)
    (r : ℕ) (boxes : List ((ℚ × ℚ) × (ℚ × ℚ))) (hb : ∀ (d : Bool) (z : ℚ), covers (boxes.map fun b => if d then b.2 else b.1) z ≤ 1)
    (hsep : ∀ x y, Value T E (inserted K r boxes) x → Value T E (inserted K r boxes) y → x = y ∨ eps ≤ |x - y|) :
    ∃ m K', (∀ j, refineBoxes T eps (m + j) K r boxes = .done K') ∧ (∀ p d z, (inserted K r boxes p d).count z ≤ (K' p d).count z) ∧
      ∀ p s q s' o, p < T.n → T.nb p s = some (q, s', o) → Agree E K' p s q s' o := by
  have hcount : ∀ d z, (inserted K r boxes r d).count z = (K r d).count z + (midpoints (boxes.map fun b => if d then b.2 else b.1) (K r d)).count z := by
    intro d z
    unfold inserted insertKnots
    rw [if_pos rfl, (List.perm_insertionSort _ _).count_eq, List.count_append]
  have hsame : ∀ p, p ≠ r → inserted K r boxes p = K p := by
    intro p hp; funext d; unfold inserted insertKnots; rw [if_neg hp]
  have hv : Valid T E eps (inserted K r boxes) := by
    refine ⟨he, ?_, hsep⟩
    intro p hp d
    by_cases hpr : p = r
    · subst hpr
      have h := hc p hp d
      have hend : ∀ z, (∀ x ∈ K p d, z ≤ x) ∨ (∀ x ∈ K p d, x ≤ z) → (midpoints (boxes.map fun b => if d then b.2 else b.1) (K p d)).count z = 0 := by
        intro z hz
        apply List.count_eq_zero.2
        intro hm
        obtain ⟨-, ⟨x, hx, hx'⟩, ⟨y, hy, hy'⟩⟩ := (midpoints_spec _ _ h.sorted z).2 hm
        rcases hz with hz | hz
        · exact absurd hx' (not_lt.2 (hz x hx))
        · exact absurd hy' (not_lt.2 (hz y hy))
      refine ⟨?_, h.pos, h.lt, ?_, ?_, ?_⟩
      · unfold inserted insertKnots; rw [if_pos rfl]; exact sort_sorted _
      · rw [hcount, h.countLo, hend _ (Or.inl fun x hx => (h.range x hx).1)]; rfl
      · rw [hcount, h.countHi, hend _ (Or.inr fun x hx => (h.range x hx).2)]; rfl
      · intro x hx
        unfold inserted insertKnots at hx
        rw [if_pos rfl, List.mem_insertionSort, List.mem_append] at hx
        rcases hx with hx | hx
        · exact h.range x hx
        · obtain ⟨-, ⟨a, ha, ha'⟩, ⟨b, hb, hb'⟩⟩ := (midpoints_spec _ _ h.sorted x).2 hx
          exact ⟨le_of_lt (lt_of_le_of_lt (h.range a ha).1 ha'), le_of_lt (lt_of_lt_of_le hb' (h.range b hb).2)⟩
    · rw [hsame p hpr]; exact hc p hp d
  obtain ⟨m, K', h1, -, h2, -, -, h3⟩ := C34_repair_partial T E hg eps _ hv none trivial
  refine ⟨m, K', h1, h2, h3 ?_⟩
  intro p hp d z hz1 hz2
  by_cases hpr : p = r
  · subst hpr
    rw [hcount]
    have h := midpoints_spec (boxes.map fun b => if d then b.2 else b.1) (K p d) (hc p hp d).sorted z
    by_cases hm : z ∈ midpoints (boxes.map fun b => if d then b.2 else b.1) (K p d)
    · rw [List.count_eq_zero.2 (h.2 hm).1, Nat.zero_add]
      exact h.1.trans (hb d z)
    · rw [List.count_eq_zero.2 hm]
      exact hone p hp d z hz1 hz2
  · rw [hsame p hpr]; exact hone p hp d z hz1 hz2

/-! ### Two patches side by side -/

/-- Two patches; the east side of patch 0 is the west side of patch 1, in opposite direction if `o` is `false`. -/
def two (o : Bool) : Topo :=
  ⟨2, fun p s => if p = 0 ∧ s = .east then some (1, .west, o) else if p = 1 ∧ s = .west then some (0, .east, o) else none⟩

/-- Degree 1 on the unit interval. -/
def unitEnds : Ends := ⟨fun _ _ => 2, fun _ _ => 0, fun _ _ => 1⟩

/-- Patch 0 has the knot 1/4 along the interface, patch 1 has 1/3. -/
def quarterThird : Knots := fun p d => if d then (if p = 0 then [0, 0, 1/4, 1, 1] else [0, 0, 1/3, 1, 1]) else [0, 0, 1, 1]

theorem two_good (o : Bool) : (two o).Good unitEnds := by
  refine ⟨?_, ?_, fun _ _ _ _ _ _ => rfl, fun _ _ _ _ _ _ => rfl, fun _ _ _ _ _ _ => rfl⟩
  · intro p s q s' o' h
    simp only [two] at h ⊢
    split_ifs at h <;> simp at h <;> omega
  · intro p s q s' o' h
    simp only [two] at h ⊢
    split_ifs at h with h1 h2
    · simp only [Option.some.injEq, Prod.mk.injEq] at h; obtain ⟨rfl, rfl, rfl⟩ := h; simp [h1]
    · simp only [Option.some.injEq, Prod.mk.injEq] at h; obtain ⟨rfl, rfl, rfl⟩ := h; simp [h2]

theorem quarterThird_valid : Valid (two false) unitEnds (1/1000) quarterThird := by
  refine ⟨by norm_num, ?_, ?_⟩
  · intro p hp d
    have hp : p = 0 ∨ p = 1 := by simp only [two] at hp; omega
    rcases hp with rfl | rfl <;> cases d <;>
      exact ⟨by decide +kernel, by decide, by simp [unitEnds], by decide +kernel, by decide +kernel, by decide +kernel⟩
  · have hv : ∀ x, Value (two false) unitEnds quarterThird x → x ∈ ([0, 1/4, 1/3, 2/3, 3/4, 1] : List ℚ) := by
      intro x hx
      rw [← mem_values] at hx
      have : values (two false) unitEnds quarterThird ⊆ ([0, 1/4, 1/3, 2/3, 3/4, 1] : List ℚ).toFinset := by decide +kernel
      simpa using this hx
    have hd : ∀ x ∈ ([0, 1/4, 1/3, 2/3, 3/4, 1] : List ℚ), ∀ y ∈ ([0, 1/4, 1/3, 2/3, 3/4, 1] : List ℚ), x = y ∨ 1/1000 ≤ |x - y| := by decide +kernel
    exact fun x y hx hy => hd x (hv x hx) y (hv y hy)

/-- The hypotheses of `C34_repair_partial` hold for two patches glued in opposite direction, with different knots 1/4 and 1/3. -/
example : (two false).Good unitEnds ∧ Valid (two false) unitEnds (1/1000) quarterThird ∧ Before (two false) unitEnds quarterThird none ∧
    (∀ p < 2, ∀ d z, z ≠ (0 : ℚ) → z ≠ 1 → (quarterThird p d).count z ≤ 1) := by
  refine ⟨two_good false, quarterThird_valid, trivial, ?_⟩
  · intro p hp d z h0 h1
    unfold quarterThird
    split_ifs <;> simp only [List.count_cons, List.count_nil] <;> simp [h0.symm, h1.symm] <;> split_ifs <;> simp

/-- The knots at the end of the loop. -/
def Outcome.final : Outcome → ℕ → Bool → Option (List ℚ)
  | .done K, p, d => some (K p d)
  | _, _, _ => none

/-- The knots after the repair: 1/4 and 1 - 1/3 in patch 0, and their images in patch 1. -/
example : (repairPatches (two false) (1/1000) 5 quarterThird none).final 0 true = some [0, 0, 1/4, 2/3, 1, 1] ∧
    (repairPatches (two false) (1/1000) 5 quarterThird none).final 1 true = some [0, 0, 1/3, 3/4, 1, 1] ∧
    (repairPatches (two false) (1/1000) 5 quarterThird none).final 0 false = some [0, 0, 1, 1] := by decide +kernel

/-- Both patches without inner knots. -/
def plainKnots : Knots := fun _ _ => [0, 0, 1, 1]

/-- C34 is violated by the unchanged code: refining patch 0 in two boxes that have only an edge in common inserts the knot 1/2 twice; the repair inserts it in patch 1 only once
and ends. The knot vectors agreed before. -/
theorem C34_repeated_violated : (∀ p s q s' o, (two true).nb p s = some (q, s', o) → Agree unitEnds plainKnots p s q s' o) ∧
    (refineBoxes (two true) (1/1000) 5 plainKnots 0 [((0, 1/2), (0, 1)), ((1/2, 1), (0, 1))]).final 0 true = some [0, 0, 1/2, 1/2, 1, 1] ∧
    (refineBoxes (two true) (1/1000) 5 plainKnots 0 [((0, 1/2), (0, 1)), ((1/2, 1), (0, 1))]).final 1 true = some [0, 0, 1/2, 1, 1] := by
  refine ⟨?_, by decide +kernel, by decide +kernel⟩
  intro p s q s' o h z
  have ho : o = true := by
    simp only [two] at h
    split_ifs at h <;> simp at h <;> exact h.2.2
  subst ho
  rfl

/-- The hypotheses of `C34_refine_partial` on the boxes and the knots hold for one box. -/
example : (∀ (d : Bool) (z : ℚ), covers ([((0, 1), (0, 1))].map fun b => if d then b.2 else b.1) z ≤ 1) ∧
    (∀ p < 2, ∀ d z, z ≠ (0 : ℚ) → z ≠ 1 → (plainKnots p d).count z ≤ 1) ∧
    (refineBoxes (two true) (1/1000) 5 plainKnots 0 [((0, 1), (0, 1))]).final 1 true = some [0, 0, 1/2, 1, 1] := by
  refine ⟨?_, ?_, by decide +kernel⟩
  · intro d z
    unfold covers
    exact (List.length_filter_le _ _).trans (by simp)
  · intro p _ d z h0 h1
    unfold plainKnots
    simp only [List.count_cons, List.count_nil]
    simp [h0.symm, h1.symm]

/-- Patch 0 has degree 1, patch 1 degree 2. -/
def mixedKnots : Knots := fun p _ => if p = 0 then [0, 0, 1, 1] else [0, 0, 0, 1, 1, 1]

/-- C34 is violated by the unchanged code for patches of different degrees: the comparison runs past the end of a knot vector. -/
theorem C34_degrees_violated (m : ℕ) : repairPatches (two true) (1/1000) (m + 1) mixedKnots none = .undefined := by
  have h : knotsMatchNeighbours (two true) (1/1000) mixedKnots 0 = none := by decide +kernel
  have e : startSet (two true) none = 0 :: [1] := by decide
  rw [repairPatches, e, repairLoop, h]

end Verif.Repair
