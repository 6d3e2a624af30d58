import Verif.Model.FullMap
import Verif.Props.Regions
import Verif.Props.Walk
import Mathlib.Logic.Relation
import Mathlib.Algebra.BigOperators.Fin
import Mathlib.Data.Rat.Defs
import Mathlib.Algebra.Order.Field.Rat
import Mathlib.Data.List.Count
import Mathlib.Data.List.Nodup
import Mathlib.Tactic.Common
import Mathlib.Tactic.IntervalCases

/-!
# C69: the map of smoothness 0 has one function for each class of glued local functions
-/

set_option autoImplicit false
set_option linter.unusedVariables false

namespace Verif.FullMap
open Verif Verif.Walk Verif.Regions

/-! ## Specification -/

/-- `y` lies opposite to `x` across an interface. -/
def Cross (T : Net) (x y : Pos) : Prop :=
  ∃ s q s' o, dist T x s = 0 ∧ T.nb x.p s = some (q, s', o) ∧ y = atSide T q s' (if o then along x s else T.parMax q (!s'.dir) - along x s)

/-- Two local functions that have to get the same coefficient for the sum to be continuous: one comes from `x` to `y` across interfaces. -/
def Glued (T : Net) : Pos → Pos → Prop := Relation.ReflTransGen (Cross T)

/-- A function at a corner of its patch. -/
def AtCorner (T : Net) (x : Pos) : Prop := (x.u = 0 ∨ x.u = T.parMax x.p false) ∧ (x.v = 0 ∨ x.v = T.parMax x.p true)

/-- The function lies on no interface but `s`. -/
def Single (T : Net) (x : Pos) (s : Side) : Prop := ∀ t, dist T x t = 0 → (T.nb x.p t).isSome → t = s

/-- The function `(i,j)` sits at a special corner. -/
def specialAt (P : Patch) (i j : ℕ) : Prop :=
  (P.sw ∧ i = 0 ∧ j = 0) ∨ (P.se ∧ i = P.nu - 1 ∧ j = 0) ∨ (P.nw ∧ i = 0 ∧ j = P.nv - 1) ∨ (P.ne ∧ i = P.nu - 1 ∧ j = P.nv - 1)

instance (P : Patch) (i j : ℕ) : Decidable (specialAt P i j) := inferInstanceAs (Decidable (_ ∨ _))

/-- Special corners have positive distances. -/
def Reach (P : Patch) : Prop :=
  (P.sw → 0 < P.swu ∧ 0 < P.swv) ∧ (P.se → 0 < P.seu ∧ 0 < P.sev) ∧ (P.nw → 0 < P.nwu ∧ 0 < P.nwv) ∧ (P.ne → 0 < P.neu ∧ 0 < P.nev)

instance (P : Patch) : Decidable (Reach P) := inferInstanceAs (Decidable (_ ∧ _))

/-- The situation: `n` patches with matching meshes, no patch glued to itself (neither along a side nor at a vertex), smoothness 0 (smoothing degree 1), distances as in C32,
`cornerList` as documented in G+Smo (all corners of patches at the vertex, once each), and vertices that are not special have at most two patches if they lie on the
boundary (`getEVs`): if a corner has one interface only, so has the corner opposite. -/
structure Setup (T : Net) (cornerList : PCorner → List PCorner) (P : ℕ → Patch) (n : ℕ) : Prop where
  sym : T.Sym
  conform : T.Conform
  nbr : ∀ p s q s' o, p < n → T.nb p s = some (q, s', o) → q < n ∧ q ≠ p
  once : ∀ x y, T.In x → x.p < n → Glued T x y → x.p = y.p → x = y
  nu : ∀ p < n, (P p).nu = T.parMax p false + 1
  nv : ∀ p < n, (P p).nv = T.parMax p true + 1
  iface : ∀ p < n, ∀ s, (P p).iface s = (T.nb p s).isSome
  act : ∀ p < n, ∀ i j, (P p).act i j = true
  du : ∀ p < n, (P p).du = 1
  dv : ∀ p < n, (P p).dv = 1
  std : ∀ p < n, Std (P p).clipped
  reach : ∀ p < n, Reach (P p).clipped
  corners : ∀ c : PCorner, c.1 < n → (cornerList c).Nodup ∧ ∀ c', c' ∈ cornerList c ↔ Glued T (cornerPos T c) (cornerPos T c')
  regular : ∀ x s q s' o, T.In x → x.p < n → AtCorner T x → ¬ specialAt (P x.p) x.u x.v → dist T x s = 0 → T.nb x.p s = some (q, s', o) → Single T x s →
    Single T (atSide T q s' (if o then along x s else T.parMax q (!s'.dir) - along x s)) s'

/-! ## The calls for smoothing degree 1 -/

private theorem zone_case {hu hv : Bool} {lu lv a b : ℕ} (h : CornerOk hu hv 1 1 lu lv) (z : zone lu lv 1 1 a b) :
    (a = 0 ∧ b = 0) ∨ (b = 0 ∧ 0 < a ∧ hv = true) ∨ (a = 0 ∧ 0 < b ∧ hu = true) := by
  obtain ⟨z1, z2, z3⟩ := z
  cases hu <;> cases hv <;> simp only [CornerOk] at h <;> simp <;> omega

private theorem ok2 {hu hv : Bool} {du dv lu lv : ℕ} (h : CornerOk hu hv du dv lu lv) : hu = true → hv = true → du ≤ lu ∧ dv ≤ lv := by
  rintro rfl rfl; exact h

theorem wantAll_one (P : Patch) (h : Std P) (hu : P.du = 1) (hv : P.dv = 1) (hr : Reach P)  (h1 : P.swu + P.seu ≤ P.nu) (h2 : P.nwu + P.neu ≤ P.nu)
    (h3 : P.swv + P.nwv ≤ P.nv) (h4 : P.sev + P.nev ≤ P.nv) (i j : ℕ) (hi : i < P.nu) (hj : j < P.nv) :
    wantAll P i j = if specialAt P i j then .corner else want P i j := by
  obtain ⟨⟨-, -, hnu, hnv, osw, ose, onw, one⟩, -, -, -, -, -⟩ := h
  obtain ⟨r1, r2, r3, r4⟩ := hr
  rw [hu, hv] at osw ose onw one
  rw [hu] at hnu
  rw [hv] at hnv
  have t1 := ok2 osw; have t2 := ok2 ose; have t3 := ok2 onw; have t4 := ok2 one
  unfold wantAll
  by_cases z1 : P.sw = true ∧ zone P.swu P.swv P.du P.dv j i
  · rw [if_pos z1]
    rw [hu, hv] at z1
    have := zone_case osw z1.2
    simp only [zone] at z1
    simp only [specialAt, want, nearU, nearV, wantC0, hu, hv]
    clear osw ose onw one
    grind
  rw [if_neg z1]
  by_cases z2 : P.se = true ∧ zone P.seu P.sev P.du P.dv j (P.nu - 1 - i)
  · rw [if_pos z2]
    rw [hu, hv] at z2
    have := zone_case ose z2.2
    simp only [zone] at z2
    simp only [specialAt, want, nearU, nearV, wantC0, hu, hv]
    clear osw ose onw one z1
    generalize eb : P.nu - 1 - i = b at *
    have eb1 : P.nu - 1 ≤ i ↔ b = 0 := by omega
    have eb2 : i = P.nu - 1 ↔ b = 0 := by omega
    simp only [eb1, eb2]
    grind
  rw [if_neg z2]
  by_cases z3 : P.nw = true ∧ zone P.nwu P.nwv P.du P.dv (P.nv - 1 - j) i
  · rw [if_pos z3]
    rw [hu, hv] at z3
    have := zone_case onw z3.2
    simp only [zone] at z3
    simp only [specialAt, want, nearU, nearV, wantC0, hu, hv]
    clear osw ose onw one z1 z2
    generalize ea : P.nv - 1 - j = a at *
    have ea1 : P.nv - 1 ≤ j ↔ a = 0 := by omega
    have ea2 : j = P.nv - 1 ↔ a = 0 := by omega
    simp only [ea1, ea2]
    grind
  rw [if_neg z3]
  by_cases z4 : P.ne = true ∧ zone P.neu P.nev P.du P.dv (P.nv - 1 - j) (P.nu - 1 - i)
  · rw [if_pos z4]
    rw [hu, hv] at z4
    have := zone_case one z4.2
    simp only [zone] at z4
    simp only [specialAt, want, nearU, nearV, wantC0, hu, hv]
    clear osw ose onw one z1 z2 z3
    generalize eb : P.nu - 1 - i = b at *
    have eb1 : P.nu - 1 ≤ i ↔ b = 0 := by omega
    have eb2 : i = P.nu - 1 ↔ b = 0 := by omega
    generalize ea : P.nv - 1 - j = a at *
    have ea1 : P.nv - 1 ≤ j ↔ a = 0 := by omega
    have ea2 : j = P.nv - 1 ↔ a = 0 := by omega
    simp only [eb1, eb2, ea1, ea2]
    grind
  rw [if_neg z4, if_neg]
  clear osw ose onw one
  rintro (⟨a, rfl, rfl⟩ | ⟨a, rfl, rfl⟩ | ⟨a, rfl, rfl⟩ | ⟨a, rfl, rfl⟩)
  · exact z1 ⟨a, (r1 a).2, (r1 a).1, Or.inl (by omega)⟩
  · exact z2 ⟨a, (r2 a).2, by have := (r2 a).1; omega, Or.inl (by omega)⟩
  · exact z3 ⟨a, by have := (r3 a).2; omega, (r3 a).1, Or.inl (by omega)⟩
  · exact z4 ⟨a, by have := (r4 a).2; omega, by have := (r4 a).1; omega, Or.inl (by omega)⟩

private theorem nearV_kinds (T : Net) (P : Patch) (x : Pos) (hx : T.In x) (hnv : P.nv = T.parMax x.p true + 1) (h2 : 2 ≤ P.nv)
    (hi : ∀ s, P.iface s = (T.nb x.p s).isSome) (hv : P.dv = 1) :
    (nearV P x.v = none ∧ ∀ s : Side, s.dir = true → dist T x s = 0 → T.nb x.p s = none) ∨
    ∃ s : Side, s.dir = true ∧ nearV P x.v = some (s, 0) ∧ dist T x s = 0 ∧ (T.nb x.p s).isSome ∧ ∀ t : Side, t.dir = true → dist T x t = 0 → t = s := by
  have hx := hx.2
  unfold nearV
  rw [hv, hi, hi]
  by_cases h : (T.nb x.p .south).isSome = true ∧ x.v < 1
  · rw [if_pos h]
    refine Or.inr ⟨.south, rfl, by rw [show x.v = 0 by omega], by simp only [dist]; omega, h.1, fun t ht hd => ?_⟩
    cases t <;> simp only [Side.dir, Bool.false_eq_true, dist] at ht hd ⊢
    omega
  · rw [if_neg h]
    by_cases h' : (T.nb x.p .north).isSome = true ∧ P.nv - 1 ≤ x.v
    · rw [if_pos h']
      refine Or.inr ⟨.north, rfl, by rw [show P.nv - 1 - x.v = 0 by omega], by simp only [dist]; omega, h'.1, fun t ht hd => ?_⟩
      cases t <;> simp only [Side.dir, Bool.false_eq_true, dist] at ht hd ⊢
      omega
    · rw [if_neg h']
      refine Or.inl ⟨rfl, fun s hs hd => ?_⟩
      rw [← Option.not_isSome_iff_eq_none]
      intro c
      cases s <;> simp only [Side.dir, Bool.false_eq_true, dist] at hs hd
      · exact h ⟨c, by omega⟩
      · exact h' ⟨c, by omega⟩

private theorem nearU_kinds (T : Net) (P : Patch) (x : Pos) (hx : T.In x) (hnu : P.nu = T.parMax x.p false + 1) (h2 : 2 ≤ P.nu)
    (hi : ∀ s, P.iface s = (T.nb x.p s).isSome) (hu : P.du = 1) :
    (nearU P x.u = none ∧ ∀ s : Side, s.dir = false → dist T x s = 0 → T.nb x.p s = none) ∨
    ∃ s : Side, s.dir = false ∧ nearU P x.u = some (s, 0) ∧ dist T x s = 0 ∧ (T.nb x.p s).isSome ∧ ∀ t : Side, t.dir = false → dist T x t = 0 → t = s := by
  have hx := hx.1
  unfold nearU
  rw [hu, hi, hi]
  by_cases h : (T.nb x.p .west).isSome = true ∧ x.u < 1
  · rw [if_pos h]
    refine Or.inr ⟨.west, rfl, by rw [show x.u = 0 by omega], by simp only [dist]; omega, h.1, fun t ht hd => ?_⟩
    cases t <;> simp only [Side.dir, Bool.true_eq_false, dist] at ht hd ⊢
    omega
  · rw [if_neg h]
    by_cases h' : (T.nb x.p .east).isSome = true ∧ P.nu - 1 ≤ x.u
    · rw [if_pos h']
      refine Or.inr ⟨.east, rfl, by rw [show P.nu - 1 - x.u = 0 by omega], by simp only [dist]; omega, h'.1, fun t ht hd => ?_⟩
      cases t <;> simp only [Side.dir, Bool.true_eq_false, dist] at ht hd ⊢
      omega
    · rw [if_neg h']
      refine Or.inl ⟨rfl, fun s hs hd => ?_⟩
      rw [← Option.not_isSome_iff_eq_none]
      intro c
      cases s <;> simp only [Side.dir, Bool.true_eq_false, dist] at hs hd
      · exact h ⟨c, by omega⟩
      · exact h' ⟨c, by omega⟩

/-- The three kinds of calls away from special corners. -/
private theorem want_kinds (T : Net) (P : Patch) (x : Pos) (hx : T.In x) (hnu : P.nu = T.parMax x.p false + 1) (hnv : P.nv = T.parMax x.p true + 1) (h1 : 2 ≤ P.nu) (h2 : 2 ≤ P.nv)
    (hi : ∀ s, P.iface s = (T.nb x.p s).isSome) (hu : P.du = 1) (hv : P.dv = 1) :
    (want P x.u x.v = .corner ∧ AtCorner T x) ∨
    (∃ s, want P x.u x.v = .line s 1 0 ∧ dist T x s = 0 ∧ (T.nb x.p s).isSome ∧ Single T x s) ∨
    (want P x.u x.v = .free ∧ ∀ s, dist T x s = 0 → T.nb x.p s = none) := by
  unfold want
  rcases nearV_kinds T P x hx hnv h2 hi hv with ⟨a, b⟩ | ⟨s, a1, a2, a3, a4, a5⟩ <;>
  rcases nearU_kinds T P x hx hnu h1 hi hu with ⟨c, d⟩ | ⟨t, c1, c2, c3, c4, c5⟩
  · rw [a, c]
    exact Or.inr (Or.inr ⟨rfl, fun s hs => by cases e : s.dir; exacts [d s e hs, b s e hs]⟩)
  · rw [a, c2, hu]
    refine Or.inr (Or.inl ⟨t, rfl, c3, c4, fun r hr hr' => ?_⟩)
    cases e : r.dir
    · exact c5 r e hr
    · rw [b r e hr] at hr'; cases hr'
  · rw [a2, c, hv]
    refine Or.inr (Or.inl ⟨s, rfl, a3, a4, fun r hr hr' => ?_⟩)
    cases e : r.dir
    · rw [d r e hr] at hr'; cases hr'
    · exact a5 r e hr
  · rw [a2, c2]
    refine Or.inl ⟨by simp [hu], ?_⟩
    have h1 := hx.1
    have h2 := hx.2
    constructor
    · cases t <;> simp only [Side.dir, Bool.true_eq_false, dist] at c1 c3 <;> omega
    · cases s <;> simp only [Side.dir, Bool.false_eq_true, dist] at a1 a3 <;> omega

/-! ## Classes of glued functions -/

section
variable {T : Net} {cornerList : PCorner → List PCorner} {P : ℕ → Patch} {n : ℕ}

theorem atSide_p (T : Net) (q : ℕ) (s : Side) (t : ℕ) : (atSide T q s t).p = q := by cases s <;> rfl

theorem atSide_dist (T : Net) (q : ℕ) (s : Side) (t : ℕ) : dist T (atSide T q s t) s = 0 := by cases s <;> simp [atSide, dist]

theorem atSide_along (T : Net) (q : ℕ) (s : Side) (t : ℕ) : along (atSide T q s t) s = t := by cases s <;> rfl

private theorem eq_atSide {x : Pos} {s : Side} (hx : T.In x) (h : dist T x s = 0) : x = atSide T x.p s (along x s) := by
  obtain ⟨p, u, v⟩ := x
  obtain ⟨h1, h2⟩ := hx
  cases s <;> simp only [dist, atSide, along, Side.dir, if_true, Bool.false_eq_true, if_false, Pos.mk.injEq, true_and, and_true] at h h1 h2 ⊢ <;> omega

theorem cross_in (hc : T.Conform) {x y : Pos} (hx : T.In x) (h : Cross T x y) : T.In y := by
  obtain ⟨s, q, s', o, h1, h2, rfl⟩ := h
  exact in_cross hc hx h2

theorem cross_symm (hs : T.Sym) (hc : T.Conform) {x y : Pos} (hx : T.In x) (h : Cross T x y) : Cross T y x := by
  obtain ⟨s, q, s', o, h1, h2, rfl⟩ := h
  refine ⟨s', x.p, s, o, atSide_dist .., by rw [atSide_p]; exact hs _ _ _ _ _ h2, ?_⟩
  rw [atSide_along]
  conv_lhs => rw [eq_atSide hx h1]
  congr 1
  have := along_le hx s
  have := hc _ _ _ _ _ h2
  cases o <;> simp only [if_true, Bool.false_eq_true, if_false]
  omega

theorem glued_in (hc : T.Conform) {x y : Pos} (hx : T.In x) (h : Glued T x y) : T.In y := by
  induction h with
  | refl => exact hx
  | tail _ h ih => exact cross_in hc ih h

theorem glued_symm (hs : T.Sym) (hc : T.Conform) {x y : Pos} (hx : T.In x) (h : Glued T x y) : Glued T y x := by
  induction h with
  | refl => exact Relation.ReflTransGen.refl
  | tail h1 h ih => exact Relation.ReflTransGen.head (cross_symm hs hc (glued_in hc hx h1) h) ih

private theorem glued_lt (S : Setup T cornerList P n) {x y : Pos} (hx : x.p < n) (h : Glued T x y) : y.p < n := by
  induction h with
  | refl => exact hx
  | tail _ h ih =>
    obtain ⟨s, q, s', o, h1, h2, rfl⟩ := h
    rw [atSide_p]
    exact (S.nbr _ _ _ _ _ ih h2).1

private theorem par_pos (S : Setup T cornerList P n) {p : ℕ} (hp : p < n) (d : Bool) : 1 ≤ T.parMax p d := by
  have h := S.std p hp
  have h1 := h.nu_ge
  have h2 := h.nv_ge
  simp only [Patch.clipped, S.du p hp, S.dv p hp, S.nu p hp, S.nv p hp] at h1 h2
  cases d <;> omega

theorem cross_corner (hc : T.Conform) {x y : Pos} (hx : T.In x) (h : Cross T x y) (hk : AtCorner T x) : AtCorner T y := by
  obtain ⟨s, q, s', o, h1, h2, rfl⟩ := h
  have e := hc _ _ _ _ _ h2
  have h3 : along x s = 0 ∨ along x s = T.parMax x.p (!s.dir) := by
    cases s <;> simp only [along, Side.dir, if_true, Bool.false_eq_true, if_false, Bool.not_true, Bool.not_false]
    exacts [hk.2, hk.2, hk.1, hk.1]
  have h4 : (if o then along x s else T.parMax q (!s'.dir) - along x s) = 0 ∨ (if o then along x s else T.parMax q (!s'.dir) - along x s) = T.parMax q (!s'.dir) := by
    cases o <;> simp only [if_true, Bool.false_eq_true, if_false] <;> omega
  generalize (if o then along x s else T.parMax q (!s'.dir) - along x s) = t at h4
  cases s' <;> simpa [AtCorner, atSide, Side.dir] using h4

theorem glued_corner (hc : T.Conform) {x y : Pos} (hx : T.In x) (h : Glued T x y) (hk : AtCorner T x) : AtCorner T y := by
  induction h with
  | refl => exact hk
  | tail h1 h ih => exact cross_corner hc (glued_in hc hx h1) h ih

/-- What a call should add: the class of the function, unless it contains a function of a patch that comes before. -/
def Good (T : Net) (x : Pos) (r : Option (List Pos)) : Prop :=
  ∃ l : List Pos, l.Nodup ∧ (∀ y, y ∈ l ↔ Glued T x y) ∧ r = if l.any fun y => decide (y.p < x.p) then none else some l

private theorem good_free {x : Pos} (h : ∀ s, dist T x s = 0 → T.nb x.p s = none) : Good T x (some [x]) := by
  refine ⟨[x], List.nodup_singleton x, fun y => ⟨fun h => by rw [List.mem_singleton.1 h]; exact Relation.ReflTransGen.refl, fun g => ?_⟩, by simp⟩
  rcases Relation.ReflTransGen.cases_head g with rfl | ⟨z, ⟨s, q, s', o, h1, h2, -⟩, -⟩
  · exact List.mem_singleton_self _
  · rw [h s h1] at h2; cases h2

/-- The local functions of a call for a line of length 1. -/
private theorem line_one (hc : T.Conform) {x : Pos} (hx : T.In x) {s : Side} {q : ℕ} {s' : Side} {o : Bool} (h1 : dist T x s = 0) (h2 : T.nb x.p s = some (q, s', o)) :
    addLine T x s 1 = some (let l := [x, atSide T q s' (if o then along x s else T.parMax q (!s'.dir) - along x s)]
      if l.any fun y => decide (y.p < x.p) then none else some l) := by
  unfold addLine
  rw [(line_locals' T hc x hx s 1 [x, atSide T q s' (if o then along x s else T.parMax q (!s'.dir) - along x s)]).2 ?_]
  · rfl
  · refine ⟨rfl, fun i hi => ?_⟩
    rcases Nat.le_one_iff_eq_zero_or_eq_one.1 hi with rfl | rfl
    · rfl
    · simp only [line, one, id, h1, lt_irrefl, if_false, h2]
      rfl

private theorem good_line (S : Setup T cornerList P n) {x : Pos} (hx : T.In x) (hp : x.p < n) {s : Side} (h1 : dist T x s = 0) (h2 : (T.nb x.p s).isSome) (h3 : Single T x s)
    (h4 : ¬ specialAt (P x.p) x.u x.v) : ∃ r, addLine T x s 1 = some r ∧ Good T x r := by
  obtain ⟨⟨q, s', o⟩, h2⟩ := Option.isSome_iff_exists.1 h2
  refine ⟨_, line_one S.conform hx h1 h2, _, ?_, fun z => ?_, rfl⟩
  · rw [List.nodup_cons]
    refine ⟨fun h => ?_, List.nodup_singleton _⟩
    have := congrArg Pos.p (List.mem_singleton.1 h)
    rw [atSide_p] at this
    exact (S.nbr _ _ _ _ _ hp h2).2 this.symm
  · set y := atSide T q s' (if o then along x s else T.parMax q (!s'.dir) - along x s) with hy
    have hxy : Cross T x y := ⟨s, q, s', o, h1, h2, rfl⟩
    have hyin := cross_in S.conform hx hxy
    have hyp : y.p = q := atSide_p ..
    have hq := (S.nbr _ _ _ _ _ hp h2).1
    have hy1 : dist T y s' = 0 := atSide_dist ..
    have hy2 : T.nb y.p s' = some (x.p, s, o) := by rw [hyp]; exact S.sym _ _ _ _ _ h2
    have hy3 : Single T y s' := by
      by_cases hk : AtCorner T x
      · exact S.regular x s q s' o hx hp hk h4 h1 h2 h3
      · intro t ht _
        by_contra hne
        apply hk
        refine cross_corner S.conform hyin (cross_symm S.sym S.conform hx hxy) ?_
        have a1 := par_pos S hq false
        have a2 := par_pos S hq true
        have b1 := hyin.1
        have b2 := hyin.2
        rw [hyp] at b1 b2
        cases s' <;> cases t <;> simp only [dist, hyp] at hy1 ht <;> first | exact absurd rfl hne | (exfalso; omega) | (unfold AtCorner; rw [hyp]; constructor <;> omega)
    have cx : ∀ w, Cross T x w → w = y := by
      rintro w ⟨t, q', t', o', c1, c2, rfl⟩
      obtain rfl := h3 t c1 (by rw [c2]; rfl)
      rw [h2] at c2
      cases c2
      rfl
    have cy : ∀ w, Cross T y w → w = x := by
      rintro w ⟨t, q', t', o', c1, c2, rfl⟩
      obtain rfl := hy3 t c1 (by rw [c2]; rfl)
      obtain ⟨t2, q2, t2', o2, d1, d2, d3⟩ := cross_symm S.sym S.conform hx hxy
      obtain rfl := hy3 t2 d1 (by rw [d2]; rfl)
      rw [hy2] at c2 d2
      cases c2
      cases d2
      exact d3.symm
    constructor
    · intro h
      rcases List.mem_cons.1 h with rfl | h
      · exact Relation.ReflTransGen.refl
      · rw [List.mem_singleton.1 h]; exact Relation.ReflTransGen.single hxy
    · intro h
      induction h with
      | refl => exact List.mem_cons_self
      | tail _ h ih =>
        rcases List.mem_cons.1 ih with rfl | ih
        · rw [cx _ h]; exact List.mem_cons_of_mem _ (List.mem_singleton_self _)
        · rw [List.mem_singleton.1 ih] at h
          rw [cy _ h]; exact List.mem_cons_self

theorem cornerPos_eq (T : Net) (p : ℕ) (a b : Bool) : cornerPos T (p, a, b) = ⟨p, if a then T.parMax p false else 0, if b then T.parMax p true else 0⟩ := by
  cases a <;> cases b <;> rfl

theorem cornerPos_inj {c d : PCorner} (h1 : 1 ≤ T.parMax c.1 false) (h2 : 1 ≤ T.parMax c.1 true) (h : cornerPos T c = cornerPos T d) : c = d := by
  obtain ⟨p, a, b⟩ := c
  obtain ⟨q, a', b'⟩ := d
  rw [cornerPos_eq, cornerPos_eq, Pos.mk.injEq] at h
  obtain ⟨rfl, h3, h4⟩ := h
  simp only at h1 h2
  cases a <;> cases b <;> cases a' <;> cases b' <;> simp at h3 h4 ⊢ <;> omega

theorem corner_of {x : Pos} (h : AtCorner T x) : ∃ c : PCorner, cornerPos T c = x ∧ c.1 = x.p := by
  obtain ⟨p, u, v⟩ := x
  obtain ⟨h1 | h1, h2 | h2⟩ := h <;> simp only at h1 h2 <;> subst h1 <;> subst h2
  · exact ⟨(p, false, false), rfl, rfl⟩
  · exact ⟨(p, false, true), rfl, rfl⟩
  · exact ⟨(p, true, false), rfl, rfl⟩
  · exact ⟨(p, true, true), rfl, rfl⟩

private theorem good_corner (S : Setup T cornerList P n) {x : Pos} (hx : T.In x) (hp : x.p < n) (hk : AtCorner T x) : Good T x (addCorner T cornerList x) := by
  obtain ⟨c, hc, hcp⟩ := corner_of hk
  have h1 := par_pos S hp false
  have h2 := par_pos S hp true
  have e : addCorner T cornerList x = if ((cornerList c).map (cornerPos T)).any fun y => decide (y.p < x.p) then none else some ((cornerList c).map (cornerPos T)) := by
    unfold addCorner findVertex
    have : (if (cornerSide x.u x.v).1.dir then (x.p, (cornerSide x.u x.v).2, (cornerSide x.u x.v).1.par) else (x.p, (cornerSide x.u x.v).1.par, (cornerSide x.u x.v).2)) = c := by
      obtain ⟨p, a, b⟩ := c
      rw [cornerPos_eq] at hc
      subst hc
      cases a <;> cases b <;> simp only [if_true, Bool.false_eq_true, if_false, cornerSide] at h1 h2 ⊢ <;>
        simp [Nat.pos_iff_ne_zero.1 h1, Nat.pos_iff_ne_zero.1 h2, Side.dir, Side.par]
    simp only [this]
  obtain ⟨k1, k2⟩ := S.corners c (by rw [hcp]; exact hp)
  refine ⟨_, ?_, fun y => ?_, e⟩
  · refine List.Nodup.map_on (fun a ha b hb hab => ?_) k1
    have hap : a.1 < n := by
      have := glued_lt S (by rw [hc]; exact hp) ((k2 a).1 ha)
      obtain ⟨p, a1, a2⟩ := a
      rw [cornerPos_eq] at this
      exact this
    exact cornerPos_inj (par_pos S hap false) (par_pos S hap true) hab
  · rw [List.mem_map]
    constructor
    · rintro ⟨d, hd, rfl⟩
      rw [← hc]
      exact (k2 d).1 hd
    · intro g
      obtain ⟨d, hd, -⟩ := corner_of (glued_corner S.conform hx g hk)
      exact ⟨d, (k2 d).2 (by rw [hc, hd]; exact g), hd⟩

theorem clip_sum (a b n : ℕ) : (clip a b n).1 + (clip a b n).2 ≤ n := by
  unfold clip; split_ifs <;> simp only <;> omega

/-- Every call adds the class of its function, unless a patch before did. -/
private theorem good_call (S : Setup T cornerList P n) {x : Pos} (hx : T.In x) (hp : x.p < n) :
    ∃ r, addCall T cornerList x (wantAll (P x.p).clipped x.u x.v) = some r ∧ Good T x r := by
  have hnu := S.nu _ hp
  have hnv := S.nv _ hp
  have h1 := par_pos S hp false
  have h2 := par_pos S hp true
  have i1 := hx.1
  have i2 := hx.2
  rw [wantAll_one (P x.p).clipped (S.std _ hp) (S.du _ hp) (S.dv _ hp) (S.reach _ hp)
    (by have := clip_sum (P x.p).seu (P x.p).swu (P x.p).nu; simp only [Patch.clipped]; omega)
    (by have := clip_sum (P x.p).neu (P x.p).nwu (P x.p).nu; simp only [Patch.clipped]; omega)
    (clip_sum (P x.p).swv (P x.p).nwv (P x.p).nv) (clip_sum (P x.p).sev (P x.p).nev (P x.p).nv) x.u x.v
    (by simp only [Patch.clipped]; omega) (by simp only [Patch.clipped]; omega)]
  split_ifs with hsp
  · refine ⟨_, rfl, good_corner S hx hp ?_⟩
    unfold specialAt at hsp
    simp only [Patch.clipped] at hsp
    rcases hsp with ⟨-, a, b⟩ | ⟨-, a, b⟩ | ⟨-, a, b⟩ | ⟨-, a, b⟩ <;> constructor <;> omega
  · rcases want_kinds T (P x.p).clipped x hx hnu hnv (by simp only [Patch.clipped]; omega) (by simp only [Patch.clipped]; omega) (S.iface _ hp) (S.du _ hp) (S.dv _ hp) with
      ⟨a, b⟩ | ⟨s, a, b, c, d⟩ | ⟨a, b⟩
    · rw [a]; exact ⟨_, rfl, good_corner S hx hp b⟩
    · rw [a]; exact good_line S hx hp b c d hsp
    · rw [a]; exact ⟨_, rfl, good_free b⟩

/-! ## Counting -/

theorem mapM_some {α β : Type} (f : α → Option β) (g : α → β) (l : List α) (h : ∀ a ∈ l, f a = some (g a)) : l.mapM f = some (l.map g) := by
  induction l with
  | nil => rfl
  | cons a l ih => simp [List.mapM_cons, h a List.mem_cons_self, ih fun b hb => h b (List.mem_cons_of_mem _ hb)]

private theorem count_calls (S : Setup T cornerList P n) {m : Pos} (hm : T.In m) (hp : m.p < n) : (allCalls P n).countP (fun e => decide (e.1 = m)) = 1 := by
  have key : ∀ k ≤ n, (allCalls P k).countP (fun e => decide (e.1 = m)) = if m.p < k then 1 else 0 := by
    intro k
    induction k with
    | zero => intro _; simp [allCalls]
    | succ k ih =>
      intro hk
      have e : allCalls P (k + 1) = allCalls P k ++ (calls (P k)).map fun e => (⟨k, e.1.1, e.1.2⟩, e.2) := by simp [allCalls, List.range_succ]
      rw [e, List.countP_append, ih (by omega), List.countP_map]
      have c := C32_once_partial (P k) (S.std k (by omega)).single (S.std k (by omega)).toOk m.u m.v
      unfold times at c
      by_cases hmk : m.p = k
      · rw [if_neg (by omega), if_pos (by omega), Nat.zero_add]
        rw [if_pos] at c
        · rw [← c]
          apply List.countP_congr
          intro a _
          obtain ⟨p, u, v⟩ := m
          simp only at hmk
          subst hmk
          simp [Prod.ext_iff]
        · have h1 := hm.1
          have h2 := hm.2
          have := S.nu k (by omega)
          have := S.nv k (by omega)
          rw [hmk] at h1 h2
          exact ⟨by omega, by omega, S.act k (by omega) _ _⟩
      · have : List.countP ((fun e : Pos × Call => decide (e.1 = m)) ∘ fun e : (ℕ × ℕ) × Call => ((⟨k, e.1.1, e.1.2⟩ : Pos), e.2)) (calls (P k)) = 0 := by
          rw [List.countP_eq_zero]
          intro a _ h
          simp only [Function.comp_apply, decide_eq_true_eq] at h
          exact hmk (by rw [← h])
        rw [this]
        split_ifs <;> omega
  rw [key n le_rfl, if_pos hp]

private theorem mem_calls (S : Setup T cornerList P n) {e : Pos × Call} (h : e ∈ allCalls P n) : T.In e.1 ∧ e.1.p < n ∧ e.2 = wantAll (P e.1.p).clipped e.1.u e.1.v := by
  unfold allCalls at h
  rw [List.mem_flatMap] at h
  obtain ⟨p, hp, h⟩ := h
  rw [List.mem_range] at hp
  rw [List.mem_map] at h
  obtain ⟨⟨⟨i, j⟩, c⟩, h, rfl⟩ := h
  obtain ⟨h1, h2, -, h3⟩ := (C32_calls_partial (P p) (S.std p hp) (by rw [S.du p hp, S.dv p hp]) i j c).1 h
  refine ⟨?_, hp, h3⟩
  have := S.nu p hp
  have := S.nv p hp
  constructor <;> simp only <;> omega

/-- C69, the case of smoothness 0: the map is computed without error; every global function consists of a class of glued local functions, and every local function of every patch
belongs to exactly one global function.

Missing: higher smoothness, where the functions overlap (see C32, C40 and C54), and hierarchical bases. -/
theorem C69_classes_partial (S : Setup T cornerList P n) :
    ∃ F, mapFuns T cornerList P n = some F ∧ (∀ f ∈ F, f ≠ [] ∧ f.Nodup ∧ ∀ x ∈ f, T.In x ∧ x.p < n ∧ ∀ y, y ∈ f ↔ Glued T x y) ∧
      ∀ x, T.In x → x.p < n → F.countP (fun f => decide (x ∈ f)) = 1 := by
  have hg : ∀ e : Pos × Call, ∃ r, e ∈ allCalls P n → addCall T cornerList e.1 e.2 = some r ∧ Good T e.1 r := by
    intro e
    by_cases h : e ∈ allCalls P n
    · obtain ⟨h1, h2, h3⟩ := mem_calls S h
      obtain ⟨r, hr⟩ := good_call S h1 h2
      rw [← h3] at hr
      exact ⟨r, fun _ => hr⟩
    · exact ⟨none, fun h' => absurd h' h⟩
  choose g hg using hg
  refine ⟨(allCalls P n).filterMap g, ?_, ?_, ?_⟩
  · unfold mapFuns
    rw [mapM_some _ g _ fun e he => (hg e he).1, Option.map_some, List.filterMap_map]
    rfl
  · intro f hf
    rw [List.mem_filterMap] at hf
    obtain ⟨e, he, hf⟩ := hf
    obtain ⟨l, l1, l2, l3⟩ := (hg e he).2
    obtain ⟨h1, h2, -⟩ := mem_calls S he
    rw [l3] at hf
    split_ifs at hf
    cases hf
    refine ⟨fun h => ?_, l1, fun x hx => ?_⟩
    · have := (l2 e.1).2 Relation.ReflTransGen.refl
      rw [h] at this
      cases this
    · have gx := (l2 x).1 hx
      refine ⟨glued_in S.conform h1 gx, glued_lt S h2 gx, fun y => ?_⟩
      rw [l2]
      exact ⟨fun h => (glued_symm S.sym S.conform h1 gx).trans h, fun h => gx.trans h⟩
  · intro x hx hp
    -- the member of the class in the first patch
    have hex : ∃ k, ∃ m, Glued T x m ∧ m.p = k := ⟨x.p, x, Relation.ReflTransGen.refl, rfl⟩
    classical
    obtain ⟨m, gm, hm⟩ := Nat.find_spec hex
    have hmin : ∀ y, Glued T x y → m.p ≤ y.p := fun y hy => by rw [hm]; exact Nat.find_min' hex ⟨y, hy, rfl⟩
    have hmin' := glued_in S.conform hx gm
    have hmp := glued_lt S hp gm
    rw [List.countP_filterMap, ← count_calls S hmin' hmp]
    apply List.countP_congr
    intro e he
    obtain ⟨l, l1, l2, l3⟩ := (hg e he).2
    obtain ⟨h1, h2, -⟩ := mem_calls S he
    simp only [decide_eq_true_eq]
    rw [l3]
    constructor
    · intro h
      split_ifs at h with hl
      · simp at h
      · have hxl : x ∈ l := by simpa using h
        have ge := glued_symm S.sym S.conform h1 ((l2 x).1 hxl)
        refine (S.once m e.1 hmin' hmp ((glued_symm S.sym S.conform hx gm).trans ge) (le_antisymm (hmin _ ge) ?_)).symm
        have hml : m ∈ l := (l2 m).2 (((l2 x).1 hxl).trans gm)
        by_contra hlt
        exact hl (List.any_eq_true.2 ⟨m, hml, by simpa using hlt⟩)
    · intro h
      have : ¬ (l.any fun y => decide (y.p < e.1.p)) = true := by
        rw [List.any_eq_true]
        rintro ⟨y, hy, hlt⟩
        have hlt := of_decide_eq_true hlt
        rw [h] at hlt
        have gy := (l2 y).1 hy
        rw [h] at gy
        have := hmin y (gm.trans gy)
        omega
      rw [if_neg this]
      have : x ∈ l := (l2 x).2 (by rw [h]; exact glued_symm S.sym S.conform hx gm)
      simpa using this

/-! ## Coefficients -/

/-- `sourceToTarget`: the coefficient of a local function from those of the global functions, all weights being 1 (C54 for smoothing degree 1). -/
def localCoef (F : List (List Pos)) (g : Fin F.length → ℚ) (x : Pos) : ℚ := ∑ k, if x ∈ F[k] then g k else 0

private theorem unique_of_count {α : Type} (p : α → Bool) (F : List α) (h : F.countP p = 1) : ∃ k : Fin F.length, p F[k] ∧ ∀ j : Fin F.length, p F[j] → j = k := by
  induction F with
  | nil => simp at h
  | cons a F ih =>
    rw [List.countP_cons] at h
    by_cases ha : p a = true
    · rw [if_pos ha] at h
      have h0 : F.countP p = 0 := by omega
      rw [List.countP_eq_zero] at h0
      refine ⟨⟨0, by simp⟩, ha, fun j hj => ?_⟩
      obtain ⟨j, hj'⟩ := j
      cases j with
      | zero => rfl
      | succ j =>
        simp only [List.length_cons, Nat.add_lt_add_iff_right] at hj'
        exact absurd hj (h0 _ (List.getElem_mem hj'))
    · rw [if_neg ha] at h
      obtain ⟨k, k1, k2⟩ := ih h
      refine ⟨⟨k + 1, by simp⟩, k1, fun j hj => ?_⟩
      obtain ⟨j, hj'⟩ := j
      cases j with
      | zero => exact absurd hj ha
      | succ j =>
        simp only [List.length_cons, Nat.add_lt_add_iff_right] at hj'
        have := k2 ⟨j, hj'⟩ hj
        simp only [Fin.ext_iff] at this ⊢
        omega

/-- C69, the case of smoothness 0, in terms of coefficients: the global functions are a basis of the continuous splines. Coefficients of the local functions that are equal whenever two
functions are glued come from exactly one choice of global coefficients, and all global coefficients give such local ones.

Missing: as for `C69_classes_partial`. -/
theorem C69_basis_partial (S : Setup T cornerList P n) :
    ∃ F, mapFuns T cornerList P n = some F ∧
      (∀ g x y, T.In x → x.p < n → Glued T x y → localCoef F g x = localCoef F g y) ∧
      ∀ c : Pos → ℚ, (∀ x y, T.In x → x.p < n → Glued T x y → c x = c y) → ∃! g, ∀ x, T.In x → x.p < n → localCoef F g x = c x := by
  obtain ⟨F, h1, h2, h3⟩ := C69_classes_partial S
  have hk : ∀ x, T.In x → x.p < n → ∃ k : Fin F.length, x ∈ F[k] ∧ ∀ g, localCoef F g x = g k := by
    intro x hx hp
    obtain ⟨k, k1, k2⟩ := unique_of_count _ F (h3 x hx hp)
    refine ⟨k, of_decide_eq_true k1, fun g => ?_⟩
    unfold localCoef
    rw [Finset.sum_eq_single k]
    · rw [if_pos (of_decide_eq_true k1)]
    · intro j _ hj
      rw [if_neg]
      exact fun h => hj (k2 j (decide_eq_true h))
    · intro h
      exact absurd (Finset.mem_univ k) h
  have hsame : ∀ x y, T.In x → x.p < n → Glued T x y → ∃ k : Fin F.length, x ∈ F[k] ∧ y ∈ F[k] ∧ ∀ g, localCoef F g x = g k ∧ localCoef F g y = g k := by
    intro x y hx hp g
    obtain ⟨k, k1, k2⟩ := hk x hx hp
    obtain ⟨j, j1, j2⟩ := hk y (glued_in S.conform hx g) (glued_lt S hp g)
    have hy : y ∈ F[k] := (((h2 _ (List.getElem_mem k.2)).2.2 x k1).2.2 y).2 g
    have hjk : j = k := by
      obtain ⟨i, i1, i2⟩ := unique_of_count _ F (h3 y (glued_in S.conform hx g) (glued_lt S hp g))
      rw [i2 j (decide_eq_true j1), i2 k (decide_eq_true hy)]
    exact ⟨k, k1, hy, fun f => ⟨k2 f, by rw [j2, hjk]⟩⟩
  refine ⟨F, h1, fun g x y hx hp h => ?_, fun c hc => ?_⟩
  · obtain ⟨k, -, -, e⟩ := hsame x y hx hp h
    rw [(e g).1, (e g).2]
  · have hne : ∀ k : Fin F.length, ∃ x, x ∈ F[k] := fun k => List.exists_mem_of_ne_nil _ (h2 _ (List.getElem_mem k.2)).1
    choose r hr using hne
    refine ⟨fun k => c (r k), fun x hx hp => ?_, fun g hg => ?_⟩
    · obtain ⟨k, k1, k2⟩ := hk x hx hp
      rw [k2]
      obtain ⟨a, b, d⟩ := (h2 _ (List.getElem_mem k.2)).2.2 (r k) (hr k)
      exact hc _ _ a b ((d x).1 k1)
    · funext k
      obtain ⟨a, b, d⟩ := (h2 _ (List.getElem_mem k.2)).2.2 (r k) (hr k)
      rw [← hg (r k) a b]
      obtain ⟨j, j1, j2⟩ := hk (r k) a b
      obtain ⟨i, i1, i2⟩ := unique_of_count _ F (h3 (r k) a b)
      rw [j2, i2 j (decide_eq_true j1), i2 k (decide_eq_true (hr k))]

end

/-! ## An example: three patches in the shape of an L -/

/-- The functions opposite to `x`. -/
def opposite (T : Net) (x : Pos) : List Pos :=
  Side.all.filterMap fun s => if dist T x s = 0 then (T.nb x.p s).map fun r => atSide T r.1 r.2.1 (if r.2.2 then along x s else T.parMax r.1 (!r.2.1.dir) - along x s) else none

theorem mem_opposite (T : Net) (x y : Pos) : y ∈ opposite T x ↔ Cross T x y := by
  unfold opposite Cross
  rw [List.mem_filterMap]
  constructor
  · rintro ⟨s, -, h⟩
    split_ifs at h with h0
    rw [Option.map_eq_some_iff] at h
    obtain ⟨⟨q, s', o⟩, h1, h2⟩ := h
    exact ⟨s, q, s', o, h0, h1, h2.symm⟩
  · rintro ⟨s, q, s', o, h0, h1, h2⟩
    exact ⟨s, Side.mem_all s, by rw [if_pos h0, h1]; simp [h2]⟩

/-- Three patches of 3 x 3 functions: 1 lies to the east of 0, and 2 to the north of 1. -/
def ell : Net :=
  ⟨fun _ _ => 2, fun p s =>
    match p, s with
    | 0, .east => some (1, .west, true) | 1, .west => some (0, .east, true) | 1, .north => some (2, .south, true) | 2, .south => some (1, .north, true) | _, _ => none⟩

/-- The place of a function in the plane. -/
def ellAt (x : Pos) : ℕ × ℕ := (x.u + if x.p = 0 then 0 else 2, x.v + if x.p = 2 then 2 else 0)

/-- All corners of the three patches. -/
def ellCorners : List PCorner := (List.range 3).flatMap fun p => [(p, false, false), (p, true, false), (p, false, true), (p, true, true)]

/-- The corners at a vertex. -/
def ellList (c : PCorner) : List PCorner := ellCorners.filter fun d => decide (ellAt (cornerPos ell d) = ellAt (cornerPos ell c))

/-- The patches; the vertex with three patches at the boundary is special. -/
def ellPatch (p : ℕ) : Patch :=
  match p with
  | 0 => ⟨3, 3, 1, 1, fun s => (ell.nb 0 s).isSome, false, false, false, true, 0, 0, 0, 0, 0, 0, 1, 1, false, fun _ _ => true⟩
  | 1 => ⟨3, 3, 1, 1, fun s => (ell.nb 1 s).isSome, false, false, true, false, 0, 0, 0, 0, 1, 1, 0, 0, false, fun _ _ => true⟩
  | p => ⟨3, 3, 1, 1, fun s => (ell.nb p s).isSome, true, false, false, false, 1, 1, 0, 0, 0, 0, 0, 0, false, fun _ _ => true⟩

theorem ell_nb {p : ℕ} {s : Side} {q : ℕ} {s' : Side} {o : Bool} (h : ell.nb p s = some (q, s', o)) :
    o = true ∧ ((p = 0 ∧ s = .east ∧ q = 1 ∧ s' = .west) ∨ (p = 1 ∧ s = .west ∧ q = 0 ∧ s' = .east) ∨ (p = 1 ∧ s = .north ∧ q = 2 ∧ s' = .south) ∨ (p = 2 ∧ s = .south ∧ q = 1 ∧ s' = .north)) := by
  simp only [ell] at h
  split at h <;> simp only [Option.some.injEq, Prod.mk.injEq, reduceCtorEq] at h <;> obtain ⟨rfl, rfl, rfl⟩ := h <;> simp

private theorem ell_cross {x y : Pos} (hx : ell.In x) (h : Cross ell x y) : ellAt x = ellAt y := by
  obtain ⟨s, q, s', o, h1, h2, rfl⟩ := h
  obtain ⟨p, u, v⟩ := x
  obtain ⟨a, b⟩ := hx
  obtain ⟨rfl, h⟩ := ell_nb h2
  simp only at h
  rcases h with ⟨rfl, rfl, rfl, rfl⟩ | ⟨rfl, rfl, rfl, rfl⟩ | ⟨rfl, rfl, rfl, rfl⟩ | ⟨rfl, rfl, rfl, rfl⟩ <;>
    simp only [ell, dist, ellAt, atSide, along, Side.dir] at h1 a b ⊢ <;> simp <;> omega

private theorem ell_conform : ell.Conform := fun _ _ _ _ _ _ => rfl

private theorem ell_glued {x y : Pos} (hx : ell.In x) (h : Glued ell x y) : ellAt x = ellAt y := by
  induction h with
  | refl => rfl
  | tail h1 h ih => exact ih.trans (ell_cross (glued_in ell_conform hx h1) h)

private theorem ell_lt {x y : Pos} (hx : x.p < 3) (h : Glued ell x y) : y.p < 3 := by
  induction h with
  | refl => exact hx
  | tail _ h ih =>
    obtain ⟨s, q, s', o, h1, h2, rfl⟩ := h
    rw [atSide_p]
    obtain ⟨-, h⟩ := ell_nb h2
    omega

theorem mem_ellCorners (c : PCorner) : c ∈ ellCorners ↔ c.1 < 3 := by
  obtain ⟨p, a, b⟩ := c
  simp only [ellCorners, List.mem_flatMap, List.mem_range]
  constructor
  · rintro ⟨q, hq, h⟩
    simp only [List.mem_cons, Prod.mk.injEq, List.not_mem_nil, or_false] at h
    omega
  · intro h
    exact ⟨p, h, by cases a <;> cases b <;> simp⟩

instance (hu hv : Bool) (du dv lu lv : ℕ) : Decidable (CornerOk hu hv du dv lu lv) :=
  match hu, hv with
  | true, true => inferInstanceAs (Decidable (_ ∧ _))
  | true, false => inferInstanceAs (Decidable (_ ∨ _))
  | false, true => inferInstanceAs (Decidable (_ ∨ _))
  | false, false => inferInstanceAs (Decidable (_ ∨ _))

/-- The L-shaped domain satisfies the hypotheses of `C69_classes_partial`. -/
theorem ell_setup : Setup ell ellList ellPatch 3 where
  sym := by
    intro p s q s' o h0
    obtain ⟨ho, h⟩ := ell_nb h0
    subst ho
    clear h0
    rcases h with ⟨rfl, rfl, rfl, rfl⟩ | ⟨rfl, rfl, rfl, rfl⟩ | ⟨rfl, rfl, rfl, rfl⟩ | ⟨rfl, rfl, rfl, rfl⟩ <;> rfl
  conform := ell_conform
  nbr := by
    intro p s q s' o _ h
    obtain ⟨-, h⟩ := ell_nb h
    omega
  once := by
    intro x y hx _ g hp
    have e := ell_glued hx g
    obtain ⟨p, u, v⟩ := x
    obtain ⟨q, u', v'⟩ := y
    simp only at hp
    subst hp
    simp only [ellAt, Prod.mk.injEq] at e
    rw [Pos.mk.injEq]
    omega
  nu := by intro p hp; interval_cases p <;> rfl
  nv := by intro p hp; interval_cases p <;> rfl
  iface := by intro p hp s; interval_cases p <;> rfl
  act := by intro p hp i j; interval_cases p <;> rfl
  du := by intro p hp; interval_cases p <;> rfl
  dv := by intro p hp; interval_cases p <;> rfl
  std := by
    intro p hp
    interval_cases p <;> exact ⟨⟨by decide, by decide, by decide, by decide, by decide, by decide, by decide, by decide⟩, by decide, by decide, by decide, by decide, by decide⟩
  reach := by intro p hp; interval_cases p <;> decide
  corners := by
    intro c hc
    refine ⟨List.Nodup.filter _ (by decide), fun d => ?_⟩
    unfold ellList
    rw [List.mem_filter, decide_eq_true_eq]
    constructor
    · rintro ⟨h1, h2⟩
      have key : ∀ c ∈ ellCorners, ∀ d ∈ ellCorners, ellAt (cornerPos ell d) = ellAt (cornerPos ell c) →
          cornerPos ell d = cornerPos ell c ∨ cornerPos ell d ∈ opposite ell (cornerPos ell c) ∨ ∃ z ∈ opposite ell (cornerPos ell c), cornerPos ell d ∈ opposite ell z := by decide +kernel
      rcases key c ((mem_ellCorners c).2 hc) d h1 h2 with h | h | ⟨z, h, h'⟩
      · rw [h]; exact Relation.ReflTransGen.refl
      · exact Relation.ReflTransGen.single ((mem_opposite _ _ _).1 h)
      · exact (Relation.ReflTransGen.single ((mem_opposite _ _ _).1 h)).tail ((mem_opposite _ _ _).1 h')
    · intro g
      have hin : ell.In (cornerPos ell c) := by
        obtain ⟨p, a, b⟩ := c
        cases a <;> cases b <;> exact ⟨by simp [cornerPos, sideEnd, Side.dir, Side.par, ell], by simp [cornerPos, sideEnd, Side.dir, Side.par, ell]⟩
      refine ⟨(mem_ellCorners d).2 ?_, (ell_glued hin g).symm⟩
      have := ell_lt (by obtain ⟨p, a, b⟩ := c; rw [cornerPos_eq]; exact hc) g
      obtain ⟨p, a, b⟩ := d
      rw [cornerPos_eq] at this
      exact this
  regular := by
    intro x s q s' o hx hp hk hsp h1 h2 h3 t ht hs
    obtain ⟨⟨q', t', o'⟩, hs⟩ := Option.isSome_iff_exists.1 hs
    rw [atSide_p] at hs
    obtain ⟨-, h⟩ := ell_nb h2
    obtain ⟨-, h'⟩ := ell_nb hs
    obtain ⟨p, u, v⟩ := x
    obtain ⟨rfl, -⟩ := ell_nb h2
    simp only [AtCorner] at hk
    simp only at h hp
    rcases h with ⟨rfl, rfl, rfl, rfl⟩ | ⟨rfl, rfl, rfl, rfl⟩ | ⟨rfl, rfl, rfl, rfl⟩ | ⟨rfl, rfl, rfl, rfl⟩ <;>
    rcases h' with ⟨a, rfl, -, rfl⟩ | ⟨a, rfl, -, rfl⟩ | ⟨a, rfl, -, rfl⟩ | ⟨a, rfl, -, rfl⟩ <;>
      first
      | rfl
      | (exfalso; omega)
      | (exfalso
         apply hsp
         simp only [dist, atSide, along, Side.dir, ell] at h1 ht hk
         simp only [specialAt, ellPatch]
         simp at ht h1 ⊢
         omega)

/-- The 21 places of the L get one function each. -/
example : ∃ F, mapFuns ell ellList ellPatch 3 = some F ∧ ∀ x, ell.In x → x.p < 3 → F.countP (fun f => decide (x ∈ f)) = 1 := by
  obtain ⟨F, h1, -, h2⟩ := C69_classes_partial ell_setup
  exact ⟨F, h1, h2⟩

/-- Not all local coefficients are continuous on the L. -/
example : ∃ x y, ell.In x ∧ x.p < 3 ∧ x ≠ y ∧ Glued ell x y :=
  ⟨⟨0, 2, 2⟩, ⟨2, 0, 0⟩, ⟨by decide, by decide⟩, by decide, by decide,
    (Relation.ReflTransGen.single ((mem_opposite ell _ ⟨1, 0, 2⟩).1 (by decide))).tail ((mem_opposite ell _ _).1 (by decide))⟩

/-! ## A patch that meets a vertex twice -/

/-- One patch of 2 x 2 functions whose west and east sides are glued. -/
def ring : Net := ⟨fun _ _ => 1, fun p s => if p = 0 ∧ s = .west then some (0, .east, true) else if p = 0 ∧ s = .east then some (0, .west, true) else none⟩

/-- The two vertices of the ring. -/
def ringList (c : PCorner) : List PCorner := if c.1 = 0 then [(0, false, c.2.2), (0, true, c.2.2)] else [c]

/-- Its vertices are set C0. -/
def ringPatch (_ : ℕ) : Patch := ⟨2, 2, 1, 1, fun s => s = .west || s = .east, true, true, true, true, 1, 1, 1, 1, 1, 1, 1, 1, true, fun _ _ => true⟩

/-- C69, the case of a patch glued to itself, is violated by the unchanged code: `_alreadyHandled` looks for patches with a smaller number only, so each of the two corners of the patch
adds the function of the vertex. The map has four functions instead of two, and they are not independent. -/
theorem C69_self_violated : ring.Sym ∧ ring.Conform ∧ Reach (ringPatch 0).clipped ∧
    (∀ c c' : PCorner, c.1 = 0 → c'.1 = 0 → (c' ∈ ringList c ↔ Glued ring (cornerPos ring c) (cornerPos ring c'))) ∧
    mapFuns ring ringList ringPatch 1 = some [[⟨0, 0, 0⟩, ⟨0, 1, 0⟩], [⟨0, 0, 0⟩, ⟨0, 1, 0⟩], [⟨0, 0, 1⟩, ⟨0, 1, 1⟩], [⟨0, 0, 1⟩, ⟨0, 1, 1⟩]] := by
  have hnb : ∀ {p s q s' o}, ring.nb p s = some (q, s', o) → o = true ∧ p = 0 ∧ q = 0 ∧ ((s = .west ∧ s' = .east) ∨ (s = .east ∧ s' = .west)) := by
    intro p s q s' o h
    simp only [ring] at h
    split_ifs at h with h1 h2 <;> simp only [Option.some.injEq, Prod.mk.injEq] at h <;> obtain ⟨rfl, rfl, rfl⟩ := h <;> simp_all
  refine ⟨?_, fun _ _ _ _ _ _ => rfl, by decide, ?_, by decide +kernel⟩
  · intro p s q s' o h
    obtain ⟨rfl, rfl, rfl, ⟨rfl, rfl⟩ | ⟨rfl, rfl⟩⟩ := hnb h <;> rfl
  · have hv : ∀ x y, Glued ring x y → x.v = y.v := by
      intro x y h
      induction h with
      | refl => rfl
      | tail _ h ih =>
        obtain ⟨s, q, s', o, h1, h2, rfl⟩ := h
        rw [ih]
        obtain ⟨rfl, -, -, ⟨rfl, rfl⟩ | ⟨rfl, rfl⟩⟩ := hnb h2 <;> rfl
    rintro ⟨p, a, b⟩ ⟨p', a', b'⟩ rfl rfl
    constructor
    · intro h
      simp only [ringList, if_true, List.mem_cons, Prod.mk.injEq, true_and, List.not_mem_nil, or_false] at h
      obtain rfl : b' = b := by tauto
      by_cases e : a = a'
      · rw [e]; exact Relation.ReflTransGen.refl
      · refine Relation.ReflTransGen.single ((mem_opposite _ _ _).1 ?_)
        cases a <;> cases a' <;> first | exact absurd rfl e | (cases b' <;> decide)
    · intro h
      have := hv _ _ h
      simp only [cornerPos_eq, ring] at this
      have : b = b' := by cases b <;> cases b' <;> simp at this ⊢
      subst this
      cases a' <;> simp [ringList]

end Verif.FullMap
