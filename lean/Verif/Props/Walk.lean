import Verif.Model.Walk
import Mathlib.Data.List.Forall2
import Mathlib.Data.List.Nodup
import Mathlib.Tactic.Common

/-!
# C31: walking across interfaces is reversible; C40: functions across an interface are built identically from both sides

The specification is a walk in unit steps: inside a patch to the next index, at the end of a patch over the interface to the function opposite.  A
frame (a map of sides) is carried along; `turn` says how a direction continues on the other side of an interface.
-/

set_option autoImplicit false

namespace Verif.Walk
open Verif

/-! ## Specification -/

/-- The opposite side. -/
def opp : Side → Side | .west => .east | .east => .west | .south => .north | .north => .south

/-- The side with direction `d` at the lower (`false`) or upper end. -/
def sideOf (d b : Bool) : Side :=
  match d, b with | false, false => .west | false, true => .east | true, false => .south | true, true => .north

/-- Position inside its patch. -/
def Net.In (T : Net) (x : Pos) : Prop := x.u ≤ T.parMax x.p false ∧ x.v ≤ T.parMax x.p true

/-- Distance of a function to a side of its patch. -/
def dist (T : Net) (x : Pos) : Side → ℕ
  | .west => x.u | .east => T.parMax x.p false - x.u | .south => x.v | .north => T.parMax x.p true - x.v

/-- One index towards a side. -/
def move (x : Pos) : Side → Pos
  | .west => ⟨x.p, x.u - 1, x.v⟩ | .east => ⟨x.p, x.u + 1, x.v⟩ | .south => ⟨x.p, x.u, x.v - 1⟩ | .north => ⟨x.p, x.u, x.v + 1⟩

/-- Index along a side. -/
def along (x : Pos) (s : Side) : ℕ := if s.dir then x.u else x.v

/-- The function on a side with a given index along it. -/
def atSide (T : Net) (q : ℕ) (s : Side) (t : ℕ) : Pos :=
  match s with
  | .west => ⟨q, 0, t⟩ | .east => ⟨q, T.parMax q false, t⟩ | .south => ⟨q, t, 0⟩ | .north => ⟨q, t, T.parMax q true⟩

/-- How the direction towards `h` continues after leaving a patch through `s` and entering the next through `s'`: what led out leads away from `s'`,
what led back leads to `s'`, and a direction along the interface keeps or changes its sense. -/
def turn (s s' : Side) (o : Bool) (h : Side) : Side :=
  if h = s then opp s' else if h = opp s then s' else sideOf (!s'.dir) (if o then h.par else !h.par)

/-- One step from `x` towards `s`, and the continuation of directions. -/
def one (T : Net) (x : Pos) (s : Side) : Option (Pos × (Side → Side)) :=
  if 0 < dist T x s then some (move x s, id)
  else match T.nb x.p s with
    | none => none
    | some (q, s', o) => some (atSide T q s' (if o then along x s else T.parMax q (!s'.dir) - along x s), turn s s' o)

/-- `n` steps in the direction `h` of the frame `φ`. -/
def line (T : Net) : ℕ → Pos → (Side → Side) → Side → Option (Pos × (Side → Side))
  | 0, x, φ, _ => some (x, φ)
  | n + 1, x, φ, h =>
    match one T x (φ h) with
    | none => none
    | some (y, τ) => line T n y (τ ∘ φ) h

/-- The direction of a step. -/
def heading (st : Step) : Side := sideOf st.2 (decide (0 < st.1))

/-- The walk described by a list of steps, all directions given at the start. -/
def walk (T : Net) : Pos → (Side → Side) → List Step → Option Pos
  | x, _, [] => some x
  | x, φ, st :: l =>
    match line T st.1.natAbs x φ (heading st) with
    | none => none
    | some (y, φ') => walk T y φ' l

/-- The list of interfaces is symmetric. -/
def Net.Sym (T : Net) : Prop := ∀ p s q s' o, T.nb p s = some (q, s', o) → T.nb q s' = some (p, s, o)

/-- Sides glued together have the same number of functions. -/
def Net.Conform (T : Net) : Prop := ∀ p s q s' o, T.nb p s = some (q, s', o) → T.parMax p (!s.dir) = T.parMax q (!s'.dir)

/-- No two opposite sides are glued with reversed orientation. -/
def Net.NoTwist (T : Net) : Prop := ∀ p s q o, T.nb p s = some (q, opp s, o) → o = true

/-! ## Elementary facts -/

@[simp] theorem opp_opp (s : Side) : opp (opp s) = s := by cases s <;> rfl
theorem opp_ne (s : Side) : opp s ≠ s := by cases s <;> decide
@[simp] theorem opp_dir (s : Side) : (opp s).dir = s.dir := by cases s <;> rfl
theorem sideOf_dir_par (s : Side) : sideOf s.dir s.par = s := by cases s <;> rfl

theorem turn_self (s s' : Side) (o : Bool) : turn s s' o s = opp s' := by simp [turn]

private theorem turn_opp (s s' : Side) (o : Bool) (h : Side) : turn s s' o (opp h) = opp (turn s s' o h) := by
  cases s <;> cases s' <;> cases o <;> cases h <;> rfl

private theorem turn_turn (s s' : Side) (o : Bool) (h : Side) : turn s' s o (turn s s' o h) = h := by
  cases s <;> cases s' <;> cases o <;> cases h <;> rfl

private theorem heading_eq (st : Step) : heading st = stepSide st := by
  obtain ⟨k, d⟩ := st
  unfold heading stepSide
  cases d <;> by_cases h : k > 0 <;> simp [h, sideOf]

private theorem side_stepTo (s s' : Side) (o : Bool) (st : Step) (h0 : st.1 ≠ 0)
    (h : st.2 = s.dir ∨ ¬ (s' = opp s ∧ o = false)) :
    stepSide (stepToNeighbour s s' o st) = turn s s' o (stepSide st) := by
  obtain ⟨k, d⟩ := st
  simp only at h0 h
  rcases lt_or_gt_of_ne h0 with hk | hk
  · have h1 : ¬ (0 < k) := by omega
    cases s <;> cases s' <;> cases o <;> cases d <;>
      simp [opp, Side.dir] at h <;>
      simp [stepSide, stepToNeighbour, turn, opp, sideOf, Side.dir, Side.par, h1, hk]
  · have h1 : ¬ (k < 0) := by omega
    cases s <;> cases s' <;> cases o <;> cases d <;>
      simp [opp, Side.dir] at h <;>
      simp [stepSide, stepToNeighbour, turn, opp, sideOf, Side.dir, Side.par, h1, hk]

theorem stepTo_ne (s s' : Side) (o : Bool) (st : Step) : (stepToNeighbour s s' o st).1 = 0 ↔ st.1 = 0 := by
  rw [← Int.natAbs_eq_zero, natAbs_stepToNeighbour, Int.natAbs_eq_zero]

theorem side_dir (st : Step) : (stepSide st).dir = st.2 := by
  obtain ⟨k, d⟩ := st
  cases d <;> by_cases h : k > 0 <;> simp [stepSide, h, Side.dir]

/-! ## The code in unit steps -/

/-- One step less. -/
def dec (k : ℤ) : ℤ := if k > 0 then k - 1 else k + 1

theorem dec_natAbs {k : ℤ} (h : k ≠ 0) : (dec k).natAbs + 1 = k.natAbs := by
  unfold dec; split_ifs <;> omega

theorem dec_side {k : ℤ} {d : Bool} (h : k ≠ 0) (h' : dec k ≠ 0) : stepSide (dec k, d) = stepSide (k, d) := by
  unfold dec at *
  unfold stepSide
  cases d <;> simp only [if_true] <;> split_ifs at * <;> first | rfl | omega

theorem inPar {T : Net} {x : Pos} (hx : T.In x) (d : Bool) : x.par d ≤ T.parMax x.p d := by
  cases d
  · exact hx.1
  · exact hx.2

theorem travel_cons (T : Net) (x : Pos) (hx : T.In x) (k : ℤ) (d : Bool) (rest : List Step) :
    travel T x ((k, d) :: rest) =
      if (travelInside T x d k).2 = 0 then travel T (travelInside T x d k).1 rest
      else match toNeighbour T (travelInside T x d k).1 ((travelInside T x d k).2, d) rest with
        | none => none
        | some (y, st, rest') => travel T y (st :: rest') := by
  rw [travel]
  simp only [inPar hx d, dif_pos]
  split_ifs with h
  · rfl
  · split <;> rename_i h' <;> simp only [h']

theorem inside_zero (T : Net) (x : Pos) (hx : T.In x) (d : Bool) : travelInside T x d 0 = (x, 0) := by
  obtain ⟨p, u, v⟩ := x
  have := inPar hx d
  unfold travelInside
  cases d <;> simp_all [Pos.par]

theorem travel_zero (T : Net) (x : Pos) (hx : T.In x) (d : Bool) (rest : List Step) :
    travel T x ((0, d) :: rest) = travel T x rest := by
  rw [travel_cons T x hx, inside_zero T x hx]; simp

theorem in_move {T : Net} {x : Pos} (hx : T.In x) {s : Side} (h : 0 < dist T x s) : T.In (move x s) := by
  obtain ⟨h1, h2⟩ := hx
  cases s <;> simp only [dist, move, Net.In] at * <;> omega

private theorem travel_move (T : Net) (x : Pos) (hx : T.In x) (k : ℤ) (d : Bool) (rest : List Step) (_hk : k ≠ 0)
    (h : 0 < dist T x (stepSide (k, d))) :
    travel T x ((k, d) :: rest) = travel T (move x (stepSide (k, d))) ((dec k, d) :: rest) := by
  rw [travel_cons T x hx, travel_cons T _ (in_move hx h)]
  have : travelInside T x d k = travelInside T (move x (stepSide (k, d))) d (dec k) := by
    obtain ⟨p, u, v⟩ := x
    obtain ⟨h1, h2⟩ := hx
    simp only at h1 h2
    unfold dec
    cases d <;> by_cases hp : k > 0 <;>
      simp only [stepSide, hp, if_true, if_false, dist, move, travelInside, Pos.par, Bool.false_eq_true, Bool.not_true, Bool.not_false,
        Bool.true_eq_false] at h ⊢ <;>
      split_ifs <;> simp only [Prod.mk.injEq, Pos.mk.injEq, true_and, and_true] <;> omega
  rw [this]

private theorem travel_cross (T : Net) (x : Pos) (hx : T.In x) (k : ℤ) (d : Bool) (rest : List Step) (hk : k ≠ 0)
    (h : dist T x (stepSide (k, d)) = 0) :
    travel T x ((k, d) :: rest) = match T.nb x.p (stepSide (k, d)) with
      | none => none
      | some (q, s', o) => travel T (indexToNeighbour T q s' o (along x (stepSide (k, d))))
          (stepToNeighbour (stepSide (k, d)) s' o (dec k, d) :: rest.map (stepToNeighbour (stepSide (k, d)) s' o)) := by
  have hi : travelInside T x d k = (x, k) := by
    obtain ⟨p, u, v⟩ := x
    obtain ⟨h1, h2⟩ := hx
    simp only at h1 h2
    cases d <;> by_cases hp : k > 0 <;>
      simp only [stepSide, hp, if_true, if_false, dist, travelInside, Pos.par, Bool.false_eq_true, Bool.not_true, Bool.not_false,
        Bool.true_eq_false] at h ⊢ <;>
      split_ifs <;> simp only [Prod.mk.injEq, Pos.mk.injEq, true_and, and_true] <;> omega
  rw [travel_cons T x hx, hi]
  simp only [hk, if_false]
  unfold toNeighbour
  simp only
  split
  · rename_i e
    split at e
    · rename_i e'; rw [e']
    · rename_i e'
      rw [if_pos] at e
      · simp at e
      · refine ⟨?_, hk⟩
        obtain ⟨h1, h2⟩ := hx
        cases hs : stepSide (k, d) <;> simp only [hs, dist] at h ⊢ <;> simp <;> omega
  · rename_i e
    split at e
    · simp at e
    · rename_i e'
      rw [if_pos] at e
      · rw [e']
        simp only [Option.some.injEq, Prod.mk.injEq] at e
        obtain ⟨rfl, rfl, rfl⟩ := e
        simp only
        have : (if d = true then x.u else x.v) = along x (stepSide (k, d)) := by
          unfold along; rw [side_dir]
        rw [this]
        rfl
      · refine ⟨?_, hk⟩
        obtain ⟨h1, h2⟩ := hx
        cases hs : stepSide (k, d) <;> simp only [hs, dist] at h ⊢ <;> simp <;> omega

theorem indexTo_eq (T : Net) (q : ℕ) (s : Side) (o : Bool) (t : ℕ) :
    indexToNeighbour T q s o t = atSide T q s (if o then t else T.parMax q (!s.dir) - t) := by
  cases s <;> simp [indexToNeighbour, atSide, Side.dir, Side.par]

theorem along_le {T : Net} {x : Pos} (hx : T.In x) (s : Side) : along x s ≤ T.parMax x.p (!s.dir) := by
  obtain ⟨h1, h2⟩ := hx
  cases s <;> simpa [along, Side.dir]

theorem in_atSide (T : Net) (q : ℕ) (s : Side) (t : ℕ) (h : t ≤ T.parMax q (!s.dir)) : T.In (atSide T q s t) := by
  cases s <;> simp_all [atSide, Net.In, Side.dir]

theorem in_cross {T : Net} (hc : T.Conform) {x : Pos} (hx : T.In x) {s : Side} {q : ℕ} {s' : Side} {o : Bool}
    (h : T.nb x.p s = some (q, s', o)) :
    T.In (atSide T q s' (if o then along x s else T.parMax q (!s'.dir) - along x s)) := by
  apply in_atSide
  have := along_le hx s
  have := hc _ _ _ _ _ h
  split_ifs <;> omega

/-- The list of steps `l` is the list `l0` seen in the frame `φ`. -/
private def Rel (φ : Side → Side) (a b : Step) : Prop := b.1.natAbs = a.1.natAbs ∧ (b.1 ≠ 0 → stepSide b = φ (stepSide a))

private theorem travel_line (T : Net) (hc : T.Conform) (n : ℕ) (x : Pos) (hx : T.In x) (k : ℤ) (d : Bool) (φ : Side → Side) (h : Side)
    (hn : k.natAbs = n) (hh : k ≠ 0 → stepSide (k, d) = φ h) (rest0 rest : List Step)
    (hr : rest = [] ∨ T.NoTwist) (hrel : List.Forall₂ (Rel φ) rest0 rest) :
    (∀ y φ', line T n x φ h = some (y, φ') → T.In y ∧ ∃ rest', List.Forall₂ (Rel φ') rest0 rest' ∧
        travel T x ((k, d) :: rest) = travel T y rest') ∧
      (line T n x φ h = none → travel T x ((k, d) :: rest) = none) := by
  induction n generalizing x k d φ rest with
  | zero =>
    have : k = 0 := by omega
    subst this
    constructor
    · intro y φ' e
      simp only [line, Option.some.injEq, Prod.mk.injEq] at e
      obtain ⟨rfl, rfl⟩ := e
      exact ⟨hx, rest, hrel, travel_zero T x hx d rest⟩
    · intro e; simp [line] at e
  | succ n ih =>
    have hk : k ≠ 0 := by omega
    have hs := hh hk
    have hd := dec_natAbs hk
    by_cases h0 : 0 < dist T x (stepSide (k, d))
    · have hone : one T x (φ h) = some (move x (φ h), id) := by unfold one; rw [← hs, if_pos h0]
      have := ih (move x (φ h)) (hs ▸ in_move hx h0) (dec k) d φ (by omega)
        (fun h' => (dec_side hk h').trans hs) rest hr hrel
      rw [travel_move T x hx k d rest hk h0, hs]
      simpa [line, hone] using this
    · have h0' : dist T x (stepSide (k, d)) = 0 := by omega
      rw [travel_cross T x hx k d rest hk h0']
      rcases hnb : T.nb x.p (stepSide (k, d)) with _ | ⟨q, s', o⟩
      · have hone : one T x (φ h) = none := by
          unfold one; rw [← hs, if_neg h0, hnb]
        simp [line, hone]
      · have hone : one T x (φ h) = some (atSide T q s' (if o then along x (φ h) else T.parMax q (!s'.dir) - along x (φ h)),
            turn (φ h) s' o) := by
          unfold one; rw [← hs, if_neg h0, hnb]
        simp only [indexTo_eq]
        have hin := in_cross hc hx hnb
        have hrel' : List.Forall₂ (Rel (turn (φ h) s' o ∘ φ)) rest0 (rest.map (stepToNeighbour (stepSide (k, d)) s' o)) := by
          rcases hr with rfl | ht
          · cases hrel; exact .nil
          · rw [List.forall₂_map_right_iff]
            refine hrel.imp ?_
            rintro a b ⟨r1, r2⟩
            refine ⟨by rw [natAbs_stepToNeighbour, r1], fun hb => ?_⟩
            have hb' : b.1 ≠ 0 := fun e => hb ((stepTo_ne _ _ _ _).2 e)
            rw [side_stepTo _ _ _ _ hb' (Or.inr ?_), r2 hb', hs]
            · rfl
            · rintro ⟨rfl, rfl⟩
              exact absurd (ht _ _ _ _ hnb) (by simp)
        have := ih _ hin (stepToNeighbour (stepSide (k, d)) s' o (dec k, d)).1 (stepToNeighbour (stepSide (k, d)) s' o (dec k, d)).2
          (turn (φ h) s' o ∘ φ) (by rw [natAbs_stepToNeighbour]; simp only; omega) (fun h' => ?_)
          (rest.map (stepToNeighbour (stepSide (k, d)) s' o)) (hr.imp (fun e => by simp [e]) id) hrel'
        · rw [hs] at this ⊢
          simpa [line, hone] using this
        · have h'' : dec k ≠ 0 := fun e => h' ((stepTo_ne _ _ _ _).2 e)
          have h3 := side_stepTo (stepSide (k, d)) s' o (dec k, d) h'' (Or.inl (side_dir (k, d)).symm)
          rw [dec_side hk h'', hs] at h3
          rw [hs]
          exact h3

/-! ## C31 -/

/-- C31: a walk in one direction, over any number of interfaces of any kind, is the walk in unit steps: every step leads to the next function of the patch, or at
the end of the patch to the function opposite, and the direction continues on the same line. -/
theorem C31_line (T : Net) (hc : T.Conform) (x : Pos) (hx : T.In x) (st : Step) :
    travel T x [st] = (line T st.1.natAbs x id (heading st)).map Prod.fst := by
  obtain ⟨k, d⟩ := st
  have := travel_line T hc k.natAbs x hx k d id (heading (k, d)) rfl (fun _ => (heading_eq _).symm) [] [] (Or.inl rfl) .nil
  rcases e : line T k.natAbs x id (heading (k, d)) with _ | ⟨y, φ'⟩
  · rw [this.2 e]; simp
  · obtain ⟨-, rest', h1, h2⟩ := this.1 y φ' e
    cases h1
    rw [h2, travel]; simp

private theorem in_one {T : Net} (hc : T.Conform) {x : Pos} (hx : T.In x) {s : Side} {y : Pos} {τ : Side → Side}
    (h : one T x s = some (y, τ)) : T.In y := by
  unfold one at h
  split_ifs at h with h0
  · simp only [Option.some.injEq, Prod.mk.injEq] at h; rw [← h.1]; exact in_move hx h0
  · rcases hnb : T.nb x.p s with _ | ⟨q, s', o⟩
    · simp [hnb] at h
    · simp only [hnb, Option.some.injEq, Prod.mk.injEq] at h; rw [← h.1]; exact in_cross hc hx hnb

private theorem one_back {T : Net} (hs : T.Sym) (hc : T.Conform) {x : Pos} (hx : T.In x) {s : Side} {y : Pos} {τ : Side → Side}
    (h : one T x s = some (y, τ)) : ∃ τ', one T y (opp (τ s)) = some (x, τ') ∧ (∀ h, τ' (τ h) = h) ∧ ∀ h, τ (opp h) = opp (τ h) := by
  unfold one at h
  split_ifs at h with h0
  · simp only [Option.some.injEq, Prod.mk.injEq] at h
    obtain ⟨rfl, rfl⟩ := h
    refine ⟨id, ?_, fun _ => rfl, fun _ => rfl⟩
    unfold one
    obtain ⟨p, u, v⟩ := x
    obtain ⟨h1, h2⟩ := hx
    simp only at h1 h2
    rw [if_pos]
    · cases s <;> simp only [dist, move, opp, id] at * <;> simp <;> omega
    · cases s <;> simp only [dist, move, opp, id] at * <;> omega
  · rcases hnb : T.nb x.p s with _ | ⟨q, s', o⟩
    · simp [hnb] at h
    · simp only [hnb, Option.some.injEq, Prod.mk.injEq] at h
      obtain ⟨rfl, rfl⟩ := h
      refine ⟨turn s' s o, ?_, turn_turn s s' o, turn_opp s s' o⟩
      rw [turn_self, opp_opp]
      have hb := hs _ _ _ _ _ hnb
      have hcc := hc _ _ _ _ _ hnb
      have hal := along_le hx s
      unfold one
      have hz : ¬ 0 < dist T (atSide T q s' (if o then along x s else T.parMax q (!s'.dir) - along x s)) s' := by
        cases s' <;> simp [dist, atSide]
      rw [if_neg hz]
      have hp : (atSide T q s' (if o then along x s else T.parMax q (!s'.dir) - along x s)).p = q := by cases s' <;> rfl
      have hal' : along (atSide T q s' (if o then along x s else T.parMax q (!s'.dir) - along x s)) s'
          = (if o then along x s else T.parMax q (!s'.dir) - along x s) := by cases s' <;> rfl
      rw [hp, hb]
      simp only [hal', Option.some.injEq, Prod.mk.injEq, and_true]
      have hx' : x = atSide T x.p s (along x s) := by
        obtain ⟨p, u, v⟩ := x
        obtain ⟨h1, h2⟩ := hx
        simp only at h1 h2
        cases s <;> simp [dist, atSide, along, Side.dir] at h0 ⊢ <;> omega
      conv_rhs => rw [hx']
      congr 1
      cases o <;> simp
      omega

private theorem line_snoc (T : Net) (n : ℕ) (x : Pos) (φ : Side → Side) (h : Side) :
    line T (n + 1) x φ h = (line T n x φ h).bind fun r => (one T r.1 (r.2 h)).map fun r' => (r'.1, r'.2 ∘ r.2) := by
  induction n generalizing x φ with
  | zero =>
    simp only [line, Option.bind_some]
    rcases one T x (φ h) with _ | ⟨y, τ⟩ <;> rfl
  | succ n ih =>
    rw [line]
    conv_rhs => rw [line]
    rcases one T x (φ h) with _ | ⟨y, τ⟩
    · rfl
    · exact ih y (τ ∘ φ)

theorem in_line {T : Net} (hc : T.Conform) (n : ℕ) {x : Pos} (hx : T.In x) {φ φ' : Side → Side} {h : Side} {y : Pos}
    (e : line T n x φ h = some (y, φ')) : T.In y := by
  induction n generalizing x φ with
  | zero => simp only [line, Option.some.injEq, Prod.mk.injEq] at e; rw [← e.1]; exact hx
  | succ n ih =>
    rw [line] at e
    rcases ho : one T x (φ h) with _ | ⟨z, τ⟩
    · simp [ho] at e
    · rw [ho] at e; exact ih (in_one hc hx ho) e

private theorem line_back {T : Net} (hs : T.Sym) (hc : T.Conform) (n : ℕ) {x : Pos} (hx : T.In x) {φ φ' : Side → Side} {h : Side} {y : Pos}
    (hφ : ∀ g, φ (opp g) = opp (φ g)) (e : line T n x φ h = some (y, φ')) :
    line T n y φ' (opp h) = some (x, φ) ∧ ∀ g, φ' (opp g) = opp (φ' g) := by
  induction n generalizing x φ with
  | zero =>
    simp only [line, Option.some.injEq, Prod.mk.injEq] at e
    obtain ⟨rfl, rfl⟩ := e
    exact ⟨rfl, hφ⟩
  | succ n ih =>
    rw [line] at e
    rcases ho : one T x (φ h) with _ | ⟨z, τ⟩
    · simp [ho] at e
    · rw [ho] at e
      simp only at e
      obtain ⟨τ', b1, b2, b3⟩ := one_back hs hc hx ho
      obtain ⟨i1, i2⟩ := ih (in_one hc hx ho) (fun g => by simp [hφ, b3]) e
      refine ⟨?_, i2⟩
      rw [line_snoc, i1]
      simp only [Option.bind_some, Function.comp, hφ, b3, b1, Option.map_some, Option.some.injEq, Prod.mk.injEq, true_and]
      funext g
      exact b2 _

/-- Steps towards a side. -/
def stepsTo (s : Side) (n : ℕ) : Step := (if s.par then (n : ℤ) else -(n : ℤ), s.dir)

private theorem line_head (T : Net) (n : ℕ) (x : Pos) (φ ψ : Side → Side) (h g : Side) (e : φ h = ψ g) :
    (line T n x φ h).map Prod.fst = (line T n x ψ g).map Prod.fst := by
  induction n generalizing x φ ψ with
  | zero => rfl
  | succ n ih =>
    rw [line, line, e]
    rcases one T x (ψ g) with _ | ⟨y, τ⟩
    · rfl
    · exact ih y (τ ∘ φ) (τ ∘ ψ) (by simp [e])

theorem travel_stepsTo (T : Net) (hc : T.Conform) (x : Pos) (hx : T.In x) (s : Side) (n : ℕ) :
    travel T x [stepsTo s n] = (line T n x id s).map Prod.fst := by
  rw [C31_line T hc x hx]
  have : (stepsTo s n).1.natAbs = n := by unfold stepsTo; split_ifs <;> simp
  rw [this]
  by_cases h : n = 0
  · subst h; rfl
  · apply line_head
    have h0 : 0 < n := by omega
    have h1 : ¬ (n : ℤ) < 0 := by omega
    cases s <;> simp [stepsTo, heading, Side.par, Side.dir, sideOf, h0, h1]

/-- C31: walking the same number of steps back in the transported direction leads back to the start, over any interfaces. -/
theorem C31_reverse (T : Net) (hs : T.Sym) (hc : T.Conform) (x y : Pos) (hx : T.In x) (st : Step) (h : travel T x [st] = some y) :
    ∃ φ, line T st.1.natAbs x id (heading st) = some (y, φ) ∧ travel T y [stepsTo (opp (φ (heading st))) st.1.natAbs] = some x := by
  rw [C31_line T hc x hx] at h
  rcases e : line T st.1.natAbs x id (heading st) with _ | ⟨z, φ⟩
  · simp [e] at h
  · simp only [e, Option.map_some, Option.some.injEq] at h
    subst h
    refine ⟨φ, rfl, ?_⟩
    obtain ⟨b1, b2⟩ := line_back (φ := id) hs hc _ hx (fun _ => rfl) e
    rw [travel_stepsTo T hc z (in_line hc _ hx e), line_head T _ z id φ _ (opp (heading st)) (by simp [b2]), b1]
    rfl

/-- C31: walking on: `m` steps and then `n` more in the transported direction are `m+n` steps. -/
theorem C31_add (T : Net) (hc : T.Conform) (x y : Pos) (hx : T.In x) (s : Side) (m n : ℕ) (φ : Side → Side)
    (h : line T m x id s = some (y, φ)) :
    travel T x [stepsTo s m] = some y ∧ travel T x [stepsTo s (m + n)] = travel T y [stepsTo (φ s) n] := by
  constructor
  · rw [travel_stepsTo T hc x hx, h]; rfl
  · rw [travel_stepsTo T hc x hx, travel_stepsTo T hc y (in_line hc _ hx h)]
    have key : ∀ (m : ℕ) (x : Pos) (ψ : Side → Side), line T m x ψ s = some (y, φ) → line T (m + n) x ψ s = line T n y φ s := by
      intro m
      induction m with
      | zero =>
        intro x ψ e
        simp only [line, Option.some.injEq, Prod.mk.injEq] at e
        obtain ⟨rfl, rfl⟩ := e
        rw [Nat.zero_add]
      | succ m ih =>
        intro x ψ e
        rw [Nat.add_right_comm, line]
        rw [line] at e
        rcases ho : one T x (ψ s) with _ | ⟨z, τ⟩
        · simp [ho] at e
        · rw [ho] at e; exact ih z _ e
    rw [key m x id h]
    exact line_head T n y φ id s (φ s) rfl

/-- C31, walks with turns (as used for the functions around a regular vertex): if no two opposite sides are glued with reversed orientation, the
code walks along the transported directions, for every list of steps.

The full claim drops the hypothesis `NoTwist`; it is false, see `C31_twist_violated`. -/
theorem C31_turns_partial (T : Net) (hc : T.Conform) (ht : T.NoTwist) (x : Pos) (hx : T.In x) (l : List Step) :
    travel T x l = walk T x id l := by
  suffices h : ∀ (l0 l : List Step) (x : Pos) (φ : Side → Side), T.In x → List.Forall₂ (Rel φ) l0 l → travel T x l = walk T x φ l0 by
    refine h l l x id hx ?_
    induction l with
    | nil => exact .nil
    | cons a l ih => exact .cons ⟨rfl, fun _ => rfl⟩ ih
  intro l0
  induction l0 with
  | nil => intro l x φ _ hr; cases hr; rw [travel]; rfl
  | cons a l0 ih =>
    intro l x φ hx hr
    rcases hr with _ | ⟨⟨r1, r2⟩, hr⟩
    rename_i b rest
    obtain ⟨k, d⟩ := b
    have := travel_line T hc a.1.natAbs x hx k d φ (heading a) r1 (fun hk => by rw [heading_eq]; exact r2 hk) l0 rest (Or.inr ht) hr
    rw [walk]
    rcases e : line T a.1.natAbs x φ (heading a) with _ | ⟨y, φ'⟩
    · rw [this.2 e]
    · obtain ⟨hy, rest', h1, h2⟩ := this.1 y φ' e
      rw [h2]
      exact ih rest' y φ' hy h1

/-- Two patches of 3 x 3 functions, the east side of the first glued to the west side of the second with equal orientation. -/
def pair : Net :=
  ⟨fun _ _ => 2, fun p s => if p = 0 ∧ s = .east then some (1, .west, true) else if p = 1 ∧ s = .west then some (0, .east, true) else none⟩

/-- The hypotheses of the theorems above hold for two patches side by side, and the walks are not trivial: two steps east from the middle of the first
patch lead to the west side of the second, and back. -/
theorem pair_hyps : pair.Sym ∧ pair.Conform ∧ pair.NoTwist := by
  refine ⟨?_, fun _ _ _ _ _ _ => rfl, ?_⟩
  · intro p s q s' o h
    simp only [pair] at h ⊢
    split_ifs at h with h1 h2
    · simp only [Option.some.injEq, Prod.mk.injEq] at h; obtain ⟨rfl, rfl, rfl⟩ := h; simp [h1]
    · simp only [Option.some.injEq, Prod.mk.injEq] at h; obtain ⟨rfl, rfl, rfl⟩ := h; simp [h2]
  · intro p s q o h
    simp only [pair] at h
    split_ifs at h <;> simp_all

example : pair.In ⟨0, 1, 1⟩ ∧ walk pair ⟨0, 1, 1⟩ id [(2, false), (1, true)] = some ⟨1, 0, 2⟩ ∧
    walk pair ⟨1, 0, 2⟩ id [(-2, false)] = some ⟨0, 1, 2⟩ := ⟨⟨by decide, by decide⟩, by decide +kernel, by decide +kernel⟩

/-- Two patches, the east side of the first glued to the west side of the second with reversed orientation. -/
def twisted : Net :=
  ⟨fun _ _ => 2, fun p s => if p = 0 ∧ s = .east then some (1, .west, false) else if p = 1 ∧ s = .west then some (0, .east, false) else none⟩

/-- C31 is violated by the unchanged code: two patches of 3 x 3 functions, the east side of the first glued to the west side of the second with reversed
orientation.  The walk "one east, one north" from the middle of the east side should end at the lower left function of the second patch, the
code ends at the upper left one, which is not even next to the function reached by "one north, one east". -/
theorem C31_twist_violated : ∃ T : Net, T.Sym ∧ T.Conform ∧ ∃ x, T.In x ∧
    travel T x [(1, false), (1, true)] ≠ walk T x id [(1, false), (1, true)] ∧
    walk T x id [(1, false), (1, true)] = travel T x [(1, true), (1, false)] := by
  refine ⟨twisted, ?_, fun _ _ _ _ _ _ => rfl, ⟨0, 2, 1⟩, ⟨le_refl 2, by decide⟩, ?_, ?_⟩
  · intro p s q s' o h
    simp only [twisted] at h ⊢
    split_ifs at h with h1 h2
    · simp only [Option.some.injEq, Prod.mk.injEq] at h; obtain ⟨rfl, rfl, rfl⟩ := h; simp [h1]
    · simp only [Option.some.injEq, Prod.mk.injEq] at h; obtain ⟨rfl, rfl, rfl⟩ := h; simp [h2]
  · have h1 : travel twisted ⟨0, 2, 1⟩ [(1, false), (1, true)] = some ⟨1, 0, 2⟩ := by
      simp [travel, twisted, travelInside, toNeighbour, Pos.par, stepSide, indexToNeighbour, stepToNeighbour, Side.dir, Side.par]
    rw [h1]
    decide +kernel
  · have h1 : travel twisted ⟨0, 2, 1⟩ [(1, true), (1, false)] = some ⟨1, 0, 0⟩ := by
      simp [travel, twisted, travelInside, toNeighbour, Pos.par, stepSide, indexToNeighbour, stepToNeighbour, Side.dir, Side.par]
    rw [h1]
    decide +kernel

/-! ## C40 -/

/-- The points visited by the loop of `_addBlockToMap`. -/
def visited (lens : List ℕ) : ℕ → List ℕ → List (List ℕ)
  | 0, _ => []
  | n + 1, pt => pt :: match nextPoint lens pt with
    | none => []
    | some pt' => visited lens n pt'

/-- Number of points of the grid. -/
def gridSize : List ℕ → ℕ
  | [] => 1
  | l :: ls => (l + 1) * gridSize ls

/-- Position of a point in the order of the loop. -/
def val : List ℕ → List ℕ → ℕ
  | l :: ls, p :: ps => p + (l + 1) * val ls ps
  | _, _ => 0

def Bd (lens pt : List ℕ) : Prop := List.Forall₂ (fun p l => p ≤ l) pt lens

theorem val_lt {lens pt : List ℕ} (h : Bd lens pt) : val lens pt < gridSize lens := by
  induction h with
  | nil => simp [val, gridSize]
  | @cons p l ps ls h1 _ ih =>
    simp only [val, gridSize]
    calc p + (l + 1) * val ls ps < (l + 1) * (val ls ps + 1) := by rw [Nat.mul_add]; omega
      _ ≤ _ := Nat.mul_le_mul_left _ ih

private theorem val_inj {lens a b : List ℕ} (ha : Bd lens a) (hb : Bd lens b) (h : val lens a = val lens b) : a = b := by
  induction ha generalizing b with
  | nil => cases hb; rfl
  | @cons p l ps ls h1 _ ih =>
    rcases hb with _ | ⟨h2, hb⟩
    rename_i p' ps'
    simp only [val] at h
    have e1 : p = p' := by
      have := congrArg (· % (l + 1)) h
      simpa [Nat.add_mul_mod_self_left, Nat.mod_eq_of_lt (Nat.lt_succ_of_le h1), Nat.mod_eq_of_lt (Nat.lt_succ_of_le h2)] using this
    subst e1
    have e2 : val ls ps = val ls ps' := Nat.eq_of_mul_eq_mul_left (Nat.succ_pos l) (Nat.add_left_cancel h)
    rw [ih hb e2]

theorem next_some {lens pt pt' : List ℕ} (h : Bd lens pt) (e : nextPoint lens pt = some pt') :
    Bd lens pt' ∧ val lens pt' = val lens pt + 1 := by
  induction h generalizing pt' with
  | nil => simp [nextPoint] at e
  | @cons p l ps ls h1 h2 ih =>
    rw [nextPoint] at e
    split_ifs at e with h3
    · simp only [Option.some.injEq] at e
      subst e
      exact ⟨.cons h3 h2, by simp only [val]; omega⟩
    · rcases e' : nextPoint ls ps with _ | ps'
      · simp [e'] at e
      · simp only [e', Option.map_some, Option.some.injEq] at e
        subst e
        obtain ⟨i1, i2⟩ := ih e'
        refine ⟨.cons (Nat.zero_le _) i1, ?_⟩
        have : p = l := by omega
        simp only [val, i2, Nat.mul_add]; omega

theorem next_none {lens pt : List ℕ} (h : Bd lens pt) (e : nextPoint lens pt = none) : val lens pt + 1 = gridSize lens := by
  induction h with
  | nil => simp [val, gridSize]
  | @cons p l ps ls h1 h2 ih =>
    rw [nextPoint] at e
    split_ifs at e with h3
    simp only [Option.map_eq_none_iff] at e
    have := ih e
    have : p = l := by omega
    simp only [val, gridSize, ← ih e, Nat.mul_add]; omega

private theorem val_surj (lens : List ℕ) (n : ℕ) (h : n < gridSize lens) : ∃ pt, Bd lens pt ∧ val lens pt = n := by
  induction lens generalizing n with
  | nil => simp only [gridSize] at h; exact ⟨[], .nil, by simp [val]; omega⟩
  | cons l ls ih =>
    simp only [gridSize] at h
    obtain ⟨ps, b, e⟩ := ih (n / (l + 1)) (Nat.div_lt_of_lt_mul h)
    refine ⟨n % (l + 1) :: ps, .cons (by exact Nat.le_of_lt_succ (Nat.mod_lt n (Nat.succ_pos l))) b, ?_⟩
    simp only [val, e]
    exact Nat.mod_add_div n (l + 1)

theorem visited_spec (lens : List ℕ) (n : ℕ) (pt : List ℕ) (h : Bd lens pt) (hn : val lens pt + n = gridSize lens) :
    (visited lens n pt).Nodup ∧ (visited lens n pt).length = n ∧ ∀ q, q ∈ visited lens n pt ↔ Bd lens q ∧ val lens pt ≤ val lens q := by
  induction n generalizing pt with
  | zero => have := val_lt h; omega
  | succ n ih =>
    rw [visited]
    rcases e : nextPoint lens pt with _ | pt'
    · have := next_none h e
      have hn0 : n = 0 := by omega
      simp only [List.mem_singleton, hn0]
      refine ⟨by simp, by simp, fun q => ⟨by rintro rfl; exact ⟨h, le_refl _⟩, ?_⟩⟩
      rintro ⟨h1, h2⟩
      have := val_lt h1
      exact val_inj h1 h (by omega)
    · obtain ⟨b, v⟩ := next_some h e
      have hlt := val_lt b
      obtain ⟨i1, i2, i3⟩ := ih pt' b (by omega)
      refine ⟨List.nodup_cons.2 ⟨fun hm => ?_, i1⟩, by simp [i2], fun q => ?_⟩
      · have := ((i3 pt).1 hm).2; omega
      · rw [List.mem_cons, i3]
        constructor
        · rintro (rfl | ⟨h1, h2⟩)
          · exact ⟨h, le_refl _⟩
          · exact ⟨h1, by omega⟩
        · rintro ⟨h1, h2⟩
          by_cases hq : val lens q = val lens pt
          · exact Or.inl (val_inj h1 h hq)
          · exact Or.inr ⟨h1, by omega⟩

theorem bd_zero (lens : List ℕ) : Bd lens (lens.map fun _ => 0) ∧ val lens (lens.map fun _ => 0) = 0 := by
  induction lens with
  | nil => exact ⟨.nil, rfl⟩
  | cons l ls ih => exact ⟨.cons (Nat.zero_le _) ih.1, by rw [List.map_cons, val, ih.2]; simp⟩

theorem gridSize_eq (lens : List ℕ) : (lens.map (· + 1)).foldr (· * ·) 1 = gridSize lens := by
  induction lens with
  | nil => rfl
  | cons l ls ih => simp [gridSize, ih]

/-- C40: the loop over the points of a block visits every point of the grid exactly once: the distances in every direction run from 0 to the length. -/
theorem C40_points (lens : List ℕ) :
    (visited lens (gridSize lens) (lens.map fun _ => 0)).Nodup ∧
    ∀ pt, pt ∈ visited lens (gridSize lens) (lens.map fun _ => 0) ↔ List.Forall₂ (fun p l => p ≤ l) pt lens := by
  obtain ⟨b, v⟩ := bd_zero lens
  obtain ⟨h1, -, h3⟩ := visited_spec lens _ _ b (by rw [v, Nat.zero_add])
  exact ⟨h1, fun pt => by rw [h3, v]; simp [Bd]⟩

example : visited [1, 2] (gridSize [1, 2]) [0, 0] = [[0, 0], [1, 0], [0, 1], [1, 1], [0, 2], [1, 2]] := by decide

theorem blockLoop_eq (T : Net) (x : Pos) (sides : List Side) (lens : List ℕ) (n : ℕ) (pt : List ℕ) (h : Bd lens pt)
    (hn : val lens pt + n = gridSize lens) :
    blockLoop T x sides lens n pt = (visited lens n pt).mapM fun q => travel T x (blockSteps sides q) := by
  induction n generalizing pt with
  | zero => have := val_lt h; omega
  | succ n ih =>
    rw [blockLoop, visited]
    rcases e : nextPoint lens pt with _ | pt'
    · simp only [List.mapM_cons, List.mapM_nil]
      rcases travel T x (blockSteps sides pt) with _ | y <;> rfl
    · obtain ⟨b, v⟩ := next_some h e
      have hlt := val_lt b
      simp only [List.mapM_cons, ih pt' b (by omega)]
      rcases travel T x (blockSteps sides pt) with _ | y
      · rfl
      · rcases (visited lens n pt').mapM fun q => travel T x (blockSteps sides q) with _ | l <;> rfl

/-- C40: the local functions of a block are those reached by all combinations of distances, each taken once. -/
theorem C40_locals (T : Net) (x : Pos) (sides : List Side) (lens : List ℕ) :
    blockLocals T x sides lens =
      (visited lens (gridSize lens) (lens.map fun _ => 0)).mapM fun q => travel T x (blockSteps sides q) := by
  obtain ⟨b, v⟩ := bd_zero lens
  unfold blockLocals
  rw [gridSize_eq, blockLoop_eq T x sides lens _ _ b (by rw [v, Nat.zero_add])]

theorem mapM_iff {α β : Type} (f : α → Option β) (l : List α) (r : List β) :
    l.mapM f = some r ↔ r.length = l.length ∧ ∀ (i : ℕ) (a : α), l[i]? = some a → f a = r[i]? := by
  induction l generalizing r with
  | nil =>
    simp only [List.mapM_nil]
    constructor
    · rintro h
      have : r = [] := by simpa [pure, eq_comm] using h
      subst this; simp
    · rintro ⟨h, -⟩
      have : r = [] := by simpa using h
      subst this; rfl
  | cons a l ih =>
    rw [List.mapM_cons]
    constructor
    · intro h
      rcases ha : f a with _ | b
      · simp [ha] at h
      · rcases hl : l.mapM f with _ | r'
        · simp [ha, hl] at h
        · have : b :: r' = r := by simpa [ha, hl] using h
          subst this
          obtain ⟨i1, i2⟩ := (ih r').1 hl
          refine ⟨by simp [i1], fun i => ?_⟩
          cases i with
          | zero => intro a' e; simp at e; subst e; simpa using ha
          | succ i => intro a' e; simpa using i2 i a' (by simpa using e)
    · rintro ⟨h1, h2⟩
      rcases r with _ | ⟨b, r⟩
      · simp at h1
      · have ha : f a = some b := by simpa using h2 0 a (by simp)
        have hl : l.mapM f = some r := (ih r).2 ⟨by simpa using h1, fun i a' e => by simpa using h2 (i + 1) a' (by simpa using e)⟩
        simp [ha, hl]

private theorem visited_line (len n j : ℕ) (h : j + n = len + 1) : visited [len] n [j] = (List.range' j n).map fun i => [i] := by
  induction n generalizing j with
  | zero => rfl
  | succ n ih =>
    rw [visited, nextPoint]
    by_cases hj : j + 1 ≤ len
    · simp only [hj, if_true, ih (j + 1) (by omega), List.range'_succ, List.map_cons]
    · have : n = 0 := by omega
      subst this
      simp [hj, nextPoint]

/-- The local functions of a line, index by index. -/
theorem line_locals (T : Net) (x : Pos) (s : Side) (len : ℕ) (l : List Pos) :
    blockLocals T x [s] [len] = some l ↔ l.length = len + 1 ∧ ∀ i ≤ len, travel T x [stepsTo s i] = l[i]? := by
  rw [C40_locals]
  have : gridSize [len] = len + 1 := by simp [gridSize]
  rw [this, List.map_cons, List.map_nil, visited_line len (len + 1) 0 (by omega), ← List.range_eq_range', mapM_iff]
  simp only [List.length_map, List.length_range, List.getElem?_map]
  refine and_congr_right fun hl => ⟨fun h i hi => ?_, fun h i a e => ?_⟩
  · exact h i [i] (by rw [List.getElem?_range (by omega)]; rfl)
  · simp only [Option.map_eq_some_iff] at e
    obtain ⟨j, e1, rfl⟩ := e
    have hi : i < len + 1 := by
      by_contra hn
      rw [List.getElem?_eq_none (by simpa using hn)] at e1
      simp at e1
    rw [List.getElem?_range hi] at e1
    simp only [Option.some.injEq] at e1
    subst e1
    exact h i (by omega)

theorem line_add (T : Net) (m n : ℕ) (x : Pos) (φ : Side → Side) (h : Side) :
    line T (m + n) x φ h = (line T m x φ h).bind fun r => line T n r.1 r.2 h := by
  induction m generalizing x φ with
  | zero => simp [line]
  | succ m ih =>
    rw [Nat.add_right_comm, line, line]
    rcases one T x (φ h) with _ | ⟨y, τ⟩
    · rfl
    · exact ih y _

theorem line_locals' (T : Net) (hc : T.Conform) (x : Pos) (hx : T.In x) (s : Side) (len : ℕ) (l : List Pos) :
    blockLocals T x [s] [len] = some l ↔ l.length = len + 1 ∧ ∀ i ≤ len, (line T i x id s).map Prod.fst = l[i]? := by
  rw [line_locals]
  simp only [travel_stepsTo T hc x hx]

/-- C40: the line of functions built from the last function of a line, in the opposite transported direction, is the same line reversed; over any
number of interfaces of any kind. -/
theorem C40_reverse (T : Net) (hs : T.Sym) (hc : T.Conform) (x y : Pos) (hx : T.In x) (s : Side) (len : ℕ) (φ : Side → Side)
    (h : line T len x id s = some (y, φ)) :
    ∃ l, blockLocals T x [s] [len] = some l ∧ blockLocals T y [opp (φ s)] [len] = some l.reverse := by
  have hpre : ∀ i ≤ len, ∃ z ψ, line T i x id s = some (z, ψ) ∧ line T (len - i) y φ (opp s) = some (z, ψ) := by
    intro i hi
    have e := line_add T i (len - i) x id s
    rw [Nat.add_sub_cancel' hi, h] at e
    rcases ei : line T i x id s with _ | ⟨z, ψ⟩
    · simp [ei] at e
    · simp only [ei, Option.bind_some] at e
      have b := line_back (φ := id) hs hc i hx (fun _ => rfl) ei
      exact ⟨z, ψ, rfl, (line_back hs hc (len - i) (in_line hc _ hx ei) b.2 e.symm).1⟩
  have hopp := (line_back (φ := id) hs hc len hx (fun _ => rfl) h).2
  have hy := in_line hc _ hx h
  refine ⟨(List.range (len + 1)).map fun i => ((line T i x id s).map Prod.fst).getD x, ?_, ?_⟩
  · rw [line_locals' T hc x hx]
    refine ⟨by simp, fun i hi => ?_⟩
    obtain ⟨z, ψ, e, -⟩ := hpre i hi
    simp [e, List.getElem?_range (show i < len + 1 by omega)]
  · rw [line_locals' T hc y hy]
    refine ⟨by simp, fun i hi => ?_⟩
    obtain ⟨z, ψ, e, e'⟩ := hpre (len - i) (by omega)
    rw [line_head T i y id φ _ (opp s) (by simp [hopp])]
    rw [show len - (len - i) = i by omega] at e'
    rw [e', List.getElem?_reverse (by simp; omega)]
    simp only [List.length_map, List.length_range, show len + 1 - 1 - i = len - i by omega, List.getElem?_map,
      List.getElem?_range (show len - i < len + 1 by omega), Option.map_some, e, Option.getD_some]

theorem line_inside (T : Net) (n : ℕ) (x : Pos) (φ : Side → Side) (h : Side) (hx : T.In x) (hn : n ≤ dist T x (φ h)) :
    ∃ y, line T n x φ h = some (y, φ) ∧ y.p = x.p ∧ dist T y (φ h) = dist T x (φ h) - n := by
  induction n generalizing x with
  | zero => exact ⟨x, rfl, rfl, rfl⟩
  | succ n ih =>
    have h0 : 0 < dist T x (φ h) := by omega
    have hd : dist T (move x (φ h)) (φ h) = dist T x (φ h) - 1 := by
      generalize φ h = s at *
      cases s <;> simp only [dist, move] <;> omega
    have hp : (move x (φ h)).p = x.p := by generalize φ h = s; cases s <;> rfl
    obtain ⟨y, e1, e2, e3⟩ := ih (move x (φ h)) (in_move hx h0) (by omega)
    refine ⟨y, ?_, e2.trans hp, by rw [e3, hd]; omega⟩
    rw [line]
    simp only [one, h0, if_true]
    exact e1

theorem dist_opp (T : Net) (x : Pos) (hx : T.In x) (s : Side) : dist T x s + dist T x (opp s) = T.parMax x.p s.dir := by
  obtain ⟨h1, h2⟩ := hx
  cases s <;> simp only [dist, opp, Side.dir] <;> omega

/-- C40: a function of patch `p` at distance `a` from an interface, smoothed over it with length `len`, and the function of the neighbouring patch at
distance `len-1-a` at the same place along the interface give the same line of local functions; if the two patches are different, exactly one of
the two calls adds a global function. -/
theorem C40_once (T : Net) (hs : T.Sym) (hc : T.Conform) (x : Pos) (hx : T.In x) (s : Side) (q : ℕ) (s' : Side) (o : Bool)
    (hnb : T.nb x.p s = some (q, s', o)) (len : ℕ) (ha : dist T x s < len) (hq : len - 1 - dist T x s ≤ T.parMax q s'.dir) :
    ∃ y, y.p = q ∧ T.In y ∧ dist T y s' = len - 1 - dist T x s ∧
      along y s' = (if o then along x s else T.parMax q (!s'.dir) - along x s) ∧
      ∃ l, blockLocals T x [s] [len] = some l ∧ blockLocals T y [s'] [len] = some l.reverse ∧
        (q ≠ x.p → addLine T x s len = some (some l) ∧ addLine T y s' len = some none ∨
          addLine T x s len = some none ∧ addLine T y s' len = some (some l.reverse)) := by
  set a := dist T x s with hadef
  obtain ⟨z, z1, z2, z3⟩ := line_inside T a x id s hx (le_of_eq hadef)
  simp only [id] at z3
  have hz := in_line hc _ hx z1
  have hzal : along z s = along x s := by
    have key : ∀ (n : ℕ) (x z : Pos), n ≤ dist T x s → line T n x id s = some (z, id) → along z s = along x s := by
      intro n
      induction n with
      | zero => intro x z _ e; simp only [line, Option.some.injEq, Prod.mk.injEq] at e; rw [e.1]
      | succ n ih =>
        intro x z hn e
        have h0 : 0 < dist T x s := by omega
        have hd : dist T (move x s) s = dist T x s - 1 := by cases s <;> simp only [dist, move] <;> omega
        rw [line] at e
        simp only [one, id, h0, if_true] at e
        rw [ih (move x s) z (by omega) e]
        cases s <;> rfl
    exact key a x z (le_of_eq hadef) z1
  set w := atSide T q s' (if o then along x s else T.parMax q (!s'.dir) - along x s) with hw
  have hone : one T z s = some (w, turn s s' o) := by
    unfold one
    rw [z3, if_neg (by omega), z2, hnb, hzal]
  have hwin := in_one hc hz hone
  have hwp : w.p = q := by rw [hw]; cases s' <;> rfl
  have hwd : dist T w s' = 0 := by rw [hw]; cases s' <;> simp [dist, atSide]
  have hwo : dist T w (opp s') = T.parMax q s'.dir := by have := dist_opp T w hwin s'; rw [hwp] at this; omega
  have hwal : along w s' = (if o then along x s else T.parMax q (!s'.dir) - along x s) := by rw [hw]; cases s' <;> rfl
  have hts : (turn s s' o ∘ id) s = opp s' := turn_self s s' o
  obtain ⟨y, y1, y2, y3⟩ := line_inside T (len - 1 - a) w (turn s s' o ∘ id) s hwin (by rw [hts, hwo]; exact hq)
  have hy := in_line hc _ hwin y1
  have hfull : line T len x id s = some (y, turn s s' o ∘ id) := by
    have e := line_add T a (1 + (len - 1 - a)) x id s
    rw [show a + (1 + (len - 1 - a)) = len by omega, z1] at e
    rw [e, Option.bind_some, Nat.add_comm 1, line]
    simp only [id, hone]
    exact y1
  have hyd : dist T y s' = len - 1 - a := by
    have e := dist_opp T y hy s'
    rw [hts, hwo] at y3
    rw [y2, hwp] at e
    omega
  have hyal : along y s' = along w s' := by
    have key : ∀ (n : ℕ) (w y : Pos) (φ : Side → Side), φ s = opp s' → n ≤ dist T w (opp s') → line T n w φ s = some (y, φ) →
        along y s' = along w s' := by
      intro n
      induction n with
      | zero => intro w y φ _ _ e; simp only [line, Option.some.injEq, Prod.mk.injEq] at e; rw [e.1]
      | succ n ih =>
        intro w y φ hφ hn e
        have h0 : 0 < dist T w (opp s') := by omega
        have hd : dist T (move w (opp s')) (opp s') = dist T w (opp s') - 1 := by cases s' <;> simp only [dist, move, opp] <;> omega
        rw [line] at e
        simp only [one, hφ, h0, if_true] at e
        rw [ih (move w (opp s')) y φ hφ (by omega) e]
        cases s' <;> rfl
    exact key _ w y _ hts (by rw [hwo]; exact hq) y1
  obtain ⟨l, l1, l2⟩ := C40_reverse T hs hc x y hx s len _ hfull
  rw [hts, opp_opp] at l2
  refine ⟨y, y2.trans hwp, hy, hyd, hyal.trans hwal, l, l1, l2, fun hne => ?_⟩
  -- the patches occurring in the line
  have hpat : ∀ z' ∈ l, z'.p = x.p ∨ z'.p = q := by
    intro z' hm
    obtain ⟨i, hi, rfl⟩ := List.getElem_of_mem hm
    obtain ⟨c1, c2⟩ := (line_locals' T hc x hx s len l).1 l1
    have c3 := c2 i (by omega)
    rw [List.getElem?_eq_getElem hi] at c3
    by_cases hia : i ≤ a
    · obtain ⟨z'', e1, e2, -⟩ := line_inside T i x id s hx hia
      rw [e1] at c3
      simp only [Option.map_some, Option.some.injEq] at c3
      left; rw [← c3]; exact e2
    · obtain ⟨z'', e1, e2, -⟩ := line_inside T (i - a - 1) w (turn s s' o ∘ id) s hwin (by rw [hts, hwo]; omega)
      have e := line_add T a (1 + (i - a - 1)) x id s
      rw [show a + (1 + (i - a - 1)) = i by omega, z1, Option.bind_some, Nat.add_comm 1, line] at e
      simp only [id, hone] at e
      rw [e] at c3
      rw [e1] at c3
      simp only [Option.map_some, Option.some.injEq] at c3
      right; rw [← c3]; exact e2.trans hwp
  have hxm : x ∈ l := by
    obtain ⟨c1, c2⟩ := (line_locals' T hc x hx s len l).1 l1
    have := c2 0 (by omega)
    exact List.mem_of_getElem? this.symm
  have hym : y ∈ l := by
    obtain ⟨c1, c2⟩ := (line_locals' T hc x hx s len l).1 l1
    have := c2 len (le_refl _)
    rw [hfull] at this
    exact List.mem_of_getElem? this.symm
  have hyp : y.p = q := y2.trans hwp
  unfold addLine
  rw [l1, l2]
  simp only [Option.map_some, Option.some.injEq]
  rcases Nat.lt_or_gt_of_ne hne with hlt | hlt
  · right
    rw [if_pos, if_neg]
    · simp
    · simp only [alreadyHandled, List.any_eq_true, List.mem_reverse, decide_eq_true_eq, not_exists, not_and]
      intro z' hm
      rcases hpat z' hm with e | e <;> omega
    · simp only [alreadyHandled, List.any_eq_true, decide_eq_true_eq]
      exact ⟨y, hym, by omega⟩
  · left
    rw [if_neg, if_pos]
    · simp
    · simp only [alreadyHandled, List.any_eq_true, List.mem_reverse, decide_eq_true_eq]
      exact ⟨x, hxm, by omega⟩
    · simp only [alreadyHandled, List.any_eq_true, decide_eq_true_eq, not_exists, not_and]
      intro z' hm
      rcases hpat z' hm with e | e <;> omega

/-- The hypotheses of `C40_once` hold for two patches side by side with length 2. -/
example : pair.In ⟨0, 1, 1⟩ ∧ pair.nb 0 .east = some (1, .west, true) ∧ dist pair ⟨0, 1, 1⟩ .east < 2 ∧
    2 - 1 - dist pair ⟨0, 1, 1⟩ .east ≤ pair.parMax 1 Side.west.dir := ⟨⟨by decide, by decide⟩, by decide, by decide, by decide⟩

/-- One patch of 3 x 3 functions whose south side is glued to its west side. -/
def selfGlued : Net :=
  ⟨fun _ _ => 2, fun p s => if p = 0 ∧ s = .south then some (0, .west, true) else if p = 0 ∧ s = .west then some (0, .south, true) else none⟩

/-- C40, the case of a patch glued to itself along neighbouring sides, is violated by the unchanged code: `_alreadyHandled` compares patches only, so the two
calls from both sides add the same function twice. -/
theorem C40_self_violated : selfGlued.Sym ∧ selfGlued.Conform ∧ selfGlued.In ⟨0, 1, 0⟩ ∧ selfGlued.In ⟨0, 0, 1⟩ ∧
    addLine selfGlued ⟨0, 1, 0⟩ .south 1 = some (some [⟨0, 1, 0⟩, ⟨0, 0, 1⟩]) ∧
    addLine selfGlued ⟨0, 0, 1⟩ .west 1 = some (some [⟨0, 0, 1⟩, ⟨0, 1, 0⟩]) := by
  refine ⟨?_, fun _ _ _ _ _ _ => rfl, ⟨by decide, by decide⟩, ⟨by decide, by decide⟩, ?_, ?_⟩
  · intro p s q s' o h
    simp only [selfGlued] at h ⊢
    split_ifs at h with h1 h2
    · simp only [Option.some.injEq, Prod.mk.injEq] at h; obtain ⟨rfl, rfl, rfl⟩ := h; simp [h1]
    · simp only [Option.some.injEq, Prod.mk.injEq] at h; obtain ⟨rfl, rfl, rfl⟩ := h; simp [h2]
  all_goals
    simp [addLine, blockLocals, blockLoop, nextPoint, blockSteps, alreadyHandled, travel, selfGlued, travelInside, toNeighbour, Pos.par, stepSide,
      indexToNeighbour, stepToNeighbour, Side.dir, Side.par]

/-! ## Blocks over two interfaces at a regular vertex -/

/-- A vertex with four patches, one for every pair of Booleans. The patches `(α,β)` and `(!α,β)` are glued at the sides `h`, the patches `(α,β)` and `(α,!β)` at the sides `v`; going over the first interface the direction
towards the second one is kept, and the other way round. The numbers of the patches may be equal. -/
structure Vtx (T : Net) where
  p : Bool → Bool → ℕ
  h : Bool → Bool → Side
  v : Bool → Bool → Side
  oh : Bool → Bool → Bool
  ov : Bool → Bool → Bool
  perp : ∀ α β, (h α β).dir ≠ (v α β).dir
  nbh : ∀ α β, T.nb (p α β) (h α β) = some (p (!α) β, h (!α) β, oh α β)
  nbv : ∀ α β, T.nb (p α β) (v α β) = some (p α (!β), v α (!β), ov α β)
  th : ∀ α β, turn (h α β) (h (!α) β) (oh α β) (v α β) = v (!α) β
  tv : ∀ α β, turn (v α β) (v α (!β)) (ov α β) (h α β) = h α (!β)

/-- The function of the patch `(α,β)` with distances `i`, `j` to the two interfaces. -/
def At {T : Net} (V : Vtx T) (z : Pos) (α β : Bool) (i j : ℕ) : Prop := z.p = V.p α β ∧ T.In z ∧ dist T z (V.h α β) = i ∧ dist T z (V.v α β) = j

/-- The vertex with the two interfaces exchanged. -/
def Vtx.swap {T : Net} (V : Vtx T) : Vtx T :=
  ⟨fun α β => V.p β α, fun α β => V.v β α, fun α β => V.h β α, fun α β => V.ov β α, fun α β => V.oh β α, fun α β => (V.perp β α).symm, fun α β => V.nbv β α, fun α β => V.nbh β α, fun α β => V.tv β α, fun α β => V.th β α⟩

theorem at_swap {T : Net} (V : Vtx T) (z : Pos) (α β : Bool) (i j : ℕ) : At V.swap z β α j i ↔ At V z α β i j :=
  ⟨fun ⟨a, b, c, d⟩ => ⟨a, b, d, c⟩, fun ⟨a, b, c, d⟩ => ⟨a, b, d, c⟩⟩

theorem dist_unique {T : Net} {z w : Pos} (hz : T.In z) (hw : T.In w) (hp : z.p = w.p) {s t : Side} (hst : s.dir ≠ t.dir) (h1 : dist T z s = dist T w s) (h2 : dist T z t = dist T w t) : z = w := by
  obtain ⟨p, u, v⟩ := z
  obtain ⟨p', u', v'⟩ := w
  obtain ⟨a1, a2⟩ := hz
  obtain ⟨b1, b2⟩ := hw
  simp only at hp; subst hp
  simp only at a1 a2 b1 b2
  cases s <;> cases t <;> first | (exact absurd rfl hst) | (simp only [dist] at h1 h2; rw [Pos.mk.injEq]; omega)

/-- The way over an interface keeps the distance to a side across it. -/
theorem cross_dist {T : Net} (hc : T.Conform) {x : Pos} (hx : T.In x) {s : Side} {q : ℕ} {s' : Side} {o : Bool} (hnb : T.nb x.p s = some (q, s', o)) {g : Side} (hg : s.dir ≠ g.dir) :
    dist T (atSide T q s' (if o then along x s else T.parMax q (!s'.dir) - along x s)) (turn s s' o g) = dist T x g := by
  have hcf := hc _ _ _ _ _ hnb
  obtain ⟨p, u, v⟩ := x
  obtain ⟨a1, a2⟩ := hx
  simp only at a1 a2
  cases s <;> cases g <;> first | (exact absurd rfl hg) | (cases s' <;> cases o <;> simp [dist, atSide, turn, along, opp, sideOf, Side.dir, Side.par] at hcf a1 a2 ⊢ <;> omega)

private theorem move_dist {T : Net} {x : Pos} {s g : Side} (hg : s.dir ≠ g.dir) : dist T (move x s) g = dist T x g := by
  cases s <;> cases g <;> first | (exact absurd rfl hg) | rfl

/-- Steps inside a patch. -/
private theorem line_in (T : Net) (n : ℕ) (x : Pos) (φ : Side → Side) (h : Side) (hx : T.In x) (hn : n ≤ dist T x (φ h)) :
    ∃ y, line T n x φ h = some (y, φ) ∧ y.p = x.p ∧ T.In y ∧ dist T y (φ h) + n = dist T x (φ h) ∧ ∀ g, (φ h).dir ≠ g.dir → dist T y g = dist T x g := by
  induction n generalizing x with
  | zero => exact ⟨x, rfl, rfl, hx, rfl, fun _ _ => rfl⟩
  | succ n ih =>
    have h0 : 0 < dist T x (φ h) := by omega
    have hd : dist T (move x (φ h)) (φ h) = dist T x (φ h) - 1 := by
      generalize φ h = s at *
      cases s <;> simp only [dist, move] <;> omega
    have hp : (move x (φ h)).p = x.p := by generalize φ h = s; cases s <;> rfl
    obtain ⟨y, e1, e2, e3, e4, e5⟩ := ih (move x (φ h)) (in_move hx h0) (by omega)
    refine ⟨y, ?_, e2.trans hp, e3, by omega, fun g hg => by rw [e5 g hg, move_dist hg]⟩
    rw [line]
    simp only [one, h0, if_true]
    exact e1

/-- Steps towards the first interface and over it. -/
theorem walk_h {T : Net} (hc : T.Conform) (V : Vtx T) {x : Pos} {α β : Bool} {a b n : ℕ} (hx : At V x α β a b) (hn : n ≤ a + 1 + T.parMax (V.p (!α) β) (V.h (!α) β).dir)
    (φ : Side → Side) (g k : Side) (hg : φ g = V.h α β) :
    ∃ y φ', line T n x φ g = some (y, φ') ∧ (φ k = V.v α β → φ' k = V.v (if n ≤ a then α else !α) β) ∧ At V y (if n ≤ a then α else !α) β (if n ≤ a then a - n else n - 1 - a) b := by
  obtain ⟨x1, x2, x3, x4⟩ := hx
  have hpv := V.perp α β
  by_cases hna : n ≤ a
  · obtain ⟨y, e1, e2, e3, e4, e5⟩ := line_in T n x φ g x2 (by rw [hg, x3]; exact hna)
    rw [if_pos hna, if_pos hna]
    rw [hg] at e4 e5
    exact ⟨y, φ, e1, fun hk => hk, e2.trans x1, e3, by omega, by rw [e5 _ hpv, x4]⟩
  · rw [if_neg hna, if_neg hna]
    obtain ⟨y, e1, e2, e3, e4, e5⟩ := line_in T a x φ g x2 (by rw [hg, x3])
    rw [hg] at e4 e5
    have y0 : dist T y (V.h α β) = 0 := by omega
    have hnb : T.nb y.p (V.h α β) = some (V.p (!α) β, V.h (!α) β, V.oh α β) := by rw [e2, x1]; exact V.nbh α β
    set z := atSide T (V.p (!α) β) (V.h (!α) β) (if V.oh α β then along y (V.h α β) else T.parMax (V.p (!α) β) (!(V.h (!α) β).dir) - along y (V.h α β)) with hz
    have ho : one T y (V.h α β) = some (z, turn (V.h α β) (V.h (!α) β) (V.oh α β)) := by
      unfold one
      rw [if_neg (by omega), hnb]
    have hzi : T.In z := in_one hc e3 ho
    have hzp : z.p = V.p (!α) β := by rw [hz]; cases V.h (!α) β <;> rfl
    have hz0 : dist T z (V.h (!α) β) = 0 := by rw [hz]; cases V.h (!α) β <;> simp [atSide, dist]
    have hzv : dist T z (V.v (!α) β) = b := by
      rw [← V.th α β, hz, cross_dist hc e3 hnb hpv, e5 _ hpv, x4]
    have hg' : (turn (V.h α β) (V.h (!α) β) (V.oh α β) ∘ φ) g = opp (V.h (!α) β) := by simp [hg, turn_self]
    have hzo := dist_opp T z hzi (V.h (!α) β)
    rw [hz0, Nat.zero_add, hzp] at hzo
    obtain ⟨w, f1, f2, f3, f4, f5⟩ := line_in T (n - 1 - a) z (turn (V.h α β) (V.h (!α) β) (V.oh α β) ∘ φ) g hzi (by rw [hg', hzo]; omega)
    rw [hg'] at f4 f5
    refine ⟨w, turn (V.h α β) (V.h (!α) β) (V.oh α β) ∘ φ, ?_, fun hk => by simp [hk, V.th], f2.trans hzp, f3, ?_, ?_⟩
    · have e : n = a + (1 + (n - 1 - a)) := by omega
      rw [e, line_add, e1, Option.bind_some, line_add]
      have : line T 1 y φ g = some (z, turn (V.h α β) (V.h (!α) β) (V.oh α β) ∘ φ) := by
        rw [line, hg, ho]; rfl
      rw [this, Option.bind_some, f1]
    · have := dist_opp T w f3 (V.h (!α) β)
      rw [f2, hzp] at this
      omega
    · rw [f5 _ (by rw [opp_dir]; exact V.perp (!α) β), hzv]

theorem walk_v {T : Net} (hc : T.Conform) (V : Vtx T) {x : Pos} {α β : Bool} {a b n : ℕ} (hx : At V x α β a b) (hn : n ≤ b + 1 + T.parMax (V.p α (!β)) (V.v α (!β)).dir)
    (φ : Side → Side) (g k : Side) (hg : φ g = V.v α β) :
    ∃ y φ', line T n x φ g = some (y, φ') ∧ (φ k = V.h α β → φ' k = V.h α (if n ≤ b then β else !β)) ∧ At V y α (if n ≤ b then β else !β) a (if n ≤ b then b - n else n - 1 - b) := by
  obtain ⟨y, φ', h1, h2, h3⟩ := walk_h hc V.swap ((at_swap V x α β a b).2 hx) hn φ g k hg
  exact ⟨y, φ', h1, h2, (at_swap V y _ _ _ _).1 h3⟩

private theorem line_stepsTo (T : Net) (x : Pos) (φ : Side → Side) (s : Side) (n : ℕ) : line T (stepsTo s n).1.natAbs x φ (heading (stepsTo s n)) = line T n x φ s := by
  have : (stepsTo s n).1.natAbs = n := by unfold stepsTo; split_ifs <;> simp
  rw [this]
  by_cases h : n = 0
  · subst h; rfl
  · congr 1
    have h0 : 0 < n := by omega
    have h1 : ¬ (n : ℤ) < 0 := by omega
    cases s <;> simp [stepsTo, heading, Side.par, Side.dir, sideOf, h0, h1]

/-- The patches have room for the blocks. -/
def Room {T : Net} (V : Vtx T) (a a' b b' : ℕ) : Prop :=
  ∀ α β, (if α then a' else a) ≤ T.parMax (V.p α β) (V.h α β).dir ∧ (if β then b' else b) ≤ T.parMax (V.p α β) (V.v α β).dir

theorem travel_block {T : Net} (hc : T.Conform) (ht : T.NoTwist) (V : Vtx T) {x : Pos} {α β : Bool} {a a' b b' : ℕ} (hr : Room V a a' b b')
    (hx : At V x α β (if α then a' else a) (if β then b' else b)) {m n : ℕ} (hm : m ≤ a + a' + 1) (hn : n ≤ b + b' + 1) :
    ∃ y, travel T x [stepsTo (V.h α β) m, stepsTo (V.v α β) n] = some y ∧ travel T x [stepsTo (V.v α β) n, stepsTo (V.h α β) m] = some y ∧
      At V y (if m ≤ (if α then a' else a) then α else !α) (if n ≤ (if β then b' else b) then β else !β)
        (if m ≤ (if α then a' else a) then (if α then a' else a) - m else m - 1 - (if α then a' else a)) (if n ≤ (if β then b' else b) then (if β then b' else b) - n else n - 1 - (if β then b' else b)) := by
  set A := if α then a' else a with hA
  set B := if β then b' else b with hB
  have hsa : A + (if !α then a' else a) = a + a' := by cases α <;> simp [hA]; omega
  have hsb : B + (if !β then b' else b) = b + b' := by cases β <;> simp [hB]; omega
  have hm' : ∀ β, m ≤ A + 1 + T.parMax (V.p (!α) β) (V.h (!α) β).dir := fun β => by have := (hr (!α) β).1; omega
  have hn' : ∀ α, n ≤ B + 1 + T.parMax (V.p α (!β)) (V.v α (!β)).dir := fun α => by have := (hr α (!β)).2; omega
  obtain ⟨y1, φ1, h1, h2, h3⟩ := walk_h hc V hx (hm' β) id (V.h α β) (V.v α β) rfl
  obtain ⟨y2, φ2, k1, -, k3⟩ := walk_v hc V h3 (hn' _) φ1 (V.v α β) (V.h α β) (h2 rfl)
  obtain ⟨y3, φ3, l1, l2, l3⟩ := walk_v hc V hx (hn' α) id (V.v α β) (V.h α β) rfl
  obtain ⟨y4, φ4, m1, -, m3⟩ := walk_h hc V l3 (hm' _) φ3 (V.h α β) (V.v α β) (l2 rfl)
  have e : y4 = y2 := dist_unique m3.2.1 k3.2.1 (m3.1.trans k3.1.symm) (V.perp _ _) (m3.2.2.1.trans k3.2.2.1.symm) (m3.2.2.2.trans k3.2.2.2.symm)
  refine ⟨y2, ?_, ?_, k3⟩
  · rw [C31_turns_partial T hc ht x hx.2.1, walk, line_stepsTo, h1]
    simp only
    rw [walk, line_stepsTo, k1]
    rfl
  · rw [C31_turns_partial T hc ht x hx.2.1, walk, line_stepsTo, l1]
    simp only
    rw [walk, line_stepsTo, m1, ← e]
    rfl

/-- The functions of a block: at most `a` (first patches) or `a'` (second patches) away from the first interface, and `b`, `b'` from the second one. -/
def InBlock {T : Net} (V : Vtx T) (a a' b b' : ℕ) (z : Pos) : Prop := ∃ α β i j, At V z α β i j ∧ i ≤ (if α then a' else a) ∧ j ≤ if β then b' else b

private theorem mapM_map {α β : Type} (f : α → Option β) (g : α → β) (l : List α) (h : ∀ a ∈ l, f a = some (g a)) : l.mapM f = some (l.map g) := by
  induction l with
  | nil => rfl
  | cons a l ih =>
    rw [List.mapM_cons, h a List.mem_cons_self, ih fun b hb => h b (List.mem_cons_of_mem _ hb)]
    rfl

theorem mem_grid {l1 l2 : ℕ} {pt : List ℕ} : pt ∈ visited [l1, l2] (gridSize [l1, l2]) ([l1, l2].map fun _ => 0) ↔ ∃ m n, pt = [m, n] ∧ m ≤ l1 ∧ n ≤ l2 := by
  rw [(C40_points [l1, l2]).2]
  constructor
  · intro h
    rcases h with _ | ⟨h1, _ | ⟨h2, h3⟩⟩
    cases h3
    exact ⟨_, _, rfl, h1, h2⟩
  · rintro ⟨m, n, rfl, h1, h2⟩
    exact .cons h1 (.cons h2 .nil)

/-- The list of local functions, for steps `s`, `t` that lead to the points `y m n`. -/
private theorem block_list {T : Net} (x : Pos) (s t : Side) (l1 l2 : ℕ) (y : ℕ → ℕ → Pos) (hy : ∀ m n, m ≤ l1 → n ≤ l2 → travel T x [stepsTo s m, stepsTo t n] = some (y m n)) :
    ∃ l, blockLocals T x [s, t] [l1, l2] = some l ∧ (∀ z, z ∈ l ↔ ∃ m n, m ≤ l1 ∧ n ≤ l2 ∧ z = y m n) ∧
      ((∀ m n m' n', m ≤ l1 → n ≤ l2 → m' ≤ l1 → n' ≤ l2 → y m n = y m' n' → m = m' ∧ n = n') → l.Nodup) := by
  refine ⟨(visited [l1, l2] (gridSize [l1, l2]) ([l1, l2].map fun _ => 0)).map fun q => y (q.getD 0 0) (q.getD 1 0), ?_, ?_, ?_⟩
  · rw [C40_locals]
    apply mapM_map
    intro q hq
    obtain ⟨m, n, rfl, h1, h2⟩ := mem_grid.1 hq
    exact hy m n h1 h2
  · intro z
    rw [List.mem_map]
    constructor
    · rintro ⟨q, hq, rfl⟩
      obtain ⟨m, n, rfl, h1, h2⟩ := mem_grid.1 hq
      exact ⟨m, n, h1, h2, rfl⟩
    · rintro ⟨m, n, h1, h2, rfl⟩
      exact ⟨[m, n], mem_grid.2 ⟨m, n, rfl, h1, h2⟩, rfl⟩
  · intro hi
    refine List.Nodup.map_on ?_ (C40_points [l1, l2]).1
    intro q hq q' hq' e
    obtain ⟨m, n, rfl, h1, h2⟩ := mem_grid.1 hq
    obtain ⟨m', n', rfl, h3, h4⟩ := mem_grid.1 hq'
    obtain ⟨rfl, rfl⟩ := hi m n m' n' h1 h2 h3 h4 e
    rfl

/-- C40: around a vertex with four patches, the four functions that are opposite to each other (distances `a` and `a'` to the first interface, `b` and `b'` to the second one) give the same set of local functions: all with at most these distances. If the
four patches are different, each is taken once. The order of the two sides plays no role.

The full claim drops the hypothesis `NoTwist`; it is false, see `C40_block_violated`. -/
theorem C40_block_partial {T : Net} (hc : T.Conform) (ht : T.NoTwist) (V : Vtx T) {a a' b b' : ℕ} (hr : Room V a a' b b') {α β : Bool} {x : Pos}
    (hx : At V x α β (if α then a' else a) (if β then b' else b)) :
    ∃ l l', blockLocals T x [V.h α β, V.v α β] [a + a' + 1, b + b' + 1] = some l ∧ blockLocals T x [V.v α β, V.h α β] [b + b' + 1, a + a' + 1] = some l' ∧
      (∀ z, z ∈ l ↔ InBlock V a a' b b' z) ∧ (∀ z, z ∈ l' ↔ InBlock V a a' b b' z) ∧
      ((∀ α β α' β', V.p α β = V.p α' β' → α = α' ∧ β = β') → l.Nodup ∧ l'.Nodup) := by
  set A := if α then a' else a with hA
  set B := if β then b' else b with hB
  have hsa : A + (if !α then a' else a) = a + a' := by cases α <;> simp [hA]; omega
  have hsb : B + (if !β then b' else b) = b + b' := by cases β <;> simp [hB]; omega
  have hex : ∀ m n, ∃ y, m ≤ a + a' + 1 → n ≤ b + b' + 1 → travel T x [stepsTo (V.h α β) m, stepsTo (V.v α β) n] = some y ∧ travel T x [stepsTo (V.v α β) n, stepsTo (V.h α β) m] = some y ∧
      At V y (if m ≤ A then α else !α) (if n ≤ B then β else !β) (if m ≤ A then A - m else m - 1 - A) (if n ≤ B then B - n else n - 1 - B) := by
    intro m n
    by_cases h : m ≤ a + a' + 1 ∧ n ≤ b + b' + 1
    · obtain ⟨y, h1, h2, h3⟩ := travel_block hc ht V hr hx h.1 h.2
      exact ⟨y, fun _ _ => ⟨h1, h2, h3⟩⟩
    · exact ⟨x, fun h1 h2 => absurd ⟨h1, h2⟩ h⟩
  choose y hy using hex
  have hmem : ∀ z, (∃ m n, m ≤ a + a' + 1 ∧ n ≤ b + b' + 1 ∧ z = y m n) ↔ InBlock V a a' b b' z := by
    intro z
    constructor
    · rintro ⟨m, n, hm, hn, rfl⟩
      refine ⟨_, _, _, _, (hy m n hm hn).2.2, ?_, ?_⟩
      · by_cases h : m ≤ A
        · simp only [if_pos h]; omega
        · simp only [if_neg h]; omega
      · by_cases h : n ≤ B
        · simp only [if_pos h]; omega
        · simp only [if_neg h]; omega
    · rintro ⟨α', β', i, j, hz, hi, hj⟩
      have e1 : ∃ m, m ≤ a + a' + 1 ∧ (if m ≤ A then α else !α) = α' ∧ (if m ≤ A then A - m else m - 1 - A) = i := by
        by_cases h : α' = α
        · subst h
          exact ⟨A - i, by omega, by rw [if_pos (by omega)], by rw [if_pos (by omega)]; omega⟩
        · have h' : α' = !α := by cases α <;> cases α' <;> simp_all
          subst h'
          exact ⟨A + 1 + i, by omega, by rw [if_neg (by omega)], by rw [if_neg (by omega)]; omega⟩
      have e2 : ∃ n, n ≤ b + b' + 1 ∧ (if n ≤ B then β else !β) = β' ∧ (if n ≤ B then B - n else n - 1 - B) = j := by
        by_cases h : β' = β
        · subst h
          exact ⟨B - j, by omega, by rw [if_pos (by omega)], by rw [if_pos (by omega)]; omega⟩
        · have h' : β' = !β := by cases β <;> cases β' <;> simp_all
          subst h'
          exact ⟨B + 1 + j, by omega, by rw [if_neg (by omega)], by rw [if_neg (by omega)]; omega⟩
      obtain ⟨m, m1, m2, m3⟩ := e1
      obtain ⟨n, n1, n2, n3⟩ := e2
      have hy' := (hy m n m1 n1).2.2
      rw [m2, m3, n2, n3] at hy'
      exact ⟨m, n, m1, n1, dist_unique hz.2.1 hy'.2.1 (hz.1.trans hy'.1.symm) (V.perp _ _) (hz.2.2.1.trans hy'.2.2.1.symm) (hz.2.2.2.trans hy'.2.2.2.symm)⟩
  have hinj : (∀ α β α' β', V.p α β = V.p α' β' → α = α' ∧ β = β') → ∀ m n m' n', m ≤ a + a' + 1 → n ≤ b + b' + 1 → m' ≤ a + a' + 1 → n' ≤ b + b' + 1 → y m n = y m' n' → m = m' ∧ n = n' := by
    intro hp m n m' n' h1 h2 h3 h4 e
    have q1 := (hy m n h1 h2).2.2
    have q2 := (hy m' n' h3 h4).2.2
    rw [← e] at q2
    obtain ⟨p1, p2⟩ := hp _ _ _ _ (q1.1.symm.trans q2.1)
    rw [← p1, ← p2] at q2
    have r1 := q1.2.2.1.symm.trans q2.2.2.1
    have r2 := q1.2.2.2.symm.trans q2.2.2.2
    have s1 : (m ≤ A ↔ m' ≤ A) := by
      by_cases c : m ≤ A <;> by_cases c' : m' ≤ A <;> simp only [c, c', if_true, if_false] at p1 ⊢ <;> cases α <;> simp at p1
    have s2 : (n ≤ B ↔ n' ≤ B) := by
      by_cases c : n ≤ B <;> by_cases c' : n' ≤ B <;> simp only [c, c', if_true, if_false] at p2 ⊢ <;> cases β <;> simp at p2
    constructor
    · by_cases c : m ≤ A
      · rw [if_pos c, if_pos (s1.1 c)] at r1; have := s1.1 c; omega
      · rw [if_neg c, if_neg fun c' => c (s1.2 c')] at r1; have : ¬ m' ≤ A := fun c' => c (s1.2 c'); omega
    · by_cases c : n ≤ B
      · rw [if_pos c, if_pos (s2.1 c)] at r2; have := s2.1 c; omega
      · rw [if_neg c, if_neg fun c' => c (s2.2 c')] at r2; have : ¬ n' ≤ B := fun c' => c (s2.2 c'); omega
  obtain ⟨l, h1, h2, h3⟩ := block_list x (V.h α β) (V.v α β) (a + a' + 1) (b + b' + 1) y fun m n hm hn => (hy m n hm hn).1
  obtain ⟨l', k1, k2, k3⟩ := block_list x (V.v α β) (V.h α β) (b + b' + 1) (a + a' + 1) (fun n m => y m n) fun n m hn hm => (hy m n hm hn).2.1
  refine ⟨l, l', h1, k1, fun z => (h2 z).trans (hmem z), fun z => (k2 z).trans ?_, fun hp => ⟨h3 (hinj hp), k3 ?_⟩⟩
  · rw [← hmem z]
    constructor
    · rintro ⟨n, m, q1, q2, q3⟩; exact ⟨m, n, q2, q1, q3⟩
    · rintro ⟨m, n, q1, q2, q3⟩; exact ⟨n, m, q2, q1, q3⟩
  · intro n m n' m' q1 q2 q3 q4 e
    exact (hinj hp m n m' n' q2 q1 q4 q3 e).symm

theorem min_four (p : Bool → Bool → ℕ) : ∃ α₀ β₀, ∀ α β, p α₀ β₀ ≤ p α β := by
  have h2 : ∀ q : Bool → ℕ, ∃ β₀, ∀ β, q β₀ ≤ q β := by
    intro q
    rcases le_total (q false) (q true) with h | h
    · exact ⟨false, fun β => by cases β; exacts [le_refl _, h]⟩
    · exact ⟨true, fun β => by cases β; exacts [h, le_refl _]⟩
  choose f hf using fun α => h2 (p α)
  obtain ⟨α₀, h⟩ := h2 fun α => p α (f α)
  exact ⟨α₀, f α₀, fun α β => (h α).trans (hf α β)⟩

/-- C40: if the four patches around the vertex are different, exactly one of the four calls from opposite functions adds a global function, and it combines all local functions with at most these distances, each once; the order of the two sides plays no
role.

The full claim drops the hypothesis `NoTwist`; it is false, see `C40_block_violated`. -/
theorem C40_block_once_partial {T : Net} (hc : T.Conform) (ht : T.NoTwist) (V : Vtx T) (hp : ∀ α β α' β', V.p α β = V.p α' β' → α = α' ∧ β = β') {a a' b b' : ℕ} (hr : Room V a a' b b') (x : Bool → Bool → Pos)
    (hx : ∀ α β, At V (x α β) α β (if α then a' else a) (if β then b' else b)) :
    ∃ α₀ β₀, ∀ α β, ∃ l l', (∀ z, z ∈ l ↔ InBlock V a a' b b' z) ∧ l.Nodup ∧ (∀ z, z ∈ l' ↔ InBlock V a a' b b' z) ∧ l'.Nodup ∧
      addBlock T (x α β) (V.h α β) (V.v α β) (a + a' + 1) (b + b' + 1) = some (if α = α₀ ∧ β = β₀ then some l else none) ∧
      addBlock T (x α β) (V.v α β) (V.h α β) (b + b' + 1) (a + a' + 1) = some (if α = α₀ ∧ β = β₀ then some l' else none) := by
  obtain ⟨α₀, β₀, hmin⟩ := min_four V.p
  have hin : InBlock V a a' b b' (x α₀ β₀) := ⟨_, _, _, _, hx α₀ β₀, le_refl _, le_refl _⟩
  refine ⟨α₀, β₀, fun α β => ?_⟩
  obtain ⟨l, l', h1, h2, h3, h4, h5⟩ := C40_block_partial hc ht V hr (hx α β)
  have key : ∀ l : List Pos, (∀ z, z ∈ l ↔ InBlock V a a' b b' z) → (if alreadyHandled l (x α β).p = true then none else some l) = if α = α₀ ∧ β = β₀ then some l else none := by
    intro l hl
    by_cases he : α = α₀ ∧ β = β₀
    · rw [if_pos he, if_neg]
      intro hh
      obtain ⟨z, z1, z2⟩ := List.any_eq_true.1 hh
      obtain ⟨α', β', i, j, hz, -⟩ := (hl z).1 z1
      have z3 := of_decide_eq_true z2
      rw [hz.1, (hx α β).1, he.1, he.2] at z3
      exact absurd (hmin α' β') (by omega)
    · rw [if_neg he, if_pos]
      refine List.any_eq_true.2 ⟨x α₀ β₀, (hl _).2 hin, decide_eq_true ?_⟩
      rw [(hx α₀ β₀).1, (hx α β).1]
      refine lt_of_le_of_ne (hmin α β) fun e => he ?_
      obtain ⟨q1, q2⟩ := hp _ _ _ _ e
      exact ⟨q1.symm, q2.symm⟩
  refine ⟨l, l', h3, (h5 hp).1, h4, (h5 hp).2, ?_, ?_⟩
  · rw [addBlock, h1, Option.map_some, key l h3]
  · rw [addBlock, h2, Option.map_some, key l' h4]

/-- Four patches of 3 x 3 functions around a vertex; the first (0) below left, (1) below right, turned by 90 degrees, (2) above left, (3) above right. -/
def fourPatches : Net :=
  ⟨fun _ _ => 2, fun p s => if p = 0 ∧ s = .east then some (1, .north, true)
    else if p = 1 ∧ s = .north then some (0, .east, true)
    else if p = 0 ∧ s = .north then some (2, .south, true)
    else if p = 2 ∧ s = .south then some (0, .north, true)
    else if p = 1 ∧ s = .east then some (3, .south, false)
    else if p = 3 ∧ s = .south then some (1, .east, false)
    else if p = 2 ∧ s = .east then some (3, .west, true)
    else if p = 3 ∧ s = .west then some (2, .east, true)
    else none⟩

/-- Its vertex. -/
def fourVtx : Vtx fourPatches where
  p α β := (if α then 1 else 0) + if β then 2 else 0
  h α β := if α then (if β then .west else .north) else .east
  v α β := if β then .south else (if α then .east else .north)
  oh _ _ := true
  ov α _ := !α
  perp := by decide
  nbh := by decide
  nbv := by decide
  th := by decide
  tv := by decide

/-- The hypotheses of the two theorems hold for four patches, of which one is turned, with distances 1, 0 to the first interface and 0, 1 to the second one: the block has 3 x 3 functions. -/
example : fourPatches.Conform ∧ fourPatches.NoTwist ∧ (∀ α β α' β', fourVtx.p α β = fourVtx.p α' β' → α = α' ∧ β = β') ∧ Room fourVtx 1 0 0 1 ∧
    At fourVtx ⟨0, 1, 2⟩ false false 1 0 ∧ At fourVtx ⟨1, 2, 2⟩ true false 0 0 ∧ At fourVtx ⟨2, 1, 1⟩ false true 1 1 ∧ At fourVtx ⟨3, 0, 1⟩ true true 0 1 ∧
    addBlock fourPatches ⟨0, 1, 2⟩ .east .north 2 2 = some (some [⟨0, 1, 2⟩, ⟨0, 2, 2⟩, ⟨1, 2, 2⟩, ⟨2, 1, 0⟩, ⟨2, 2, 0⟩, ⟨3, 0, 0⟩, ⟨2, 1, 1⟩, ⟨2, 2, 1⟩, ⟨3, 0, 1⟩]) ∧
    addBlock fourPatches ⟨1, 2, 2⟩ .east .north 2 2 = some none := by
  refine ⟨fun _ _ _ _ _ _ => rfl, ?_, by decide, by unfold Room; decide, ?_, ?_, ?_, ?_, ?_, ?_⟩
  · intro p s q o h
    rcases p with _ | _ | _ | _ | p <;> cases s <;> simp [fourPatches, opp] at h
    all_goals exact h.2
  all_goals first
    | exact ⟨rfl, ⟨by decide, by decide⟩, by decide, by decide⟩
    | simp [addBlock, blockLocals, blockLoop, nextPoint, blockSteps, alreadyHandled, travel, fourPatches, travelInside, toNeighbour, Pos.par, stepSide,
      indexToNeighbour, stepToNeighbour, Side.dir, Side.par]

/-- The same four patches, not turned, but the two on the right are given upside down. -/
def flipped : Net :=
  ⟨fun _ _ => 2, fun p s => if p = 0 ∧ s = .east then some (1, .west, false)
    else if p = 1 ∧ s = .west then some (0, .east, false)
    else if p = 0 ∧ s = .north then some (2, .south, true)
    else if p = 2 ∧ s = .south then some (0, .north, true)
    else if p = 1 ∧ s = .south then some (3, .north, true)
    else if p = 3 ∧ s = .north then some (1, .south, true)
    else if p = 2 ∧ s = .east then some (3, .west, false)
    else if p = 3 ∧ s = .west then some (2, .east, false)
    else none⟩

/-- Its vertex. -/
def flippedVtx : Vtx flipped where
  p α β := (if α then 1 else 0) + if β then 2 else 0
  h α _ := if α then .west else .east
  v α β := if α then (if β then .north else .south) else (if β then .south else .north)
  oh _ _ := false
  ov _ _ := true
  perp := by decide
  nbh := by decide
  nbv := by decide
  th := by decide
  tv := by decide

/-- C40 is violated by the unchanged code for patches that are given upside down relative to each other: the function at the vertex should combine the four functions there, but the code takes two functions of the second patch
and none of the fourth one. -/
theorem C40_block_violated : flipped.Conform ∧ Room flippedVtx 0 0 0 0 ∧ At flippedVtx ⟨0, 2, 2⟩ false false 0 0 ∧ InBlock flippedVtx 0 0 0 0 ⟨3, 0, 2⟩ ∧ ¬ InBlock flippedVtx 0 0 0 0 ⟨1, 0, 1⟩ ∧
    addBlock flipped ⟨0, 2, 2⟩ .east .north 1 1 = some (some [⟨0, 2, 2⟩, ⟨1, 0, 0⟩, ⟨2, 2, 0⟩, ⟨1, 0, 1⟩]) := by
  refine ⟨fun _ _ _ _ _ _ => rfl, by unfold Room; decide, ⟨rfl, ⟨by decide, by decide⟩, by decide, by decide⟩, ⟨true, true, 0, 0, ⟨rfl, ⟨by decide, by decide⟩, by decide, by decide⟩, by decide, by decide⟩, ?_, by
    simp [addBlock, blockLocals, blockLoop, nextPoint, blockSteps, alreadyHandled, travel, flipped, travelInside, toNeighbour, Pos.par, stepSide,
      indexToNeighbour, stepToNeighbour, Side.dir, Side.par]⟩
  rintro ⟨α, β, i, j, ⟨h1, -, h2, h3⟩, h4, h5⟩
  cases α <;> cases β <;> simp [flippedVtx] at h1
  simp [flippedVtx, dist] at h3 h5
  omega

/-- A tube of 8 x 8 functions, its east side glued to its west side. -/
def tubeNet : Net :=
  ⟨fun _ _ => 7, fun p s => if p = 0 ∧ s = .east then some (0, .west, true) else if p = 0 ∧ s = .west then some (0, .east, true) else none⟩

/-- C40 is violated for a patch glued to itself at opposite sides too, whenever both of the two functions are visited: both calls add the same function. (For the functions that are visited see `C32_periodic` and `C32_periodic_violated`.) -/
theorem C40_tube_violated : tubeNet.Sym ∧ tubeNet.Conform ∧ addLine tubeNet ⟨0, 0, 1⟩ .west 1 = some (some [⟨0, 0, 1⟩, ⟨0, 7, 1⟩]) ∧ addLine tubeNet ⟨0, 7, 1⟩ .east 1 = some (some [⟨0, 7, 1⟩, ⟨0, 0, 1⟩]) := by
  refine ⟨?_, fun _ _ _ _ _ _ => rfl, by
    simp [addLine, blockLocals, blockLoop, nextPoint, blockSteps, alreadyHandled, travel, tubeNet, travelInside, toNeighbour, Pos.par, stepSide,
      indexToNeighbour, stepToNeighbour, Side.dir, Side.par], by
    simp [addLine, blockLocals, blockLoop, nextPoint, blockSteps, alreadyHandled, travel, tubeNet, travelInside, toNeighbour, Pos.par, stepSide,
      indexToNeighbour, stepToNeighbour, Side.dir, Side.par]⟩
  intro p s q s' o h
  simp only [tubeNet] at h ⊢
  split_ifs at h with h1 h2
  · simp only [Option.some.injEq, Prod.mk.injEq] at h; obtain ⟨rfl, rfl, rfl⟩ := h; simp [h1]
  · simp only [Option.some.injEq, Prod.mk.injEq] at h; obtain ⟨rfl, rfl, rfl⟩ := h; simp [h2]

end Verif.Walk
