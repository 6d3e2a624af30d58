import Verif.Model.Regions
import Verif.Props.MPBES
import Mathlib.Data.List.Count
import Mathlib.Tactic.Common
import Mathlib.Tactic.SplitIfs
import Mathlib.Tactic.NormNum

/-!
# C32: every function of a patch is assigned exactly once; C41: every weight that is read exists
-/

set_option autoImplicit false
set_option linter.unusedVariables false
set_option linter.unusedSimpArgs false
set_option linter.unnecessarySeqFocus false

namespace Verif.Regions
open Verif

/-- How often a call is made for the function `(i,j)`. -/
def times (l : List ((ℕ × ℕ) × Call)) (i j : ℕ) : ℕ := l.countP fun c => decide (c.1 = (i, j))

/-! ## Counting calls of a loop -/

private theorem times_append (l m : List ((ℕ × ℕ) × Call)) (i j : ℕ) : times (l ++ m) i j = times l i j + times m i j :=
  List.countP_append

private theorem count_filterMap (n i0 : ℕ) (g : ℕ → Option Call) (i j j' : ℕ) :
    times ((List.range' i0 n).filterMap fun k => (g k).map fun c => ((k, j'), c)) i j
      = if j' = j ∧ i0 ≤ i ∧ i < i0 + n ∧ (g i).isSome then 1 else 0 := by
  induction n generalizing i0 with
  | zero => simp [times]; omega
  | succ n ih =>
    rw [List.range'_succ, List.filterMap_cons]
    rcases hg : g i0 with _ | c
    · simp only [Option.map_none, ih]
      congr 1
      by_cases h : i = i0
      · subst h; simp [hg]
      · simp only [eq_iff_iff]; constructor <;> rintro ⟨h1, h2, h3, h4⟩ <;> exact ⟨h1, by omega, by omega, h4⟩
    · simp only [Option.map_some]
      have : times (((i0, j'), c) :: List.filterMap (fun k => (g k).map fun c => ((k, j'), c)) (List.range' (i0 + 1) n)) i j
          = times (List.filterMap (fun k => (g k).map fun c => ((k, j'), c)) (List.range' (i0 + 1) n)) i j
            + if i0 = i ∧ j' = j then 1 else 0 := by
        unfold times
        rw [List.countP_cons]
        simp
      rw [this, ih]
      by_cases h : i0 = i
      · subst h
        by_cases hj : j' = j <;> simp [hj, hg]
      · simp only [h, false_and, if_false, Nat.add_zero]
        congr 1
        simp only [eq_iff_iff]; constructor <;> rintro ⟨h1, h2, h3, h4⟩ <;> exact ⟨h1, by omega, by omega, h4⟩

private theorem times_loop (P : Patch) (j0 j1 i0 i1 : ℕ) (f : ℕ → ℕ → Option Call) (i j : ℕ) :
    times (loop P j0 j1 i0 i1 f) i j = if P.act i j ∧ j0 ≤ j ∧ j < j1 ∧ i0 ≤ i ∧ i < i1 ∧ (f i j).isSome then 1 else 0 := by
  have key : ∀ (m j0 : ℕ), times ((List.range' j0 m).flatMap fun j =>
      (List.range' i0 (i1 - i0)).filterMap fun i => if P.act i j then (f i j).map fun c => ((i, j), c) else none) i j
      = if P.act i j ∧ j0 ≤ j ∧ j < j0 + m ∧ i0 ≤ i ∧ i < i1 ∧ (f i j).isSome then 1 else 0 := by
    intro m
    induction m with
    | zero => intro j0; simp [times]; omega
    | succ m ih =>
      intro j0
      rw [List.range'_succ, List.flatMap_cons, times_append, ih]
      have h1 := count_filterMap (i1 - i0) i0 (fun k => if P.act k j0 then f k j0 else none) i j j0
      have h2 : (fun k => (if P.act k j0 then f k j0 else none).map fun c => ((k, j0), c))
          = fun i => if P.act i j0 then (f i j0).map fun c => ((i, j0), c) else none := by
        funext k; split_ifs <;> rfl
      rw [h2] at h1
      rw [h1]
      by_cases hj : j0 = j
      · subst hj
        by_cases ha : P.act i j0
        · by_cases hf : (f i j0).isSome <;> by_cases hi : i0 ≤ i ∧ i < i1 <;> simp [ha, hf] <;> split_ifs <;> omega
        · simp [ha]
      · by_cases ha : P.act i j
        · by_cases hf : (f i j).isSome <;> simp [ha, hf, hj] <;> split_ifs <;> omega
        · simp [ha, hj]
  unfold loop
  rw [key]
  congr 1
  simp only [eq_iff_iff]
  constructor <;> rintro ⟨h1, h2, h3, h4⟩ <;> exact ⟨h1, h2, by omega, h4⟩

private theorem exactly_one (p1 p2 p3 p4 p5 p6 p7 p8 p9 q : Prop) [Decidable p1] [Decidable p2] [Decidable p3] [Decidable p4] [Decidable p5] [Decidable p6] [Decidable p7] [Decidable p8] [Decidable p9] [Decidable q]
    (h12 : ¬ (p1 ∧ p2)) (h13 : ¬ (p1 ∧ p3)) (h14 : ¬ (p1 ∧ p4)) (h15 : ¬ (p1 ∧ p5)) (h16 : ¬ (p1 ∧ p6)) (h17 : ¬ (p1 ∧ p7)) (h18 : ¬ (p1 ∧ p8)) (h19 : ¬ (p1 ∧ p9))
    (h23 : ¬ (p2 ∧ p3)) (h24 : ¬ (p2 ∧ p4)) (h25 : ¬ (p2 ∧ p5)) (h26 : ¬ (p2 ∧ p6)) (h27 : ¬ (p2 ∧ p7)) (h28 : ¬ (p2 ∧ p8)) (h29 : ¬ (p2 ∧ p9))
    (h34 : ¬ (p3 ∧ p4)) (h35 : ¬ (p3 ∧ p5)) (h36 : ¬ (p3 ∧ p6)) (h37 : ¬ (p3 ∧ p7)) (h38 : ¬ (p3 ∧ p8)) (h39 : ¬ (p3 ∧ p9))
    (h45 : ¬ (p4 ∧ p5)) (h46 : ¬ (p4 ∧ p6)) (h47 : ¬ (p4 ∧ p7)) (h48 : ¬ (p4 ∧ p8)) (h49 : ¬ (p4 ∧ p9))
    (h56 : ¬ (p5 ∧ p6)) (h57 : ¬ (p5 ∧ p7)) (h58 : ¬ (p5 ∧ p8)) (h59 : ¬ (p5 ∧ p9))
    (h67 : ¬ (p6 ∧ p7)) (h68 : ¬ (p6 ∧ p8)) (h69 : ¬ (p6 ∧ p9))
    (h78 : ¬ (p7 ∧ p8)) (h79 : ¬ (p7 ∧ p9))
    (h89 : ¬ (p8 ∧ p9))
    (i1 : p1 → q) (i2 : p2 → q) (i3 : p3 → q) (i4 : p4 → q) (i5 : p5 → q) (i6 : p6 → q) (i7 : p7 → q) (i8 : p8 → q) (i9 : p9 → q)
    (hq : q → p1 ∨ p2 ∨ p3 ∨ p4 ∨ p5 ∨ p6 ∨ p7 ∨ p8 ∨ p9) :
    (if p1 then 1 else 0) + (if p2 then 1 else 0) + (if p3 then 1 else 0) + (if p4 then 1 else 0) + (if p5 then 1 else 0) + (if p6 then 1 else 0) + (if p7 then 1 else 0) + (if p8 then 1 else 0) + (if p9 then 1 else 0) = if q then 1 else 0 := by
  by_cases c : q
  · rcases hq c with h | h | h | h | h | h | h | h | h <;> simp_all
  · simp_all

private theorem isSome_ite' {α : Type} (c : Prop) [Decidable c] (x : Option α) : (if c then none else x).isSome = true ↔ ¬ c ∧ x.isSome = true := by
  split_ifs <;> simp_all

/-! ## C32 -/

/-- The condition on one corner: `hu`, `hv` say whether the side in `u` direction (south or north) and the side in `v` direction (west or east) are
interfaces, `lu`, `lv` are the distances along them. At two interfaces the distances are at least the smoothing degrees; at one interface
the corner region has exactly the width of the smoothing degree, or is empty; without interfaces it is not larger than the degrees. -/
def CornerOk (hu hv : Bool) (du dv lu lv : ℕ) : Prop :=
  match hu, hv with
  | true, true => du ≤ lu ∧ dv ≤ lv
  | true, false => lu = 0 ∨ lv = dv
  | false, true => lv = 0 ∨ lu = du
  | false, false => lu = 0 ∨ lv = 0 ∨ (lu ≤ du ∧ lv ≤ dv)

/-- The conditions on the corrected distances. -/
structure Ok (P : Patch) : Prop where
  du_pos : 0 < P.du
  dv_pos : 0 < P.dv
  nu_ge : 2 * P.du ≤ P.nu
  nv_ge : 2 * P.dv ≤ P.nv
  sw : CornerOk (P.iface .south) (P.iface .west) P.du P.dv P.swu P.swv
  se : CornerOk (P.iface .south) (P.iface .east) P.du P.dv P.seu P.sev
  nw : CornerOk (P.iface .north) (P.iface .west) P.du P.dv P.nwu P.nwv
  ne : CornerOk (P.iface .north) (P.iface .east) P.du P.dv P.neu P.nev

section
variable {nu nv du dv swu swv seu sev nwu nwv neu nev i j : ℕ} {S N E W : Bool}

private theorem d12  :
    ¬ ((j < swv ∧ i < swu ∧ ¬ (i ≥ du ∧ j ≥ dv)) ∧
      (j < (if S then dv else 0) ∧ swu ≤ i ∧ i < nu - seu)) := by
  omega

private theorem d13 (h1 : swu + seu ≤ nu) :
    ¬ ((j < swv ∧ i < swu ∧ ¬ (i ≥ du ∧ j ≥ dv)) ∧
      (j < sev ∧ nu - seu ≤ i ∧ i < nu ∧ ¬ (i < nu - du ∧ j ≥ dv))) := by
  omega

private theorem d14  :
    ¬ ((j < swv ∧ i < swu ∧ ¬ (i ≥ du ∧ j ≥ dv)) ∧
      (swv ≤ j ∧ j < nv - nwv ∧ i < (if W then du else 0))) := by
  omega

private theorem d15 (hsw : CornerOk S W du dv swu swv) (hnu : 2 * du ≤ nu) (hnv : 2 * dv ≤ nv) (hdu : 0 < du) (hdv : 0 < dv) :
    ¬ ((j < swv ∧ i < swu ∧ ¬ (i ≥ du ∧ j ≥ dv)) ∧
      ((if S then dv else 0) ≤ j ∧ j < nv - (if N then dv else 0) ∧ (if W then du else 0) ≤ i ∧ i < nu - (if E then du else 0) ∧
      ¬ (j < swv ∧ j < dv ∧ i < swu ∧ i < du) ∧ ¬ (j < sev ∧ j < dv ∧ i ≥ nu - seu ∧ i ≥ nu - du) ∧
      ¬ (j ≥ nv - nev ∧ j ≥ nv - dv ∧ i ≥ nu - neu ∧ i ≥ nu - du) ∧ ¬ (j ≥ nv - nwv ∧ j ≥ nv - dv ∧ i < nwu ∧ i < du))) := by
  cases S <;> cases W <;>
    simp only [CornerOk, if_true, if_false, Bool.false_eq_true] at hsw ⊢ <;> omega

private theorem d16 (hsw : CornerOk S W du dv swu swv) (hse : CornerOk S E du dv seu sev) (hnu : 2 * du ≤ nu) (hnv : 2 * dv ≤ nv) (h1 : swu + seu ≤ nu) :
    ¬ ((j < swv ∧ i < swu ∧ ¬ (i ≥ du ∧ j ≥ dv)) ∧
      (sev ≤ j ∧ j < nv - nev ∧ nu - (if E then du else 0) ≤ i ∧ i < nu)) := by
  cases S <;> cases E <;> cases W <;>
    simp only [CornerOk, if_true, if_false, Bool.false_eq_true] at hsw hse ⊢ <;> omega

private theorem d17 (h3 : swv + nwv ≤ nv) :
    ¬ ((j < swv ∧ i < swu ∧ ¬ (i ≥ du ∧ j ≥ dv)) ∧
      (nv - nwv ≤ j ∧ j < nv ∧ i < nwu ∧ ¬ (i ≥ du ∧ j < nv - dv))) := by
  omega

private theorem d18 (hsw : CornerOk S W du dv swu swv) (hnw : CornerOk N W du dv nwu nwv) (hnu : 2 * du ≤ nu) (hnv : 2 * dv ≤ nv) (h3 : swv + nwv ≤ nv) :
    ¬ ((j < swv ∧ i < swu ∧ ¬ (i ≥ du ∧ j ≥ dv)) ∧
      (nv - (if N then dv else 0) ≤ j ∧ j < nv ∧ nwu ≤ i ∧ i < nu - neu)) := by
  cases S <;> cases N <;> cases W <;>
    simp only [CornerOk, if_true, if_false, Bool.false_eq_true] at hsw hnw ⊢ <;> omega

private theorem d19 (hsw : CornerOk S W du dv swu swv) (hse : CornerOk S E du dv seu sev) (hnw : CornerOk N W du dv nwu nwv) (hne : CornerOk N E du dv neu nev) (hnu : 2 * du ≤ nu) (hnv : 2 * dv ≤ nv) (h1 : swu + seu ≤ nu) (h2 : nwu + neu ≤ nu) (h3 : swv + nwv ≤ nv) (h4 : sev + nev ≤ nv) :
    ¬ ((j < swv ∧ i < swu ∧ ¬ (i ≥ du ∧ j ≥ dv)) ∧
      (nv - nev ≤ j ∧ j < nv ∧ nu - neu ≤ i ∧ i < nu ∧ ¬ (i < nu - du ∧ j < nv - dv))) := by
  cases S <;> cases N <;> cases E <;> cases W <;>
    simp only [CornerOk, if_true, if_false, Bool.false_eq_true] at hsw hse hnw hne ⊢ <;> omega

private theorem d23  :
    ¬ ((j < (if S then dv else 0) ∧ swu ≤ i ∧ i < nu - seu) ∧
      (j < sev ∧ nu - seu ≤ i ∧ i < nu ∧ ¬ (i < nu - du ∧ j ≥ dv))) := by
  omega

private theorem d24 (hsw : CornerOk S W du dv swu swv) :
    ¬ ((j < (if S then dv else 0) ∧ swu ≤ i ∧ i < nu - seu) ∧
      (swv ≤ j ∧ j < nv - nwv ∧ i < (if W then du else 0))) := by
  cases S <;> cases W <;>
    simp only [CornerOk, if_true, if_false, Bool.false_eq_true] at hsw ⊢ <;> omega

private theorem d25  :
    ¬ ((j < (if S then dv else 0) ∧ swu ≤ i ∧ i < nu - seu) ∧
      ((if S then dv else 0) ≤ j ∧ j < nv - (if N then dv else 0) ∧ (if W then du else 0) ≤ i ∧ i < nu - (if E then du else 0) ∧
      ¬ (j < swv ∧ j < dv ∧ i < swu ∧ i < du) ∧ ¬ (j < sev ∧ j < dv ∧ i ≥ nu - seu ∧ i ≥ nu - du) ∧
      ¬ (j ≥ nv - nev ∧ j ≥ nv - dv ∧ i ≥ nu - neu ∧ i ≥ nu - du) ∧ ¬ (j ≥ nv - nwv ∧ j ≥ nv - dv ∧ i < nwu ∧ i < du))) := by
  omega

private theorem d26 (hse : CornerOk S E du dv seu sev) (hnu : 2 * du ≤ nu) (h1 : swu + seu ≤ nu) :
    ¬ ((j < (if S then dv else 0) ∧ swu ≤ i ∧ i < nu - seu) ∧
      (sev ≤ j ∧ j < nv - nev ∧ nu - (if E then du else 0) ≤ i ∧ i < nu)) := by
  cases S <;> cases E <;>
    simp only [CornerOk, if_true, if_false, Bool.false_eq_true] at hse ⊢ <;> omega

private theorem d27 (hsw : CornerOk S W du dv swu swv) (hnw : CornerOk N W du dv nwu nwv) (hnv : 2 * dv ≤ nv) (hnu : 2 * du ≤ nu) (h3 : swv + nwv ≤ nv) :
    ¬ ((j < (if S then dv else 0) ∧ swu ≤ i ∧ i < nu - seu) ∧
      (nv - nwv ≤ j ∧ j < nv ∧ i < nwu ∧ ¬ (i ≥ du ∧ j < nv - dv))) := by
  cases S <;> cases N <;> cases W <;>
    simp only [CornerOk, if_true, if_false, Bool.false_eq_true] at hsw hnw ⊢ <;> omega

private theorem d28 (hnv : 2 * dv ≤ nv) :
    ¬ ((j < (if S then dv else 0) ∧ swu ≤ i ∧ i < nu - seu) ∧
      (nv - (if N then dv else 0) ≤ j ∧ j < nv ∧ nwu ≤ i ∧ i < nu - neu)) := by
  cases S <;> cases N <;>
    simp only [CornerOk, if_true, if_false, Bool.false_eq_true] at ⊢ <;> omega

private theorem d29 (hse : CornerOk S E du dv seu sev) (hne : CornerOk N E du dv neu nev) (hnu : 2 * du ≤ nu) (hnv : 2 * dv ≤ nv) (h4 : sev + nev ≤ nv) :
    ¬ ((j < (if S then dv else 0) ∧ swu ≤ i ∧ i < nu - seu) ∧
      (nv - nev ≤ j ∧ j < nv ∧ nu - neu ≤ i ∧ i < nu ∧ ¬ (i < nu - du ∧ j < nv - dv))) := by
  cases S <;> cases N <;> cases E <;>
    simp only [CornerOk, if_true, if_false, Bool.false_eq_true] at hse hne ⊢ <;> omega

private theorem d34 (hsw : CornerOk S W du dv swu swv) (hse : CornerOk S E du dv seu sev) (hnu : 2 * du ≤ nu) (hnv : 2 * dv ≤ nv) (h1 : swu + seu ≤ nu) :
    ¬ ((j < sev ∧ nu - seu ≤ i ∧ i < nu ∧ ¬ (i < nu - du ∧ j ≥ dv)) ∧
      (swv ≤ j ∧ j < nv - nwv ∧ i < (if W then du else 0))) := by
  cases S <;> cases E <;> cases W <;>
    simp only [CornerOk, if_true, if_false, Bool.false_eq_true] at hsw hse ⊢ <;> omega

private theorem d35 (hse : CornerOk S E du dv seu sev) (hnu : 2 * du ≤ nu) (hnv : 2 * dv ≤ nv) (hdu : 0 < du) (hdv : 0 < dv) :
    ¬ ((j < sev ∧ nu - seu ≤ i ∧ i < nu ∧ ¬ (i < nu - du ∧ j ≥ dv)) ∧
      ((if S then dv else 0) ≤ j ∧ j < nv - (if N then dv else 0) ∧ (if W then du else 0) ≤ i ∧ i < nu - (if E then du else 0) ∧
      ¬ (j < swv ∧ j < dv ∧ i < swu ∧ i < du) ∧ ¬ (j < sev ∧ j < dv ∧ i ≥ nu - seu ∧ i ≥ nu - du) ∧
      ¬ (j ≥ nv - nev ∧ j ≥ nv - dv ∧ i ≥ nu - neu ∧ i ≥ nu - du) ∧ ¬ (j ≥ nv - nwv ∧ j ≥ nv - dv ∧ i < nwu ∧ i < du))) := by
  cases S <;> cases E <;>
    simp only [CornerOk, if_true, if_false, Bool.false_eq_true] at hse ⊢ <;> omega

private theorem d36  :
    ¬ ((j < sev ∧ nu - seu ≤ i ∧ i < nu ∧ ¬ (i < nu - du ∧ j ≥ dv)) ∧
      (sev ≤ j ∧ j < nv - nev ∧ nu - (if E then du else 0) ≤ i ∧ i < nu)) := by
  omega

private theorem d37 (hsw : CornerOk S W du dv swu swv) (hse : CornerOk S E du dv seu sev) (hnw : CornerOk N W du dv nwu nwv) (hne : CornerOk N E du dv neu nev) (hnu : 2 * du ≤ nu) (hnv : 2 * dv ≤ nv) (h1 : swu + seu ≤ nu) (h2 : nwu + neu ≤ nu) (h3 : swv + nwv ≤ nv) (h4 : sev + nev ≤ nv) :
    ¬ ((j < sev ∧ nu - seu ≤ i ∧ i < nu ∧ ¬ (i < nu - du ∧ j ≥ dv)) ∧
      (nv - nwv ≤ j ∧ j < nv ∧ i < nwu ∧ ¬ (i ≥ du ∧ j < nv - dv))) := by
  cases S <;> cases N <;> cases E <;> cases W <;>
    simp only [CornerOk, if_true, if_false, Bool.false_eq_true] at hsw hse hnw hne ⊢ <;> omega

private theorem d38 (hse : CornerOk S E du dv seu sev) (hne : CornerOk N E du dv neu nev) (hnu : 2 * du ≤ nu) (hnv : 2 * dv ≤ nv) (h4 : sev + nev ≤ nv) :
    ¬ ((j < sev ∧ nu - seu ≤ i ∧ i < nu ∧ ¬ (i < nu - du ∧ j ≥ dv)) ∧
      (nv - (if N then dv else 0) ≤ j ∧ j < nv ∧ nwu ≤ i ∧ i < nu - neu)) := by
  cases S <;> cases N <;> cases E <;>
    simp only [CornerOk, if_true, if_false, Bool.false_eq_true] at hse hne ⊢ <;> omega

private theorem d39 (h4 : sev + nev ≤ nv) :
    ¬ ((j < sev ∧ nu - seu ≤ i ∧ i < nu ∧ ¬ (i < nu - du ∧ j ≥ dv)) ∧
      (nv - nev ≤ j ∧ j < nv ∧ nu - neu ≤ i ∧ i < nu ∧ ¬ (i < nu - du ∧ j < nv - dv))) := by
  omega

private theorem d45  :
    ¬ ((swv ≤ j ∧ j < nv - nwv ∧ i < (if W then du else 0)) ∧
      ((if S then dv else 0) ≤ j ∧ j < nv - (if N then dv else 0) ∧ (if W then du else 0) ≤ i ∧ i < nu - (if E then du else 0) ∧
      ¬ (j < swv ∧ j < dv ∧ i < swu ∧ i < du) ∧ ¬ (j < sev ∧ j < dv ∧ i ≥ nu - seu ∧ i ≥ nu - du) ∧
      ¬ (j ≥ nv - nev ∧ j ≥ nv - dv ∧ i ≥ nu - neu ∧ i ≥ nu - du) ∧ ¬ (j ≥ nv - nwv ∧ j ≥ nv - dv ∧ i < nwu ∧ i < du))) := by
  omega

private theorem d46 (hnu : 2 * du ≤ nu) :
    ¬ ((swv ≤ j ∧ j < nv - nwv ∧ i < (if W then du else 0)) ∧
      (sev ≤ j ∧ j < nv - nev ∧ nu - (if E then du else 0) ≤ i ∧ i < nu)) := by
  cases E <;> cases W <;>
    simp only [CornerOk, if_true, if_false, Bool.false_eq_true] at ⊢ <;> omega

private theorem d47  :
    ¬ ((swv ≤ j ∧ j < nv - nwv ∧ i < (if W then du else 0)) ∧
      (nv - nwv ≤ j ∧ j < nv ∧ i < nwu ∧ ¬ (i ≥ du ∧ j < nv - dv))) := by
  omega

private theorem d48 (hnw : CornerOk N W du dv nwu nwv) (hnv : 2 * dv ≤ nv) (h3 : swv + nwv ≤ nv) :
    ¬ ((swv ≤ j ∧ j < nv - nwv ∧ i < (if W then du else 0)) ∧
      (nv - (if N then dv else 0) ≤ j ∧ j < nv ∧ nwu ≤ i ∧ i < nu - neu)) := by
  cases N <;> cases W <;>
    simp only [CornerOk, if_true, if_false, Bool.false_eq_true] at hnw ⊢ <;> omega

private theorem d49 (hnw : CornerOk N W du dv nwu nwv) (hne : CornerOk N E du dv neu nev) (hnu : 2 * du ≤ nu) (hnv : 2 * dv ≤ nv) (h2 : nwu + neu ≤ nu) :
    ¬ ((swv ≤ j ∧ j < nv - nwv ∧ i < (if W then du else 0)) ∧
      (nv - nev ≤ j ∧ j < nv ∧ nu - neu ≤ i ∧ i < nu ∧ ¬ (i < nu - du ∧ j < nv - dv))) := by
  cases N <;> cases E <;> cases W <;>
    simp only [CornerOk, if_true, if_false, Bool.false_eq_true] at hnw hne ⊢ <;> omega

private theorem d56  :
    ¬ (((if S then dv else 0) ≤ j ∧ j < nv - (if N then dv else 0) ∧ (if W then du else 0) ≤ i ∧ i < nu - (if E then du else 0) ∧
      ¬ (j < swv ∧ j < dv ∧ i < swu ∧ i < du) ∧ ¬ (j < sev ∧ j < dv ∧ i ≥ nu - seu ∧ i ≥ nu - du) ∧
      ¬ (j ≥ nv - nev ∧ j ≥ nv - dv ∧ i ≥ nu - neu ∧ i ≥ nu - du) ∧ ¬ (j ≥ nv - nwv ∧ j ≥ nv - dv ∧ i < nwu ∧ i < du)) ∧
      (sev ≤ j ∧ j < nv - nev ∧ nu - (if E then du else 0) ≤ i ∧ i < nu)) := by
  omega

private theorem d57 (hnw : CornerOk N W du dv nwu nwv) (hnu : 2 * du ≤ nu) (hnv : 2 * dv ≤ nv) (hdu : 0 < du) (hdv : 0 < dv) :
    ¬ (((if S then dv else 0) ≤ j ∧ j < nv - (if N then dv else 0) ∧ (if W then du else 0) ≤ i ∧ i < nu - (if E then du else 0) ∧
      ¬ (j < swv ∧ j < dv ∧ i < swu ∧ i < du) ∧ ¬ (j < sev ∧ j < dv ∧ i ≥ nu - seu ∧ i ≥ nu - du) ∧
      ¬ (j ≥ nv - nev ∧ j ≥ nv - dv ∧ i ≥ nu - neu ∧ i ≥ nu - du) ∧ ¬ (j ≥ nv - nwv ∧ j ≥ nv - dv ∧ i < nwu ∧ i < du)) ∧
      (nv - nwv ≤ j ∧ j < nv ∧ i < nwu ∧ ¬ (i ≥ du ∧ j < nv - dv))) := by
  cases N <;> cases W <;>
    simp only [CornerOk, if_true, if_false, Bool.false_eq_true] at hnw ⊢ <;> omega

private theorem d58  :
    ¬ (((if S then dv else 0) ≤ j ∧ j < nv - (if N then dv else 0) ∧ (if W then du else 0) ≤ i ∧ i < nu - (if E then du else 0) ∧
      ¬ (j < swv ∧ j < dv ∧ i < swu ∧ i < du) ∧ ¬ (j < sev ∧ j < dv ∧ i ≥ nu - seu ∧ i ≥ nu - du) ∧
      ¬ (j ≥ nv - nev ∧ j ≥ nv - dv ∧ i ≥ nu - neu ∧ i ≥ nu - du) ∧ ¬ (j ≥ nv - nwv ∧ j ≥ nv - dv ∧ i < nwu ∧ i < du)) ∧
      (nv - (if N then dv else 0) ≤ j ∧ j < nv ∧ nwu ≤ i ∧ i < nu - neu)) := by
  omega

private theorem d59 (hne : CornerOk N E du dv neu nev) (hnu : 2 * du ≤ nu) (hnv : 2 * dv ≤ nv) (hdu : 0 < du) (hdv : 0 < dv) :
    ¬ (((if S then dv else 0) ≤ j ∧ j < nv - (if N then dv else 0) ∧ (if W then du else 0) ≤ i ∧ i < nu - (if E then du else 0) ∧
      ¬ (j < swv ∧ j < dv ∧ i < swu ∧ i < du) ∧ ¬ (j < sev ∧ j < dv ∧ i ≥ nu - seu ∧ i ≥ nu - du) ∧
      ¬ (j ≥ nv - nev ∧ j ≥ nv - dv ∧ i ≥ nu - neu ∧ i ≥ nu - du) ∧ ¬ (j ≥ nv - nwv ∧ j ≥ nv - dv ∧ i < nwu ∧ i < du)) ∧
      (nv - nev ≤ j ∧ j < nv ∧ nu - neu ≤ i ∧ i < nu ∧ ¬ (i < nu - du ∧ j < nv - dv))) := by
  cases N <;> cases E <;>
    simp only [CornerOk, if_true, if_false, Bool.false_eq_true] at hne ⊢ <;> omega

private theorem d67 (hnw : CornerOk N W du dv nwu nwv) (hne : CornerOk N E du dv neu nev) (hnu : 2 * du ≤ nu) (hnv : 2 * dv ≤ nv) (h2 : nwu + neu ≤ nu) :
    ¬ ((sev ≤ j ∧ j < nv - nev ∧ nu - (if E then du else 0) ≤ i ∧ i < nu) ∧
      (nv - nwv ≤ j ∧ j < nv ∧ i < nwu ∧ ¬ (i ≥ du ∧ j < nv - dv))) := by
  cases N <;> cases E <;> cases W <;>
    simp only [CornerOk, if_true, if_false, Bool.false_eq_true] at hnw hne ⊢ <;> omega

private theorem d68 (hne : CornerOk N E du dv neu nev) (hnu : 2 * du ≤ nu) (hnv : 2 * dv ≤ nv) (h4 : sev + nev ≤ nv) (h2 : nwu + neu ≤ nu) :
    ¬ ((sev ≤ j ∧ j < nv - nev ∧ nu - (if E then du else 0) ≤ i ∧ i < nu) ∧
      (nv - (if N then dv else 0) ≤ j ∧ j < nv ∧ nwu ≤ i ∧ i < nu - neu)) := by
  cases N <;> cases E <;>
    simp only [CornerOk, if_true, if_false, Bool.false_eq_true] at hne ⊢ <;> omega

private theorem d69  :
    ¬ ((sev ≤ j ∧ j < nv - nev ∧ nu - (if E then du else 0) ≤ i ∧ i < nu) ∧
      (nv - nev ≤ j ∧ j < nv ∧ nu - neu ≤ i ∧ i < nu ∧ ¬ (i < nu - du ∧ j < nv - dv))) := by
  omega

private theorem d78  :
    ¬ ((nv - nwv ≤ j ∧ j < nv ∧ i < nwu ∧ ¬ (i ≥ du ∧ j < nv - dv)) ∧
      (nv - (if N then dv else 0) ≤ j ∧ j < nv ∧ nwu ≤ i ∧ i < nu - neu)) := by
  omega

private theorem d79 (h2 : nwu + neu ≤ nu) :
    ¬ ((nv - nwv ≤ j ∧ j < nv ∧ i < nwu ∧ ¬ (i ≥ du ∧ j < nv - dv)) ∧
      (nv - nev ≤ j ∧ j < nv ∧ nu - neu ≤ i ∧ i < nu ∧ ¬ (i < nu - du ∧ j < nv - dv))) := by
  omega

private theorem d89  :
    ¬ ((nv - (if N then dv else 0) ≤ j ∧ j < nv ∧ nwu ≤ i ∧ i < nu - neu) ∧
      (nv - nev ≤ j ∧ j < nv ∧ nu - neu ≤ i ∧ i < nu ∧ ¬ (i < nu - du ∧ j < nv - dv))) := by
  omega

private theorem co_u {hv : Bool} {lu lv : ℕ} (h : CornerOk true hv du dv lu lv) (hi : 0 < lu) : dv ≤ lv := by
  cases hv <;> simp only [CornerOk] at h <;> omega

private theorem co_v {hu : Bool} {lu lv : ℕ} (h : CornerOk hu true du dv lu lv) (hi : 0 < lv) : du ≤ lu := by
  cases hu <;> simp only [CornerOk] at h <;> omega

private theorem cover (hdu : 0 < du) (hdv : 0 < dv) (hnu : 2 * du ≤ nu) (hnv : 2 * dv ≤ nv) (hsw : CornerOk S W du dv swu swv) (hse : CornerOk S E du dv seu sev) (hnw : CornerOk N W du dv nwu nwv) (hne : CornerOk N E du dv neu nev) (h1 : swu + seu ≤ nu) (h2 : nwu + neu ≤ nu) (h3 : swv + nwv ≤ nv) (h4 : sev + nev ≤ nv) (hi : i < nu) (hj : j < nv) :
    (j < swv ∧ i < swu ∧ ¬ (i ≥ du ∧ j ≥ dv)) ∨
    (j < (if S then dv else 0) ∧ swu ≤ i ∧ i < nu - seu) ∨
    (j < sev ∧ nu - seu ≤ i ∧ i < nu ∧ ¬ (i < nu - du ∧ j ≥ dv)) ∨
    (swv ≤ j ∧ j < nv - nwv ∧ i < (if W then du else 0)) ∨
    ((if S then dv else 0) ≤ j ∧ j < nv - (if N then dv else 0) ∧ (if W then du else 0) ≤ i ∧ i < nu - (if E then du else 0) ∧
      ¬ (j < swv ∧ j < dv ∧ i < swu ∧ i < du) ∧ ¬ (j < sev ∧ j < dv ∧ i ≥ nu - seu ∧ i ≥ nu - du) ∧
      ¬ (j ≥ nv - nev ∧ j ≥ nv - dv ∧ i ≥ nu - neu ∧ i ≥ nu - du) ∧ ¬ (j ≥ nv - nwv ∧ j ≥ nv - dv ∧ i < nwu ∧ i < du)) ∨
    (sev ≤ j ∧ j < nv - nev ∧ nu - (if E then du else 0) ≤ i ∧ i < nu) ∨
    (nv - nwv ≤ j ∧ j < nv ∧ i < nwu ∧ ¬ (i ≥ du ∧ j < nv - dv)) ∨
    (nv - (if N then dv else 0) ≤ j ∧ j < nv ∧ nwu ≤ i ∧ i < nu - neu) ∨
    (nv - nev ≤ j ∧ j < nv ∧ nu - neu ≤ i ∧ i < nu ∧ ¬ (i < nu - du ∧ j < nv - dv)) := by
  by_cases c1 : j < if S then dv else 0
  · have hS : S = true := by by_contra hn; simp [hn] at c1
    subst hS
    simp only [if_true] at c1
    by_cases ca : i < swu
    · have := co_u hsw (by omega)
      left; omega
    · by_cases cb : nu - seu ≤ i
      · have := co_u hse (by omega)
        right; right; left; omega
      · right; left; exact ⟨by simpa using c1, by omega, by omega⟩
  by_cases c2 : nv - (if N then dv else 0) ≤ j
  · have hN : N = true := by
      by_contra hn
      simp only [hn, if_false, Bool.false_eq_true] at c2
      omega
    subst hN
    simp only [if_true] at c2
    by_cases ca : i < nwu
    · have := co_u hnw (by omega)
      right; right; right; right; right; right; left; omega
    · by_cases cb : nu - neu ≤ i
      · have := co_u hne (by omega)
        right; right; right; right; right; right; right; right; omega
      · right; right; right; right; right; right; right; left; exact ⟨by simpa using c2, by omega, by omega, by omega⟩
  by_cases c3 : i < if W then du else 0
  · have hW : W = true := by by_contra hn; simp [hn] at c3
    subst hW
    simp only [if_true] at c3
    by_cases ca : j < swv
    · have := co_v hsw (by omega)
      left; omega
    · by_cases cb : nv - nwv ≤ j
      · have := co_v hnw (by omega)
        right; right; right; right; right; right; left; omega
      · right; right; right; left; exact ⟨by omega, by omega, by simpa using c3⟩
  by_cases c4 : nu - (if E then du else 0) ≤ i
  · have hE : E = true := by
      by_contra hn
      simp only [hn, if_false, Bool.false_eq_true] at c4
      omega
    subst hE
    simp only [if_true] at c4
    by_cases ca : j < sev
    · have := co_v hse (by omega)
      right; right; left; omega
    · by_cases cb : nv - nev ≤ j
      · have := co_v hne (by omega)
        right; right; right; right; right; right; right; right; omega
      · right; right; right; right; right; left; exact ⟨by omega, by omega, by simpa using c4, hi⟩
  by_cases e1 : j < swv ∧ j < dv ∧ i < swu ∧ i < du
  · left; omega
  by_cases e2 : j < sev ∧ j < dv ∧ i ≥ nu - seu ∧ i ≥ nu - du
  · right; right; left; omega
  by_cases e3 : j ≥ nv - nev ∧ j ≥ nv - dv ∧ i ≥ nu - neu ∧ i ≥ nu - du
  · right; right; right; right; right; right; right; right; omega
  by_cases e4 : j ≥ nv - nwv ∧ j ≥ nv - dv ∧ i < nwu ∧ i < du
  · right; right; right; right; right; right; left; omega
  right; right; right; right; left; exact ⟨by omega, by omega, by omega, by omega, e1, e2, e3, e4⟩

end

private theorem clip_le (a b n : ℕ) : (clip a b n).1 + (clip a b n).2 ≤ n := by
  unfold clip; split_ifs <;> simp only <;> omega

/-- The nine regions cover each function exactly once. -/
private theorem callsOf_once (P : Patch) (hs : P.single = false) (h : Ok P) (h1 : P.swu + P.seu ≤ P.nu) (h2 : P.nwu + P.neu ≤ P.nu)
    (h3 : P.swv + P.nwv ≤ P.nv) (h4 : P.sev + P.nev ≤ P.nv) (i j : ℕ) :
    times (callsOf P) i j = if i < P.nu ∧ j < P.nv ∧ P.act i j then 1 else 0 := by
  obtain ⟨hdu, hdv, hnu, hnv, hsw, hse, hnw, hne⟩ := h
  by_cases ha : P.act i j
  · unfold callsOf
    simp only [times_append, times_loop, ha, true_and, hs, Bool.false_and, isSome_ite', Option.isSome_some, and_true, Bool.false_eq_true, and_false,
      or_false, not_false_eq_true, Nat.zero_le]
    refine exactly_one _ _ _ _ _ _ _ _ _ _ (d12) (d13 h1) (d14) (d15 hsw hnu hnv hdu hdv) (d16 hsw hse hnu hnv h1) (d17 h3) (d18 hsw hnw hnu hnv h3) (d19 hsw hse hnw hne hnu hnv h1 h2 h3 h4) (d23) (d24 hsw) (d25) (d26 hse hnu h1) (d27 hsw hnw hnv hnu h3) (d28 hnv) (d29 hse hne hnu hnv h4) (d34 hsw hse hnu hnv h1) (d35 hse hnu hnv hdu hdv) (d36) (d37 hsw hse hnw hne hnu hnv h1 h2 h3 h4) (d38 hse hne hnu hnv h4) (d39 h4) (d45) (d46 hnu) (d47) (d48 hnw hnv h3) (d49 hnw hne hnu hnv h2) (d56) (d57 hnw hnu hnv hdu hdv) (d58) (d59 hne hnu hnv hdu hdv) (d67 hnw hne hnu hnv h2) (d68 hne hnu hnv h4 h2) (d69) (d78) (d79 h2) (d89) (by omega) (by split_ifs <;> omega) (by omega) (by split_ifs <;> omega) (by omega) (by omega) (by omega) (by omega) (by omega) (fun h => cover hdu hdv hnu hnv hsw hse hnw hne h1 h2 h3 h4 h.1 h.2)
  · unfold callsOf
    simp [times_append, times_loop, ha]

/-- C32: if the corrected distances satisfy `Ok`, then exactly one call is made for every function of the patch, for every size, every degree, every
combination of interfaces and special corners (several patches).

The full claim drops the hypothesis `Ok`; it is false, see `C32_double_violated`. A single patch glued to itself, where the code skips
the regions at the east and north sides on purpose, is the subject of `C32_periodic`. -/
theorem C32_once_partial (P : Patch) (hs : P.single = false) (h : Ok P.clipped) (i j : ℕ) :
    times (calls P) i j = if i < P.nu ∧ j < P.nv ∧ P.act i j then 1 else 0 := by
  refine callsOf_once P.clipped hs h ?_ ?_ ?_ ?_ i j
  · have := clip_le P.seu P.swu P.nu; simp only [Patch.clipped]; omega
  · have := clip_le P.neu P.nwu P.nu; simp only [Patch.clipped]; omega
  · exact clip_le P.swv P.nwv P.nv
  · exact clip_le P.sev P.nev P.nv

/-- A patch of 8 x 8 functions with smoothing degree 2; south and west are interfaces, the south-west corner is an extraordinary vertex with distance 4. -/
def evPatch : Patch :=
  ⟨8, 8, 2, 2, fun s => s = .south || s = .west, true, false, false, false, 4, 4, 0, 0, 0, 0, 0, 0, false, fun _ _ => true⟩

example : Ok evPatch.clipped ∧ evPatch.single = false ∧ (calls evPatch).length = 64 :=
  ⟨⟨by decide, by decide, by decide, by decide, by simp [CornerOk, evPatch, Patch.clipped, clip], by simp [CornerOk, evPatch, Patch.clipped, clip],
    by simp [CornerOk, evPatch, Patch.clipped, clip], by simp [CornerOk, evPatch, Patch.clipped, clip]⟩, rfl, by decide +kernel⟩

/-- A patch of 8 x 8 functions of degree 2 with one interface in the south, whose south-west corner was made C0 (`setCornerC0`), with minimal distance 3. -/
def c0Patch : Patch :=
  ⟨8, 8, 2, 2, fun s => s = .south, true, false, false, false, 3, 3, 0, 0, 0, 0, 0, 0, false, fun _ _ => true⟩

/-- C32 is violated by the unchanged code: on this patch two global functions are made of the local function `(0,2)`.  The distances are those the code computes
from the uniform knots `0,0,0,1,2,3,4,5,6,6,6` for the minimal distance 3. -/
theorem C32_double_violated :
    (∃ x, MPBES.findParameter (MPBES.openKnots 2 0 [1, 2, 3, 4, 5] 6) true 3 = some x ∧
      MPBES.getDistance 2 (MPBES.openKnots 2 0 [1, 2, 3, 4, 5] 6) true x = c0Patch.swv) ∧
    times (calls c0Patch) 0 2 = 2 ∧ ((calls c0Patch).filter fun c => decide (c.1 = (0, 2))) = [((0, 2), .free), ((0, 2), .free)] := by
  refine ⟨MPBES.C37_roundtrip_partial 2 0 6 [1, 2, 3, 4, 5] (le_refl _) ?_ true 3 (by decide), by decide +kernel, by decide +kernel⟩
  norm_num [List.pairwise_cons]

/-! ## Which call is made -/

/-- The vertical side near which a function lies, with its distance. -/
def nearV (P : Patch) (j : ℕ) : Option (Side × ℕ) :=
  if P.iface .south ∧ j < P.dv then some (.south, j)
  else if P.iface .north ∧ P.nv - P.dv ≤ j then some (.north, P.nv - 1 - j) else none

/-- The horizontal side near which a function lies, with its distance. -/
def nearU (P : Patch) (i : ℕ) : Option (Side × ℕ) :=
  if P.iface .west ∧ i < P.du then some (.west, i)
  else if P.iface .east ∧ P.nu - P.du ≤ i then some (.east, P.nu - 1 - i) else none

/-- What should be done with a function away from special corners: smoothing over one interface with the degree across it, over two interfaces, or nothing. -/
def want (P : Patch) (i j : ℕ) : Call :=
  match nearV P j, nearU P i with
  | some (s, a), some (t, b) => if (P.du = 1 ∨ P.dv = 1) ∧ a = 0 ∧ b = 0 then .corner else .block s t P.dv P.du a b
  | some (s, a), none => .line s P.dv a
  | none, some (t, b) => .line t P.du b
  | none, none => .free

/-- What should be done near a special corner: functions on an interface are coupled with the function opposite only (C0), the function of the corner with those of
all patches there; `a`, `b` are the distances to the side `s` (south or north) and `t` (west or east). -/
def wantC0 (P : Patch) (s t : Side) (a b : ℕ) : Call :=
  if a = 0 ∧ b = 0 then .corner else if P.iface t ∧ b = 0 then .line t 1 0 else if P.iface s ∧ a = 0 then .line s 1 0 else .free

/-- The functions near a corner: at most `lu`, `lv` functions away, and within the smoothing degree of one of the two sides. -/
def zone (lu lv du dv a b : ℕ) : Prop := a < lv ∧ b < lu ∧ (a < dv ∨ b < du)

instance (lu lv du dv a b : ℕ) : Decidable (zone lu lv du dv a b) := inferInstanceAs (Decidable (_ ∧ _))

/-- What should be done with a function. -/
def wantAll (P : Patch) (i j : ℕ) : Call :=
  if P.sw ∧ zone P.swu P.swv P.du P.dv j i then wantC0 P .south .west j i
  else if P.se ∧ zone P.seu P.sev P.du P.dv j (P.nu - 1 - i) then wantC0 P .south .east j (P.nu - 1 - i)
  else if P.nw ∧ zone P.nwu P.nwv P.du P.dv (P.nv - 1 - j) i then wantC0 P .north .west (P.nv - 1 - j) i
  else if P.ne ∧ zone P.neu P.nev P.du P.dv (P.nv - 1 - j) (P.nu - 1 - i) then wantC0 P .north .east (P.nv - 1 - j) (P.nu - 1 - i)
  else want P i j

/-- The distances of a corner that is not special: the smoothing degrees between two interfaces and 0 at the boundary. -/
def Plain (special hu hv : Bool) (du dv lu lv : ℕ) : Prop := special = false → (lu, lv) = if hu ∧ hv then (du, dv) else (0, 0)

instance (special hu hv : Bool) (du dv lu lv : ℕ) : Decidable (Plain special hu hv du dv lu lv) := inferInstanceAs (Decidable (_ → _))

/-- The distances are as the code computes them: as in `Ok`, and `Plain` at corners that are not special. -/
structure Std (P : Patch) : Prop extends Ok P where
  single : P.single = false
  psw : Plain P.sw (P.iface .south) (P.iface .west) P.du P.dv P.swu P.swv
  pse : Plain P.se (P.iface .south) (P.iface .east) P.du P.dv P.seu P.sev
  pnw : Plain P.nw (P.iface .north) (P.iface .west) P.du P.dv P.nwu P.nwv
  pne : Plain P.ne (P.iface .north) (P.iface .east) P.du P.dv P.neu P.nev

private theorem mem_loop (P : Patch) (j0 j1 i0 i1 : ℕ) (f : ℕ → ℕ → Option Call) (i j : ℕ) (c : Call) :
    ((i, j), c) ∈ loop P j0 j1 i0 i1 f ↔ P.act i j ∧ j0 ≤ j ∧ j < j1 ∧ i0 ≤ i ∧ i < i1 ∧ f i j = some c := by
  unfold loop
  simp only [List.mem_flatMap, List.mem_range'_1, List.mem_filterMap]
  constructor
  · rintro ⟨j', hj, i', hi, h⟩
    split_ifs at h with ha
    simp only [Option.map_eq_some_iff, Prod.mk.injEq] at h
    obtain ⟨c', h, ⟨rfl, rfl⟩, rfl⟩ := h
    exact ⟨ha, hj.1, by omega, hi.1, by omega, h⟩
  · rintro ⟨ha, h1, h2, h3, h4, h5⟩
    exact ⟨j, ⟨h1, by omega⟩, i, ⟨h3, by omega⟩, by simp [ha, h5]⟩

private theorem plain_corner {hu hv : Bool} {du dv lu lv : ℕ} (h : Plain false hu hv du dv lu lv) :
    lu ≤ du ∧ lv ≤ dv ∧ (0 < lu ∨ 0 < lv → hu = true ∧ hv = true) := by
  have h := h rfl
  split_ifs at h with c <;> simp only [Prod.mk.injEq] at h <;> obtain ⟨rfl, rfl⟩ := h
  · exact ⟨le_refl _, le_refl _, fun _ => c⟩
  · exact ⟨Nat.zero_le _, Nat.zero_le _, by omega⟩

private theorem ok_both {hu hv : Bool} {du dv lu lv : ℕ} (h : CornerOk hu hv du dv lu lv) (e : hu = true ∧ hv = true) : du ≤ lu ∧ dv ≤ lv := by
  obtain ⟨rfl, rfl⟩ := e; exact h

private theorem cornerCall_c0 (P : Patch) (s t : Side) (du dv a b : ℕ) :
    cornerCall true s t (P.iface s) (P.iface t) du dv a b = wantC0 P s t a b := by
  unfold cornerCall wantC0
  simp only [true_or, true_and, not_true_eq_false, false_and, if_false]
  split_ifs <;> first | rfl | (exfalso; simp_all; try omega)

private theorem cornerCall_reg (su sv : Side) (d a b : ℕ) :
    cornerCall false su sv true true d d a b = if (d = 1 ∨ d = 1) ∧ a = 0 ∧ b = 0 then .corner else .block su sv d d a b := by
  unfold cornerCall
  simp only [Bool.false_eq_true, false_or, false_and, if_false, not_false_eq_true, true_and, and_true, if_true]
  split_ifs <;> first | rfl | (exfalso; omega)

private theorem want_sound {i j : ℕ} (P : Patch) (h : Std P) (hd : P.du = P.dv) (hzsw : ¬ (P.sw ∧ zone P.swu P.swv P.du P.dv j i))
    (hzse : ¬ (P.se ∧ zone P.seu P.sev P.du P.dv j (P.nu - 1 - i))) (hznw : ¬ (P.nw ∧ zone P.nwu P.nwv P.du P.dv (P.nv - 1 - j) i))
    (hzne : ¬ (P.ne ∧ zone P.neu P.nev P.du P.dv (P.nv - 1 - j) (P.nu - 1 - i))) (c : Call)
    (h1 : P.swu + P.seu ≤ P.nu) (h2 : P.nwu + P.neu ≤ P.nu) (h3 : P.swv + P.nwv ≤ P.nv) (h4 : P.sev + P.nev ≤ P.nv)
    (hm : ((i, j), c) ∈ callsOf P) : c = want P i j := by
  obtain ⟨⟨hdu, hdv, hu, hv, o1, o2, o3, o4⟩, hs, p1, p2, p3, p4⟩ := h
  have d1 := ok_both o1
  have d2 := ok_both o2
  have d3 := ok_both o3
  have d4 := ok_both o4
  unfold zone at hzsw hzse hznw hzne
  unfold callsOf at hm
  simp only [hs, Bool.false_and, List.mem_append, mem_loop] at hm
  rcases hm with (((((((⟨-, q⟩ | ⟨-, q⟩) | ⟨-, q⟩) | ⟨-, q⟩) | ⟨-, q⟩) | ⟨-, q⟩) | ⟨-, q⟩) | ⟨-, q⟩) | ⟨-, q⟩ <;>
    obtain ⟨q1, q2, q3, q4, q5⟩ := q
  · split_ifs at q5 with w1
    have hsp : P.sw = false := by
      by_contra hn; exact hzsw ⟨by simpa using hn, by omega⟩
    rw [hsp] at p1 q5
    obtain ⟨a1, b1, c1⟩ := plain_corner p1
    obtain ⟨i1, i2⟩ := c1 (by omega)
    simp only [Option.some.injEq] at q5
    subst q5
    have e1 : nearV P j = some (.south, j) := by unfold nearV; rw [if_pos ⟨i1, by omega⟩]
    have e2 : nearU P i = some (.west, i) := by unfold nearU; rw [if_pos ⟨i2, by omega⟩]
    unfold want
    simp only [e1, e2, i1, i2, hd, cornerCall_reg]
  · split_ifs at q2 with i1
    · simp only [i1, if_true, Option.some.injEq] at q5
      subst q5
      have e1 : nearV P j = some (.south, j) := by unfold nearV; rw [if_pos ⟨i1, by omega⟩]
      have e2 : nearU P i = none := by
        unfold nearU
        rw [if_neg, if_neg]
        · rintro ⟨e, e'⟩; have := d2 ⟨i1, e⟩; omega
        · rintro ⟨e, e'⟩; have := d1 ⟨i1, e⟩; omega
      simp [want, e1, e2]
    · omega
  · split_ifs at q5 with w1
    have hsp : P.se = false := by
      by_contra hn; exact hzse ⟨by simpa using hn, by omega⟩
    rw [hsp] at p2 q5
    obtain ⟨a1, b1, c1⟩ := plain_corner p2
    obtain ⟨i1, i2⟩ := c1 (by omega)
    simp only [Option.some.injEq] at q5
    subst q5
    have e1 : nearV P j = some (.south, j) := by unfold nearV; rw [if_pos ⟨i1, by omega⟩]
    have e2 : nearU P i = some (.east, P.nu - 1 - i) := by
      unfold nearU; rw [if_neg (by rintro ⟨-, e⟩; omega), if_pos ⟨i2, by omega⟩]
    unfold want
    simp only [e1, e2, i1, i2, hd, cornerCall_reg]
  · split_ifs at q4 with i1
    · simp only [i1, if_true, Option.some.injEq] at q5
      subst q5
      have e1 : nearU P i = some (.west, i) := by unfold nearU; rw [if_pos ⟨i1, by omega⟩]
      have e2 : nearV P j = none := by
        unfold nearV
        rw [if_neg, if_neg]
        · rintro ⟨e, e'⟩; have := d3 ⟨e, i1⟩; omega
        · rintro ⟨e, e'⟩; have := d1 ⟨e, i1⟩; omega
      simp [want, e1, e2]
    · omega
  · split_ifs at q5 with w1 w2 w3 w4
    simp only [Option.some.injEq] at q5
    subst q5
    have e1 : nearV P j = none := by
      unfold nearV
      rw [if_neg, if_neg]
      · rintro ⟨e, e'⟩; simp only [e, if_true] at q2; omega
      · rintro ⟨e, e'⟩; simp only [e, if_true] at q1; omega
    have e2 : nearU P i = none := by
      unfold nearU
      rw [if_neg, if_neg]
      · rintro ⟨e, e'⟩; simp only [e, if_true] at q4; omega
      · rintro ⟨e, e'⟩; simp only [e, if_true] at q3; omega
    simp [want, e1, e2]
  · split_ifs at q3 with i1
    · simp [i1] at q5
      subst q5
      have e1 : nearU P i = some (.east, P.nu - 1 - i) := by
        unfold nearU; rw [if_neg (by rintro ⟨-, e⟩; omega), if_pos ⟨i1, by omega⟩]
      have e2 : nearV P j = none := by
        unfold nearV
        rw [if_neg, if_neg]
        · rintro ⟨e, e'⟩; have := d4 ⟨e, i1⟩; omega
        · rintro ⟨e, e'⟩; have := d2 ⟨e, i1⟩; omega
      simp [want, e1, e2]
    · omega
  · split_ifs at q5 with w1
    have hsp : P.nw = false := by
      by_contra hn; exact hznw ⟨by simpa using hn, by omega⟩
    rw [hsp] at p3 q5
    obtain ⟨a1, b1, c1⟩ := plain_corner p3
    obtain ⟨i1, i2⟩ := c1 (by omega)
    simp only [Option.some.injEq] at q5
    subst q5
    have e1 : nearV P j = some (.north, P.nv - 1 - j) := by
      unfold nearV; rw [if_neg (by rintro ⟨-, e⟩; omega), if_pos ⟨i1, by omega⟩]
    have e2 : nearU P i = some (.west, i) := by unfold nearU; rw [if_pos ⟨i2, by omega⟩]
    unfold want
    simp only [e1, e2, i1, i2, hd, cornerCall_reg]
  · split_ifs at q1 with i1
    · simp [i1] at q5
      subst q5
      have e1 : nearV P j = some (.north, P.nv - 1 - j) := by
        unfold nearV; rw [if_neg (by rintro ⟨-, e⟩; omega), if_pos ⟨i1, by omega⟩]
      have e2 : nearU P i = none := by
        unfold nearU
        rw [if_neg, if_neg]
        · rintro ⟨e, e'⟩; have := d4 ⟨i1, e⟩; omega
        · rintro ⟨e, e'⟩; have := d3 ⟨i1, e⟩; omega
      simp [want, e1, e2]
    · omega
  · split_ifs at q5 with w1
    have hsp : P.ne = false := by
      by_contra hn; exact hzne ⟨by simpa using hn, by omega⟩
    rw [hsp] at p4 q5
    obtain ⟨a1, b1, c1⟩ := plain_corner p4
    obtain ⟨i1, i2⟩ := c1 (by omega)
    simp only [Option.some.injEq] at q5
    subst q5
    have e1 : nearV P j = some (.north, P.nv - 1 - j) := by
      unfold nearV; rw [if_neg (by rintro ⟨-, e⟩; omega), if_pos ⟨i1, by omega⟩]
    have e2 : nearU P i = some (.east, P.nu - 1 - i) := by
      unfold nearU; rw [if_neg (by rintro ⟨-, e⟩; omega), if_pos ⟨i2, by omega⟩]
    unfold want
    simp only [e1, e2, i1, i2, hd, cornerCall_reg]

private theorem countP_one_unique {α : Type} (l : List α) (p : α → Bool) (h : l.countP p = 1) (a b : α) (ha : a ∈ l) (hb : b ∈ l)
    (pa : p a = true) (pb : p b = true) : a = b := by
  rw [List.countP_eq_length_filter, List.length_eq_one_iff] at h
  obtain ⟨c, hc⟩ := h
  have h1 : a ∈ l.filter p := List.mem_filter.2 ⟨ha, pa⟩
  have h2 : b ∈ l.filter p := List.mem_filter.2 ⟨hb, pb⟩
  rw [hc, List.mem_singleton] at h1 h2
  rw [h1, h2]

private theorem wantAll_mem (P : Patch) (h : Std P) (hd : P.du = P.dv) (i j : ℕ) (hi : i < P.nu) (hj : j < P.nv) (ha : P.act i j)
    (h1 : P.swu + P.seu ≤ P.nu) (h2 : P.nwu + P.neu ≤ P.nu) (h3 : P.swv + P.nwv ≤ P.nv) (h4 : P.sev + P.nev ≤ P.nv) :
    ((i, j), wantAll P i j) ∈ callsOf P := by
  have hone := callsOf_once P h.single h.toOk h1 h2 h3 h4 i j
  rw [if_pos ⟨hi, hj, ha⟩] at hone
  have hs := h.single
  unfold wantAll
  split_ifs with z1 z2 z3 z4
  · obtain ⟨zs, z⟩ := z1
    unfold zone at z
    unfold callsOf
    simp only [List.mem_append, mem_loop]
    refine Or.inl (Or.inl (Or.inl (Or.inl (Or.inl (Or.inl (Or.inl (Or.inl ⟨ha, by omega, z.1, by omega, z.2.1, ?_⟩)))))))
    rw [if_neg (by omega), zs, cornerCall_c0]
  · obtain ⟨zs, z⟩ := z2
    unfold zone at z
    unfold callsOf
    simp only [List.mem_append, mem_loop]
    refine Or.inl (Or.inl (Or.inl (Or.inl (Or.inl (Or.inl (Or.inr ⟨ha, by omega, z.1, by omega, hi, ?_⟩))))))
    rw [if_neg (by omega), zs, cornerCall_c0]
    simp
  · obtain ⟨zs, z⟩ := z3
    unfold zone at z
    unfold callsOf
    simp only [List.mem_append, mem_loop]
    refine Or.inl (Or.inl (Or.inr ⟨ha, by omega, hj, by omega, z.2.1, ?_⟩))
    rw [if_neg (by omega), zs, cornerCall_c0]
    simp
  · obtain ⟨zs, z⟩ := z4
    unfold zone at z
    unfold callsOf
    simp only [List.mem_append, mem_loop]
    refine Or.inr ⟨ha, by omega, hj, by omega, hi, ?_⟩
    rw [if_neg (by omega), zs, cornerCall_c0]
    simp
  · have hpos : 0 < times (callsOf P) i j := by omega
    obtain ⟨⟨⟨i', j'⟩, c'⟩, hm, he⟩ := List.countP_pos_iff.1 hpos
    simp only [decide_eq_true_eq, Prod.mk.injEq] at he
    obtain ⟨rfl, rfl⟩ := he
    rw [← want_sound P h hd z1 z2 z3 z4 c' h1 h2 h3 h4 hm]
    exact hm

/-- C32: the calls that are made, for several patches, equal smoothing degrees and distances as the code computes them (`Std`): exactly one for every
function, and it is the right one: near special corners the functions are coupled over the interfaces with length 1, elsewhere they are smoothed over the
one or two interfaces they are near to, with their distances to them and the smoothing degree as length.

Missing: different smoothing degrees in the two directions (see `C41_mixed_degrees_violated`). For one patch glued to itself see `C32_periodic`. -/
theorem C32_calls_partial (P : Patch) (h : Std P.clipped) (hd : P.du = P.dv) (i j : ℕ) (c : Call) :
    ((i, j), c) ∈ calls P ↔ i < P.nu ∧ j < P.nv ∧ P.act i j ∧ c = wantAll P.clipped i j := by
  have h1 : P.clipped.swu + P.clipped.seu ≤ P.clipped.nu := by
    have := clip_le P.seu P.swu P.nu; simp only [Patch.clipped]; omega
  have h2 : P.clipped.nwu + P.clipped.neu ≤ P.clipped.nu := by
    have := clip_le P.neu P.nwu P.nu; simp only [Patch.clipped]; omega
  have h3 : P.clipped.swv + P.clipped.nwv ≤ P.clipped.nv := clip_le P.swv P.nwv P.nv
  have h4 : P.clipped.sev + P.clipped.nev ≤ P.clipped.nv := clip_le P.sev P.nev P.nv
  have hone := C32_once_partial P h.single h.toOk i j
  constructor
  · intro hm
    have hpos : 0 < times (calls P) i j := List.countP_pos_iff.2 ⟨_, hm, by simp⟩
    rw [hone] at hpos
    split_ifs at hpos with hq
    · refine ⟨hq.1, hq.2.1, hq.2.2, ?_⟩
      rw [if_pos hq] at hone
      have := wantAll_mem P.clipped h hd i j hq.1 hq.2.1 hq.2.2 h1 h2 h3 h4
      have e := countP_one_unique _ _ hone _ _ hm this (by simp) (by simp)
      simpa using e
    · omega
  · rintro ⟨q1, q2, q3, rfl⟩
    exact wantAll_mem P.clipped h hd i j q1 q2 q3 h1 h2 h3 h4

example : Std evPatch.clipped ∧ evPatch.du = evPatch.dv ∧ wantAll evPatch.clipped 0 3 = .line .west 1 0 ∧ wantAll evPatch.clipped 0 0 = .corner ∧
    wantAll evPatch.clipped 1 3 = .free ∧ wantAll evPatch.clipped 1 4 = .line .west 2 1 :=
  ⟨⟨⟨by decide, by decide, by decide, by decide, by simp [CornerOk, evPatch, Patch.clipped, clip], by simp [CornerOk, evPatch, Patch.clipped, clip],
    by simp [CornerOk, evPatch, Patch.clipped, clip], by simp [CornerOk, evPatch, Patch.clipped, clip]⟩, rfl, by decide, by decide, by decide, by decide⟩,
    rfl, by decide, by decide, by decide, by decide⟩

/-- C32: the correction of the distances of two corners along a side with `n` functions: distances that fit are kept, others are replaced by two that
cover the side without a gap or an overlap, and differ by at most 1. -/
theorem C32_clip (a b n : ℕ) : (a + b ≤ n → clip a b n = (a, b)) ∧
    (n < a + b → (clip a b n).1 + (clip a b n).2 = n ∧ (clip a b n).1 ≤ (clip a b n).2 ∧ (clip a b n).2 ≤ (clip a b n).1 + 1) := by
  constructor
  · intro h; unfold clip; rw [if_neg (by omega)]
  · intro h; unfold clip; rw [if_pos h]; refine ⟨?_, ?_, ?_⟩ <;> simp only <;> omega

example : clip 4 5 7 = (3, 4) := by decide

/-- A patch with 8 x 8 functions and interfaces on all sides but the east, no special corners. -/
def regPatch : Patch :=
  ⟨8, 8, 2, 2, fun s => s ≠ .east, false, false, false, false, 2, 2, 0, 0, 2, 2, 0, 0, false, fun _ _ => true⟩

example : Std regPatch.clipped ∧ wantAll regPatch.clipped 1 0 = .block .south .west 2 2 0 1 ∧
    wantAll regPatch.clipped 5 7 = .line .north 2 0 ∧ wantAll regPatch.clipped 7 4 = .free :=
  ⟨⟨⟨by decide, by decide, by decide, by decide, by simp [CornerOk, regPatch, Patch.clipped, clip], by simp [CornerOk, regPatch, Patch.clipped, clip],
    by simp [CornerOk, regPatch, Patch.clipped, clip], by simp [CornerOk, regPatch, Patch.clipped, clip]⟩, rfl, by decide, by decide, by decide, by decide⟩,
    by decide, by decide, by decide⟩

/-! ## One patch glued to itself -/

private theorem loop_skip {P Q : Patch} (ha : P.act = Q.act) {j0 j1 i0 i1 : ℕ} {f g : ℕ → ℕ → Option Call} {i j : ℕ} {c : Call} {S : Prop}
    (h : j0 ≤ j → j < j1 → i0 ≤ i → i < i1 → (S → f i j = g i j) ∧ (¬ S → f i j = none)) :
    ((i, j), c) ∈ loop P j0 j1 i0 i1 f ↔ ((i, j), c) ∈ loop Q j0 j1 i0 i1 g ∧ S := by
  rw [mem_loop, mem_loop, ha]
  constructor
  · rintro ⟨a, h1, h2, h3, h4, h5⟩
    obtain ⟨k1, k2⟩ := h h1 h2 h3 h4
    by_cases hS : S
    · exact ⟨⟨a, h1, h2, h3, h4, by rw [← k1 hS, h5]⟩, hS⟩
    · rw [k2 hS] at h5; cases h5
  · rintro ⟨⟨a, h1, h2, h3, h4, h5⟩, hS⟩
    exact ⟨a, h1, h2, h3, h4, by rw [(h h1 h2 h3 h4).1 hS, h5]⟩

private theorem or_skip {A A' B B' S : Prop} (h1 : A ↔ A' ∧ S) (h2 : B ↔ B' ∧ S) : A ∨ B ↔ (A' ∨ B') ∧ S := by tauto

private theorem periodic_mem (Q : Patch) (hs : Q.single = true) (c2 : Q.se = false) (c3 : Q.nw = false) (c4 : Q.ne = false) (hwe : Q.iface .west = Q.iface .east) (hsn : Q.iface .south = Q.iface .north)
    (n1 : 2 * Q.du ≤ Q.nu) (n2 : 2 * Q.dv ≤ Q.nv)
    (p1 : (Q.swu, Q.swv) = if Q.iface .south = true ∧ Q.iface .west = true then (Q.du, Q.dv) else (0, 0))
    (p2 : (Q.seu, Q.sev) = if Q.iface .south = true ∧ Q.iface .east = true then (Q.du, Q.dv) else (0, 0))
    (p3 : (Q.nwu, Q.nwv) = if Q.iface .north = true ∧ Q.iface .west = true then (Q.du, Q.dv) else (0, 0))
    (p4 : (Q.neu, Q.nev) = if Q.iface .north = true ∧ Q.iface .east = true then (Q.du, Q.dv) else (0, 0)) (i j : ℕ) (c : Call) :
    ((i, j), c) ∈ callsOf Q ↔ ((i, j), c) ∈ callsOf {Q with single := false} ∧ ¬ (Q.iface .east = true ∧ Q.nu - Q.du ≤ i) ∧ ¬ (Q.iface .north = true ∧ Q.nv - Q.dv ≤ j) := by
  rw [hwe, hsn] at p1
  rw [hsn] at p2
  rw [hwe] at p3
  generalize hS : (¬ (Q.iface .east = true ∧ Q.nu - Q.du ≤ i) ∧ ¬ (Q.iface .north = true ∧ Q.nv - Q.dv ≤ j)) = S
  unfold callsOf
  simp only [List.mem_append, hs, c2, c3, c4, Bool.true_and, Bool.false_and, hwe, hsn]
  cases hE : Q.iface .east <;> cases hN : Q.iface .north <;> simp only [hE, hN, and_self, if_true, if_false, Bool.false_eq_true, and_false, false_and, Prod.mk.injEq] at p1 p2 p3 p4 <;>
    obtain ⟨a1, a2⟩ := p1 <;> obtain ⟨a3, a4⟩ := p2 <;> obtain ⟨a5, a6⟩ := p3 <;> obtain ⟨a7, a8⟩ := p4 <;>
    simp only [hE, hN, a1, a2, a3, a4, a5, a6, a7, a8, if_true, if_false, Bool.false_eq_true, false_and, true_and, not_false_eq_true, and_true, or_false, false_or, or_true, true_or, and_false] at hS ⊢ <;>
    refine or_skip (or_skip (or_skip (or_skip (or_skip (or_skip (or_skip (or_skip ?_ ?_) ?_) ?_) ?_) ?_) ?_) ?_) ?_ <;>
    refine loop_skip rfl (fun h1 h2 h3 h4 => ⟨fun h => ?_, fun h => ?_⟩) <;> rw [← hS] at h <;>
    first
    | rfl
    | (exfalso; omega)
    | (exfalso; exact h trivial)
    | (split_ifs <;> rfl)

/-- C32: one patch that is glued to itself at opposite sides (a tube or a torus), without special corners, with distances as the code computes them. The functions next to the east side, if it is glued, and next to the north side, if it is glued, are
skipped: they are part of the functions made at the opposite side (`C40_locals`). For every other function exactly the right call is made. -/
theorem C32_periodic (P : Patch) (hs : P.single = true) (h : Std ({P with single := false} : Patch).clipped) (hd : P.du = P.dv)
    (hc : P.sw = false ∧ P.se = false ∧ P.nw = false ∧ P.ne = false) (hwe : P.iface .west = P.iface .east) (hsn : P.iface .south = P.iface .north) (i j : ℕ) (c : Call) :
    ((i, j), c) ∈ calls P ↔ (i < P.nu ∧ j < P.nv ∧ P.act i j ∧ c = wantAll P.clipped i j) ∧
      ¬ (P.iface .east = true ∧ P.nu - P.du ≤ i) ∧ ¬ (P.iface .north = true ∧ P.nv - P.dv ≤ j) := by
  have key := C32_calls_partial {P with single := false} h hd i j c
  have e : wantAll ({P with single := false} : Patch).clipped i j = wantAll P.clipped i j := rfl
  rw [e] at key
  change _ ↔ i < P.nu ∧ j < P.nv ∧ P.act i j ∧ c = wantAll P.clipped i j at key
  rw [← key]
  obtain ⟨c1, c2, c3, c4⟩ := hc
  exact periodic_mem P.clipped hs c2 c3 c4 hwe hsn h.nu_ge h.nv_ge (h.psw c1) (h.pse c2) (h.pnw c3) (h.pne c4) i j c

/-- A tube of 8 x 6 functions and a torus. -/
def tube : Patch := ⟨8, 6, 2, 2, fun s => s = .east || s = .west, false, false, false, false, 0, 0, 0, 0, 0, 0, 0, 0, true, fun _ _ => true⟩
def torus : Patch := ⟨8, 6, 2, 2, fun _ => true, false, false, false, false, 2, 2, 2, 2, 2, 2, 2, 2, true, fun _ _ => true⟩

example : Std ({tube with single := false} : Patch).clipped ∧ Std ({torus with single := false} : Patch).clipped ∧ (calls tube).length = 36 ∧ (calls torus).length = 24 ∧
    ((0, 3), .line .west 2 0) ∈ calls tube ∧ ((1, 0), .block .south .west 2 2 0 1) ∈ calls torus :=
  ⟨⟨⟨by decide, by decide, by decide, by decide, by simp [CornerOk, tube, Patch.clipped, clip], by simp [CornerOk, tube, Patch.clipped, clip],
    by simp [CornerOk, tube, Patch.clipped, clip], by simp [CornerOk, tube, Patch.clipped, clip]⟩, rfl, by decide, by decide, by decide, by decide⟩,
   ⟨⟨by decide, by decide, by decide, by decide, by simp [CornerOk, torus, Patch.clipped, clip], by simp [CornerOk, torus, Patch.clipped, clip],
    by simp [CornerOk, torus, Patch.clipped, clip], by simp [CornerOk, torus, Patch.clipped, clip]⟩, rfl, by decide, by decide, by decide, by decide⟩,
    by decide +kernel, by decide +kernel, by decide +kernel, by decide +kernel⟩

/-- C32 is violated for a patch glued to itself when a vertex is made C0 (`setC0`, which marks all corners at the vertex): on the tube whose lower corners are special the functions `(0,1)` and `(7,1)` at the two sides of the interface are both visited and both
smoothed over it with length 1; they are the same pair of functions, and both calls add it (`C40_tube_violated`). Away from the special corners only the function on one side is visited. -/
theorem C32_periodic_violated : let P : Patch := {tube with sw := true, se := true, swu := 2, swv := 2, seu := 2, sev := 2}
    ((0, 1), .line .west 1 0) ∈ calls P ∧ ((7, 1), .line .east 1 0) ∈ calls P ∧ ((0, 2), .line .west 2 0) ∈ calls P ∧ ∀ c, ((7, 2), c) ∉ calls P := by
  intro P
  refine ⟨by decide +kernel, by decide +kernel, by decide +kernel, ?_⟩
  intro c hc
  have : ∀ x ∈ calls P, x.1 ≠ (7, 2) := by decide +kernel
  exact this _ hc rfl

/-! ## C41 -/

/-- C41: with equal smoothing degrees every weight that is read exists.

The full claim drops the hypothesis on the degrees; it is false, see `C41_mixed_degrees_violated`. -/
theorem C41_bounds_partial (P : Patch) (h : Std P.clipped) (hd : P.du = P.dv) (x : (ℕ × ℕ) × Call) (hm : x ∈ calls P) : x.2.inBounds = true := by
  obtain ⟨⟨i, j⟩, c⟩ := x
  obtain ⟨hi, hj, -, rfl⟩ := (C32_calls_partial P h hd i j c).1 hm
  have hu0 : 0 < P.du := h.du_pos
  have hv0 : 0 < P.dv := h.dv_pos
  have hv : ∀ s a, nearV P.clipped j = some (s, a) → a < P.dv := by
    intro s a e
    unfold nearV at e
    split_ifs at e with e1 e2 <;> simp only [Option.some.injEq, Prod.mk.injEq] at e
    · rw [← e.2]; exact e1.2
    · rw [← e.2]; have := e2.2; simp only [Patch.clipped] at *; omega
  have hu : ∀ s a, nearU P.clipped i = some (s, a) → a < P.du := by
    intro s a e
    unfold nearU at e
    split_ifs at e with e1 e2 <;> simp only [Option.some.injEq, Prod.mk.injEq] at e
    · rw [← e.2]; exact e1.2
    · rw [← e.2]; have := e2.2; simp only [Patch.clipped] at *; omega
  have hw : ∀ n a, a < n → weightsExist n a = true := by
    intro n a e
    unfold weightsExist weightCount
    simp only [decide_eq_true_eq, e, if_true]
    split_ifs <;> omega
  have hwant : (want P.clipped i j).inBounds = true := by
    unfold want
    rcases e1 : nearV P.clipped j with _ | ⟨s, a⟩ <;> rcases e2 : nearU P.clipped i with _ | ⟨t, b⟩ <;> simp only
    · rfl
    · exact hw _ _ (hu _ _ e2)
    · exact hw _ _ (hv _ _ e1)
    · split_ifs
      · rfl
      · have w1 := hw _ _ (hu _ _ e2)
        have w2 := hw _ _ (hv _ _ e1)
        simp only [Call.inBounds, Bool.and_eq_true]
        exact ⟨w2, w1⟩
  have hc0 : ∀ s t a b, (wantC0 P.clipped s t a b).inBounds = true := by
    intro s t a b
    unfold wantC0
    split_ifs <;> rfl
  unfold wantAll
  split_ifs <;> first | exact hc0 _ _ _ _ | exact hwant

/-- A patch with 8 x 8 functions of degrees 2 and 3 with interfaces in the south and west, meeting at an ordinary vertex. -/
def mixedPatch : Patch :=
  ⟨8, 8, 2, 3, fun s => s = .south || s = .west, false, false, false, false, 2, 3, 0, 0, 0, 0, 0, 0, false, fun _ _ => true⟩

/-- C41 is violated by the unchanged code: with smoothing degrees 2 and 3 the block for the function `(0,2)` gets the length 2 over the south side instead of 3, only
two weights are computed, and the third is read. -/
theorem C41_mixed_degrees_violated : Std mixedPatch.clipped ∧ ((0, 2), .block .south .west 2 3 2 0) ∈ calls mixedPatch ∧
    (Call.block .south .west 2 3 2 0).inBounds = false ∧ wantAll mixedPatch.clipped 0 2 = .block .south .west 3 2 2 0 :=
  ⟨⟨⟨by decide, by decide, by decide, by decide, by simp [CornerOk, mixedPatch, Patch.clipped, clip], by simp [CornerOk, mixedPatch, Patch.clipped, clip],
    by simp [CornerOk, mixedPatch, Patch.clipped, clip], by simp [CornerOk, mixedPatch, Patch.clipped, clip]⟩, rfl, by decide, by decide, by decide,
    by decide⟩, by decide +kernel, by decide, by decide⟩

end Verif.Regions
