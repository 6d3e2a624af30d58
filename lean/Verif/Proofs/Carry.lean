import Verif.Model.Carry
import Verif.Proofs.Insertion
import Verif.Props.Boehm
import Verif.Props.Repair
import Verif.Props.Index
import Mathlib.Data.List.GetD
import Mathlib.Data.Rat.Cast.Order
import Mathlib.Data.Real.Basic
/-! # Insertion of lists of knots into splines -/
set_option autoImplicit false
namespace Verif.Carry
open Polynomial Finset
open Boehm (insertKnot insertCoefs knotAt ratio Joint kn knotAt_mono knotAt_lt kn_lo kn_mid kn_hi GIns Part)
open Repair (Clamped)
open _root_.Verif.BSpline (bs)

/-! ### Elements -/

/-- The knots as real numbers. -/
def reals (L : List ℚ) : List ℝ := L.map (Rat.cast : ℚ → ℝ)

/-- The number of the element that contains the parameter: `t ℓ ≤ x < t (ℓ+1)`; the last knot belongs to the last element that is not empty. -/
noncomputable def elem (L : List ℝ) (x : ℝ) : ℕ := if x < L.getLastD 0 then L.countP (fun t => decide (t ≤ x)) - 1 else L.countP (fun t => decide (t < L.getLastD 0)) - 1

theorem countP_sorted {L : List ℝ} (hs : L.Pairwise (· ≤ ·)) (P : ℝ → Bool) (hP : ∀ a b, a ≤ b → P b = true → P a = true) (i : ℕ) (h : i < L.length) : P L[i] = true ↔ i < L.countP P := by
  induction L generalizing i with
  | nil => simp at h
  | cons a L ih =>
    rw [List.pairwise_cons] at hs
    by_cases c : P a = true
    · rw [List.countP_cons_of_pos c]
      cases i with
      | zero => simp [c]
      | succ i => simpa using ih hs.2 i (by simpa using h)
    · have z : ∀ b ∈ L, ¬ P b = true := fun b hb hb' => c (hP a b (hs.1 b hb) hb')
      rw [List.countP_cons_of_neg c, List.countP_eq_zero.2 z]
      cases i with
      | zero => simpa using c
      | succ i => simpa using z _ (List.getElem_mem _)

/-- Real knots of an interval with ends of multiplicity `p + 1`. -/
structure RKnots (p : ℕ) (a b : ℝ) (L : List ℝ) : Prop where
  sorted : L.Pairwise (· ≤ ·)
  lt : a < b
  lo : L.count a = p + 1
  hi : L.count b = p + 1
  range : ∀ x ∈ L, a ≤ x ∧ x ≤ b

theorem RKnots.last {p : ℕ} {a b : ℝ} {L : List ℝ} (h : RKnots p a b L) : L.getLastD 0 = b := by
  have hb : b ∈ L := List.count_pos_iff.1 (by rw [h.hi]; omega)
  have hne : L ≠ [] := List.ne_nil_of_mem hb
  rw [List.getLastD_eq_getLast?, List.getLast?_eq_getLast_of_ne_nil hne, Option.getD_some]
  apply le_antisymm (h.range _ (List.getLast_mem hne)).2
  obtain ⟨i, hi, e⟩ := List.getElem_of_mem hb
  rw [List.getLast_eq_getElem]
  have := List.pairwise_iff_getElem.1 h.sorted i (L.length - 1) hi (by omega)
  rcases Nat.eq_or_lt_of_le (show i ≤ L.length - 1 by omega) with c | c
  · subst c; exact e.ge
  · rw [← e]; exact this c

private theorem down_le (x a b : ℝ) (h : a ≤ b) (hb : decide (b ≤ x) = true) : decide (a ≤ x) = true := decide_eq_true (h.trans (of_decide_eq_true hb))
private theorem down_lt (x a b : ℝ) (h : a ≤ b) (hb : decide (b < x) = true) : decide (a < x) = true := decide_eq_true (h.trans_lt (of_decide_eq_true hb))

/-- The element is not empty. -/
theorem RKnots.elem_lt {p : ℕ} {a b : ℝ} {L : List ℝ} (h : RKnots p a b L) {x : ℝ} (hx : a ≤ x) : knotAt L (elem L x) < knotAt L (elem L x + 1) := by
  have key : ∀ P : ℝ → Bool, (∀ c d, c ≤ d → P d = true → P c = true) → P a = true → P b = false → knotAt L (L.countP P - 1) < knotAt L (L.countP P - 1 + 1) := by
    intro P hP ha hb
    have ma : a ∈ L := List.count_pos_iff.1 (by rw [h.lo]; omega)
    have mb : b ∈ L := List.count_pos_iff.1 (by rw [h.hi]; omega)
    have c0 : 0 < L.countP P := List.countP_pos_iff.2 ⟨a, ma, ha⟩
    have c1 : L.countP P < L.length := by
      refine lt_of_le_of_ne List.countP_le_length fun e => ?_
      have := List.countP_eq_length.1 e b mb
      rw [hb] at this; cases this
    rw [knotAt_lt (by omega), knotAt_lt (by omega)]
    have e1 := (countP_sorted h.sorted P hP (L.countP P - 1) (by omega)).2 (by omega)
    have e2 := mt (countP_sorted h.sorted P hP (L.countP P - 1 + 1) (by omega)).1 (by omega)
    by_contra hc
    exact e2 (hP _ _ (not_lt.1 hc) e1)
  unfold elem
  rw [h.last]
  split_ifs with c
  · exact key _ (down_le x) (decide_eq_true hx) (decide_eq_false (not_le.2 c))
  · exact key _ (down_lt b) (decide_eq_true h.lt) (decide_eq_false (lt_irrefl b))

/-! ### One knot -/

theorem gins {I J : List ℝ} {s : ℝ} (h : Joint I J s) (m : ℕ) : GIns (knotAt (kn I J s m)) (knotAt (kn I J s (m + 1))) s (I.length + m - 1) := by
  have hI := List.length_pos_iff.2 h.ni
  refine ⟨knotAt_mono (h.sorted m), ?_, h.hi_gt (by omega), fun i hi => ?_, ?_, fun i hi => ?_⟩
  · rcases Nat.eq_zero_or_pos m with c | c
    · exact (h.lo_lt (by omega)).le
    · exact (kn_mid (by omega) (by omega)).le
  · by_cases c : i < I.length
    · rw [kn_lo c, kn_lo c]
    · rw [kn_mid (by omega) (by omega), kn_mid (by omega) (by omega)]
  · exact kn_mid (by omega) (by omega)
  · obtain ⟨e, rfl⟩ : ∃ e, i = I.length + m + e := ⟨i - (I.length + m), by omega⟩
    rw [show I.length + m + e + 1 = I.length + (m + 1) + e by omega, kn_hi h.nj, kn_hi h.nj]

/-- Sorted knots cut at a parameter. -/
theorem cut {L : List ℝ} (hs : L.Pairwise (· ≤ ·)) (s : ℝ) : L = kn (L.filter (· < s)) (L.filter (s < ·)) s (L.count s) := by
  induction L with
  | nil => simp [kn]
  | cons a L ih =>
    rw [List.pairwise_cons] at hs
    have ih := ih hs.2
    rcases lt_trichotomy a s with c | c | c
    · rw [List.filter_cons_of_pos (by simpa using c), List.filter_cons_of_neg (by simpa using c.le), List.count_cons_of_ne c.ne]
      conv_lhs => rw [ih]
      simp [kn]
    · subst c
      have e : L.filter (· < a) = [] := List.filter_eq_nil_iff.2 fun x hx => by simpa using hs.1 x hx
      rw [List.filter_cons_of_neg (by simp), List.filter_cons_of_neg (by simp), List.count_cons_self, e]
      conv_lhs => rw [ih, e]
      simp [kn, List.replicate_succ]
    · have e : L.filter (· < s) = [] := List.filter_eq_nil_iff.2 fun x hx => by simpa using (c.trans_le (hs.1 x hx)).le
      have e2 : L.filter (s < ·) = L := List.filter_eq_self.2 fun x hx => by simpa using c.trans_le (hs.1 x hx)
      have e3 : L.count s = 0 := List.count_eq_zero.2 fun h => absurd (hs.1 s h) (not_le.2 c)
      rw [List.filter_cons_of_neg (by simpa using c.le), List.filter_cons_of_pos (by simpa using c), List.count_cons_of_ne c.ne', e, e2, e3]
      simp [kn]

theorem RKnots.joint {p : ℕ} {a b : ℝ} {L : List ℝ} (h : RKnots p a b L) {s : ℝ} (h1 : a < s) (h2 : s < b) : Joint (L.filter (· < s)) (L.filter (s < ·)) s := by
  have ma : a ∈ L := List.count_pos_iff.1 (by rw [h.lo]; omega)
  have mb : b ∈ L := List.count_pos_iff.1 (by rw [h.hi]; omega)
  exact ⟨h.sorted.filter _, h.sorted.filter _, fun x hx => by simpa using (List.mem_filter.1 hx).2, fun x hx => by simpa using (List.mem_filter.1 hx).2,
    List.ne_nil_of_mem (List.mem_filter.2 ⟨ma, by simpa using h1⟩), List.ne_nil_of_mem (List.mem_filter.2 ⟨mb, by simpa using h2⟩)⟩

theorem insertKnot_perm {K : Type} [LinearOrder K] [Field K] (L : List K) (s : K) : (insertKnot L s).Perm (s :: L) := by
  unfold insertKnot
  refine (List.perm_middle).trans ?_
  rw [List.takeWhile_append_dropWhile]

theorem RKnots.insert {p : ℕ} {a b : ℝ} {L : List ℝ} (h : RKnots p a b L) {s : ℝ} (h1 : a < s) (h2 : s < b) : RKnots p a b (insertKnot L s) := by
  have hp := insertKnot_perm L s
  refine ⟨?_, h.lt, ?_, ?_, ?_⟩
  · rw [cut h.sorted s, (h.joint h1 h2).insert]; exact (h.joint h1 h2).sorted _
  · rw [hp.count_eq, List.count_cons_of_ne h1.ne', h.lo]
  · rw [hp.count_eq, List.count_cons_of_ne h2.ne, h.hi]
  · intro x hx
    rcases List.mem_cons.1 (hp.mem_iff.1 hx) with c | c
    · subst c; exact ⟨h1.le, h2.le⟩
    · exact h.range x c

/-- A spline of degree `p` with the given knots and coefficients. -/
noncomputable def curve (p : ℕ) (L : List ℝ) (c : ℕ → ℝ) (x : ℝ) : ℝ := ∑ i ∈ range (L.length - (p + 1)), c i * (bs (knotAt L) (elem L x) p i).eval x

theorem RKnots.length {p : ℕ} {a b : ℝ} {L : List ℝ} (h : RKnots p a b L) : p + 1 ≤ L.length := h.hi ▸ List.count_le_length

theorem RKnots.curve_insert {p : ℕ} {a b : ℝ} {L : List ℝ} (h : RKnots p a b L) {s : ℝ} (h1 : a < s) (h2 : s < b) (c : ℕ → ℝ) {x : ℝ} (hx : a ≤ x) :
    curve p (insertKnot L s) (insertCoefs (knotAt L) p s c) x = curve p L c x := by
  have hj := h.joint h1 h2
  have hg := gins hj (L.count s)
  rw [← hj.insert, ← cut h.sorted s] at hg
  have hp := insertKnot_perm L s
  have h' := h.insert h1 h2
  set I := L.filter (· < s) with hI
  set J := L.filter (s < ·) with hJ
  have hlen : L.length = I.length + L.count s + J.length := by
    conv_lhs => rw [cut h.sorted s]
    simp [kn, hI, hJ, add_assoc]
  have hI0 := List.length_pos_iff.2 hj.ni
  have hJ1 : p + 1 ≤ J.length := by
    rw [← h.hi, hJ]
    have : (L.filter (s < ·)).count b = L.count b := List.count_filter (by simpa using h2)
    rw [← this]; exact List.count_le_length
  have cs : L.countP (fun t => decide (t ≤ s)) = I.length + L.count s := by
    conv_lhs => rw [cut h.sorted s]
    rw [kn, List.countP_append, List.countP_append, List.countP_eq_length.2, List.countP_eq_length.2, List.countP_eq_zero.2, List.length_replicate, add_zero]
    · intro y hy; simpa using hj.gt y hy
    · intro y hy; rw [List.eq_of_mem_replicate hy]; simp
    · intro y hy; simpa using (hj.lt y hy).le
  have hpart : Part (I.length + L.count s - 1) (elem L x) (elem (insertKnot L s) x) := by
    have pos : 0 < L.countP (fun t => decide (t ≤ x)) := List.countP_pos_iff.2 ⟨a, List.count_pos_iff.1 (by rw [h.lo]; omega), by simpa using hx⟩
    have pos' : 0 < L.countP (fun t => decide (t < b)) := List.countP_pos_iff.2 ⟨a, List.count_pos_iff.1 (by rw [h.lo]; omega), by simpa using h.lt⟩
    unfold elem
    rw [h.last, h'.last, hp.countP_eq, hp.countP_eq]
    split_ifs with c
    · by_cases cx : s ≤ x
      · right
        rw [List.countP_cons_of_pos (by simpa using cx)]
        have : L.countP (fun t => decide (t ≤ s)) ≤ L.countP (fun t => decide (t ≤ x)) := List.countP_mono_left fun y _ hy => by simp at hy ⊢; exact hy.trans cx
        omega
      · left
        rw [List.countP_cons_of_neg (by simpa using cx)]
        have : L.countP (fun t => decide (t ≤ x)) ≤ L.countP (fun t => decide (t ≤ s)) := List.countP_mono_left fun y _ hy => by simp at hy ⊢; exact hy.trans (not_le.1 cx).le
        omega
    · right
      rw [List.countP_cons_of_pos (by simpa using h2)]
      have : L.countP (fun t => decide (t ≤ s)) ≤ L.countP (fun t => decide (t < b)) := List.countP_mono_left fun y _ hy => by simp at hy ⊢; exact hy.trans_lt h2
      omega
  have := hg.sum hpart (h'.elem_lt hx) p (L.length - (p + 1)) (by omega) c
  have ev := congrArg (Polynomial.eval x) this
  simp only [eval_finsetSum, eval_mul, eval_C] at ev
  unfold curve
  rw [show (insertKnot L s).length - (p + 1) = L.length - (p + 1) + 1 by rw [hp.length_eq, List.length_cons]; have := h.length; omega]
  exact ev

/-! ### Lists of knots, rational numbers -/

theorem reals_insert (L : List ℚ) (s : ℚ) : reals (insertKnot L s) = insertKnot (reals L) (s : ℝ) := by
  unfold reals insertKnot
  rw [List.map_append, List.map_cons, List.takeWhile_map, List.dropWhile_map]
  have : ((fun t : ℝ => decide (t ≤ (s : ℝ))) ∘ (Rat.cast : ℚ → ℝ)) = fun q : ℚ => decide (q ≤ s) := by
    funext q; simp
  rw [this]

theorem reals_knotAt (L : List ℚ) (i : ℕ) : knotAt (reals L) i = ((knotAt L i : ℚ) : ℝ) := by
  unfold knotAt reals
  by_cases c : i < L.length
  · rw [List.getD_eq_getElem _ _ (by simpa using c), List.getD_eq_getElem _ _ c, List.getElem_map]
  · rw [List.getD_eq_default _ _ (by simpa using c), List.getD_eq_default _ _ (by simpa using c)]
    rcases L.eq_nil_or_concat with rfl | ⟨M, y, rfl⟩ <;> simp

theorem cast_insertCoefs (L : List ℚ) (p : ℕ) (s : ℚ) (c : ℕ → ℚ) (i : ℕ) :
    ((insertCoefs (knotAt L) p s c i : ℚ) : ℝ) = insertCoefs (knotAt (reals L)) p (s : ℝ) (fun i => (c i : ℝ)) i := by
  have r : ((ratio (knotAt L) p s i : ℚ) : ℝ) = ratio (knotAt (reals L)) p (s : ℝ) i := by
    simp only [ratio, reals_knotAt, Rat.cast_le]
    split_ifs <;> simp
  unfold insertCoefs
  push_cast
  rw [r]
  split_ifs <;> simp

/-- The knots after the insertion of a list of knots. -/
def newKnots (L ins : List ℚ) : List ℚ := ins.foldl insertKnot L

theorem newKnots_perm (ins L : List ℚ) : (newKnots L ins).Perm (L ++ ins) := by
  induction ins generalizing L with
  | nil => simp [newKnots]
  | cons s ins ih =>
    refine (ih (insertKnot L s)).trans ?_
    refine ((insertKnot_perm L s).append_right ins).trans ?_
    simpa using (List.perm_middle (a := s) (l₁ := L) (l₂ := ins)).symm

theorem clamped_reals {p : ℕ} {a b : ℚ} {L : List ℚ} (h : Clamped (p + 1) a b L) : RKnots p (a : ℝ) (b : ℝ) (reals L) := by
  have inj : Function.Injective (Rat.cast : ℚ → ℝ) := Rat.cast_injective
  refine ⟨?_, by exact_mod_cast h.lt, ?_, ?_, ?_⟩
  · exact List.Pairwise.map _ (fun a b h => by exact_mod_cast h) h.sorted
  · exact (List.count_map_of_injective L _ inj a).trans h.countLo
  · exact (List.count_map_of_injective L _ inj b).trans h.countHi
  · intro x hx
    obtain ⟨q, hq, rfl⟩ := List.mem_map.1 hx
    have := h.range q hq
    exact ⟨by exact_mod_cast this.1, by exact_mod_cast this.2⟩

theorem clamped_insert {k : ℕ} {a b : ℚ} {L : List ℚ} (h : Clamped k a b L) {s : ℚ} (h1 : a < s) (h2 : s < b) : Clamped k a b (insertKnot L s) := by
  have hp := insertKnot_perm L s
  refine ⟨?_, h.pos, h.lt, ?_, ?_, ?_⟩
  · obtain ⟨p, rfl⟩ : ∃ p, k = p + 1 := ⟨k - 1, by have := h.pos; omega⟩
    have := ((clamped_reals h).insert (s := (s : ℝ)) (by exact_mod_cast h1) (by exact_mod_cast h2)).sorted
    rw [← reals_insert, reals, List.pairwise_map] at this
    exact this.imp fun h => by exact_mod_cast h
  · rw [hp.count_eq, List.count_cons_of_ne h1.ne', h.countLo]
  · rw [hp.count_eq, List.count_cons_of_ne h2.ne, h.countHi]
  · intro x hx
    rcases List.mem_cons.1 (hp.mem_iff.1 hx) with c | c
    · subst c; exact ⟨h1.le, h2.le⟩
    · exact h.range x c

theorem clamped_newKnots {k : ℕ} {a b : ℚ} (ins : List ℚ) {L : List ℚ} (h : Clamped k a b L) (hi : ∀ s ∈ ins, a < s ∧ s < b) : Clamped k a b (newKnots L ins) := by
  induction ins generalizing L with
  | nil => exact h
  | cons s ins ih => exact ih (clamped_insert h (hi s (by simp)).1 (hi s (by simp)).2) fun x hx => hi x (by simp [hx])

theorem newKnots_eq {k : ℕ} {a b : ℚ} (ins : List ℚ) {L M : List ℚ} (h : Clamped k a b L) (hi : ∀ s ∈ ins, a < s ∧ s < b) (hM : M.Pairwise (· ≤ ·)) (hp : M.Perm (L ++ ins)) : newKnots L ins = M :=
  ((newKnots_perm ins L).trans hp.symm).eq_of_pairwise (fun _ _ _ _ h1 h2 => le_antisymm h1 h2) (clamped_newKnots ins h hi).sorted hM

/-- The curve of rational coefficients. -/
noncomputable def qcurve (p : ℕ) (L : List ℚ) (c : ℕ → ℚ) (x : ℝ) : ℝ := curve p (reals L) (fun i => (c i : ℝ)) x

theorem qcurve_insertAll {p : ℕ} {a b : ℚ} (ins : List ℚ) {L : List ℚ} (h : Clamped (p + 1) a b L) (hi : ∀ s ∈ ins, a < s ∧ s < b) (c : ℕ → ℚ) {x : ℝ} (hx : (a : ℝ) ≤ x) :
    qcurve p (newKnots L ins) (insertAll p ins L c) x = qcurve p L c x := by
  induction ins generalizing L c with
  | nil => rfl
  | cons s ins ih =>
    have hs := hi s (by simp)
    have := ih (clamped_insert h hs.1 hs.2) (fun x hx => hi x (by simp [hx])) (insertCoefs (knotAt L) p s c)
    refine this.trans ?_
    unfold qcurve
    rw [reals_insert]
    have e : (fun i => ((insertCoefs (knotAt L) p s c i : ℚ) : ℝ)) = insertCoefs (knotAt (reals L)) p (s : ℝ) (fun i => (c i : ℝ)) := funext fun i => cast_insertCoefs L p s c i
    rw [e]
    exact (clamped_reals h).curve_insert (by exact_mod_cast hs.1) (by exact_mod_cast hs.2) _ hx

end Verif.Carry
