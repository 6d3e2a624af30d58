import Verif.Model.DofMap
import Mathlib.Logic.Relation
import Mathlib.Algebra.BigOperators.Group.Finset.Sigma
import Mathlib.Tactic.Linarith
import Mathlib.Algebra.BigOperators.Ring.Finset

/-! # Lemmas on the dof mapper -/

set_option autoImplicit false

open Finset

namespace Verif.DofMap

/-- `i` and `j` share their unknown. -/
def DM.conn (d : DM) (i j : ℕ) : Prop := i = j ∨ (d.tag i = d.tag j ∧ d.tag i ≠ 0)

/-- Ids are fresh. -/
structure DM.Good (d : DM) : Prop where
  ncp : 1 ≤ d.ncp
  cur : d.cur ≤ -1
  lt : ∀ g, d.tag g < d.ncp
  gt : ∀ g, d.cur < d.tag g

theorem good_setIdentity (np n : ℕ) : (setIdentity np n).Good := by
  constructor <;> intros <;> simp [setIdentity]

theorem good_init (np : ℕ) (sz : ℕ → ℕ) : (init np sz).Good := by
  constructor <;> intros <;> simp [init]

theorem good_eliminate {d : DM} (hd : d.Good) (g : ℕ) : (eliminate d g).Good := by
  obtain ⟨h1, h2, h3, h4⟩ := hd
  unfold eliminate
  split_ifs with a b
  · refine ⟨h1, by simp; omega, fun i => ?_, fun i => ?_⟩ <;> simp only [Function.update_apply] <;>
      have := h3 i <;> have := h4 i <;> split_ifs <;> omega
  · refine ⟨h1, by simp; omega, fun i => ?_, fun i => ?_⟩ <;> simp only <;>
      have := h3 i <;> have := h4 i <;> split_ifs <;> omega
  · exact ⟨h1, h2, h3, h4⟩

theorem conn_eliminate {d : DM} (hd : d.Good) (g i j : ℕ) : (eliminate d g).conn i j ↔ d.conn i j := by
  obtain ⟨h1, h2, h3, h4⟩ := hd
  unfold eliminate DM.conn
  have hi := h4 i
  have hj := h4 j
  split_ifs with a b
  · simp only [Function.update_apply]
    by_cases e1 : i = g <;> by_cases e2 : j = g
    · subst e1; subst e2; simp
    · subst e1; simp [e2, a, Ne.symm e2]; omega
    · subst e2; simp [e1, a]; omega
    · simp [e1, e2]
  · simp only
    by_cases e1 : d.tag i = d.tag g <;> by_cases e2 : d.tag j = d.tag g
    · simp [e1, e2]; omega
    · have : d.tag i ≠ d.tag j := fun h => e2 (h ▸ e1)
      simp [e1, e2, Ne.symm e2]; omega
    · have : d.tag i ≠ d.tag j := fun h => e1 (h ▸ e2)
      simp [e1, e2]
      omega
    · simp [e1, e2]
  · rfl

theorem neg_eliminate {d : DM} (hd : d.Good) (g i : ℕ) :
    (eliminate d g).tag i < 0 ↔ d.tag i < 0 ∨ d.conn i g := by
  obtain ⟨h1, h2, h3, h4⟩ := hd
  unfold eliminate DM.conn
  split_ifs with a b
  · simp only [Function.update_apply]
    by_cases e : i = g
    · simp [e]; omega
    · simp [e, a]
  · simp only
    by_cases e : d.tag i = d.tag g
    · simp [e]; omega
    · simp [e]
      rintro rfl; exact absurd rfl e
  · constructor
    · exact Or.inl
    · rintro (h | rfl | ⟨h, h'⟩)
      · exact h
      · omega
      · omega

theorem neg_conn {d : DM} {i j : ℕ} (h : d.conn i j) : d.tag i < 0 ↔ d.tag j < 0 := by
  rcases h with rfl | ⟨h, -⟩
  · rfl
  · rw [h]

theorem conn_symm {d : DM} {i j : ℕ} (h : d.conn i j) : d.conn j i := by
  rcases h with rfl | ⟨h, h'⟩
  · exact Or.inl rfl
  · exact Or.inr ⟨h.symm, h ▸ h'⟩

theorem conn_trans {d : DM} {i j k : ℕ} (h : d.conn i j) (h' : d.conn j k) : d.conn i k := by
  rcases h with rfl | ⟨h1, h2⟩
  · exact h'
  · rcases h' with rfl | ⟨h3, h4⟩
    · exact Or.inr ⟨h1, h2⟩
    · exact Or.inr ⟨h1.trans h3, h2⟩

/-! ## Lists of eliminations -/

/-- Eliminating flat numbers one after the other. -/
def elimAll (d : DM) (l : List ℕ) : DM := l.foldl eliminate d

@[simp] theorem eliminate_n (d : DM) (g : ℕ) : (eliminate d g).n = d.n := by unfold eliminate; split_ifs <;> rfl
@[simp] theorem eliminate_np (d : DM) (g : ℕ) : (eliminate d g).np = d.np := by unfold eliminate; split_ifs <;> rfl
@[simp] theorem eliminate_off (d : DM) (g : ℕ) : (eliminate d g).off = d.off := by unfold eliminate; split_ifs <;> rfl

@[simp] theorem elimAll_n (d : DM) (l : List ℕ) : (elimAll d l).n = d.n := by
  induction l generalizing d with
  | nil => rfl
  | cons a l ih => exact (ih _).trans (eliminate_n d a)
@[simp] theorem elimAll_np (d : DM) (l : List ℕ) : (elimAll d l).np = d.np := by
  induction l generalizing d with
  | nil => rfl
  | cons a l ih => exact (ih _).trans (eliminate_np d a)
@[simp] theorem elimAll_off (d : DM) (l : List ℕ) : (elimAll d l).off = d.off := by
  induction l generalizing d with
  | nil => rfl
  | cons a l ih => exact (ih _).trans (eliminate_off d a)

theorem elimAll_append (d : DM) (l l' : List ℕ) : elimAll d (l ++ l') = elimAll (elimAll d l) l' := List.foldl_append

theorem elimAll_spec {d : DM} (hd : d.Good) (l : List ℕ) :
    (elimAll d l).Good ∧ (∀ i j, (elimAll d l).conn i j ↔ d.conn i j) ∧
      ∀ i, (elimAll d l).tag i < 0 ↔ d.tag i < 0 ∨ ∃ g ∈ l, d.conn i g := by
  induction l generalizing d with
  | nil => exact ⟨hd, fun _ _ => Iff.rfl, fun i => by simp [elimAll]⟩
  | cons a l ih =>
    obtain ⟨h1, h2, h3⟩ := ih (good_eliminate hd a)
    refine ⟨h1, fun i j => (h2 i j).trans (conn_eliminate hd a i j), fun i => (h3 i).trans ?_⟩
    simp only [neg_eliminate hd, conn_eliminate hd, List.mem_cons, exists_eq_or_imp, or_assoc]

theorem markBoundary_eq (d : DM) (k : ℕ) (l : List ℕ) : markBoundary d k l = elimAll d (l.map (d.off k + ·)) := by
  unfold markBoundary elimAll
  rw [List.foldl_map]
  suffices h : ∀ e : DM, e.off = d.off →
      l.foldl (fun d i => eliminate d (d.off k + i)) e = l.foldl (fun x y => eliminate x (d.off k + y)) e from h d rfl
  induction l with
  | nil => intros; rfl
  | cons a l ih =>
    intro e he
    simp only [List.foldl_cons, he]
    exact ih _ (by simp [he])

theorem foldMark_eq (d : DM) (l : List (ℕ × ℕ)) (f : ℕ → ℕ → List ℕ) :
    l.foldl (fun d it => markBoundary d it.1 (f it.1 it.2)) d
      = elimAll d (l.flatMap fun it => (f it.1 it.2).map (d.off it.1 + ·)) := by
  suffices h : ∀ e : DM, e.off = d.off → l.foldl (fun d it => markBoundary d it.1 (f it.1 it.2)) e
      = elimAll e (l.flatMap fun it => (f it.1 it.2).map (d.off it.1 + ·)) from h d rfl
  induction l with
  | nil => intros; rfl
  | cons a l ih =>
    intro e he
    simp only [List.foldl_cons, List.flatMap_cons, elimAll_append]
    rw [ih _ (by simp [markBoundary_eq, he]), markBoundary_eq, he]

/-! ## Coupling -/

theorem good_couple {d : DM} (hd : d.Good) (g h : ℕ) : (couple d g h).Good := by
  obtain ⟨h1, h2, h3, h4⟩ := hd
  unfold couple
  split_ifs with a b c
  · refine ⟨by simp; omega, h2, fun i => ?_, fun i => ?_⟩ <;> simp only <;>
      have := h3 i <;> have := h4 i <;> split_ifs <;> omega
  · refine ⟨h1, h2, fun i => ?_, fun i => ?_⟩ <;> simp only [Function.update_apply] <;>
      have := h3 i <;> have := h4 i <;> have := h3 h <;> have := h4 h <;> split_ifs <;> omega
  · refine ⟨h1, h2, fun i => ?_, fun i => ?_⟩ <;> simp only [Function.update_apply] <;>
      have := h3 i <;> have := h4 i <;> have := h3 g <;> have := h4 g <;> split_ifs <;> omega
  · refine ⟨h1, h2, fun i => ?_, fun i => ?_⟩ <;> simp only <;>
      have := h3 i <;> have := h4 i <;> have := h3 g <;> have := h4 g <;> have := h3 h <;> have := h4 h <;>
      split_ifs <;> omega

theorem conn_couple {d : DM} (hd : d.Good) (g h i j : ℕ) :
    (couple d g h).conn i j ↔ d.conn i j ∨ (d.conn i g ∧ d.conn h j) ∨ (d.conn i h ∧ d.conn g j) := by
  obtain ⟨h1, h2, h3, h4⟩ := hd
  have hi := h3 i
  have hj := h3 j
  unfold couple DM.conn
  split_ifs with a b c
  · obtain ⟨a, a'⟩ := a
    simp only [a, a', ne_eq, not_true_eq_false, and_false, or_false]
    by_cases e1 : i = g
    · by_cases e2 : j = h
      · subst e1 e2; simp; omega
      · by_cases e3 : j = g
        · simp [e1, e3]
        · subst e1; simp [e2, e3, a, Ne.symm e3, Ne.symm e2]; omega
    · by_cases e2 : i = h
      · by_cases e3 : j = g
        · subst e2 e3; simp; omega
        · by_cases e4 : j = h
          · simp [e2, e4]
          · subst e2; simp [e1, e3, e4, a', Ne.symm e3, Ne.symm e4]; omega
      · by_cases e3 : j = g
        · subst e3; simp [e1, e2, a]; omega
        · by_cases e4 : j = h
          · subst e4; simp [e1, e2, a']; omega
          · simp [e1, e2, e3, e4]
  · simp only [Function.update_apply]
    have b' : d.tag h ≠ 0 := fun h => a ⟨b, h⟩
    have gh : g ≠ h := by rintro rfl; exact b' b
    by_cases e1 : i = g
    · by_cases e2 : j = g
      · simp [e1, e2]
      · subst e1; simp [e2, b, Ne.symm e2, b', gh]
        rintro rfl; simp_all
    · by_cases e2 : j = g
      · subst e2
        simp [e1, b, b', gh.symm]
        rintro rfl; simp_all
      · simp [e1, e2, b, Ne.symm e2]
  · simp only [Function.update_apply]
    have gh : g ≠ h := by rintro rfl; exact b c
    by_cases e1 : i = h
    · by_cases e2 : j = h
      · simp [e1, e2]
      · subst e1; simp [e2, c, Ne.symm e2, b, gh.symm]
        rintro rfl; simp_all
    · by_cases e2 : j = h
      · subst e2
        simp [e1, c, b, gh]
        rintro rfl; simp_all
      · simp [e1, e2, c, Ne.symm e2]
  · have key : ∀ x y z w : ℤ, x ≠ 0 → y ≠ 0 →
        (((if z = max x y then min x y else z) = (if w = max x y then min x y else w) ∧ (if z = max x y then min x y else z) ≠ 0) ↔
          ((z = w ∧ z ≠ 0) ∨ (z = x ∧ w = y) ∨ (z = y ∧ w = x))) := by
      intro x y z w hx hy
      split_ifs <;> omega
    simp only [key _ _ (d.tag i) (d.tag j) b c]
    constructor
    · rintro (h | h | ⟨h, h'⟩ | ⟨h, h'⟩)
      · exact Or.inl (Or.inl h)
      · exact Or.inl (Or.inr h)
      · exact Or.inr (Or.inl ⟨Or.inr ⟨h, h ▸ b⟩, Or.inr ⟨h'.symm, c⟩⟩)
      · exact Or.inr (Or.inr ⟨Or.inr ⟨h, h ▸ c⟩, Or.inr ⟨h'.symm, b⟩⟩)
    · rintro ((h | h) | ⟨(rfl | ⟨h, -⟩), (rfl | ⟨h', -⟩)⟩ | ⟨(rfl | ⟨h, -⟩), (rfl | ⟨h', -⟩)⟩)
      · exact Or.inl h
      · exact Or.inr (Or.inl h)
      · exact Or.inr (Or.inr (Or.inl ⟨rfl, rfl⟩))
      · exact Or.inr (Or.inr (Or.inl ⟨rfl, h'.symm⟩))
      · exact Or.inr (Or.inr (Or.inl ⟨h, rfl⟩))
      · exact Or.inr (Or.inr (Or.inl ⟨h, h'.symm⟩))
      · exact Or.inr (Or.inr (Or.inr ⟨rfl, rfl⟩))
      · exact Or.inr (Or.inr (Or.inr ⟨rfl, h'.symm⟩))
      · exact Or.inr (Or.inr (Or.inr ⟨h, rfl⟩))
      · exact Or.inr (Or.inr (Or.inr ⟨h, h'.symm⟩))

@[simp] theorem couple_n (d : DM) (g h : ℕ) : (couple d g h).n = d.n := by unfold couple; split_ifs <;> rfl
@[simp] theorem couple_np (d : DM) (g h : ℕ) : (couple d g h).np = d.np := by unfold couple; split_ifs <;> rfl
@[simp] theorem couple_off (d : DM) (g h : ℕ) : (couple d g h).off = d.off := by unfold couple; split_ifs <;> rfl

theorem nonneg_couple {d : DM} (hd : d.Good) (h0 : ∀ i, 0 ≤ d.tag i) (g h i : ℕ) : 0 ≤ (couple d g h).tag i := by
  have := h0 i; have := h0 g; have := h0 h; have := hd.ncp
  unfold couple
  split_ifs <;> simp only [Function.update_apply] <;> split_ifs <;> omega

theorem matchAll_spec {d : DM} (hd : d.Good) (h0 : ∀ i, 0 ≤ d.tag i) (ms : List (ℕ × ℕ)) :
    (matchAll d ms).Good ∧ (∀ i, 0 ≤ (matchAll d ms).tag i) ∧ (matchAll d ms).n = d.n ∧ (matchAll d ms).np = d.np ∧
      (matchAll d ms).off = d.off := by
  induction ms generalizing d with
  | nil => exact ⟨hd, h0, rfl, rfl, rfl⟩
  | cons a ms ih =>
    obtain ⟨x1, x2, x3, x4, x5⟩ := ih (good_couple hd a.1 a.2) (nonneg_couple hd h0 a.1 a.2)
    exact ⟨x1, x2, x3.trans (by simp), x4.trans (by simp), x5.trans (by simp)⟩

theorem conn_matchAll {d : DM} (hd : d.Good) (R : ℕ → ℕ → Prop) (hR : ∀ i j, d.conn i j ↔ Relation.EqvGen R i j)
    (ms : List (ℕ × ℕ)) (i j : ℕ) :
    (matchAll d ms).conn i j ↔ Relation.EqvGen (fun x y => R x y ∨ (x, y) ∈ ms) i j := by
  induction ms generalizing d R with
  | nil => simpa [matchAll] using hR i j
  | cons a ms ih =>
    have hstep : ∀ i j, (couple d a.1 a.2).conn i j ↔ Relation.EqvGen (fun x y => R x y ∨ (x, y) = a) i j := by
      intro i j
      have mono : ∀ x y, Relation.EqvGen R x y → Relation.EqvGen (fun x y => R x y ∨ (x, y) = a) x y :=
        fun x y h => Relation.EqvGen.mono (fun _ _ h => Or.inl h) _ _ h
      have ha : Relation.EqvGen (fun x y => R x y ∨ (x, y) = a) a.1 a.2 := .rel _ _ (Or.inr rfl)
      constructor
      · intro h
        rw [conn_couple hd, hR, hR, hR, hR, hR] at h
        rcases h with h | ⟨h, h'⟩ | ⟨h, h'⟩
        · exact mono _ _ h
        · exact .trans _ _ _ (mono _ _ h) (.trans _ _ _ ha (mono _ _ h'))
        · exact .trans _ _ _ (mono _ _ h) (.trans _ _ _ (.symm _ _ ha) (mono _ _ h'))
      · intro h
        induction h with
        | rel x y h =>
          rw [conn_couple hd]
          rcases h with h | h
          · exact Or.inl ((hR _ _).2 (.rel _ _ h))
          · subst h; exact Or.inr (Or.inl ⟨Or.inl rfl, Or.inl rfl⟩)
        | refl x => exact Or.inl rfl
        | symm x y _ ih => exact conn_symm ih
        | trans x y z _ _ ih1 ih2 => exact conn_trans ih1 ih2
    have := ih (good_couple hd a.1 a.2) _ hstep
    simp only [or_assoc] at this
    simp only [List.mem_cons]
    exact this

/-! ## Numbering -/

theorem tag_first (d : DM) (g : ℕ) : d.tag (d.first g) = d.tag g := Nat.find_spec (p := fun h => d.tag h = d.tag g) _

theorem first_le (d : DM) (g : ℕ) : d.first g ≤ g := Nat.find_min' _ rfl

theorem lead_first (d : DM) (g : ℕ) : d.lead (d.first g) := by
  intro h hh
  rw [tag_first]
  exact Nat.find_min (p := fun h => d.tag h = d.tag g) _ hh

theorem first_of_lead {d : DM} {g : ℕ} (h : d.lead g) : d.first g = g := by
  by_contra hne
  exact h _ (lt_of_le_of_ne (first_le d g) hne) (tag_first d g)

theorem first_congr {d : DM} {g h : ℕ} (e : d.tag g = d.tag h) : d.first g = d.first h := by
  unfold DM.first; simp only [e]

theorem count_lt (p : ℕ → Prop) [DecidablePred p] {a b : ℕ} (h : a < b) (ha : p a) :
    #{x ∈ range a | p x} < #{x ∈ range b | p x} := by
  apply Finset.card_lt_card
  refine ⟨fun x hx => ?_, fun hs => ?_⟩
  · simp only [mem_filter, mem_range] at hx ⊢; exact ⟨hx.1.trans h, hx.2⟩
  · have := hs (by simp [h, ha] : a ∈ filter p (range b)); simp at this

theorem count_inj (p : ℕ → Prop) [DecidablePred p] {a b : ℕ} (ha : p a) (hb : p b)
    (h : #{x ∈ range a | p x} = #{x ∈ range b | p x}) : a = b := by
  rcases lt_trichotomy a b with x | x | x
  · have := count_lt p x ha; omega
  · exact x
  · have := count_lt p x hb; omega

theorem count_onto (p : ℕ → Prop) [DecidablePred p] (n c : ℕ) (h : c < #{x ∈ range n | p x}) :
    ∃ a < n, p a ∧ #{x ∈ range a | p x} = c := by
  induction n with
  | zero => simp at h
  | succ n ih =>
    by_cases hp : p n
    · by_cases hc : c < #{x ∈ range n | p x}
      · obtain ⟨a, h1, h2, h3⟩ := ih hc; exact ⟨a, by omega, h2, h3⟩
      · refine ⟨n, by omega, hp, ?_⟩
        rw [range_add_one, filter_insert, if_pos hp, card_insert_of_notMem (by simp)] at h
        omega
    · rw [range_add_one, filter_insert, if_neg hp] at h
      obtain ⟨a, h1, h2, h3⟩ := ih h; exact ⟨a, by omega, h2, h3⟩

theorem index_free_lt {d : DM} {g : ℕ} (hg : g < d.n) (h : 0 ≤ d.tag g) : d.index g < d.freeSize := by
  unfold DM.index DM.freeSize
  split_ifs with a b
  · have := count_lt (fun h => d.tag h = 0) hg a
    unfold DM.nUncoupled; omega
  · have h1 := count_lt (fun h => 0 < d.tag h ∧ d.lead h) (a := d.first g) (b := d.n)
      (lt_of_le_of_lt (first_le d g) hg) ⟨by rw [tag_first]; exact b, lead_first d g⟩
    unfold DM.nCoupled; omega
  · omega

theorem index_fixed {d : DM} {g : ℕ} (h : d.tag g < 0) :
    d.index g = d.freeSize + #{h ∈ range (d.first g) | d.tag h < 0 ∧ d.lead h} := by
  unfold DM.index
  rw [if_neg (by omega), if_neg (by omega)]

theorem bindex_lt {d : DM} {g : ℕ} (hg : g < d.n) (h : d.tag g < 0) : d.bindex g < d.boundarySize := by
  unfold DM.bindex
  rw [index_fixed h]
  have h1 := count_lt (fun h => d.tag h < 0 ∧ d.lead h) (a := d.first g) (b := d.n)
      (lt_of_le_of_lt (first_le d g) hg) ⟨by rw [tag_first]; exact h, lead_first d g⟩
  unfold DM.boundarySize; omega

theorem index_of_bindex {d : DM} {g : ℕ} (h : d.tag g < 0) : d.index g = d.freeSize + d.bindex g := by
  unfold DM.bindex; rw [index_fixed h]; omega

theorem index_free_iff {d : DM} {g : ℕ} (hg : g < d.n) : d.index g < d.freeSize ↔ d.isFree g = true := by
  unfold DM.isFree
  simp only [decide_eq_true_eq]
  refine ⟨fun h => ?_, index_free_lt hg⟩
  by_contra hc
  rw [index_fixed (by omega)] at h; omega

theorem index_conn {d : DM} {g h : ℕ} (hc : d.conn g h) : d.index g = d.index h := by
  rcases hc with rfl | ⟨e, hne⟩
  · rfl
  · unfold DM.index
    rw [first_congr e, e]
    rw [e] at hne
    simp [hne]

theorem conn_of_index {d : DM} {g h : ℕ} (hg : g < d.n) (hh : h < d.n) (e : d.index g = d.index h) : d.conn g h := by
  by_cases f : 0 ≤ d.tag g
  · have f1 := index_free_lt hg f
    have f' : 0 ≤ d.tag h := by
      by_contra hc; rw [e, index_fixed (by omega)] at f1; omega
    unfold DM.index at e
    by_cases a : d.tag g = 0 <;> by_cases b : d.tag h = 0
    · simp only [a, b, if_true] at e
      exact Or.inl (count_inj (fun x => d.tag x = 0) a b e)
    · rw [if_pos a, if_neg b, if_pos (by omega)] at e
      have := count_lt (fun h => d.tag h = 0) hg a
      unfold DM.nUncoupled at e; omega
    · rw [if_neg a, if_pos b, if_pos (by omega)] at e
      have := count_lt (fun h => d.tag h = 0) hh b
      unfold DM.nUncoupled at e; omega
    · rw [if_neg a, if_neg b, if_pos (by omega), if_pos (by omega)] at e
      have := count_inj (fun h => 0 < d.tag h ∧ d.lead h) (a := d.first g) (b := d.first h)
        ⟨by rw [tag_first]; omega, lead_first d g⟩ ⟨by rw [tag_first]; omega, lead_first d h⟩ (by omega)
      right
      refine ⟨?_, a⟩
      rw [← tag_first d g, this, tag_first]
  · have f' : d.tag h < 0 := by
      by_contra hc
      have := index_free_lt hh (by omega)
      rw [← e, index_fixed (by omega)] at this; omega
    rw [index_fixed (by omega), index_fixed f'] at e
    have := count_inj (fun h => d.tag h < 0 ∧ d.lead h) (a := d.first g) (b := d.first h)
        ⟨by rw [tag_first]; omega, lead_first d g⟩ ⟨by rw [tag_first]; omega, lead_first d h⟩ (by omega)
    right
    refine ⟨?_, by omega⟩
    rw [← tag_first d g, this, tag_first]

theorem index_onto_free {d : DM} {r : ℕ} (h : r < d.freeSize) : ∃ g < d.n, d.isFree g = true ∧ d.index g = r := by
  unfold DM.freeSize at h
  by_cases c : r < d.nUncoupled
  · obtain ⟨g, h1, h2, h3⟩ := count_onto (fun h => d.tag h = 0) _ _ c
    refine ⟨g, h1, by simp [DM.isFree, h2], ?_⟩
    unfold DM.index; rw [if_pos h2]; exact h3
  · obtain ⟨g, h1, h2, h3⟩ := count_onto (fun h => 0 < d.tag h ∧ d.lead h) d.n (r - d.nUncoupled) (by unfold DM.nCoupled at h; omega)
    refine ⟨g, h1, by simp [DM.isFree]; omega, ?_⟩
    unfold DM.index; rw [if_neg (by omega), if_pos h2.1, first_of_lead h2.2]
    omega

theorem bindex_onto {d : DM} {r : ℕ} (h : r < d.boundarySize) : ∃ g < d.n, d.isFree g = false ∧ d.bindex g = r := by
  obtain ⟨g, h1, h2, h3⟩ := count_onto (fun h => d.tag h < 0 ∧ d.lead h) d.n r h
  refine ⟨g, h1, by simp [DM.isFree]; omega, ?_⟩
  unfold DM.bindex; rw [index_fixed h2.1, first_of_lead h2.2]
  omega

/-! ## The assembled system -/

theorem solves_iff (d : DM) (a : ℕ → ℕ → ℝ) (l x : ℕ → ℝ) :
    d.Solves a l (fun _ => 0) x ↔ ∀ g < d.n, d.isFree g = true →
      ∑ k ∈ range d.n with d.index k = d.index g, ∑ h ∈ range d.n with d.isFree h = true, a k h * x (d.index h)
        = ∑ k ∈ range d.n with d.index k = d.index g, l k := by
  have hrow : ∀ g < d.n, d.isFree g = true →
      (∑ c ∈ range d.freeSize, d.matrix a (d.index g) c * x c
        = ∑ k ∈ range d.n with d.index k = d.index g, ∑ h ∈ range d.n with d.isFree h = true, a k h * x (d.index h)) ∧
      d.rhs a l (fun _ => 0) (d.index g) = ∑ k ∈ range d.n with d.index k = d.index g, l k := by
    intro g hg hf
    have hk : ∀ k ∈ range d.n, d.index k = d.index g → d.isFree k = true := by
      intro k hk e
      rw [← index_free_iff (by simpa using hk), e]
      exact (index_free_iff hg).2 hf
    constructor
    · unfold DM.matrix
      simp only [Finset.sum_mul]
      rw [Finset.sum_comm, Finset.sum_filter]
      apply Finset.sum_congr rfl
      intro k hkn
      rw [Finset.sum_comm]
      by_cases e : d.index k = d.index g
      · rw [if_pos e, Finset.sum_filter]
        apply Finset.sum_congr rfl
        intro h hh
        by_cases fh : d.isFree h = true
        · rw [if_pos fh]
          rw [Finset.sum_eq_single (d.index h)]
          · simp [fh, e, hk k hkn e]
          · intro c _ hc
            simp [Ne.symm hc]
          · intro hc
            exact absurd (mem_range.2 ((index_free_iff (by simpa using hh)).2 fh)) hc
        · simp [fh]
      · simp [e]
    · unfold DM.rhs
      rw [Finset.sum_filter]
      apply Finset.sum_congr rfl
      intro k hkn
      by_cases e : d.index k = d.index g
      · simp [e, hk k hkn e]
      · simp [e]
  constructor
  · intro hs g hg hf
    have := hs (d.index g) ((index_free_iff hg).2 hf)
    rwa [(hrow g hg hf).1, (hrow g hg hf).2] at this
  · intro hs r hr
    obtain ⟨g, hg, hf, rfl⟩ := index_onto_free hr
    rw [(hrow g hg hf).1, (hrow g hg hf).2]
    exact hs g hg hf

/-! ## Writes of equal values -/

theorem foldl_update {α : Type} (l : List α) (pos : α → ℕ) (val : α → ℝ) (f : ℕ → ℝ) (r : ℕ) (v : ℝ)
    (hv : ∀ e ∈ l, pos e = r → val e = v) :
    l.foldl (fun f e => Function.update f (pos e) (val e)) f r = if ∃ e ∈ l, pos e = r then v else f r := by
  induction l generalizing f with
  | nil => simp
  | cons a l ih =>
    rw [List.foldl_cons, ih _ (fun e he => hv e (List.mem_cons_of_mem _ he))]
    by_cases h : ∃ e ∈ l, pos e = r
    · rw [if_pos h, if_pos (by obtain ⟨e, h1, h2⟩ := h; exact ⟨e, List.mem_cons_of_mem _ h1, h2⟩)]
    · rw [if_neg h]
      by_cases ha : pos a = r
      · rw [if_pos ⟨a, List.mem_cons_self, ha⟩, ← ha, Function.update_self]
        exact hv a List.mem_cons_self ha
      · rw [Function.update_of_ne (Ne.symm ha), if_neg]
        rintro ⟨e, he, hp⟩
        rcases List.mem_cons.1 he with rfl | he
        · exact ha hp
        · exact h ⟨e, he, hp⟩

end Verif.DofMap
