import Verif.Model.AlmostC1
import Verif.Proofs.SmoothGen
import Mathlib.Data.List.Sort
/-! `gsAlmostC1`: selection of the lowest indices, eliminated functions, closed form of the matrix. -/
set_option autoImplicit false
set_option linter.unusedSectionVars false
set_option linter.unusedSimpArgs false
set_option linter.unusedVariables false
namespace Verif.AlmostC1
open Verif Smooth

variable {P : Type} [LinearOrder P]

/-! ## selection -/

theorem key_inj {T : Topo P} {a b : Dof P} (ha : valid T a) (hb : valid T b) (h : key T a = key T b) : a = b := by
  unfold key at h
  have h := toLex.injective h
  simp only [Prod.mk.injEq] at h
  obtain ⟨h1, h2⟩ := h
  obtain ⟨p, i, j⟩ := a
  obtain ⟨q, k, l⟩ := b
  simp only at h1 h2
  subst h1
  have hi : i < T.n0 p := ha.1
  have hk : k < T.n0 p := hb.1
  have e : i = k := by
    have e1 : (i + T.n0 p * j) % T.n0 p = i := by rw [Nat.add_mul_mod_self_left, Nat.mod_eq_of_lt hi]
    have e2 : (k + T.n0 p * l) % T.n0 p = k := by rw [Nat.add_mul_mod_self_left, Nat.mod_eq_of_lt hk]
    rw [← e1, h2, e2]
  subst e
  have hp : 0 < T.n0 p := by omega
  have : T.n0 p * j = T.n0 p * l := by omega
  rw [Nat.eq_of_mul_eq_mul_left hp this]

section sort
variable (T : Topo P)

instance : Std.Total (fun a b : Dof P => key T a ≤ key T b) := ⟨fun a b => le_total _ _⟩
instance : IsTrans (Dof P) (fun a b : Dof P => key T a ≤ key T b) := ⟨fun _ _ _ => le_trans⟩
instance : Std.Total (fun a b : Dof P => key T b ≤ key T a) := ⟨fun a b => le_total _ _⟩
instance : IsTrans (Dof P) (fun a b : Dof P => key T b ≤ key T a) := ⟨fun _ _ _ h1 h2 => le_trans h2 h1⟩

theorem sort_perm {l l' : List (Dof P)} (h : l.Perm l') (hv : ∀ d ∈ l, valid T d) :
    (l.insertionSort fun a b => key T a ≤ key T b) = (l'.insertionSort fun a b => key T a ≤ key T b) := by
  have p1 := List.perm_insertionSort (fun a b => key T a ≤ key T b) l
  have p2 := List.perm_insertionSort (fun a b => key T a ≤ key T b) l'
  refine List.Perm.eq_of_pairwise (le := fun a b => key T a ≤ key T b) ?_ (List.pairwise_insertionSort _ _) (List.pairwise_insertionSort _ _) (p1.trans (h.trans p2.symm))
  intro a b ha hb h1 h2
  exact key_inj (hv a (p1.subset ha)) (hv b (h.symm.subset (p2.subset hb))) (le_antisymm h1 h2)

theorem sort_down {l : List (Dof P)} (hv : ∀ d ∈ l, valid T d) :
    (l.insertionSort fun a b => key T b ≤ key T a) = (l.insertionSort fun a b => key T a ≤ key T b).reverse := by
  have p1 := List.perm_insertionSort (fun a b => key T b ≤ key T a) l
  have p2 := List.perm_insertionSort (fun a b => key T a ≤ key T b) l
  refine List.Perm.eq_of_pairwise (le := fun a b => key T b ≤ key T a) ?_ (List.pairwise_insertionSort _ _) ?_ (p1.trans (p2.symm.trans (List.reverse_perm _).symm))
  · intro a b ha hb h1 h2
    exact key_inj (hv a (p1.subset ha)) (hv b (p2.subset (by simpa using hb))) (le_antisymm h2 h1)
  · rw [List.pairwise_reverse]; exact List.pairwise_insertionSort _ _

theorem getLowest_perm {l l' : List (Dof P)} (h : l.Perm l') (hv : ∀ d ∈ l, valid T d) (n : ℕ) : getLowest T l n = getLowest T l' n := by
  unfold getLowest; rw [sort_perm T h hv]

theorem getLowest_sub {l : List (Dof P)} {n : ℕ} {d : Dof P} (h : d ∈ getLowest T l n) : d ∈ l :=
  (List.perm_insertionSort (fun a b => key T a ≤ key T b) l).subset (List.mem_of_mem_take h)

theorem getLowest_nodup {l : List (Dof P)} (h : l.Nodup) (n : ℕ) : (getLowest T l n).Nodup :=
  ((List.perm_insertionSort (fun a b => key T a ≤ key T b) l).nodup_iff.2 h).sublist (List.take_sublist _ _)

theorem getLowest_length {l : List (Dof P)} {n : ℕ} (h : n ≤ l.length) : (getLowest T l n).length = n := by
  unfold getLowest
  rw [List.length_take, (List.perm_insertionSort (fun a b => key T a ≤ key T b) l).length_eq]
  omega

/-- `_removeLowestIndices` leaves what `_getLowestIndices` does not select -/
theorem removeLowest_mem {l : List (Dof P)} (hl : l.Nodup) (hv : ∀ d ∈ l, valid T d) {n : ℕ} (h : n ≤ l.length) :
    ∃ r, removeLowest T l n = some r ∧ ∀ d, d ∈ r ↔ d ∈ l ∧ d ∉ getLowest T l n := by
  unfold removeLowest
  rw [if_pos h]
  refine ⟨_, rfl, ?_⟩
  intro d
  rw [sort_down T hv]
  unfold getLowest
  have p := List.perm_insertionSort (fun a b => key T a ≤ key T b) l
  generalize (l.insertionSort fun a b => key T a ≤ key T b) = s at p ⊢
  have hlen := p.length_eq
  have hs : s.Nodup := p.nodup_iff.2 hl
  rw [List.take_reverse, List.mem_reverse, show s.length - (l.length - n) = n by omega, ← p.mem_iff]
  constructor
  · intro hd
    refine ⟨List.mem_of_mem_drop hd, ?_⟩
    intro ht
    rw [← List.take_append_drop n s, List.nodup_append] at hs
    exact hs.2.2 d ht d hd rfl
  · rintro ⟨h1, h2⟩
    rw [← List.take_append_drop n s, List.mem_append] at h1
    exact h1.resolve_left h2

end sort

/-! ## the selected functions of a vertex -/

theorem indices0 (T : Topo P) (c : PC P) : indices T 0 c = [enc T (.cor c false false)] := by
  unfold indices
  rw [if_pos rfl, vert00 T c (uside_mem _), av_diag]

theorem indices1 (T : Topo P) (c : PC P) :
    indices T 1 c = (c.2.sides.filter fun s => isIface T c.1 s).map fun s => enc T (av c s true false) := by
  unfold indices
  rw [if_neg (by decide)]
  apply List.map_congr_left
  intro s hs
  rw [vert10 T c (List.mem_of_mem_filter hs)]

theorem all0 (T : Topo P) (c : PC P) : allIndices T 0 c = (T.cl c).map fun d => enc T (.cor d false false) := by
  unfold allIndices
  induction T.cl c with
  | nil => rfl
  | cons a l ih => rw [List.flatMap_cons, ih, indices0]; rfl

theorem mem_all1 (T : Topo P) (c : PC P) (x : Dof P) :
    x ∈ allIndices T 1 c ↔ ∃ d ∈ T.cl c, ∃ s ∈ d.2.sides, (T.nb (d.1, s)).isSome = true ∧ x = enc T (av d s true false) := by
  unfold allIndices
  simp only [indices1, List.mem_flatMap, List.mem_map, List.mem_filter, isIface]
  constructor
  · rintro ⟨d, hd, s, ⟨h1, h2⟩, rfl⟩; exact ⟨d, hd, s, h1, h2, rfl⟩
  · rintro ⟨d, hd, s, h1, h2, rfl⟩; exact ⟨d, hd, s, ⟨h1, h2⟩, rfl⟩

theorem av_inj {c d : PC P} {s t : Side} (hs : s ∈ c.2.sides) (ht : t ∈ d.2.sides) (h : av c s true false = av d t true false) : c = d ∧ s = t := by
  unfold av at h
  have hcd : c = d := by
    split_ifs at h <;> simp at h <;> exact h
  subst hcd
  refine ⟨rfl, sides_ne hs ht ?_⟩
  cases h1 : s.dir <;> cases h2 : t.dir <;> simp [h1, h2] at h ⊢

theorem sides_nodup (c : Corner) : c.sides.Nodup := by cases c <;> decide

theorem all0_nodup {T : Topo P} (ok : Ok T) (c : PC P) : (allIndices T 0 c).Nodup := by
  rw [all0]
  apply List.Nodup.map_on _ (ok.cl_nodup c)
  intro a _ b _ h
  have := enc_inj ok (x := ADof.cor a false false) (y := ADof.cor b false false) trivial trivial h
  simpa using this

theorem all1_nodup {T : Topo P} (ok : Ok T) (c : PC P) : (allIndices T 1 c).Nodup := by
  unfold allIndices
  rw [List.nodup_flatMap]
  constructor
  · intro d _
    rw [indices1]
    apply List.Nodup.map_on _ ((sides_nodup d.2).sublist List.filter_sublist)
    intro s hs t ht h
    exact (av_inj (List.mem_of_mem_filter hs) (List.mem_of_mem_filter ht) (enc_inj ok (av_valid ..) (av_valid ..) h)).2
  · apply (ok.cl_nodup c).imp
    intro a b hab
    simp only [Function.onFun, List.disjoint_left, indices1, List.mem_map]
    rintro x ⟨s, hs, rfl⟩ ⟨t, ht, h⟩
    exact hab (av_inj (List.mem_of_mem_filter ht) (List.mem_of_mem_filter hs) (enc_inj ok (av_valid ..) (av_valid ..) h)).1.symm

theorem all0_valid {T : Topo P} (ok : Ok T) (c : PC P) : ∀ d ∈ allIndices T 0 c, valid T d := by
  intro d hd
  rw [all0, List.mem_map] at hd
  obtain ⟨a, -, rfl⟩ := hd
  exact enc_valid ok trivial

theorem all1_valid {T : Topo P} (ok : Ok T) (c : PC P) : ∀ d ∈ allIndices T 1 c, valid T d := by
  intro d hd
  rw [mem_all1] at hd
  obtain ⟨a, -, s, -, -, rfl⟩ := hd
  exact enc_valid ok (av_valid ..)

theorem cl_perm {T : Topo P} (ok : Ok T) {c d : PC P} (h : d ∈ T.cl c) : (T.cl d).Perm (T.cl c) :=
  (List.perm_ext_iff_of_nodup (ok.cl_nodup d) (ok.cl_nodup c)).2 (ok.cl_same c d h)

theorem cl_symm {T : Topo P} (ok : Ok T) {c d : PC P} (h : d ∈ T.cl c) : c ∈ T.cl d := (ok.cl_same c d h c).2 (ok.cl_self c)

theorem all_perm {T : Topo P} (ok : Ok T) {c d : PC P} (h : d ∈ T.cl c) (k : ℕ) : (allIndices T k d).Perm (allIndices T k c) :=
  (cl_perm ok h).flatMap_right _

def low0 (T : Topo P) (c : PC P) : List (Dof P) := getLowest T (allIndices T 0 c) 3
def low1 (T : Topo P) (c : PC P) : List (Dof P) := getLowest T (allIndices T 1 c) 1

theorem low0_same {T : Topo P} (ok : Ok T) {c d : PC P} (h : d ∈ T.cl c) : low0 T d = low0 T c :=
  getLowest_perm T (all_perm ok h 0) (all0_valid ok d) 3
theorem low1_same {T : Topo P} (ok : Ok T) {c d : PC P} (h : d ∈ T.cl c) : low1 T d = low1 T c :=
  getLowest_perm T (all_perm ok h 1) (all1_valid ok d) 1

/-! ## eliminated functions, zero rows, weights -/

/-- three of the corner functions are kept for the triangle -/
def keep3 (T : Topo P) (c : PC P) : Bool :=
  (T.interior c && (T.cl c).length != 4) || (! T.interior c && decide (2 < (T.cl c).length) && ! T.c0 c)

/-- one of the functions on the interface is kept for the triangle -/
def keep1 (T : Topo P) (c : PC P) : Bool := ! T.interior c && (T.cl c).length == 2 && T.c0 c

def AE (T : Topo P) : ADof P → Bool
  | .cor c false false => (AElim T (.cor c false false) || keep3 T c) && ! (keep3 T c && decide (enc T (.cor c false false) ∈ low0 T c))
  | .cor c true false => AElim T (.cor c true false) && ! (keep1 T c && decide (enc T (.cor c true false) ∈ low1 T c))
  | .cor c false true => AElim T (.cor c false true) && ! (keep1 T c && decide (enc T (.cor c false true) ∈ low1 T c))
  | a => AElim T a

def AZ (T : Topo P) : ADof P → Bool
  | .cor c false false => keep3 T c && decide (enc T (.cor c false false) ∈ low0 T c)
  | .cor c true false => AElim T (.cor c true false) && keep1 T c && decide (enc T (.cor c true false) ∈ low1 T c)
  | .cor c false true => AElim T (.cor c false true) && keep1 T c && decide (enc T (.cor c false true) ∈ low1 T c)
  | _ => false

/-- the functions along the boundary next to the vertex -/
def bnd (T : Topo P) (c : PC P) : List (ADof P) :=
  (T.cl c).flatMap fun d => (d.2.sides.filter fun s => ! isIface T d.1 s).map fun s => av d s true false

/-- weights of the matrix before the step at special vertices -/
def FA (T : Topo P) (r : ADof P) : ADof P → ℚ
  | .cor c false false =>
    if T.interior c = false ∧ 2 < (T.cl c).length ∧ T.c0 c = false then ((bnd T c).map (ind r)).sum / 2 else cornW T c r
  | b => Wa T r b

theorem FA_eq (T : Topo P) (r b : ADof P) (h : ∀ c, b = .cor c false false → ¬ (T.interior c = false ∧ 2 < (T.cl c).length ∧ T.c0 c = false)) :
    FA T r b = Wa T r b := by
  cases b with
  | int p i j => rfl
  | sid s off m => rfl
  | cor c x y =>
    cases x <;> cases y <;> try rfl
    rw [FA, if_neg (h c rfl), Wa]

theorem mem_bnd {T : Topo P} {c : PC P} {a : ADof P} :
    a ∈ bnd T c ↔ ∃ d ∈ T.cl c, ∃ s ∈ d.2.sides, T.nb (d.1, s) = none ∧ a = av d s true false := by
  unfold bnd
  simp only [List.mem_flatMap, List.mem_map, List.mem_filter, isIface]
  constructor
  · rintro ⟨d, hd, s, ⟨h1, h2⟩, rfl⟩
    refine ⟨d, hd, s, h1, ?_, rfl⟩
    cases h : T.nb (d.1, s) <;> simp_all
  · rintro ⟨d, hd, s, h1, h2, rfl⟩
    exact ⟨d, hd, s, ⟨h1, by simp [h2]⟩, rfl⟩

theorem bnd_nodup {T : Topo P} (ok : Ok T) (c : PC P) : (bnd T c).Nodup := by
  unfold bnd
  rw [List.nodup_flatMap]
  constructor
  · intro d _
    apply List.Nodup.map_on _ ((sides_nodup d.2).sublist List.filter_sublist)
    intro s hs t ht h
    exact (av_inj (List.mem_of_mem_filter hs) (List.mem_of_mem_filter ht) h).2
  · apply (ok.cl_nodup c).imp
    intro a b hab
    simp only [Function.onFun, List.disjoint_left, List.mem_map]
    rintro x ⟨s, hs, rfl⟩ ⟨t, ht, h⟩
    exact hab (av_inj (List.mem_of_mem_filter ht) (List.mem_of_mem_filter hs) h).1.symm

theorem bnd_same {T : Topo P} (ok : Ok T) {c d : PC P} (h : d ∈ T.cl c) (a : ADof P) : a ∈ bnd T d ↔ a ∈ bnd T c := by
  rw [mem_bnd, mem_bnd]
  simp only [ok.cl_same c d h]

theorem sum_ind_list {l : List (ADof P)} (hn : l.Nodup) (r : ADof P) : (l.map (ind r)).sum = if r ∈ l then 1 else 0 := by
  induction l with
  | nil => simp
  | cons a l ih =>
    rw [List.nodup_cons] at hn
    rw [List.map_cons, List.sum_cons, ih hn.2]
    by_cases h : r = a
    · subst h
      simp [ind_self, hn.1]
    · rw [ind_ne h]; simp [h]

/-- the boundary functions of a vertex are two -/
theorem bnd_length {T : Topo P} (ok : Ok T) {c : PC P} (hi : T.interior c = false) : (bnd T c).length = 2 := by
  rw [← two_boundary ok hi, List.sum_toFinset _ (ok.cl_nodup c)]
  unfold bnd
  rw [List.length_flatMap]
  congr 1
  apply List.map_congr_left
  intro d _
  rw [List.length_map]
  unfold bsides hs Corner.sides isIface
  have hne : d.2.uside ≠ d.2.vside := by
    intro e; have := congrArg Side.dir e; rw [uside_dir, vside_dir] at this; cases this
  rw [Finset.filter_insert, Finset.filter_singleton]
  cases h1 : T.nb (d.1, d.2.uside) <;> cases h2 : T.nb (d.1, d.2.vside) <;>
    simp [cross_none, h1, h2, List.filter_cons, Finset.card_pair hne]

/-- a corner with two boundary sides is alone -/
theorem alone {T : Topo P} (ok : Ok T) {c : PC P} (h : ∀ s ∈ c.2.sides, T.nb (c.1, s) = none) : (T.cl c).length = 1 := by
  have hc : ∀ d, Relation.ReflTransGen (Step T) c d → d = c := by
    intro d hd
    induction hd with
    | refl => rfl
    | tail _ hs ih =>
      subst ih
      obtain ⟨s, h1, h2⟩ := hs
      rw [cross_none.2 (h s h1)] at h2; cases h2
  have hall : ∀ d ∈ T.cl c, d = c := fun d hd => hc d (ok.cl_conn c d hd)
  have hn := ok.cl_nodup c
  have hm := ok.cl_self c
  cases hl : T.cl c with
  | nil => rw [hl] at hm; simp at hm
  | cons a l =>
    cases l with
    | nil => rfl
    | cons b l =>
      rw [hl] at hall hn
      have h1 := hall a (by simp)
      have h2 := hall b (by simp)
      simp [h1, h2] at hn

theorem keep3_interior {T : Topo P} {c : PC P} (h : keep3 T c = true) : T.interior c = true ∨ T.interior c = false ∧ 2 < (T.cl c).length ∧ T.c0 c = false := by
  unfold keep3 at h
  cases hi : T.interior c <;> simp_all

theorem keep3_same {T : Topo P} (ok : Ok T) {c d : PC P} (h : d ∈ T.cl c) : keep3 T d = keep3 T c := by
  unfold keep3; rw [interior_same ok h, cl_len ok h, ok.c0_same c d h]
theorem keep1_same {T : Topo P} (ok : Ok T) {c d : PC P} (h : d ∈ T.cl c) : keep1 T d = keep1 T c := by
  unfold keep1; rw [interior_same ok h, cl_len ok h, ok.c0_same c d h]

theorem AElim_av {T : Topo P} {c : PC P} {s : Side} (hs : s ∈ c.2.sides) : AElim T (av c s true false) = (T.nb (c.1, s)).isSome := by
  simp only [Corner.sides, List.mem_cons, List.not_mem_nil, or_false] at hs
  rcases hs with rfl | rfl
  · simp [av, uside_dir, AElim]
  · simp [av, vside_dir, AElim]

theorem AE_av {T : Topo P} {c : PC P} {s : Side} (hs : s ∈ c.2.sides) :
    AE T (av c s true false) = ((T.nb (c.1, s)).isSome && ! (keep1 T c && decide (enc T (av c s true false) ∈ low1 T c))) := by
  simp only [Corner.sides, List.mem_cons, List.not_mem_nil, or_false] at hs
  rcases hs with rfl | rfl
  · simp [av, uside_dir, AElim, AE]
  · simp [av, vside_dir, AElim, AE]

theorem AZ_av {T : Topo P} {c : PC P} {s : Side} (hs : s ∈ c.2.sides) :
    AZ T (av c s true false) = ((T.nb (c.1, s)).isSome && keep1 T c && decide (enc T (av c s true false) ∈ low1 T c)) := by
  simp only [Corner.sides, List.mem_cons, List.not_mem_nil, or_false] at hs
  rcases hs with rfl | rfl
  · simp [av, uside_dir, AElim, AZ]
  · simp [av, vside_dir, AElim, AZ]

theorem cor_cases (c : PC P) (x y : Bool) : (ADof.cor c x y = .cor c true true) ∨ (ADof.cor c x y = .cor c false false) ∨
    ∃ s ∈ c.2.sides, ADof.cor c x y = av c s true false := by
  cases x <;> cases y
  · simp
  · right; right; exact ⟨c.2.uside, uside_mem _, by simp [av, uside_dir]⟩
  · right; right; exact ⟨c.2.vside, vside_mem _, by simp [av, vside_dir]⟩
  · simp

theorem av_cor (c : PC P) (s : Side) : ∃ x y, av c s true false = .cor c x y := by
  unfold av; split_ifs <;> exact ⟨_, _, rfl⟩

/-! ## the mapper -/

/-- interior vertices have at least three patches -/
def Val3 (T : Topo P) : Prop := ∀ c, T.interior c = true → 3 ≤ (T.cl c).length

theorem mem_elimRegular {T : Topo P} (c : PC P) (x : Dof P) :
    x ∈ elimRegular T c ↔ ∃ s ∈ c.2.sides, (T.nb (c.1, s)).isSome = true ∧ (x = enc T (.cor c false false) ∨ x = enc T (av c s true false)) := by
  unfold elimRegular
  rw [List.mem_flatMap]
  apply exists_congr
  intro s
  apply and_congr_right
  intro hs
  unfold isIface
  cases T.nb (c.1, s)
  · simp
  · simp [vert00 T c hs, vert10 T c hs, av_diag]

theorem mem_elimIrregular {T : Topo P} (c : PC P) (x : Dof P) :
    x ∈ elimIrregular T c ↔ ∃ s ∈ c.2.sides, (T.nb (c.1, s)).isSome = true ∧ x = enc T (av c s true false) := by
  unfold elimIrregular
  rw [List.mem_flatMap]
  apply exists_congr
  intro s
  apply and_congr_right
  intro hs
  unfold isIface
  cases T.nb (c.1, s)
  · simp
  · simp [vert10 T c hs]

/-- eliminated functions of a list of corners, by kind -/
theorem elim_split {T : Topo P} (x : Dof P) (S : PC P → Prop) :
    (∃ e a b, S e ∧ AE T (.cor e a b) = true ∧ x = enc T (.cor e a b)) ↔
      (∃ e, S e ∧ AE T (.cor e false false) = true ∧ x = enc T (.cor e false false)) ∨
      (∃ e, S e ∧ ∃ s ∈ e.2.sides, AE T (av e s true false) = true ∧ x = enc T (av e s true false)) := by
  constructor
  · rintro ⟨e, a, b, hs, h1, h2⟩
    rcases cor_cases e a b with h | h | ⟨s, hsm, h⟩
    · rw [h] at h1; simp [AE, AElim] at h1
    · rw [h] at h1 h2; exact Or.inl ⟨e, hs, h1, h2⟩
    · rw [h] at h1 h2; exact Or.inr ⟨e, hs, s, hsm, h1, h2⟩
  · rintro (⟨e, hs, h1, h2⟩ | ⟨e, hs, s, -, h1, h2⟩)
    · exact ⟨e, _, _, hs, h1, h2⟩
    · obtain ⟨a, b, h⟩ := av_cor e s
      rw [h] at h1 h2
      exact ⟨e, a, b, hs, h1, h2⟩

theorem rule_ok {T : Topo P} (ok : Ok T) (h3 : Val3 T) : RuleOk T (AE T) (vertElim T) := by
  intro c
  have hp := len_pos ok c
  simp only [elim_split]
  -- the three lowest corner functions
  have rem0 : 3 ≤ (T.cl c).length → ∃ r, removeLowest T (allIndices T 0 c) 3 = some r ∧
      ∀ d, d ∈ r ↔ ∃ e ∈ T.cl c, enc T (.cor e false false) ∉ low0 T c ∧ d = enc T (.cor e false false) := by
    intro h
    obtain ⟨r, h1, h2⟩ := removeLowest_mem T (all0_nodup ok c) (all0_valid ok c) (n := 3) (by rw [all0, List.length_map]; exact h)
    refine ⟨r, h1, ?_⟩
    intro d
    rw [h2, all0, List.mem_map]
    constructor
    · rintro ⟨⟨e, he, rfl⟩, h⟩; exact ⟨e, he, by unfold low0; rw [all0]; exact h, rfl⟩
    · rintro ⟨e, he, h, rfl⟩; exact ⟨⟨e, he, rfl⟩, by unfold low0 at h; rw [all0] at h; exact h⟩
  have in_cl : ∀ e, (e = c ∨ e ∈ T.cl c) ↔ e ∈ T.cl c := by
    intro e
    constructor
    · rintro (rfl | h)
      · exact ok.cl_self e
      · exact h
    · exact Or.inr
  -- both lists of the rules with three kept functions
  have both : keep3 T c = true → ∀ r : List (Dof P), (∀ d, d ∈ r ↔ ∃ e ∈ T.cl c, enc T (.cor e false false) ∉ low0 T c ∧ d = enc T (.cor e false false)) →
      ∀ d, (d ∈ allIndices T 1 c ∨ d ∈ r) ↔
        (∃ e, (e = c ∨ e ∈ T.cl c) ∧ AE T (.cor e false false) = true ∧ d = enc T (.cor e false false)) ∨
        (∃ e, (e = c ∨ e ∈ T.cl c) ∧ ∃ s ∈ e.2.sides, AE T (av e s true false) = true ∧ d = enc T (av e s true false)) := by
    intro hk r hr d
    rw [mem_all1, hr]
    simp only [in_cl]
    rw [or_comm]
    apply or_congr
    · apply exists_congr
      intro e
      apply and_congr_right
      intro he
      apply and_congr_left
      rintro rfl
      simp only [AE, keep3_same ok he, hk, low0_same ok he, Bool.or_true, Bool.true_and, Bool.not_eq_true', decide_eq_false_iff_not]
    · apply exists_congr
      intro e
      apply and_congr_right
      intro he
      apply exists_congr
      intro s
      apply and_congr_right
      intro hs
      apply and_congr_left
      rintro rfl
      have hk1 : keep1 T e = false := by
        rw [keep1_same ok he]
        unfold keep1
        rcases keep3_interior hk with h | ⟨-, h, -⟩
        · simp [h]
        · have : (T.cl c).length ≠ 2 := by omega
          simp [this]
      rw [AE_av hs, hk1]; simp
  -- local rules
  have local1 : keep3 T c = false → keep1 T c = false → ∀ d,
      ((AElim T (.cor c false false) = true ∧ d = enc T (.cor c false false)) ∨ ∃ s ∈ c.2.sides, (T.nb (c.1, s)).isSome = true ∧ d = enc T (av c s true false)) ↔
        (∃ e, (e = c ∨ e ∈ ([] : List (PC P))) ∧ AE T (.cor e false false) = true ∧ d = enc T (.cor e false false)) ∨
        (∃ e, (e = c ∨ e ∈ ([] : List (PC P))) ∧ ∃ s ∈ e.2.sides, AE T (av e s true false) = true ∧ d = enc T (av e s true false)) := by
    intro hk3 hk1 d
    simp only [List.not_mem_nil, or_false, exists_eq_left]
    apply or_congr
    · simp only [AE, hk3, Bool.or_false, Bool.false_and, Bool.not_false, Bool.and_true]
    · apply exists_congr
      intro s
      apply and_congr_right
      intro hs
      rw [AE_av hs, hk1]; simp
  have reg : ∀ x, (∃ s ∈ c.2.sides, (T.nb (c.1, s)).isSome = true) → (x ∈ elimRegular T c ↔
      (x = enc T (.cor c false false) ∨ ∃ s ∈ c.2.sides, (T.nb (c.1, s)).isSome = true ∧ x = enc T (av c s true false))) := by
    intro x hex
    rw [mem_elimRegular]
    constructor
    · rintro ⟨s, hs, h1, h | h⟩
      · exact Or.inl h
      · exact Or.inr ⟨s, hs, h1, h⟩
    · rintro (h | ⟨s, hs, h1, h⟩)
      · obtain ⟨s, hs, h1⟩ := hex
        exact ⟨s, hs, h1, Or.inl h⟩
      · exact ⟨s, hs, h1, Or.inr h⟩
  cases hi : T.interior c
  · by_cases h1 : (T.cl c).length = 1
    · refine ⟨[], [], by simp [vertElim, hi, h1], ?_⟩
      intro d
      rw [← local1 (by simp [keep3, hi, h1]) (by simp [keep1, h1])]
      simp only [List.not_mem_nil, false_iff, not_or, AElim, hi, h1, not_exists]
      refine ⟨by simp, ?_⟩
      rintro s ⟨hs, h, -⟩
      rw [cross_isSome, v1_boundary ok h1 hs] at h
      simp at h
    · by_cases h2 : (T.cl c).length = 2
      · cases hc : T.c0 c
        · refine ⟨elimRegular T c, [], by simp [vertElim, hi, h2, hc], ?_⟩
          intro d
          rw [← local1 (by simp [keep3, hi, h2]) (by simp [keep1, hc]), reg]
          · simp [AElim, hi, h2, hc]
          · rcases v2_side ok hi h2 with ⟨d, hd, -⟩ | ⟨d, hd, -⟩
            · exact ⟨_, uside_mem _, by rw [cross_isSome, hd]; rfl⟩
            · exact ⟨_, vside_mem _, by rw [cross_isSome, hd]; rfl⟩
        · have hk1 : keep1 T c = true := by simp [keep1, hi, h2, hc]
          have hk3 : keep3 T c = false := by simp [keep3, hi, h2]
          have hex : ∃ s ∈ c.2.sides, (T.nb (c.1, s)).isSome = true := by
            rcases v2_side ok hi h2 with ⟨d, hd, -⟩ | ⟨d, hd, -⟩
            · exact ⟨_, uside_mem _, by rw [cross_isSome, hd]; rfl⟩
            · exact ⟨_, vside_mem _, by rw [cross_isSome, hd]; rfl⟩
          have hlen : 1 ≤ (allIndices T 1 c).length := by
            obtain ⟨s, hs, h⟩ := hex
            exact List.length_pos_of_mem ((mem_all1 T c _).2 ⟨c, ok.cl_self c, s, hs, h, rfl⟩)
          obtain ⟨r, g1, g2⟩ := removeLowest_mem T (all1_nodup ok c) (all1_valid ok c) hlen
          refine ⟨r, T.cl c, ?_, ?_⟩
          · simp [vertElim, hi, h2, hc, g1]
          · intro d
            rw [g2, mem_all1]
            simp only [in_cl]
            constructor
            · rintro ⟨⟨e, he, s, hs, h, rfl⟩, hd⟩
              refine Or.inr ⟨e, he, s, hs, ?_, rfl⟩
              rw [AE_av hs, keep1_same ok he, hk1, low1_same ok he, h]
              simp only [Bool.true_and, Bool.not_eq_true', decide_eq_false_iff_not]
              exact hd
            · rintro (⟨e, he, h, rfl⟩ | ⟨e, he, s, hs, h, rfl⟩)
              · exfalso
                simp [AE, keep3_same ok he, hk3, AElim, interior_same ok he, hi, cl_len ok he, ok.c0_same c e he, hc] at h
              · rw [AE_av hs, keep1_same ok he, hk1, low1_same ok he] at h
                simp only [Bool.true_and, Bool.and_eq_true, Bool.not_eq_true', decide_eq_false_iff_not] at h
                exact ⟨⟨e, he, s, hs, h.1, rfl⟩, by simpa [low1] using h.2⟩
      · have hg : 2 < (T.cl c).length := by omega
        cases hc : T.c0 c
        · obtain ⟨r, g1, g2⟩ := rem0 (by omega)
          refine ⟨allIndices T 1 c ++ r, T.cl c, ?_, ?_⟩
          · simp [vertElim, hi, h1, h2, hg, hc, g1]
          · intro d
            rw [List.mem_append, both (by simp [keep3, hi, hg, hc]) r g2]
        · refine ⟨elimIrregular T c, [], by simp [vertElim, hi, h1, h2, hg, hc], ?_⟩
          intro d
          rw [← local1 (by simp [keep3, hi, hc]) (by simp [keep1, h2]), mem_elimIrregular]
          simp [AElim, hi, h2]
  · have hv := h3 c hi
    by_cases h4 : (T.cl c).length = 4
    · refine ⟨elimRegular T c, [], by simp [vertElim, hi, h4], ?_⟩
      intro d
      rw [← local1 (by simp [keep3, hi, h4]) (by simp [keep1, hi]), reg]
      · simp [AElim, hi]
      · exact ⟨_, uside_mem _, (ok.interior_iff c).1 hi c (ok.cl_self c) _ (uside_mem _)⟩
    · obtain ⟨r, g1, g2⟩ := rem0 hv
      refine ⟨r ++ allIndices T 1 c, T.cl c, ?_, ?_⟩
      · have : (T.cl c).length = 3 ∨ 4 < (T.cl c).length := by omega
        simp [vertElim, hi, h4, this, g1]
      · intro d
        rw [List.mem_append, or_comm, both (by simp [keep3, hi, h4]) r g2]

/-! ## the matrix -/

theorem smooth_eq {T : Topo P} (ok : Ok T) {c : PC P} (hv : 2 < (T.cl c).length) :
    ∃ l, smoothEntries T c = some l ∧ ∀ e, e ∈ l ↔ e = (enc T (.cor c true true), enc T (.cor c true true), 1) ∨
      (∃ s ∈ c.2.sides, ∃ d t, cross T c s = some d ∧ T.nb (c.1, s) = some (d.1, t) ∧ t ∈ d.2.sides ∧
        (e = (enc T (.cor c true true), enc T (av c s true false), 1 / 2) ∨ e = (enc T (.cor c true true), enc T (av d t true false), 1 / 2))) ∨
      (∃ s ∈ c.2.sides, T.nb (c.1, s) = none ∧ (e = (enc T (av c s true false), enc T (av c s true false), 1) ∨
        ∃ d ∈ T.cl c, e = (enc T (av c s true false), enc T (.cor d false false), 1 / 2))) := by
  have hb : ∀ x, x ∈ bdryRows T c ↔ ∃ s ∈ c.2.sides, T.nb (c.1, s) = none ∧ x = enc T (av c s true false) := by
    intro x
    unfold bdryRows
    simp only [List.mem_map, List.mem_filter, isIface]
    constructor
    · rintro ⟨s, ⟨h1, h2⟩, rfl⟩
      refine ⟨s, h1, ?_, vert10 T c h1⟩
      cases h : T.nb (c.1, s) <;> simp_all
    · rintro ⟨s, h1, h2, rfl⟩
      exact ⟨s, ⟨h1, by simp [h2]⟩, vert10 T c h1⟩
  have hlen : (bdryRows T c).length < 2 := by
    by_contra hcon
    have hle : (bdryRows T c).length ≤ 2 := by
      unfold bdryRows
      rw [List.length_map]
      exact le_trans (List.length_filter_le _ _) (by simp [Corner.sides])
    have : (c.2.sides.filter fun s => ! isIface T c.1 s).length = c.2.sides.length := by
      unfold bdryRows at hcon hle
      rw [List.length_map] at hcon hle
      have : c.2.sides.length = 2 := by simp [Corner.sides]
      omega
    rw [List.length_filter_eq_length_iff] at this
    have hal := alone ok (c := c) (by
      intro s hs
      have := this s hs
      unfold isIface at this
      cases h : T.nb (c.1, s) <;> simp_all)
    omega
  refine ⟨_, by unfold smoothEntries; rw [if_pos hlen], ?_⟩
  intro e
  have hside : (∃ s ∈ c.2.sides, e ∈ smoothSide T c s) ↔
      (∃ s ∈ c.2.sides, ∃ d t, cross T c s = some d ∧ T.nb (c.1, s) = some (d.1, t) ∧ t ∈ d.2.sides ∧
        (e = (enc T (.cor c true true), enc T (av c s true false), 1 / 2) ∨ e = (enc T (.cor c true true), enc T (av d t true false), 1 / 2))) := by
    apply exists_congr
    intro s
    apply and_congr_right
    intro hs
    rcases h : cross T c s with _ | d
    · unfold smoothSide
      rw [cross_none.1 h]
      simp
    · obtain ⟨t, g1, g2, -⟩ := cross_data h
      unfold smoothSide
      rw [g1, h]
      simp only [vert10 T c hs, vert11 T c (uside_mem _), av_diag, vert10 T d g2, List.mem_cons, List.not_mem_nil, or_false]
      constructor
      · intro he; exact ⟨d, t, rfl, rfl, g2, he⟩
      · rintro ⟨d', t', h1, h2, h3, he⟩
        cases h1
        simp only [Option.some.injEq, Prod.mk.injEq, true_and] at h2
        subst h2
        exact he
  simp only [List.mem_append, List.mem_flatMap, hside, vert11 T c (uside_mem _), av_diag, List.mem_cons, List.not_mem_nil, or_false, List.mem_map, or_assoc]
  apply or_congr_right
  apply or_congr_right
  have hhalf : ∀ x, x ∈ (if (bdryRows T c).length = 1 then
        (bdryRows T c).flatMap fun r => (T.cl c).map fun d => ((r, vert T d d.2.uside 0 0, 1 / 2) : Entry P) else []) ↔
      ∃ r ∈ bdryRows T c, ∃ d ∈ T.cl c, x = (r, enc T (.cor d false false), 1 / 2) := by
    intro x
    split_ifs with h1
    · simp only [List.mem_flatMap, List.mem_map]
      constructor
      · rintro ⟨r, hr, d, hd, rfl⟩; exact ⟨r, hr, d, hd, by rw [vert00 T d (uside_mem _), av_diag]⟩
      · rintro ⟨r, hr, d, hd, rfl⟩; exact ⟨r, hr, d, hd, by rw [vert00 T d (uside_mem _), av_diag]⟩
    · have h0 : bdryRows T c = [] := by
        apply List.eq_nil_of_length_eq_zero; omega
      rw [h0]; simp
  rw [hhalf]
  constructor
  · rintro (⟨x, hx, rfl⟩ | ⟨x, hx, d, hd, rfl⟩)
    · obtain ⟨s, h1, h2, rfl⟩ := (hb x).1 hx
      exact ⟨s, h1, h2, Or.inl rfl⟩
    · obtain ⟨s, h1, h2, rfl⟩ := (hb x).1 hx
      exact ⟨s, h1, h2, Or.inr ⟨d, hd, rfl⟩⟩
  · rintro ⟨s, h1, h2, rfl | ⟨d, hd, rfl⟩⟩
    · exact Or.inl ⟨_, (hb _).2 ⟨s, h1, h2, rfl⟩, rfl⟩
    · exact Or.inr ⟨_, (hb _).2 ⟨s, h1, h2, rfl⟩, d, hd, rfl⟩

/-- the entries of a vertex, compared with those of `gsDPatchBase` -/
theorem entries_same {T : Topo P} {c : PC P} (h : ¬ (T.interior c = false ∧ (T.cl c).length = 2 ∧ T.c0 c = true))
    (h' : ¬ (T.interior c = false ∧ 2 < (T.cl c).length ∧ T.c0 c = false)) : vertEntries T c = Smooth.vertEntries T c := by
  unfold vertEntries Smooth.vertEntries
  cases hi : T.interior c
  · simp only [hi, true_and] at h h'
    simp only [Bool.false_eq_true, if_false]
    split_ifs with g1 g2 g3 g4 g5 <;> first | rfl | (exfalso; simp_all)
  · simp

theorem entries_c0 {T : Topo P} {c : PC P} (hi : T.interior c = false) (h2 : (T.cl c).length = 2) (hc : T.c0 c = true) :
    vertEntries T c = some (irregularEntries T c) := by
  unfold vertEntries; simp [hi, h2, hc]

theorem entries_smooth {T : Topo P} {c : PC P} (hi : T.interior c = false) (h2 : 2 < (T.cl c).length) (hc : T.c0 c = false) :
    vertEntries T c = smoothEntries T c := by
  have g1 : (T.cl c).length ≠ 1 := by omega
  have g2 : (T.cl c).length ≠ 2 := by omega
  unfold vertEntries; simp [hi, g1, g2, h2, hc]

theorem mem_irregular {T : Topo P} (ok : Ok T) (c : PC P) (e : Entry P) :
    e ∈ irregularEntries T c ↔ e = (enc T (.cor c true true), enc T (.cor c true true), 1) ∨
      (∃ s ∈ c.2.sides, ∃ d t, cross T c s = some d ∧ T.nb (c.1, s) = some (d.1, t) ∧ t ∈ d.2.sides ∧
        (e = (enc T (.cor c true true), enc T (av c s true false), 1 / 2) ∨ e = (enc T (.cor c true true), enc T (av d t true false), 1 / 2))) ∨
      (∃ s ∈ c.2.sides, T.nb (c.1, s) = none ∧ e = (enc T (av c s true false), enc T (av c s true false), 1)) ∨
      e = (enc T (.cor c false false), enc T (.cor c false false), 1) := by
  rw [irregular_eq ok]
  simp only [List.mem_append, List.mem_cons, List.not_mem_nil, or_false, List.mem_flatMap, or_assoc]
  apply or_congr_right
  rw [← or_assoc]
  apply or_congr_left
  rw [← exists_or]
  apply exists_congr
  intro s
  rw [← and_or_left]
  apply and_congr_right
  intro hs
  rcases h : cross T c s with _ | d
  · simp [cross_none.1 h]
  · obtain ⟨t, g1, g2, -⟩ := cross_data h
    have hn : nbSide T c s = t := by unfold nbSide; rw [g1]; rfl
    simp only [List.mem_cons, List.not_mem_nil, or_false, hn, g1, Option.some.injEq, reduceCtorEq, false_and, or_false]
    constructor
    · intro he; exact ⟨d, t, rfl, rfl, g2, he⟩
    · rintro ⟨d', t', h1, h2, h3, he⟩
      subst h1
      simp only [Prod.mk.injEq, true_and] at h2
      subst h2
      exact he

theorem FA_half {T : Topo P} (ok : Ok T) {c : PC P} (hi : T.interior c = false) (h2 : 2 < (T.cl c).length) (hc : T.c0 c = false) (r : ADof P) :
    FA T r (.cor c false false) = if r ∈ bnd T c then 1 / 2 else 0 := by
  rw [FA, if_pos ⟨hi, h2, hc⟩, sum_ind_list (bnd_nodup ok c)]
  split_ifs <;> norm_num

theorem AE_corner {T : Topo P} {c : PC P} (hi : T.interior c = false) (h2 : T.c0 c = true ∨ (T.cl c).length = 1) :
    AE T (.cor c false false) = false ∧ AZ T (.cor c false false) = false := by
  have hk : keep3 T c = false := by
    unfold keep3
    rcases h2 with h | h <;> simp [hi, h]
  have : AElim T (.cor c false false) = false := by
    unfold AElim
    rcases h2 with h | h <;> simp [hi, h]
  simp [AE, AZ, hk, this]

theorem AE_bdry {T : Topo P} {c : PC P} {s : Side} (hs : s ∈ c.2.sides) (h : T.nb (c.1, s) = none) :
    AE T (av c s true false) = false ∧ AZ T (av c s true false) = false := by
  rw [AE_av hs, AZ_av hs, h]; simp

theorem not_keep {T : Topo P} (a : ADof P) (h1 : AE T a = false) (h2 : AZ T a = false) : AElim T a = false := by
  cases a with
  | int p i j => exact h1
  | sid s off m => exact h1
  | cor c x y =>
    cases x <;> cases y
    · simp only [AE, AZ] at h1 h2
      rw [h2] at h1
      simp at h1
      exact h1.1
    · simp only [AE, AZ] at h1 h2
      cases h : AElim T (.cor c false true)
      · rfl
      · rw [h] at h1 h2; simp at h1 h2; exact absurd h1.2 (h2 h1.1)
    · simp only [AE, AZ] at h1 h2
      cases h : AElim T (.cor c true false)
      · rfl
      · rw [h] at h1 h2; simp at h1 h2; exact absurd h1.2 (h2 h1.1)
    · rfl

theorem zero_diag {T : Topo P} (ok : Ok T) (a : ADof P) (h : AE T a = true ∨ AZ T a = true) : FA T a a = 0 := by
  by_cases hb : ∃ c, a = .cor c false false ∧ (T.interior c = false ∧ 2 < (T.cl c).length ∧ T.c0 c = false)
  · obtain ⟨c, rfl, hi, h2, hc⟩ := hb
    rw [FA_half ok hi h2 hc, if_neg]
    intro hm
    rw [mem_bnd] at hm
    obtain ⟨d, -, s, -, -, he⟩ := hm
    unfold av at he
    split_ifs at he <;> simp at he
  · rw [FA_eq T a a (fun c hc hn => hb ⟨c, hc, hn⟩), W_diag ok]
    have : AElim T a = true := by
      cases a with
      | int p i j => rcases h with h | h <;> simp [AE, AZ, AElim] at h
      | sid s off m =>
        rcases h with h | h
        · simpa [AE] using h
        · simp [AZ] at h
      | cor c x y =>
        cases x <;> cases y
        · by_cases hk : keep3 T c = true
          · rcases keep3_interior hk with hi | hn
            · simp [AElim, hi]
            · exact absurd ⟨c, rfl, hn⟩ hb
          · rcases h with h | h
            · simp only [AE, hk] at h; simpa using h
            · simp [AZ, hk] at h
        · rcases h with h | h <;> simp only [AE, AZ, Bool.and_eq_true] at h
          · exact h.1
          · exact h.1.1
        · rcases h with h | h <;> simp only [AE, AZ, Bool.and_eq_true] at h
          · exact h.1
          · exact h.1.1
        · rcases h with h | h <;> simp [AE, AZ, AElim] at h
    rw [if_pos this]

theorem side_goodF {T : Topo P} (ok : Ok T) {c : PC P} {s : Side} (hs : s ∈ c.2.sides) {d : PC P} {t : Side} (hd : cross T c s = some d)
    (ht : T.nb (c.1, s) = some (d.1, t)) : GoodF T (FA T) (enc T (.cor c true true), enc T (av c s true false), 1 / 2) ∧
      GoodF T (FA T) (enc T (.cor c true true), enc T (av d t true false), 1 / 2) := by
  have hne : ∀ (c : PC P) (s : Side) (x : PC P), av c s true false ≠ .cor x false false := by
    intro c s x; unfold av; split_ifs <;> simp
  constructor
  · refine goodF_mk trivial (av_valid ..) ?_
    rw [FA_eq T _ _ (fun x hx => absurd hx (hne c s x)), half_own ok hs hd]
  · refine goodF_mk trivial (av_valid ..) ?_
    rw [FA_eq T _ _ (fun x hx => absurd hx (hne d t x)), half_other ok hs hd ht]

theorem good_of_Wa {T : Topo P} (ok : Ok T) {e : Entry P} (h : Good T e) (hn : ∀ c, e.2.1 = enc T (.cor c false false) →
    ¬ (T.interior c = false ∧ 2 < (T.cl c).length ∧ T.c0 c = false)) : GoodF T (FA T) e := by
  obtain ⟨a, b, ha, hb, h1, h2, h3⟩ := h
  refine ⟨a, b, ha, hb, h1, h2, ?_⟩
  rw [h3, FA_eq]
  intro c hc
  rw [hc] at h2
  exact hn c h2

theorem vertOk {T : Topo P} (ok : Ok T) {elim : Dof P → Bool} (hel : ∀ a, AValid T a → elim (enc T a) = AE T a) :
    VertOk T (FA T) (AE T) (AZ T) (vertEntries T) (vertMarked T elim) (fun _ => []) := by
  have c11 : ∀ c : PC P, GoodF T (FA T) (enc T (.cor c true true), enc T (.cor c true true), 1) := by
    intro c
    refine goodF_mk trivial trivial ?_
    rw [FA_eq T _ _ (fun x hx => by simp at hx), cor11_self]
  have hne : ∀ (c : PC P) (s : Side) (x : PC P), av c s true false ≠ .cor x false false := by
    intro c s x; unfold av; split_ifs <;> simp
  have cbd : ∀ (c : PC P) (s : Side), s ∈ c.2.sides → T.nb (c.1, s) = none →
      GoodF T (FA T) (enc T (av c s true false), enc T (av c s true false), 1) := by
    intro c s hs hn
    refine goodF_mk (av_valid ..) (av_valid ..) ?_
    rw [FA_eq T _ _ (fun x hx => absurd hx (hne c s x)), Wa_edge T c hs, edgeW, cross_none.2 hn, ind_self]
  have free11 : ∀ c : PC P, ∃ a, AValid T a ∧ enc T (.cor c true true) = enc T a ∧ AE T a = false ∧ AZ T a = false :=
    fun c => ⟨.cor c true true, trivial, rfl, rfl, rfl⟩
  have freebd : ∀ (c : PC P) (s : Side), s ∈ c.2.sides → T.nb (c.1, s) = none →
      ∃ a, AValid T a ∧ enc T (av c s true false) = enc T a ∧ AE T a = false ∧ AZ T a = false :=
    fun c s hs hn => ⟨_, av_valid .., rfl, AE_bdry hs hn⟩
  have free00 : ∀ c : PC P, T.interior c = false → (T.c0 c = true ∨ (T.cl c).length = 1) →
      ∃ a, AValid T a ∧ enc T (.cor c false false) = enc T a ∧ AE T a = false ∧ AZ T a = false :=
    fun c hi h => ⟨.cor c false false, trivial, rfl, AE_corner hi h⟩
  -- the irregular handler at vertices marked as not smooth
  have irr : ∀ c : PC P, T.interior c = false → T.c0 c = true →
      (∀ e ∈ irregularEntries T c, GoodF T (FA T) e) ∧ (∀ e ∈ irregularEntries T c, ∃ w, (e.1, e.1, w) ∈ irregularEntries T c) ∧
      (∀ e ∈ irregularEntries T c, ∃ a, AValid T a ∧ e.1 = enc T a ∧ AE T a = false ∧ AZ T a = false) := by
    intro c hi hc
    have h00 : GoodF T (FA T) (enc T (.cor c false false), enc T (.cor c false false), 1) := by
      refine goodF_mk trivial trivial ?_
      rw [FA, if_neg (by simp [hc]), cornW, hi]
      simp [hc, ind_self]
    refine ⟨?_, ?_, ?_⟩
    · intro e he
      rw [mem_irregular ok] at he
      rcases he with rfl | ⟨s, hs, d, t, hd, ht, htm, rfl | rfl⟩ | ⟨s, hs, hn, rfl⟩ | rfl
      · exact c11 c
      · exact (side_goodF ok hs hd ht).1
      · exact (side_goodF ok hs hd ht).2
      · exact cbd c s hs hn
      · exact h00
    · intro e he
      have he' := he
      rw [mem_irregular ok] at he
      rcases he with rfl | ⟨s, hs, d, t, hd, ht, htm, rfl | rfl⟩ | ⟨s, hs, hn, rfl⟩ | rfl
      · exact ⟨_, he'⟩
      · exact ⟨1, (mem_irregular ok c _).2 (Or.inl rfl)⟩
      · exact ⟨1, (mem_irregular ok c _).2 (Or.inl rfl)⟩
      · exact ⟨_, he'⟩
      · exact ⟨_, he'⟩
    · intro e he
      rw [mem_irregular ok] at he
      rcases he with rfl | ⟨s, hs, d, t, hd, ht, htm, rfl | rfl⟩ | ⟨s, hs, hn, rfl⟩ | rfl
      · exact free11 c
      · exact free11 c
      · exact free11 c
      · exact freebd c s hs hn
      · exact free00 c hi (Or.inl hc)
  refine ⟨?_, ?_, ?_, zero_diag ok, ?_, ?_, ?_, ?_, ?_, by simp, by simp⟩
  · intro a b hb
    apply FA_eq
    rintro c rfl
    simp [isCor] at hb
  · intro a ha
    cases a <;> simp [isCor] at ha <;> rfl
  · intro a ha
    cases a <;> simp [isCor] at ha <;> rfl
  · -- entries
    intro c
    by_cases hA : T.interior c = false ∧ (T.cl c).length = 2 ∧ T.c0 c = true
    · obtain ⟨hi, h2, hc⟩ := hA
      exact ⟨_, entries_c0 hi h2 hc, irr c hi hc⟩
    · by_cases hB : T.interior c = false ∧ 2 < (T.cl c).length ∧ T.c0 c = false
      · obtain ⟨hi, h2, hc⟩ := hB
        obtain ⟨l, h1, hm⟩ := smooth_eq ok h2
        refine ⟨l, by rw [entries_smooth hi h2 hc, h1], ?_, ?_, ?_⟩
        · intro e he
          rw [hm] at he
          rcases he with rfl | ⟨s, hs, d, t, hd, ht, htm, rfl | rfl⟩ | ⟨s, hs, hn, rfl | ⟨d, hd, rfl⟩⟩
          · exact c11 c
          · exact (side_goodF ok hs hd ht).1
          · exact (side_goodF ok hs hd ht).2
          · exact cbd c s hs hn
          · refine goodF_mk (av_valid ..) trivial ?_
            rw [FA_half ok (by rw [interior_same ok hd]; exact hi) (by rw [cl_len ok hd]; exact h2) (by rw [ok.c0_same c d hd]; exact hc), if_pos]
            exact mem_bnd.2 ⟨c, cl_symm ok hd, s, hs, hn, rfl⟩
        · intro e he
          have he' := he
          rw [hm] at he
          rcases he with rfl | ⟨s, hs, d, t, hd, ht, htm, rfl | rfl⟩ | ⟨s, hs, hn, rfl | ⟨d, hd, rfl⟩⟩
          · exact ⟨_, he'⟩
          · exact ⟨1, (hm _).2 (Or.inl rfl)⟩
          · exact ⟨1, (hm _).2 (Or.inl rfl)⟩
          · exact ⟨_, he'⟩
          · exact ⟨1, (hm _).2 (Or.inr (Or.inr ⟨s, hs, hn, Or.inl rfl⟩))⟩
        · intro e he
          rw [hm] at he
          rcases he with rfl | ⟨s, hs, d, t, hd, ht, htm, rfl | rfl⟩ | ⟨s, hs, hn, rfl | ⟨d, hd, rfl⟩⟩
          · exact free11 c
          · exact free11 c
          · exact free11 c
          · exact freebd c s hs hn
          · exact freebd c s hs hn
      · rw [entries_same hA hB]
        obtain ⟨l, hl, hg⟩ := vert_good ok c
        have hd := vert_diag ok c hl
        refine ⟨l, hl, ?_, fun e he => ⟨1, hd e he⟩, ?_⟩
        · intro e he
          refine good_of_Wa ok (hg e he) ?_
          intro x hx hbx
          -- the column belongs to a corner of the same vertex
          have hxc : x ∈ T.cl c := by
            cases hi : T.interior c
            · have hp := len_pos ok c
              by_cases h1 : (T.cl c).length = 1
              · obtain ⟨l', g1, -, g3⟩ := corner_good ok hi h1
                rw [hl] at g1; cases g1
                obtain ⟨a, b, rfl⟩ := g3 e he
                have := enc_inj ok (x := ADof.cor c a b) (y := ADof.cor x false false) trivial trivial hx
                simp only [ADof.cor.injEq] at this
                rw [← this.1]; exact ok.cl_self c
              · by_cases h2 : (T.cl c).length = 2
                · have hc : T.c0 c = false := by
                    by_contra hcon; exact hA ⟨hi, h2, by simpa using hcon⟩
                  obtain ⟨d, t, s', hs, hdc, ht, htm, hn, hs', hne', hn'⟩ := regular_data ok hi h2
                  obtain ⟨e1, -⟩ := regular_eq ok hs hdc ht htm
                  have : Smooth.vertEntries T c = regularEntries T c [0, 1] := by
                    unfold Smooth.vertEntries; simp [hi, h2, hc]
                  rw [this, e1] at hl
                  cases hl
                  have hmem := ok.cl_cross c _ d hs hdc
                  have hav : ∀ (y : PC P) (s : Side) (k l : Bool), enc T (av y s k l) = enc T (.cor x false false) → y = x := by
                    intro y s k l h
                    have := enc_inj ok (av_valid T y s k l) (y := ADof.cor x false false) trivial h
                    unfold av at this
                    split_ifs at this <;> simp only [ADof.cor.injEq] at this <;> exact this.1
                  have hco : ∀ (y : PC P) (k l : Bool), enc T (.cor y k l) = enc T (.cor x false false) → y = x := by
                    intro y k l h
                    have := enc_inj ok (x := ADof.cor y k l) (y := ADof.cor x false false) trivial trivial h
                    simp only [ADof.cor.injEq] at this
                    exact this.1
                  simp only [List.mem_cons, List.not_mem_nil, or_false] at he
                  rcases he with rfl | rfl | rfl | rfl | rfl | rfl
                  · rw [← hav _ _ _ _ hx]; exact ok.cl_self c
                  · rw [← hco _ _ _ hx]; exact ok.cl_self c
                  · rw [← hco _ _ _ hx]; exact hmem
                  · rw [← hco _ _ _ hx]; exact ok.cl_self c
                  · rw [← hav _ _ _ _ hx]; exact ok.cl_self c
                  · rw [← hav _ _ _ _ hx]; exact hmem
                · have h3 : 2 < (T.cl c).length := by omega
                  obtain ⟨g1, -⟩ := irregular_good ok hi h3
                  rw [hl] at g1; cases g1
                  rw [mem_irregular ok] at he
                  have hav : ∀ (y : PC P) (s : Side) (k l : Bool), enc T (av y s k l) = enc T (.cor x false false) → y = x := by
                    intro y s k l h
                    have := enc_inj ok (av_valid T y s k l) (y := ADof.cor x false false) trivial h
                    unfold av at this
                    split_ifs at this <;> simp only [ADof.cor.injEq] at this <;> exact this.1
                  have hco : ∀ (y : PC P) (k l : Bool), enc T (.cor y k l) = enc T (.cor x false false) → y = x := by
                    intro y k l h
                    have := enc_inj ok (x := ADof.cor y k l) (y := ADof.cor x false false) trivial trivial h
                    simp only [ADof.cor.injEq] at this
                    exact this.1
                  rcases he with rfl | ⟨s, hs, d, t, hd, ht, htm, rfl | rfl⟩ | ⟨s, hs, hn, rfl⟩ | rfl
                  · rw [← hco _ _ _ hx]; exact ok.cl_self c
                  · rw [← hav _ _ _ _ hx]; exact ok.cl_self c
                  · rw [← hav _ _ _ _ hx]; exact ok.cl_cross c _ d hs hd
                  · rw [← hav _ _ _ _ hx]; exact ok.cl_self c
                  · rw [← hco _ _ _ hx]; exact ok.cl_self c
            · obtain ⟨d1, d2, t1, t2, c1, c2, g1, g2, m1, m2, hent⟩ := interior_eq ok hi
              have : Smooth.vertEntries T c = interiorEntries T c := by unfold Smooth.vertEntries; simp [hi]
              rw [this, hent] at hl
              cases hl
              have hav : ∀ (y : PC P) (s : Side) (k l : Bool), enc T (av y s k l) = enc T (.cor x false false) → y = x := by
                intro y s k l h
                have := enc_inj ok (av_valid T y s k l) (y := ADof.cor x false false) trivial h
                unfold av at this
                split_ifs at this <;> simp only [ADof.cor.injEq] at this <;> exact this.1
              have hco : ∀ (y : PC P) (k l : Bool), enc T (.cor y k l) = enc T (.cor x false false) → y = x := by
                intro y k l h
                have := enc_inj ok (x := ADof.cor y k l) (y := ADof.cor x false false) trivial trivial h
                simp only [ADof.cor.injEq] at this
                exact this.1
              simp only [List.mem_append, List.mem_cons, List.not_mem_nil, or_false, List.mem_map] at he
              rcases he with ((rfl | ⟨d, hd, rfl⟩) | rfl | rfl) | rfl | rfl
              · rw [← hco _ _ _ hx]; exact ok.cl_self c
              · rw [← hco _ _ _ hx]; exact hd
              · rw [← hav _ _ _ _ hx]; exact ok.cl_self c
              · rw [← hav _ _ _ _ hx]; exact ok.cl_cross c _ d1 (uside_mem _) c1
              · rw [← hav _ _ _ _ hx]; exact ok.cl_self c
              · rw [← hav _ _ _ _ hx]; exact ok.cl_cross c _ d2 (vside_mem _) c2
          rw [interior_same ok hxc, cl_len ok hxc, ok.c0_same c x hxc] at hbx
          exact hB hbx
        · intro e he
          cases hi : T.interior c
          · have hp := len_pos ok c
            by_cases h1 : (T.cl c).length = 1
            · obtain ⟨l', g1, -, g3⟩ := corner_good ok hi h1
              rw [hl] at g1; cases g1
              obtain ⟨a, b, rfl⟩ := g3 e he
              have hn : ∀ s ∈ c.2.sides, T.nb (c.1, s) = none := fun s hs => cross_none.1 (v1_boundary ok h1 hs)
              rcases cor_cases c a b with h | h | ⟨s, hs, h⟩
              · simp only [h]; exact free11 c
              · simp only [h]; exact free00 c hi (Or.inr h1)
              · simp only [h]; exact freebd c s hs (hn s hs)
            · by_cases h2 : (T.cl c).length = 2
              · have hc : T.c0 c = false := by
                  by_contra hcon; exact hA ⟨hi, h2, by simpa using hcon⟩
                obtain ⟨d, t, s', hs, hdc, ht, htm, hn, hs', hne', hn'⟩ := regular_data ok hi h2
                obtain ⟨e1, -⟩ := regular_eq ok hs hdc ht htm
                have : Smooth.vertEntries T c = regularEntries T c [0, 1] := by
                  unfold Smooth.vertEntries; simp [hi, h2, hc]
                rw [this, e1] at hl
                cases hl
                have h01 : av c (regularSide T c) false true = av c s' true false := by
                  have h1 := hs; have h2 := hs'
                  simp only [Corner.sides, List.mem_cons, List.not_mem_nil, or_false] at h1 h2
                  rcases h1 with h1 | h1 <;> rcases h2 with h2 | h2 <;> rw [h1, h2] at hne' ⊢ <;> simp at hne' <;> simp [av, uside_dir, vside_dir]
                have hf := freebd c s' hs' (cross_none.1 hn')
                rw [← h01] at hf
                simp only [List.mem_cons, List.not_mem_nil, or_false] at he
                rcases he with rfl | rfl | rfl | rfl | rfl | rfl
                · exact hf
                · exact hf
                · exact hf
                · exact free11 c
                · exact free11 c
                · exact free11 c
              · have h3 : 2 < (T.cl c).length := by omega
                have hc : T.c0 c = true := by
                  by_contra hcon; exact hB ⟨hi, h3, by simpa using hcon⟩
                obtain ⟨g1, -⟩ := irregular_good ok hi h3
                rw [hl] at g1; cases g1
                exact (irr c hi hc).2.2 e he
          · obtain ⟨d1, d2, t1, t2, c1, c2, g1, g2, m1, m2, hent⟩ := interior_eq ok hi
            have : Smooth.vertEntries T c = interiorEntries T c := by unfold Smooth.vertEntries; simp [hi]
            rw [this, hent] at hl
            cases hl
            simp only [List.mem_append, List.mem_cons, List.not_mem_nil, or_false, List.mem_map] at he
            rcases he with ((rfl | ⟨d, hd, rfl⟩) | rfl | rfl) | rfl | rfl <;> exact free11 c
  · -- diagonal
    intro a ha hca h1 h2
    left
    have hna := not_keep a h1 h2
    rw [FA_eq, W_diag ok, hna]
    · rfl
    · rintro c rfl hb
      have hk : keep3 T c = true := by simp [keep3, hb.1, hb.2.1, hb.2.2]
      simp only [AE, AZ, hk] at h1 h2
      simp at h1 h2
      exact h2 h1
  · -- off-diagonal
    intro a b ha hb hcb hne' hw
    by_cases hB : ∃ c, b = .cor c false false ∧ (T.interior c = false ∧ 2 < (T.cl c).length ∧ T.c0 c = false)
    · obtain ⟨c, rfl, hi, h2, hc⟩ := hB
      rw [FA_half ok hi h2 hc] at hw
      have hm : a ∈ bnd T c := by
        by_contra h; rw [if_neg h] at hw; exact hw rfl
      rw [mem_bnd] at hm
      obtain ⟨d, hd, s, hs, hn, rfl⟩ := hm
      have h2' : 2 < (T.cl d).length := by rw [cl_len ok hd]; exact h2
      obtain ⟨l, hl, hml⟩ := smooth_eq ok h2'
      refine ⟨d, l, 1 / 2, ?_, (hml _).2 (Or.inr (Or.inr ⟨s, hs, hn, Or.inr ⟨c, cl_symm ok hd, rfl⟩⟩))⟩
      rw [entries_smooth (by rw [interior_same ok hd]; exact hi) h2' (by rw [ok.c0_same c d hd]; exact hc), hl]
    · rw [FA_eq T a b (fun c h1 h2 => hB ⟨c, h1, h2⟩)] at hw
      obtain ⟨w, hw⟩ := offdiag_pushed ok
        (S := fun e => (∃ x, AValid T x ∧ isCor x = false ∧ e.2.1 = enc T x) ∨ e.1 = e.2.1 ∨ ∃ c l w, vertEntries T c = some l ∧ (e.1, e.2.1, w) ∈ l) (by
          intro c l hl e he
          right
          by_cases hA : T.interior c = false ∧ (T.cl c).length = 2 ∧ T.c0 c = true
          · obtain ⟨hi, h2, hc⟩ := hA
            obtain ⟨d, t, s', hs, hdc, ht, htm, hn, hs', hne'', hn'⟩ := regular_data ok hi h2
            obtain ⟨-, e2⟩ := regular_eq ok hs hdc ht htm
            have : Smooth.vertEntries T c = regularEntries T c [1] := by
              unfold Smooth.vertEntries; simp [hi, h2, hc]
            rw [this, e2] at hl
            cases hl
            simp only [List.mem_cons, List.not_mem_nil, or_false] at he
            rcases he with rfl | rfl | rfl
            · exact Or.inl rfl
            · exact Or.inr ⟨c, _, _, entries_c0 hi h2 hc, (mem_irregular ok c _).2 (Or.inr (Or.inl ⟨_, hs, d, t, hdc, ht, htm, Or.inl rfl⟩))⟩
            · exact Or.inr ⟨c, _, _, entries_c0 hi h2 hc, (mem_irregular ok c _).2 (Or.inr (Or.inl ⟨_, hs, d, t, hdc, ht, htm, Or.inr rfl⟩))⟩
          · by_cases hB : T.interior c = false ∧ 2 < (T.cl c).length ∧ T.c0 c = false
            · obtain ⟨hi, h2, hc⟩ := hB
              obtain ⟨g1, -⟩ := irregular_good ok hi h2
              rw [hl] at g1; cases g1
              obtain ⟨l', hl', hml⟩ := smooth_eq ok h2
              rw [mem_irregular ok] at he
              rcases he with rfl | ⟨s, hs, d, t, hd, ht, htm, he⟩ | ⟨s, hs, hn, rfl⟩ | rfl
              · exact Or.inl rfl
              · refine Or.inr ⟨c, l', e.2.2, by rw [entries_smooth hi h2 hc, hl'], ?_⟩
                exact (hml e).2 (Or.inr (Or.inl ⟨s, hs, d, t, hd, ht, htm, he⟩))
              · exact Or.inl rfl
              · exact Or.inl rfl
            · exact Or.inr ⟨c, l, e.2.2, by rw [entries_same hA hB, hl], he⟩) (by
          intro s t hst m hm e he
          left
          unfold sideEntries at he
          simp only [List.mem_cons, List.not_mem_nil, or_false] at he
          rcases he with rfl | rfl | rfl
          · exact ⟨.sid s true m, hm, rfl, rfl⟩
          · exact ⟨.sid s false m, hm, rfl, rfl⟩
          · refine ⟨.sid t false (mt T s m), ?_, rfl, rfl⟩
            show 2 ≤ _ ∧ _ < len T t
            rw [ok.nb_len s t hst]; exact mt_mid hm) ha hb hne' hw
      rcases hw with ⟨x, hx, hcx, he⟩ | he | h
      · have := enc_inj ok hb hx he
        rw [this, hcx] at hcb; cases hcb
      · exact absurd (enc_inj ok ha hb he) hne'
      · exact h
  · -- marked rows
    intro c d hd
    have key0 : keep3 T c = true ∨ AElim T (.cor c false false) = true → d ∈ (indices T 0 c).filter (fun d => ! elim d) →
        ∃ a, AValid T a ∧ d = enc T a ∧ AE T a = false ∧ AZ T a = true := by
      intro hk hd
      rw [List.mem_filter, indices0, List.mem_singleton] at hd
      obtain ⟨rfl, hd⟩ := hd
      rw [hel (.cor c false false) trivial] at hd
      have h1 : AE T (.cor c false false) = false := by simpa using hd
      refine ⟨.cor c false false, trivial, rfl, h1, ?_⟩
      simp only [AE, AZ] at h1 ⊢
      cases h : (keep3 T c && decide (enc T (.cor c false false) ∈ low0 T c))
      · rw [h] at h1
        rcases hk with hk | hk <;> simp [hk] at h1
      · rfl
    unfold vertMarked at hd
    cases hi : T.interior c
    · simp only [hi, Bool.false_eq_true, if_false] at hd
      split_ifs at hd with g1 g2
      · rw [List.mem_filter, indices1, List.mem_map] at hd
        obtain ⟨⟨s, hs, rfl⟩, hd⟩ := hd
        rw [List.mem_filter] at hs
        obtain ⟨hs, hsi⟩ := hs
        rw [hel _ (av_valid ..), AE_av hs] at hd
        unfold isIface at hsi
        have h1 : AE T (av c s true false) = false := by rw [AE_av hs]; rwa [Bool.not_eq_true'] at hd
        refine ⟨_, av_valid .., rfl, h1, ?_⟩
        rw [AZ_av hs]
        rw [hsi] at hd ⊢
        simpa using hd
      · refine key0 (Or.inl ?_) hd
        have : T.c0 c = false := by
          by_contra h; exact g1 ⟨by omega, by simpa using h⟩
        simp [keep3, hi, g2, this]
      · simp at hd
    · simp only [hi, if_true] at hd
      exact key0 (Or.inr (by simp [AElim, hi])) hd
  · -- every zero row is marked
    intro a ha h1 h2
    cases a with
    | int p i j => simp [AZ] at h2
    | sid s off m => simp [AZ] at h2
    | cor c x y =>
      refine ⟨c, ?_⟩
      rcases cor_cases c x y with h | h | ⟨s, hs, h⟩
      · rw [h] at h2; simp [AZ] at h2
      · rw [h] at h1 h2 ⊢
        have hk : keep3 T c = true := by
          simp only [AZ, Bool.and_eq_true] at h2; exact h2.1
        have hm : enc T (.cor c false false) ∈ (indices T 0 c).filter fun d => ! elim d := by
          rw [List.mem_filter, indices0, hel (.cor c false false) trivial, h1]; simp
        unfold vertMarked
        rcases keep3_interior hk with hi | ⟨hi, g2, g3⟩
        · simp only [hi, if_true]; exact hm
        · simp only [hi, Bool.false_eq_true, if_false, g3, and_false, if_pos g2]; exact hm
      · rw [h] at h1 h2 ⊢
        rw [AZ_av hs] at h2
        simp only [Bool.and_eq_true] at h2
        obtain ⟨⟨g1, g2⟩, g3⟩ := h2
        have hk := g2
        unfold keep1 at hk
        simp only [Bool.and_eq_true, Bool.not_eq_true', beq_iff_eq] at hk
        unfold vertMarked
        simp only [hk.1.1, Bool.false_eq_true, if_false, hk.1.2, hk.2, le_refl, and_self, if_true]
        rw [List.mem_filter, indices1, hel _ (av_valid ..), h1, List.mem_map]
        refine ⟨⟨s, ?_, rfl⟩, rfl⟩
        rw [List.mem_filter]
        exact ⟨hs, g1⟩

end Verif.AlmostC1
