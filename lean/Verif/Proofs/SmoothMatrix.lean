import Verif.Proofs.Smooth
import Mathlib.Algebra.BigOperators.Group.List.Basic
/-! Closed form of the smoothing matrix. -/
set_option autoImplicit false
set_option linter.unusedSectionVars false
set_option linter.unusedSimpArgs false
namespace Verif.Smooth
open Verif

variable {P : Type} [DecidableEq P]

def ind (x y : ADof P) : ℚ := if x = y then 1 else 0

/-- position on the neighbouring side -/
def mt (T : Topo P) (s : PS P) (m : ℕ) : ℕ := if T.flip s then len T s - 1 - m else m

def edgeW (T : Topo P) (c : PC P) (s : Side) (r x : ADof P) : ℚ :=
  match cross T c s with
  | none => ind r x
  | some d => (ind r (.cor c true true) + ind r (.cor d true true)) / 2

/-- side of the neighbour across the interface of a regular boundary vertex -/
def nbSide (T : Topo P) (c : PC P) (s : Side) : Side := ((T.nb (c.1, s)).map Prod.snd).getD .west

def cornW (T : Topo P) (c : PC P) (r : ADof P) : ℚ :=
  if T.interior c then ((T.cl c).map fun d => ind r (.cor d true true)).sum / ((T.cl c).length : ℚ)
  else if (T.cl c).length = 2 ∧ ¬ T.c0 c then
    match cross T c (regularSide T c) with
    | some d => (ind r (av c (regularSide T c) false true) + ind r (av d (nbSide T c (regularSide T c)) false true)) / 2
    | none => 0
  else ind r (.cor c false false)

/-- weight of smooth function `r` at local function `x` -/
def Wa (T : Topo P) (r : ADof P) : ADof P → ℚ
  | .int p i j => ind r (.int p i j)
  | .sid s true m => ind r (.sid s true m)
  | .sid s false m =>
    match T.nb s with
    | none => ind r (.sid s false m)
    | some t => (ind r (.sid s true m) + ind r (.sid t true (mt T s m))) / 2
  | .cor c true true => ind r (.cor c true true)
  | .cor c true false => edgeW T c c.2.vside r (.cor c true false)
  | .cor c false true => edgeW T c c.2.uside r (.cor c false true)
  | .cor c false false => cornW T c r

def W (T : Topo P) (r c : Dof P) : ℚ := Wa T (dec T r) (dec T c)

theorem ind_self (x : ADof P) : ind x x = 1 := by simp [ind]
theorem ind_ne {x y : ADof P} (h : x ≠ y) : ind x y = 0 := by simp [ind, h]

theorem Wa_edge (T : Topo P) (c : PC P) {s : Side} (hs : s ∈ c.2.sides) (r : ADof P) :
    Wa T r (av c s true false) = edgeW T c s r (av c s true false) := by
  simp only [Corner.sides, List.mem_cons, List.not_mem_nil, or_false] at hs
  rcases hs with rfl | rfl
  · simp [av, uside_dir, Wa]
  · simp [av, vside_dir, Wa]

theorem sum_ind {l : List (PC P)} (hn : l.Nodup) {c : PC P} (hc : c ∈ l) :
    (l.map fun d => ind (.cor c true true) (.cor d true true : ADof P)).sum = 1 := by
  induction l with
  | nil => simp at hc
  | cons a l ih =>
    rw [List.nodup_cons] at hn
    rw [List.map_cons, List.sum_cons]
    by_cases h : a = c
    · subst h
      have : (l.map fun d => ind (.cor a true true) (.cor d true true : ADof P)).sum = 0 := by
        apply List.sum_eq_zero
        intro x hx
        rw [List.mem_map] at hx
        obtain ⟨d, hd, rfl⟩ := hx
        apply ind_ne
        intro e
        simp only [ADof.cor.injEq, and_true] at e
        exact hn.1 (e ▸ hd)
      rw [this, ind_self]; simp
    · have hc' : c ∈ l := by simp [Ne.symm h] at hc; exact hc
      rw [ih hn.2 hc', ind_ne (by simp [Ne.symm h])]; simp

/-! ## abstract entries: a relation listing what the handlers write -/

/-- A consistent entry: structural names exist, the weight is the closed form, and it is not zero. -/
def Good (T : Topo P) (e : Entry P) : Prop :=
  ∃ a b, AValid T a ∧ AValid T b ∧ e.1 = enc T a ∧ e.2.1 = enc T b ∧ e.2.2 = Wa T a b

theorem good_mk {T : Topo P} {a b : ADof P} {w : ℚ} (ha : AValid T a) (hb : AValid T b) (h : w = Wa T a b) :
    Good T (enc T a, enc T b, w) := ⟨a, b, ha, hb, rfl, rfl, h⟩

theorem av_valid (T : Topo P) (c : PC P) (s : Side) (k l : Bool) : AValid T (av c s k l) := by
  unfold av; split_ifs <;> trivial

theorem half_own {T : Topo P} (ok : Ok T) {c d : PC P} {s : Side} (hs : s ∈ c.2.sides) (h : cross T c s = some d) :
    Wa T (.cor c true true) (av c s true false) = 1 / 2 := by
  rw [Wa_edge T c hs, edgeW, h]
  simp only [ind_self]
  rw [ind_ne (by simp [Ne.symm (cross_ne ok hs h)])]; norm_num

theorem half_other {T : Topo P} (ok : Ok T) {c d : PC P} {s t : Side} (hs : s ∈ c.2.sides) (h : cross T c s = some d)
    (ht : T.nb (c.1, s) = some (d.1, t)) : Wa T (.cor c true true) (av d t true false) = 1 / 2 := by
  obtain ⟨t', h1, h2, h3⟩ := cross_data h
  rw [ht] at h1
  simp only [Option.some.injEq, Prod.mk.injEq, true_and] at h1
  subst h1
  rw [Wa_edge T d h2, edgeW, cross_back ok hs h ht]
  simp only [ind_self]
  rw [ind_ne (by simp [Ne.symm (cross_ne ok hs h)])]; norm_num

theorem cor11_self (T : Topo P) (c : PC P) : Wa T (.cor c true true) (.cor c true true) = 1 := by
  simp [Wa, ind_self]

/-- What `vertEntries` writes for an interior vertex. -/
theorem interior_eq {T : Topo P} (ok : Ok T) {c : PC P} (hi : T.interior c = true) :
    ∃ d1 d2 t1 t2, cross T c c.2.uside = some d1 ∧ cross T c c.2.vside = some d2 ∧
      T.nb (c.1, c.2.uside) = some (d1.1, t1) ∧ T.nb (c.1, c.2.vside) = some (d2.1, t2) ∧
      t1 ∈ d1.2.sides ∧ t2 ∈ d2.2.sides ∧
      interiorEntries T c = some
        ([(enc T (.cor c true true), enc T (.cor c true true), 1)] ++
         ((T.cl c).map fun d => (enc T (.cor c true true), enc T (.cor d false false), 1 / ((T.cl c).length : ℚ))) ++
         [(enc T (.cor c true true), enc T (av c c.2.uside true false), 1 / 2),
          (enc T (.cor c true true), enc T (av d1 t1 true false), 1 / 2)] ++
         [(enc T (.cor c true true), enc T (av c c.2.vside true false), 1 / 2),
          (enc T (.cor c true true), enc T (av d2 t2 true false), 1 / 2)]) := by
  have hb := (ok.interior_iff c).1 hi c (ok.cl_self c)
  have h1 := hb c.2.uside (uside_mem _)
  have h2 := hb c.2.vside (vside_mem _)
  rw [Option.isSome_iff_exists] at h1 h2
  obtain ⟨⟨q1, t1⟩, h1⟩ := h1
  obtain ⟨⟨q2, t2⟩, h2⟩ := h2
  have c1 := cross_some h1
  have c2 := cross_some h2
  refine ⟨_, _, t1, t2, c1, c2, h1, h2, mem_sides_corner _ _, mem_sides_corner _ _, ?_⟩
  unfold interiorEntries
  simp only [h1, h2, c1, c2, vert11 T c (uside_mem _), vert10 T c (uside_mem _), vert10 T c (vside_mem _), av_diag,
    Option.bind_eq_bind, Option.bind_some, Option.pure_def]
  simp only [vert00 T _ (uside_mem _), av_diag]
  have e1 := vert10 T (q1, t1.corner (c.2.tang c.2.uside ^^ T.flip (c.1, c.2.uside))) (mem_sides_corner t1 _)
  have e2 := vert10 T (q2, t2.corner (c.2.tang c.2.vside ^^ T.flip (c.1, c.2.vside))) (mem_sides_corner t2 _)
  rw [e1, e2]

theorem interior_good {T : Topo P} (ok : Ok T) {c : PC P} (hi : T.interior c = true) :
    ∃ l, vertEntries T c = some l ∧ ∀ e ∈ l, Good T e := by
  obtain ⟨d1, d2, t1, t2, c1, c2, h1, h2, m1, m2, he⟩ := interior_eq ok hi
  refine ⟨_, by unfold vertEntries; simp only [hi, if_true]; exact he, ?_⟩
  intro e hm
  simp only [List.mem_append, List.mem_cons, List.not_mem_nil, or_false, List.mem_map] at hm
  rcases hm with ((rfl | ⟨d, hd, rfl⟩) | rfl | rfl) | rfl | rfl
  · exact good_mk trivial trivial (cor11_self T c).symm
  · refine good_mk trivial trivial ?_
    rw [Wa, cornW, interior_same ok hd, hi, if_pos rfl, sum_ind (ok.cl_nodup d), cl_len ok hd]
    rw [ok.cl_same c d hd]; exact ok.cl_self c
  · exact good_mk trivial (av_valid ..) (half_own ok (uside_mem _) c1).symm
  · exact good_mk trivial (av_valid ..) (half_other ok (uside_mem _) c1 h1).symm
  · exact good_mk trivial (av_valid ..) (half_own ok (vside_mem _) c2).symm
  · exact good_mk trivial (av_valid ..) (half_other ok (vside_mem _) c2 h2).symm

/-- regular boundary vertex: the interface side and what lies across -/
theorem regular_data {T : Topo P} (ok : Ok T) {c : PC P} (hi : T.interior c = false) (h2 : (T.cl c).length = 2) :
    ∃ d t s', regularSide T c ∈ c.2.sides ∧ cross T c (regularSide T c) = some d ∧
      T.nb (c.1, regularSide T c) = some (d.1, t) ∧ t ∈ d.2.sides ∧ nbSide T c (regularSide T c) = t ∧
      s' ∈ c.2.sides ∧ s' ≠ regularSide T c ∧ cross T c s' = none := by
  rcases v2_side ok hi h2 with ⟨d, hd, hn⟩ | ⟨d, hd, hn⟩
  · obtain ⟨t, g1, g2, -⟩ := cross_data hd
    have hs : regularSide T c = c.2.uside := by unfold regularSide isIface; rw [g1]; rfl
    rw [hs]
    refine ⟨d, t, c.2.vside, uside_mem _, hd, g1, g2, by unfold nbSide; rw [g1]; rfl, vside_mem _, ?_, hn⟩
    intro e; have := congrArg Side.dir e; rw [uside_dir, vside_dir] at this; cases this
  · obtain ⟨t, g1, g2, -⟩ := cross_data hd
    have hs : regularSide T c = c.2.vside := by
      unfold regularSide isIface; rw [cross_none.1 hn]; rfl
    rw [hs]
    refine ⟨d, t, c.2.uside, vside_mem _, hd, g1, g2, by unfold nbSide; rw [g1]; rfl, uside_mem _, ?_, hn⟩
    intro e; have := congrArg Side.dir e; rw [uside_dir, vside_dir] at this; cases this

/-- the neighbour at a regular boundary vertex sees us across its own interface side -/
theorem regular_back {T : Topo P} (ok : Ok T) {c : PC P} (hi : T.interior c = false) (h2 : (T.cl c).length = 2)
    {d : PC P} {t : Side} (hs : regularSide T c ∈ c.2.sides) (hd : cross T c (regularSide T c) = some d)
    (ht : T.nb (c.1, regularSide T c) = some (d.1, t)) (htm : t ∈ d.2.sides) :
    regularSide T d = t ∧ cross T d t = some c ∧ nbSide T d t = regularSide T c ∧ T.interior d = false ∧ (T.cl d).length = 2 := by
  have hm := ok.cl_cross c _ d hs hd
  have hi' : T.interior d = false := by rw [interior_same ok hm]; exact hi
  have h2' : (T.cl d).length = 2 := by rw [cl_len ok hm]; exact h2
  have hback := cross_back ok hs hd ht
  have hnb := ok.nb_symm _ _ ht
  obtain ⟨d', t', s', g1, g2, g3, g4, g5, g6, g7, g8⟩ := regular_data ok hi' h2'
  have : regularSide T d = t := by
    have hne : s' ≠ t := by rintro rfl; rw [hback] at g8; cases g8
    revert g1 g6 g7 htm hne
    generalize regularSide T d = r
    generalize d.2 = dc
    cases dc <;> cases r <;> cases t <;> cases s' <;> decide
  refine ⟨this, hback, ?_, hi', h2'⟩
  unfold nbSide; rw [hnb]; rfl

theorem regular_eq {T : Topo P} (ok : Ok T) {c : PC P} {d : PC P} {t : Side} (hs : regularSide T c ∈ c.2.sides)
    (hd : cross T c (regularSide T c) = some d) (ht : T.nb (c.1, regularSide T c) = some (d.1, t)) (htm : t ∈ d.2.sides) :
    regularEntries T c [0, 1] = some
      [(enc T (av c (regularSide T c) false true), enc T (av c (regularSide T c) false true), 1),
       (enc T (av c (regularSide T c) false true), enc T (.cor c false false), 1 / 2),
       (enc T (av c (regularSide T c) false true), enc T (.cor d false false), 1 / 2),
       (enc T (.cor c true true), enc T (.cor c true true), 1),
       (enc T (.cor c true true), enc T (av c (regularSide T c) true false), 1 / 2),
       (enc T (.cor c true true), enc T (av d t true false), 1 / 2)] ∧
    regularEntries T c [1] = some
      [(enc T (.cor c true true), enc T (.cor c true true), 1),
       (enc T (.cor c true true), enc T (av c (regularSide T c) true false), 1 / 2),
       (enc T (.cor c true true), enc T (av d t true false), 1 / 2)] := by
  unfold regularEntries
  simp only [ht, hd, Option.bind_eq_bind, Option.bind_some, Option.pure_def, List.flatMap_cons, List.flatMap_nil, regularRow,
    vert00 T c hs, vert00 T d htm, vert01 T c hs, vert11 T c hs, vert10 T c hs, vert10 T d htm, av_diag, List.append_nil,
    List.cons_append, List.nil_append, and_self]

theorem av_ne_of_pc {c d : PC P} (h : c ≠ d) (s t : Side) (k l k' l' : Bool) : av c s k l ≠ av d t k' l' := by
  unfold av
  split_ifs <;> simp [h]

theorem edge01_self {T : Topo P} {c : PC P} {s s' : Side} (hs : s ∈ c.2.sides) (hs' : s' ∈ c.2.sides) (hne : s' ≠ s)
    (hn : cross T c s' = none) (r : ADof P) : Wa T r (av c s false true) = ind r (av c s false true) := by
  have : av c s false true = av c s' true false := by
    simp only [Corner.sides, List.mem_cons, List.not_mem_nil, or_false] at hs hs'
    rcases hs with rfl | rfl <;> rcases hs' with rfl | rfl <;> simp at hne <;> simp [av, uside_dir, vside_dir]
  rw [this, Wa_edge T c hs', edgeW, hn]

theorem regular_good {T : Topo P} (ok : Ok T) {c : PC P} (hi : T.interior c = false) (h2 : (T.cl c).length = 2) :
    ∃ l, vertEntries T c = some l ∧ ∀ e ∈ l, Good T e := by
  obtain ⟨d, t, s', hs, hd, ht, htm, hn, hs', hne, hn'⟩ := regular_data ok hi h2
  obtain ⟨e1, e2⟩ := regular_eq ok hs hd ht htm
  obtain ⟨b1, b2, b3, b4, b5⟩ := regular_back ok hi h2 hs hd ht htm
  have hm := ok.cl_cross c _ d hs hd
  have hdc := cross_ne ok hs hd
  have hc0 := ok.c0_same c d hm
  have hA : Good T (enc T (.cor c true true), enc T (.cor c true true), 1) := good_mk trivial trivial (cor11_self T c).symm
  have hB : Good T (enc T (.cor c true true), enc T (av c (regularSide T c) true false), 1 / 2) :=
    good_mk trivial (av_valid ..) (half_own ok hs hd).symm
  have hC : Good T (enc T (.cor c true true), enc T (av d t true false), 1 / 2) :=
    good_mk trivial (av_valid ..) (half_other ok hs hd ht).symm
  by_cases hc : T.c0 c = true
  · refine ⟨_, by unfold vertEntries; simp only [hi, h2, hc]; simp only [Bool.false_eq_true, if_false, OfNat.ofNat_ne_one,
      not_true_eq_false, and_false, if_true]; exact e2, ?_⟩
    intro e he
    simp only [List.mem_cons, List.not_mem_nil, or_false] at he
    rcases he with rfl | rfl | rfl
    · exact hA
    · exact hB
    · exact hC
  · have hcf : T.c0 c = false := by simpa using hc
    refine ⟨_, by unfold vertEntries; simp only [hi, h2, hcf]; simp only [Bool.false_eq_true, if_false, OfNat.ofNat_ne_one,
      not_false_eq_true, and_self, if_true]; exact e1, ?_⟩
    intro e he
    simp only [List.mem_cons, List.not_mem_nil, or_false] at he
    rcases he with rfl | rfl | rfl | rfl | rfl | rfl
    · refine good_mk (av_valid ..) (av_valid ..) ?_
      rw [edge01_self hs hs' hne hn', ind_self]
    · refine good_mk (av_valid ..) trivial ?_
      rw [Wa, cornW, hi, h2, hcf, hd, hn]
      simp only [Bool.false_eq_true, if_false, not_false_eq_true, and_self, if_true, ind_self]
      rw [ind_ne (av_ne_of_pc (Ne.symm hdc) _ _ _ _ _ _)]; norm_num
    · refine good_mk (av_valid ..) trivial ?_
      rw [Wa, cornW, b4, b5, hc0, hcf, b1, b2, b3]
      simp only [Bool.false_eq_true, if_false, not_false_eq_true, and_self, if_true, ind_self]
      rw [ind_ne (av_ne_of_pc (Ne.symm hdc) _ _ _ _ _ _)]; norm_num
    · exact hA
    · exact hB
    · exact hC

theorem corner_good {T : Topo P} (ok : Ok T) {c : PC P} (hi : T.interior c = false) (h1 : (T.cl c).length = 1) :
    ∃ l, vertEntries T c = some l ∧ (∀ e ∈ l, Good T e) ∧ ∀ e ∈ l, ∃ a b, e = (enc T (.cor c a b), enc T (.cor c a b), 1) := by
  have hn : ∀ s ∈ c.2.sides, cross T c s = none := fun s hs => v1_boundary ok h1 hs
  have hcor : ∀ a b, Wa T (.cor c a b) (.cor c a b) = 1 := by
    intro a b
    cases a <;> cases b
    · rw [Wa, cornW, hi, h1]; simp [ind_self]
    · rw [Wa, edgeW, hn _ (uside_mem _)]; simp [ind_self]
    · rw [Wa, edgeW, hn _ (vside_mem _)]; simp [ind_self]
    · exact cor11_self T c
  have hl : vertEntries T c = some (cornerEntries T c) := by
    unfold vertEntries; simp [hi, h1]
  have hmem : ∀ e ∈ cornerEntries T c, ∃ a b, e = (enc T (.cor c a b), enc T (.cor c a b), 1) := by
    intro e he
    unfold cornerEntries at he
    simp only [vert00 T c (uside_mem _), vert10 T c (uside_mem _), vert10 T c (vside_mem _), vert11 T c (vside_mem _),
      List.map_cons, List.map_nil, List.mem_cons, List.not_mem_nil, or_false] at he
    simp only [av, uside_dir, vside_dir] at he
    rcases he with rfl | rfl | rfl | rfl
    · exact ⟨false, false, by simp⟩
    · exact ⟨false, true, by simp⟩
    · exact ⟨true, false, by simp⟩
    · exact ⟨true, true, by simp⟩
  refine ⟨_, hl, ?_, hmem⟩
  intro e he
  obtain ⟨a, b, rfl⟩ := hmem e he
  exact good_mk trivial trivial (hcor a b).symm

/-- entries of one side of an irregular boundary vertex -/
theorem irregular_eq {T : Topo P} (ok : Ok T) (c : PC P) :
    irregularEntries T c =
      [(enc T (.cor c true true), enc T (.cor c true true), (1 : ℚ))] ++
      (c.2.sides.flatMap fun s => match cross T c s with
        | some d => [(enc T (.cor c true true), enc T (av c s true false), (1 / 2 : ℚ)),
                     (enc T (.cor c true true), enc T (av d (nbSide T c s) true false), 1 / 2)]
        | none => [(enc T (av c s true false), enc T (av c s true false), 1)]) ++
      [(enc T (.cor c false false), enc T (.cor c false false), 1)] := by
  have key : ∀ s ∈ c.2.sides, irregularSide T c s =
      (match cross T c s with
        | some d => [(enc T (.cor c true true), enc T (av c s true false), (1 / 2 : ℚ)),
                     (enc T (.cor c true true), enc T (av d (nbSide T c s) true false), 1 / 2)]
        | none => [(enc T (av c s true false), enc T (av c s true false), 1)]) := by
    intro s hs
    rcases h : cross T c s with _ | d
    · unfold irregularSide
      rw [cross_none.1 h]
      simp only [vert10 T c hs]
    · obtain ⟨t, g1, g2, -⟩ := cross_data h
      have hn : nbSide T c s = t := by unfold nbSide; rw [g1]; rfl
      unfold irregularSide
      rw [g1, hn, h]
      simp only [vert10 T c hs, vert11 T c (uside_mem _), av_diag, vert10 T d g2]
  unfold irregularEntries
  simp only [key _ (uside_mem _), key _ (vside_mem _)]
  simp only [Corner.sides, List.flatMap_cons, List.flatMap_nil, List.append_nil,
    vert11 T c (uside_mem _), vert00 T c (uside_mem _), av_diag, List.append_assoc]

theorem irregular_good {T : Topo P} (ok : Ok T) {c : PC P} (hi : T.interior c = false) (h3 : 2 < (T.cl c).length) :
    vertEntries T c = some (irregularEntries T c) ∧ ∀ e ∈ irregularEntries T c, Good T e := by
  constructor
  · unfold vertEntries
    have g1 : (T.cl c).length ≠ 1 := by omega
    have g2 : (T.cl c).length ≠ 2 := by omega
    simp [hi, g1, g2, h3]
  · intro e he
    rw [irregular_eq ok] at he
    simp only [List.mem_append, List.mem_cons, List.not_mem_nil, or_false, List.mem_flatMap] at he
    rcases he with (rfl | ⟨s, hs, he⟩) | rfl
    · exact good_mk trivial trivial (cor11_self T c).symm
    · rcases h : cross T c s with _ | d
      · rw [h] at he
        simp only [List.mem_cons, List.not_mem_nil, or_false] at he
        subst he
        refine good_mk (av_valid ..) (av_valid ..) ?_
        rw [Wa_edge T c hs, edgeW, h]; simp [ind_self]
      · rw [h] at he
        obtain ⟨t, g1, g2, -⟩ := cross_data h
        have hn : nbSide T c s = t := by unfold nbSide; rw [g1]; rfl
        rw [hn] at he
        simp only [List.mem_cons, List.not_mem_nil, or_false] at he
        rcases he with rfl | rfl
        · exact good_mk trivial (av_valid ..) (half_own ok hs h).symm
        · exact good_mk trivial (av_valid ..) (half_other ok hs h g1).symm
    · refine good_mk trivial trivial ?_
      rw [Wa, cornW, hi]
      have g2 : (T.cl c).length ≠ 2 := by omega
      simp [g2, ind_self]

/-- L1 for vertices. -/
theorem vert_good {T : Topo P} (ok : Ok T) (c : PC P) : ∃ l, vertEntries T c = some l ∧ ∀ e ∈ l, Good T e := by
  cases hi : T.interior c
  · have := len_pos ok c
    rcases Nat.lt_or_ge 2 (T.cl c).length with h | h
    · exact ⟨_, irregular_good ok hi h⟩
    · rcases (by omega : (T.cl c).length = 1 ∨ (T.cl c).length = 2) with h | h
      · obtain ⟨l, h1, h2, -⟩ := corner_good ok hi h; exact ⟨l, h1, h2⟩
      · exact regular_good ok hi h
  · exact interior_good ok hi

end Verif.Smooth
