import Verif.Model.DPatchMap
import Verif.Proofs.AlmostC1Sum
/-! `gsDPatch`: eliminated functions, closed form of the matrix, column sums, counting. -/
set_option autoImplicit false
set_option linter.unusedSectionVars false
set_option linter.unusedSimpArgs false
set_option linter.unusedVariables false
namespace Verif.DPatch
open Verif Smooth
open _root_.Verif.AlmostC1 (getLowest allIndices getLowest_perm getLowest_sub getLowest_length all0 all0_valid all_perm elimIrregular elimRegular cl_symm cor_cases av_cor AElim_av bnd mem_bnd)

variable {P : Type} [LinearOrder P]

/-- a boundary vertex with three patches -/
def V3 (T : Topo P) (c : PC P) : Bool := ! T.interior c && (T.cl c).length == 3

/-- no boundary vertex has more than three patches -/
def BVal (T : Topo P) : Prop := ∀ c, T.interior c = false → (T.cl c).length ≤ 3

theorem V3_same {T : Topo P} (ok : Ok T) {c d : PC P} (h : d ∈ T.cl c) : V3 T d = V3 T c := by
  unfold V3; rw [interior_same ok h, cl_len ok h]

theorem V3_iff {T : Topo P} (c : PC P) : V3 T c = true ↔ T.interior c = false ∧ (T.cl c).length = 3 := by
  unfold V3; simp

/-! ## the matched function -/

theorem matched_some {T : Topo P} (ok : Ok T) (c : PC P) : ∃ m ∈ T.cl c, matched T c = some (enc T (.cor m false false)) := by
  have hlen : (getLowest T (allIndices T 0 c) 1).length = 1 := by
    apply getLowest_length
    rw [all0, List.length_map]; exact len_pos ok c
  rw [List.length_eq_one_iff] at hlen
  obtain ⟨x, hx⟩ := hlen
  have hm : x ∈ allIndices T 0 c := getLowest_sub T (n := 1) (by rw [hx]; simp)
  rw [all0, List.mem_map] at hm
  obtain ⟨m, hm, rfl⟩ := hm
  exact ⟨m, hm, by unfold matched; rw [hx]; rfl⟩

theorem matched_same {T : Topo P} (ok : Ok T) {c d : PC P} (h : d ∈ T.cl c) : matched T d = matched T c := by
  unfold matched
  rw [getLowest_perm T (all_perm ok h 0) (all0_valid ok d) 1]

/-- structural name of the matched function -/
def ex (T : Topo P) (c : PC P) : ADof P := match matched T c with
  | some d => dec T d
  | none => .cor c false false

theorem ex_spec {T : Topo P} (ok : Ok T) (c : PC P) : ∃ m ∈ T.cl c, ex T c = .cor m false false ∧ matched T c = some (enc T (ex T c)) := by
  obtain ⟨m, hm, h⟩ := matched_some ok c
  have : ex T c = .cor m false false := by
    unfold ex; rw [h]
    exact dec_enc ok (x := ADof.cor m false false) trivial
  exact ⟨m, hm, this, by rw [h, this]⟩

theorem ex_same {T : Topo P} (ok : Ok T) {c d : PC P} (h : d ∈ T.cl c) : ex T d = ex T c := by
  obtain ⟨m, -, h1, h2⟩ := ex_spec ok c
  obtain ⟨m', -, h1', h2'⟩ := ex_spec ok d
  rw [matched_same ok h, h2, Option.some.injEq] at h2'
  rw [h1, h1'] at h2'
  rw [h1, h1', enc_inj ok (x := ADof.cor m false false) (y := ADof.cor m' false false) trivial trivial h2']

theorem lowest_mem {T : Topo P} (ok : Ok T) (c : PC P) : ∃ lo ∈ T.cl c, lowest T c = some lo := by
  have hp := len_pos ok c
  unfold lowest
  rcases h : T.cl c with _ | ⟨d, l⟩
  · rw [h] at hp; simp at hp
  · refine ⟨_, ?_, rfl⟩
    have : ∀ (l : List (PC P)) (d : PC P), l.foldl (fun m x => if x.1 < m.1 then x else m) d ∈ d :: l := by
      intro l
      induction l with
      | nil => intro d; simp
      | cons a l ih =>
        intro d
        rw [List.foldl_cons]
        have := ih (if a.1 < d.1 then a else d)
        rw [List.mem_cons] at this
        rcases this with h | h
        · rw [h]; split_ifs <;> simp
        · exact List.mem_cons_of_mem _ (List.mem_cons_of_mem _ h)
    exact this l d

/-! ## eliminated functions and weights -/

def AE (T : Topo P) : ADof P → Bool
  | .cor c false false => if V3 T c then decide (ADof.cor c false false ≠ ex T c) else AElim T (.cor c false false)
  | .cor c true false => V3 T c || AElim T (.cor c true false)
  | .cor c false true => V3 T c || AElim T (.cor c false true)
  | a => AElim T a

/-- weights at a function next to a side of a boundary vertex with three patches -/
def edge3 (T : Topo P) (c : PC P) (s : Side) (r : ADof P) : ℚ :=
  match cross T c s with
  | none => (ind r (.cor c true true) + ind r (ex T c)) / 2
  | some d => (ind r (.cor c true true) + ind r (.cor d true true)) / 2

def FD (T : Topo P) (r : ADof P) : ADof P → ℚ
  | .cor c false false =>
    if V3 T c then (((T.cl c).map fun d => ind r (.cor d true true)).sum + ind r (ex T c)) / 4 else Wa T r (.cor c false false)
  | .cor c true false => if V3 T c then edge3 T c c.2.vside r else Wa T r (.cor c true false)
  | .cor c false true => if V3 T c then edge3 T c c.2.uside r else Wa T r (.cor c false true)
  | b => Wa T r b

theorem FD_eq {T : Topo P} (r b : ADof P) (h : ∀ c x y, b = .cor c x y → V3 T c = false) : FD T r b = Wa T r b := by
  cases b with
  | int p i j => rfl
  | sid s off m => rfl
  | cor c x y =>
    have := h c x y rfl
    cases x <;> cases y <;> simp [FD, this]

theorem AE_eq {T : Topo P} (b : ADof P) (h : ∀ c x y, b = .cor c x y → V3 T c = false) : AE T b = AElim T b := by
  cases b with
  | int p i j => rfl
  | sid s off m => rfl
  | cor c x y =>
    have := h c x y rfl
    cases x <;> cases y <;> simp [AE, this]

theorem FD_av {T : Topo P} {c : PC P} (h : V3 T c = true) {s : Side} (hs : s ∈ c.2.sides) (r : ADof P) :
    FD T r (av c s true false) = edge3 T c s r := by
  simp only [Corner.sides, List.mem_cons, List.not_mem_nil, or_false] at hs
  rcases hs with rfl | rfl
  · simp [av, uside_dir, FD, h]
  · simp [av, vside_dir, FD, h]

theorem FD_00 {T : Topo P} {c : PC P} (h : V3 T c = true) (r : ADof P) :
    FD T r (.cor c false false) = (((T.cl c).map fun d => ind r (.cor d true true)).sum + ind r (ex T c)) / 4 := by
  simp [FD, h]

theorem FD_11 {T : Topo P} (c : PC P) (r : ADof P) : FD T r (.cor c true true) = ind r (.cor c true true) := rfl

theorem AE_av {T : Topo P} {c : PC P} (h : V3 T c = true) {s : Side} (hs : s ∈ c.2.sides) : AE T (av c s true false) = true := by
  simp only [Corner.sides, List.mem_cons, List.not_mem_nil, or_false] at hs
  rcases hs with rfl | rfl
  · simp [av, uside_dir, AE, h]
  · simp [av, vside_dir, AE, h]

/-! ## the mapper -/

theorem rule_base {T : Topo P} (ok : Ok T) (hb : BVal T) {c : PC P} (h : V3 T c = false) : vertElim T c = some (Smooth.vertElim T c, []) := by
  have hp := len_pos ok c
  unfold vertElim Smooth.vertElim
  cases hi : T.interior c
  · have hl := hb c hi
    have h3 : (T.cl c).length ≠ 3 := by
      intro e; rw [(V3_iff c).2 ⟨hi, e⟩] at h; cases h
    by_cases h1 : (T.cl c).length = 1
    · simp [hi, h1]
    · have h2 : (T.cl c).length = 2 := by omega
      cases hc : T.c0 c
      · simp [hi, h2, hc]; rfl
      · simp [hi, h2, hc]; rfl
  · simp

theorem mem_elimV3 {T : Topo P} (ok : Ok T) {c : PC P} (h : V3 T c = true) (x : Dof P) :
    x ∈ elimV3 T c ↔ ∃ e a b, e ∈ T.cl c ∧ AE T (.cor e a b) = true ∧ x = enc T (.cor e a b) := by
  unfold elimV3
  rw [List.mem_flatMap]
  have hv : ∀ e, e ∈ T.cl c → V3 T e = true := fun e he => by rw [V3_same ok he]; exact h
  have hm : ∀ e, e ∈ T.cl c → (matched T e = some (vert T e e.2.uside 0 0) ↔ AE T (.cor e false false) = false) := by
    intro e he
    obtain ⟨m, -, h1, h2⟩ := ex_spec ok e
    rw [h2, vert00 T e (uside_mem _), av_diag]
    simp only [AE, hv e he, if_true, Option.some.injEq, ne_eq, decide_not, Bool.not_eq_false', decide_eq_true_eq]
    constructor
    · intro g
      rw [h1] at g ⊢
      rw [enc_inj ok (x := ADof.cor m false false) (y := ADof.cor e false false) trivial trivial g]
    · intro g; rw [g]
  constructor
  · rintro ⟨e, he, hx⟩
    rw [List.mem_append] at hx
    rcases hx with hx | hx
    · simp only [List.mem_cons, List.not_mem_nil, or_false, vert10 T e (uside_mem _), vert10 T e (vside_mem _)] at hx
      rcases hx with rfl | rfl
      · obtain ⟨a, b, hab⟩ := av_cor e e.2.uside
        exact ⟨e, a, b, he, by rw [← hab]; exact AE_av (hv e he) (uside_mem _), by rw [hab]⟩
      · obtain ⟨a, b, hab⟩ := av_cor e e.2.vside
        exact ⟨e, a, b, he, by rw [← hab]; exact AE_av (hv e he) (vside_mem _), by rw [hab]⟩
    · split_ifs at hx with g
      · simp at hx
      · rw [hm e he, Bool.not_eq_false] at g
        rw [List.mem_singleton] at hx
        exact ⟨e, false, false, he, g, by rw [hx, vert00 T e (uside_mem _), av_diag]⟩
  · rintro ⟨e, a, b, he, hae, rfl⟩
    refine ⟨e, he, ?_⟩
    rw [List.mem_append]
    rcases cor_cases e a b with g | g | ⟨s, hs, g⟩
    · rw [g] at hae; simp [AE, AElim] at hae
    · rw [g] at hae ⊢
      right
      rw [if_neg (by rw [hm e he, hae]; simp), vert00 T e (uside_mem _), av_diag]; simp
    · rw [g]
      left
      simp only [List.mem_cons, List.not_mem_nil, or_false]
      simp only [Corner.sides, List.mem_cons, List.not_mem_nil, or_false] at hs
      rcases hs with rfl | rfl
      · left; rw [vert10 T e (uside_mem _)]
      · right; rw [vert10 T e (vside_mem _)]

theorem rule_ok {T : Topo P} (ok : Ok T) (hb : BVal T) : RuleOk T (AE T) (vertElim T) := by
  intro c
  cases h : V3 T c
  · refine ⟨_, _, rule_base ok hb h, ?_⟩
    intro d
    have hc : ∀ x y, AE T (.cor c x y) = AElim T (.cor c x y) := fun x y => AE_eq _ (by
      intro c' x' y' e; simp only [ADof.cor.injEq] at e; rw [← e.1]; exact h)
    constructor
    · intro hd
      have : ∃ x y, d = enc T (.cor c x y) := by
        unfold Smooth.vertElim at hd
        have key : ∀ s ∈ c.2.sides, ∀ d, (d = vert T c s 0 0 ∨ d = vert T c s 1 0) → ∃ x y, d = enc T (.cor c x y) := by
          rintro s hs d (rfl | rfl)
          · exact ⟨false, false, by rw [vert00 T c hs, av_diag]⟩
          · obtain ⟨x, y, g⟩ := av_cor c s
            exact ⟨x, y, by rw [vert10 T c hs, g]⟩
        simp only at hd
        split_ifs at hd with g1 g2 g3
        · rw [List.mem_flatMap] at hd
          obtain ⟨s, hs, hd⟩ := hd
          exact key s hs d (by simpa using hd)
        · simp at hd
        · rw [List.mem_flatMap] at hd
          obtain ⟨s, hs, hd⟩ := hd
          split_ifs at hd
          · exact key s hs d (by simpa using hd)
          · simp at hd
        · rw [List.mem_flatMap] at hd
          obtain ⟨s, hs, hd⟩ := hd
          split_ifs at hd
          · exact key s hs d (Or.inr (by simpa using hd))
          · simp at hd
      obtain ⟨x, y, rfl⟩ := this
      have := ((mem_vertElim ok c (.cor c x y) trivial).1 hd).2
      exact ⟨c, x, y, Or.inl rfl, by rw [hc]; exact this, rfl⟩
    · rintro ⟨e, x, y, (rfl | he), h1, rfl⟩
      · exact (mem_vertElim ok e (.cor e x y) trivial).2 ⟨⟨x, y, rfl⟩, by rw [← hc]; exact h1⟩
      · simp at he
  · obtain ⟨hi, h3⟩ := (V3_iff c).1 h
    refine ⟨elimV3 T c, T.cl c, by simp [vertElim, hi, h3], ?_⟩
    intro d
    rw [mem_elimV3 ok h]
    constructor
    · rintro ⟨e, a, b, he, h1, h2⟩; exact ⟨e, a, b, Or.inr he, h1, h2⟩
    · rintro ⟨e, a, b, (rfl | he), h1, h2⟩
      · exact ⟨e, a, b, ok.cl_self e, h1, h2⟩
      · exact ⟨e, a, b, he, h1, h2⟩

/-! ## the matrix -/

/-- columns written at a corner belong to its vertex -/
theorem col_corner {T : Topo P} (ok : Ok T) {c : PC P} {l : List (Entry P)} (hl : Smooth.vertEntries T c = some l) {e : Entry P} (he : e ∈ l) :
    ∃ x ∈ T.cl c, ∃ a b, e.2.1 = enc T (.cor x a b) := by
  have hav : ∀ (y : PC P) (s : Side) (k l : Bool), ∃ a b, enc T (av y s k l) = enc T (.cor y a b) := by
    intro y s k l; unfold av; split_ifs <;> exact ⟨_, _, rfl⟩
  have hself := ok.cl_self c
  cases hi : T.interior c
  · have hp := len_pos ok c
    by_cases h1 : (T.cl c).length = 1
    · obtain ⟨l', g1, -, g3⟩ := corner_good ok hi h1
      rw [hl] at g1; cases g1
      obtain ⟨a, b, rfl⟩ := g3 e he
      exact ⟨c, hself, a, b, rfl⟩
    · by_cases h2 : (T.cl c).length = 2
      · obtain ⟨d, t, s', hs, hdc, ht, htm, hn, hs', hne', hn'⟩ := regular_data ok hi h2
        have hmem := ok.cl_cross c _ d hs hdc
        obtain ⟨e1, e2⟩ := regular_eq ok hs hdc ht htm
        cases hc : T.c0 c
        · have : Smooth.vertEntries T c = regularEntries T c [0, 1] := by
            unfold Smooth.vertEntries; simp [hi, h2, hc]
          rw [this, e1] at hl
          cases hl
          simp only [List.mem_cons, List.not_mem_nil, or_false] at he
          rcases he with rfl | rfl | rfl | rfl | rfl | rfl
          · exact ⟨c, hself, hav ..⟩
          · exact ⟨c, hself, _, _, rfl⟩
          · exact ⟨d, hmem, _, _, rfl⟩
          · exact ⟨c, hself, _, _, rfl⟩
          · exact ⟨c, hself, hav ..⟩
          · exact ⟨d, hmem, hav ..⟩
        · have : Smooth.vertEntries T c = regularEntries T c [1] := by
            unfold Smooth.vertEntries; simp [hi, h2, hc]
          rw [this, e2] at hl
          cases hl
          simp only [List.mem_cons, List.not_mem_nil, or_false] at he
          rcases he with rfl | rfl | rfl
          · exact ⟨c, hself, _, _, rfl⟩
          · exact ⟨c, hself, hav ..⟩
          · exact ⟨d, hmem, hav ..⟩
      · have h3 : 2 < (T.cl c).length := by omega
        obtain ⟨g1, -⟩ := irregular_good ok hi h3
        rw [hl] at g1; cases g1
        rw [AlmostC1.mem_irregular ok] at he
        rcases he with rfl | ⟨s, hs, d, t, hd, ht, htm, rfl | rfl⟩ | ⟨s, hs, hn, rfl⟩ | rfl
        · exact ⟨c, hself, _, _, rfl⟩
        · exact ⟨c, hself, hav ..⟩
        · exact ⟨d, ok.cl_cross c _ d hs hd, hav ..⟩
        · exact ⟨c, hself, hav ..⟩
        · exact ⟨c, hself, _, _, rfl⟩
  · obtain ⟨d1, d2, t1, t2, c1, c2, g1, g2, m1, m2, hent⟩ := interior_eq ok hi
    have : Smooth.vertEntries T c = interiorEntries T c := by unfold Smooth.vertEntries; simp [hi]
    rw [this, hent] at hl
    cases hl
    simp only [List.mem_append, List.mem_cons, List.not_mem_nil, or_false, List.mem_map] at he
    rcases he with ((rfl | ⟨d, hd, rfl⟩) | rfl | rfl) | rfl | rfl
    · exact ⟨c, hself, _, _, rfl⟩
    · exact ⟨d, hd, _, _, rfl⟩
    · exact ⟨c, hself, hav ..⟩
    · exact ⟨d1, ok.cl_cross c _ d1 (uside_mem _) c1, hav ..⟩
    · exact ⟨c, hself, hav ..⟩
    · exact ⟨d2, ok.cl_cross c _ d2 (vside_mem _) c2, hav ..⟩

theorem entries_base {T : Topo P} (ok : Ok T) (hb : BVal T) {c : PC P} (h : V3 T c = false) : vertEntries T c = Smooth.vertEntries T c := by
  unfold vertEntries Smooth.vertEntries
  cases hi : T.interior c
  · have hl := hb c hi
    have h3 : (T.cl c).length ≠ 3 := by
      intro e; rw [(V3_iff c).2 ⟨hi, e⟩] at h; cases h
    have : ¬ 2 < (T.cl c).length := by omega
    simp only [Bool.false_eq_true, if_false, if_neg this]
  · simp

theorem entries_v3 {T : Topo P} {c : PC P} (h : V3 T c = true) : vertEntries T c = v3Entries T c := by
  obtain ⟨hi, h3⟩ := (V3_iff c).1 h
  unfold vertEntries
  simp [hi, h3]

theorem corner_mem {s : Side} {x : Corner} : x ∈ s.corners ↔ s ∈ x.sides := by cases s <;> cases x <;> decide

/-- what the handler of a boundary vertex with three patches writes -/
theorem v3_eq {T : Topo P} (ok : Ok T) (c : PC P) :
    ∃ l, v3Entries T c = some l ∧ ∀ e, e ∈ l ↔
      (∃ d ∈ T.cl c, ∃ s ∈ d.2.sides, cross T d s = none ∧
        (e = (enc T (.cor d true true), enc T (av d s true false), 1 / 2) ∨ e = (enc T (ex T c), enc T (av d s true false), 1 / 2))) ∨
      (∃ d ∈ T.cl c, e = (enc T (ex T c), enc T (.cor d false false), 1 / 4)) ∨
      (∃ d ∈ T.cl c, e = (enc T (.cor d true true), enc T (.cor d true true), 1)) ∨
      (∃ d ∈ T.cl c, ∃ x ∈ T.cl c, e = (enc T (.cor d true true), enc T (.cor x false false), 1 / 4)) ∨
      (∃ d ∈ T.cl c, ∃ s ∈ d.2.sides, ∃ x t, cross T d s = some x ∧ T.nb (d.1, s) = some (x.1, t) ∧ t ∈ x.2.sides ∧
        (e = (enc T (.cor d true true), enc T (av d s true false), 1 / 2) ∨ e = (enc T (.cor d true true), enc T (av x t true false), 1 / 2) ∨
         e = (enc T (.cor x true true), enc T (av d s true false), 1 / 2) ∨ e = (enc T (.cor x true true), enc T (av x t true false), 1 / 2))) := by
  obtain ⟨lo, hlo, hlow⟩ := lowest_mem ok c
  obtain ⟨m, hm, h1, h2⟩ := ex_spec ok lo
  rw [ex_same ok hlo] at h1 h2
  refine ⟨_, by unfold v3Entries; rw [hlow]; simp only [Option.bind_eq_bind, Option.bind_some, h2]; rfl, ?_⟩
  intro e
  have hB : (∃ d ∈ T.cl c, e ∈ bdryEntries T (enc T (ex T c)) d) ↔ (∃ d ∈ T.cl c, ∃ s ∈ d.2.sides, cross T d s = none ∧
        (e = (enc T (.cor d true true), enc T (av d s true false), 1 / 2) ∨ e = (enc T (ex T c), enc T (av d s true false), 1 / 2))) := by
    apply exists_congr; intro d
    apply and_congr_right; intro hd
    unfold bdryEntries
    rw [List.mem_flatMap]
    apply exists_congr; intro s
    apply and_congr_right; intro hs
    unfold isIface
    rw [cross_none]
    cases g : T.nb (d.1, s)
    · simp [vert10 T d hs, vert11 T d hs, av_diag]
    · simp
  have hI : (∃ d ∈ T.cl c, ∃ s ∈ d.2.sides, e ∈ ifaceEntries T c d.1 s) ↔
      (∃ d ∈ T.cl c, ∃ s ∈ d.2.sides, ∃ x t, cross T d s = some x ∧ T.nb (d.1, s) = some (x.1, t) ∧ t ∈ x.2.sides ∧
        (e = (enc T (.cor d true true), enc T (av d s true false), 1 / 2) ∨ e = (enc T (.cor d true true), enc T (av x t true false), 1 / 2) ∨
         e = (enc T (.cor x true true), enc T (av d s true false), 1 / 2) ∨ e = (enc T (.cor x true true), enc T (av x t true false), 1 / 2))) := by
    constructor
    · rintro ⟨d, hd, s, hs, he⟩
      unfold ifaceEntries at he
      rcases g : T.nb (d.1, s) with _ | t
      · rw [g] at he; simp at he
      · rw [g] at he
        simp only [List.mem_flatMap, List.mem_filter, decide_eq_true_eq] at he
        obtain ⟨x, ⟨hx, hxc⟩, he⟩ := he
        rw [corner_mem] at hx
        refine ⟨(d.1, x), hxc, s, hx, ?_⟩
        rcases g' : cross T (d.1, x) s with _ | y
        · rw [g'] at he; simp at he
        · rw [g'] at he
          obtain ⟨t', k1, k2, -⟩ := cross_data g'
          simp only at k1
          rw [g, Option.some.injEq] at k1
          subst k1
          simp only [vert11 T (d.1, x) (s := s) hx, vert10 T (d.1, x) (s := s) hx, vert11 T y k2, vert10 T y k2, av_diag, List.mem_cons, List.not_mem_nil, or_false] at he
          exact ⟨y, t', rfl, g, k2, he⟩
    · rintro ⟨d, hd, s, hs, x, t, g1, g2, g3, he⟩
      refine ⟨d, hd, s, hs, ?_⟩
      unfold ifaceEntries
      rw [g2]
      simp only [List.mem_flatMap, List.mem_filter, decide_eq_true_eq]
      refine ⟨d.2, ⟨corner_mem.2 hs, hd⟩, ?_⟩
      have g1' : cross T (d.1, d.2) s = some x := g1
      rw [g1']
      simp only [vert11 T (d.1, d.2) (s := s) hs, vert10 T (d.1, d.2) (s := s) hs, vert11 T x g3, vert10 T x g3, av_diag, List.mem_cons, List.not_mem_nil, or_false]
      exact he
  rw [List.mem_append, List.mem_append, List.mem_append, List.mem_flatMap, hB]
  have hI' : e ∈ (T.cl c).flatMap (fun d => d.2.sides.flatMap fun s => ifaceEntries T c d.1 s) ↔ (∃ d ∈ T.cl c, ∃ s ∈ d.2.sides, e ∈ ifaceEntries T c d.1 s) := by
    simp only [List.mem_flatMap]
  rw [hI', hI]
  have h00 : ∀ d : PC P, vert T d d.2.uside 0 0 = enc T (.cor d false false) := fun d => by rw [vert00 T d (uside_mem _), av_diag]
  have h11 : ∀ d : PC P, vert T d d.2.uside 1 1 = enc T (.cor d true true) := fun d => by rw [vert11 T d (uside_mem _), av_diag]
  simp only [h00, h11]
  have hM : e ∈ (T.cl c).map (fun d => ((enc T (ex T c), enc T (.cor d false false), 1 / 4) : Entry P)) ↔
      ∃ d ∈ T.cl c, e = (enc T (ex T c), enc T (.cor d false false), 1 / 4) := by
    rw [List.mem_map]; simp only [eq_comm]
  have hD : e ∈ (T.cl c).flatMap (fun d => (enc T (.cor d true true), enc T (.cor d true true), 1) ::
      (T.cl c).map fun x => ((enc T (.cor d true true), enc T (.cor x false false), 1 / 4) : Entry P)) ↔
      (∃ d ∈ T.cl c, e = (enc T (.cor d true true), enc T (.cor d true true), 1)) ∨
      (∃ d ∈ T.cl c, ∃ x ∈ T.cl c, e = (enc T (.cor d true true), enc T (.cor x false false), 1 / 4)) := by
    rw [List.mem_flatMap, ← exists_or]
    apply exists_congr; intro d
    rw [← and_or_left]
    apply and_congr_right; intro _
    rw [List.mem_cons, List.mem_map]
    simp only [eq_comm]
  rw [hM, hD]
  simp only [or_assoc]

theorem sum_ind11 {T : Topo P} (ok : Ok T) (c : PC P) (r : ADof P) :
    ((T.cl c).map fun d => ind r (.cor d true true)).sum = if ∃ d ∈ T.cl c, r = .cor d true true then 1 else 0 := by
  split_ifs with h
  · obtain ⟨d, hd, rfl⟩ := h
    exact sum_ind (ok.cl_nodup c) hd
  · apply List.sum_eq_zero
    intro x hx
    rw [List.mem_map] at hx
    obtain ⟨d, hd, rfl⟩ := hx
    exact ind_ne (fun e => h ⟨d, hd, e⟩)

theorem av_ne00 (c : PC P) (s : Side) (x : PC P) : av c s true false ≠ .cor x false false := by unfold av; split_ifs <;> simp
theorem av_ne11 (c : PC P) (s : Side) (x : PC P) : av c s true false ≠ .cor x true true := by unfold av; split_ifs <;> simp

theorem zero_diag {T : Topo P} (ok : Ok T) (a : ADof P) (h : AE T a = true) : FD T a a = 0 := by
  by_cases hv : ∃ c x y, a = .cor c x y ∧ V3 T c = true
  · obtain ⟨c, x, y, rfl, hv⟩ := hv
    obtain ⟨m, hm, hex, -⟩ := ex_spec ok c
    rcases cor_cases c x y with g | g | ⟨s, hs, g⟩
    · rw [g] at h; simp [AE, AElim] at h
    · rw [g] at h ⊢
      rw [FD_00 hv, sum_ind11 ok, if_neg (by simp), ind_ne]
      · norm_num
      · simp only [AE, hv, if_true, decide_eq_true_eq] at h; exact h
    · rw [g, FD_av hv hs, edge3, hex]
      rcases cross T c s with _ | d
      · simp only
        rw [ind_ne (av_ne11 _ _ _), ind_ne (av_ne00 _ _ _)]; norm_num
      · simp only
        rw [ind_ne (av_ne11 _ _ _), ind_ne (av_ne11 _ _ _)]; norm_num
  · have hn : ∀ c x y, a = .cor c x y → V3 T c = false := fun c x y e => by
      by_contra hcon; exact hv ⟨c, x, y, e, by simpa using hcon⟩
    rw [FD_eq a a hn, W_diag ok]
    rw [AE_eq a hn] at h
    rw [if_pos h]

theorem half_sum {r x y : ADof P} (h : (ind r x + ind r y) / 2 ≠ 0) : r = x ∨ r = y := ind_or h

theorem vertOk {T : Topo P} (ok : Ok T) (hb : BVal T) :
    VertOk T (FD T) (AE T) (fun _ => false) (vertEntries T) (fun _ => []) (passedCorners T) := by
  have hcor : ∀ {c : PC P}, V3 T c = false → ∀ {x : PC P}, x ∈ T.cl c → ∀ a b, ∀ c' x' y', ADof.cor x a b = .cor c' x' y' → V3 T c' = false := by
    intro c h x hx a b c' x' y' e
    simp only [ADof.cor.injEq] at e
    rw [← e.1, V3_same ok hx]; exact h
  refine ⟨?_, ?_, by simp, ?_, ?_, ?_, ?_, by simp, by simp, ?_, by simp⟩
  · intro a b hb
    apply FD_eq
    rintro c x y rfl
    simp [isCor] at hb
  · intro a ha
    cases a <;> simp [isCor] at ha <;> rfl
  · rintro a (h | h)
    · exact zero_diag ok a h
    · simp at h
  · -- entries
    intro c
    cases h : V3 T c
    · rw [entries_base ok hb h]
      obtain ⟨l, hl, hg⟩ := vert_good ok c
      have hd := vert_diag ok c hl
      refine ⟨l, hl, ?_, fun e he => ⟨1, hd e he⟩, ?_⟩
      · intro e he
        obtain ⟨a, b, ha, hb', h1, h2, h3⟩ := hg e he
        obtain ⟨x, hx, k, j, hcol⟩ := col_corner ok hl he
        refine ⟨a, b, ha, hb', h1, h2, ?_⟩
        rw [h2] at hcol
        have := enc_inj ok hb' (y := ADof.cor x k j) trivial hcol
        subst this
        rw [h3, FD_eq _ _ (hcor h hx k j)]
      · intro e he
        have he' := hd e he
        obtain ⟨a, b, ha, hb', h1, h2, h3⟩ := hg _ he'
        simp only at h1 h2 h3
        obtain ⟨x, hx, k, j, hcol⟩ := col_corner ok hl he'
        simp only at hcol
        rw [h1] at h2 hcol
        have e1 := enc_inj ok ha hb' h2
        have e2 := enc_inj ok ha (y := ADof.cor x k j) trivial hcol
        subst e1
        subst e2
        refine ⟨ADof.cor x k j, trivial, h1, ?_, rfl⟩
        rw [AE_eq _ (hcor h hx k j)]
        rw [W_diag ok] at h3
        by_contra hcon
        simp only [Bool.not_eq_false] at hcon
        rw [if_pos hcon] at h3
        norm_num at h3
    · rw [entries_v3 h]
      obtain ⟨l, hl, hm⟩ := v3_eq ok c
      obtain ⟨m, hmc, hex, -⟩ := ex_spec ok c
      have hV : ∀ d ∈ T.cl c, V3 T d = true := fun d hd => by rw [V3_same ok hd]; exact h
      have exv : AValid T (ex T c) := by rw [hex]; trivial
      refine ⟨l, hl, ?_, ?_, ?_⟩
      · intro e he
        rw [hm] at he
        rcases he with ⟨d, hd, s, hs, hc, rfl | rfl⟩ | ⟨d, hd, rfl⟩ | ⟨d, hd, rfl⟩ | ⟨d, hd, x, hx, rfl⟩ | ⟨d, hd, s, hs, x, t, hc, ht, htm, he⟩
        · refine goodF_mk trivial (av_valid ..) ?_
          rw [FD_av (hV d hd) hs, edge3, hc, ex_same ok hd, hex]
          simp only [ind_self]
          rw [ind_ne (by simp)]; norm_num
        · refine goodF_mk exv (av_valid ..) ?_
          rw [FD_av (hV d hd) hs, edge3, hc, ex_same ok hd, hex]
          simp only [ind_self]
          rw [ind_ne (by simp)]; norm_num
        · refine goodF_mk exv trivial ?_
          rw [FD_00 (hV d hd), ex_same ok hd, sum_ind11 ok, ind_self, if_neg (by rw [hex]; simp)]; norm_num
        · exact goodF_mk trivial trivial (by rw [FD_11, ind_self])
        · refine goodF_mk trivial trivial ?_
          rw [FD_00 (hV x hx), ex_same ok hx, sum_ind11 ok, if_pos ⟨d, (ok.cl_same c x hx d).2 hd, rfl⟩, hex, ind_ne (by simp)]; norm_num
        · have hxc : x ∈ T.cl c := (ok.cl_same c d hd x).1 (ok.cl_cross d s x hs hc)
          have hne : x ≠ d := cross_ne ok hs hc
          have hback := cross_back ok hs hc ht
          rcases he with rfl | rfl | rfl | rfl
          · refine goodF_mk trivial (av_valid ..) ?_
            rw [FD_av (hV d hd) hs, edge3, hc]
            simp only [ind_self]
            rw [ind_ne (by simp [Ne.symm hne])]; norm_num
          · refine goodF_mk trivial (av_valid ..) ?_
            rw [FD_av (hV x hxc) htm, edge3, hback]
            simp only [ind_self]
            rw [ind_ne (by simp [Ne.symm hne])]; norm_num
          · refine goodF_mk trivial (av_valid ..) ?_
            rw [FD_av (hV d hd) hs, edge3, hc]
            simp only [ind_self]
            rw [ind_ne (by simp [hne])]; norm_num
          · refine goodF_mk trivial (av_valid ..) ?_
            rw [FD_av (hV x hxc) htm, edge3, hback]
            simp only [ind_self]
            rw [ind_ne (by simp [hne])]; norm_num
      · have d11 : ∀ d ∈ T.cl c, ∃ w, (enc T (.cor d true true), enc T (.cor d true true), w) ∈ l :=
          fun d hd => ⟨1, (hm _).2 (Or.inr (Or.inr (Or.inl ⟨d, hd, rfl⟩)))⟩
        have dex : ∃ w, (enc T (ex T c), enc T (ex T c), w) ∈ l := by
          refine ⟨1 / 4, (hm _).2 (Or.inr (Or.inl ⟨m, hmc, ?_⟩))⟩
          rw [hex]
        intro e he
        rw [hm] at he
        rcases he with ⟨d, hd, s, hs, hc, rfl | rfl⟩ | ⟨d, hd, rfl⟩ | ⟨d, hd, rfl⟩ | ⟨d, hd, x, hx, rfl⟩ | ⟨d, hd, s, hs, x, t, hc, ht, htm, he⟩
        · exact d11 d hd
        · exact dex
        · exact dex
        · exact d11 d hd
        · exact d11 d hd
        · have hxc : x ∈ T.cl c := (ok.cl_same c d hd x).1 (ok.cl_cross d s x hs hc)
          rcases he with rfl | rfl | rfl | rfl
          · exact d11 d hd
          · exact d11 d hd
          · exact d11 x hxc
          · exact d11 x hxc
      · have f11 : ∀ d : PC P, ∃ a, AValid T a ∧ enc T (.cor d true true) = enc T a ∧ AE T a = false ∧ (fun _ : ADof P => false) a = false :=
          fun d => ⟨.cor d true true, trivial, rfl, rfl, rfl⟩
        have fex : ∃ a, AValid T a ∧ enc T (ex T c) = enc T a ∧ AE T a = false ∧ (fun _ : ADof P => false) a = false := by
          refine ⟨ex T c, exv, rfl, ?_, rfl⟩
          have : ex T m = ex T c := ex_same ok hmc
          rw [hex]
          simp only [AE, hV m hmc, if_true, this, hex]; simp
        intro e he
        rw [hm] at he
        rcases he with ⟨d, hd, s, hs, hc, rfl | rfl⟩ | ⟨d, hd, rfl⟩ | ⟨d, hd, rfl⟩ | ⟨d, hd, x, hx, rfl⟩ | ⟨d, hd, s, hs, x, t, hc, ht, htm, he⟩
        · exact f11 d
        · exact fex
        · exact fex
        · exact f11 d
        · exact f11 d
        · rcases he with rfl | rfl | rfl | rfl
          · exact f11 d
          · exact f11 d
          · exact f11 x
          · exact f11 x
  · -- diagonal
    intro a ha hca h1 _
    by_cases hv : ∃ c x y, a = .cor c x y ∧ V3 T c = true
    · obtain ⟨c, x, y, rfl, hv⟩ := hv
      obtain ⟨l, hl, hm⟩ := v3_eq ok c
      rcases cor_cases c x y with g | g | ⟨s, hs, g⟩
      · rw [g]; left; rw [FD_11, ind_self]
      · rw [g] at h1 ⊢
        right
        simp only [AE, hv, if_true, ne_eq, decide_not, Bool.not_eq_false', decide_eq_true_eq] at h1
        refine ⟨c, l, 1 / 4, by rw [entries_v3 hv, hl], (hm _).2 (Or.inr (Or.inl ⟨c, ok.cl_self c, ?_⟩))⟩
        rw [← h1]
      · rw [g, AE_av hv hs] at h1; cases h1
    · have hn : ∀ c x y, a = .cor c x y → V3 T c = false := fun c x y e => by
        by_contra hcon; exact hv ⟨c, x, y, e, by simpa using hcon⟩
      left
      rw [AE_eq a hn] at h1
      rw [FD_eq a a hn, W_diag ok, h1]; rfl
  · -- off-diagonal
    intro a b ha hb' hcb hne hw
    by_cases hv : ∃ c x y, b = .cor c x y ∧ V3 T c = true
    · obtain ⟨c, x, y, rfl, hv⟩ := hv
      obtain ⟨l, hl, hm⟩ := v3_eq ok c
      have hself := ok.cl_self c
      rcases cor_cases c x y with g | g | ⟨s, hs, g⟩
      · rw [g, FD_11] at hw
        rw [g] at hne
        exact absurd (ind_ne hne) hw
      · rw [g] at hw ⊢
        rw [FD_00 hv, sum_ind11 ok] at hw
        by_cases h1 : ∃ d ∈ T.cl c, a = .cor d true true
        · obtain ⟨d, hd, rfl⟩ := h1
          exact ⟨c, l, 1 / 4, by rw [entries_v3 hv, hl], (hm _).2 (Or.inr (Or.inr (Or.inr (Or.inl ⟨d, hd, c, hself, rfl⟩))))⟩
        · rw [if_neg h1] at hw
          have : a = ex T c := by
            by_contra hcon; rw [ind_ne hcon] at hw; norm_num at hw
          rw [this]
          exact ⟨c, l, 1 / 4, by rw [entries_v3 hv, hl], (hm _).2 (Or.inr (Or.inl ⟨c, hself, rfl⟩))⟩
      · rw [g] at hw ⊢
        rw [FD_av hv hs, edge3] at hw
        rcases hc : cross T c s with _ | d
        · rw [hc] at hw
          rcases half_sum hw with h | h
          · rw [h]
            exact ⟨c, l, 1 / 2, by rw [entries_v3 hv, hl], (hm _).2 (Or.inl ⟨c, hself, s, hs, hc, Or.inl rfl⟩)⟩
          · rw [h]
            exact ⟨c, l, 1 / 2, by rw [entries_v3 hv, hl], (hm _).2 (Or.inl ⟨c, hself, s, hs, hc, Or.inr rfl⟩)⟩
        · rw [hc] at hw
          obtain ⟨t, k1, k2, -⟩ := cross_data hc
          rcases half_sum hw with h | h
          · rw [h]
            exact ⟨c, l, 1 / 2, by rw [entries_v3 hv, hl], (hm _).2 (Or.inr (Or.inr (Or.inr (Or.inr ⟨c, hself, s, hs, d, t, hc, k1, k2, Or.inl rfl⟩))))⟩
          · rw [h]
            exact ⟨c, l, 1 / 2, by rw [entries_v3 hv, hl], (hm _).2 (Or.inr (Or.inr (Or.inr (Or.inr ⟨c, hself, s, hs, d, t, hc, k1, k2, Or.inr (Or.inr (Or.inl rfl))⟩))))⟩
    · have hn : ∀ c x y, b = .cor c x y → V3 T c = false := fun c x y e => by
        by_contra hcon; exact hv ⟨c, x, y, e, by simpa using hcon⟩
      rw [FD_eq a b hn] at hw
      obtain ⟨w, hw⟩ := offdiag_pushed ok
        (S := fun e => (∃ x, AValid T x ∧ isCor x = false ∧ e.2.1 = enc T x) ∨ (∃ x k j, V3 T x = true ∧ e.2.1 = enc T (.cor x k j)) ∨
          ∃ c l w, vertEntries T c = some l ∧ (e.1, e.2.1, w) ∈ l) (by
          intro c l hl e he
          right
          cases h : V3 T c
          · right
            exact ⟨c, l, e.2.2, by rw [entries_base ok hb h, hl], he⟩
          · left
            obtain ⟨x, hx, k, j, g⟩ := col_corner ok hl he
            exact ⟨x, k, j, by rw [V3_same ok hx]; exact h, g⟩) (by
          intro s t hst m hm e he
          left
          unfold sideEntries at he
          simp only [List.mem_cons, List.not_mem_nil, or_false] at he
          rcases he with rfl | rfl | rfl
          · exact ⟨.sid s true m, hm, rfl, rfl⟩
          · exact ⟨.sid s false m, hm, rfl, rfl⟩
          · refine ⟨.sid t false (mt T s m), ?_, rfl, rfl⟩
            show 2 ≤ _ ∧ _ < len T t
            rw [ok.nb_len s t hst]; exact mt_mid hm) ha hb' hne hw
      rcases hw with ⟨x, hx, hcx, he⟩ | ⟨x, k, j, hx, he⟩ | h
      · have := enc_inj ok hb' hx he
        rw [this, hcx] at hcb; cases hcb
      · have := enc_inj ok hb' (y := ADof.cor x k j) trivial he
        rw [hn x k j this] at hx; cases hx
      · exact h
  · -- corners marked together
    intro c d hd l l' hl hl' e he
    unfold passedCorners at hd
    split_ifs at hd with g
    · obtain ⟨gi, g2⟩ := g
      simp only [Bool.not_eq_true] at gi
      have hle := hb c gi
      have hv : V3 T c = true := (V3_iff c).2 ⟨gi, by omega⟩
      have hvd : V3 T d = true := by rw [V3_same ok hd]; exact hv
      obtain ⟨k, k1, k2⟩ := v3_eq ok c
      obtain ⟨k', k1', k2'⟩ := v3_eq ok d
      rw [entries_v3 hv, k1, Option.some.injEq] at hl
      rw [entries_v3 hvd, k1', Option.some.injEq] at hl'
      subst hl hl'
      rw [k2'] at he
      rw [k2]
      simp only [ok.cl_same c d hd, ex_same ok hd] at he
      exact he
    · simp at hd

/-! ## column sums -/

theorem FD_nonneg {T : Topo P} (ok : Ok T) (a b : ADof P) : 0 ≤ FD T a b := by
  by_cases hv : ∃ c x y, b = .cor c x y ∧ V3 T c = true
  · obtain ⟨c, x, y, rfl, hv⟩ := hv
    rcases cor_cases c x y with g | g | ⟨s, hs, g⟩
    · rw [g]; exact ind_nonneg _ _
    · rw [g, FD_00 hv, sum_ind11 ok]
      have := ind_nonneg a (ex T c)
      split_ifs <;> linarith
    · rw [g, FD_av hv hs, edge3]
      rcases cross T c s with _ | d
      · simp only
        have h1 := ind_nonneg a (.cor c true true)
        have h2 := ind_nonneg a (ex T c)
        linarith
      · simp only
        have h1 := ind_nonneg a (.cor c true true)
        have h2 := ind_nonneg a (.cor d true true)
        linarith
  · rw [FD_eq a b (fun c x y e => by by_contra hcon; exact hv ⟨c, x, y, e, by simpa using hcon⟩)]
    exact Wa_nonneg _ _

theorem sum_FD {T : Topo P} (ok : Ok T) {dl : List (Dof P)} (hn : dl.Nodup) (hdl : ∀ d, d ∈ dl ↔ valid T d) {b : ADof P} (hb : AValid T b) :
    (dl.map fun r => FD T (dec T r) b).sum = 1 := by
  have one : ∀ a, AValid T a → (dl.map fun r => ind (dec T r) a).sum = 1 := by
    intro a ha
    have := sum_ind_eval ok hn hdl (fun _ => (1 : ℚ)) ha
    simpa using this
  by_cases hv : ∃ c x y, b = .cor c x y ∧ V3 T c = true
  · obtain ⟨c, x, y, rfl, hv⟩ := hv
    obtain ⟨m, hm, hex, -⟩ := ex_spec ok c
    have hx1 : (dl.map fun r => ind (dec T r) (ex T c)).sum = 1 := one _ (by rw [hex]; trivial)
    have two : ∀ a b, AValid T a → AValid T b → (dl.map fun r => (ind (dec T r) a + ind (dec T r) b) / 2).sum = 1 := by
      intro a b ha hb
      have e : (dl.map fun r => (ind (dec T r) a + ind (dec T r) b) / 2) = dl.map fun r => (1 / 2) * (ind (dec T r) a + ind (dec T r) b) := by
        apply List.map_congr_left; intro r _; linarith
      rw [e, List.sum_map_mul_left, List.sum_map_add, one a ha, one b hb]; norm_num
    rcases cor_cases c x y with g | g | ⟨s, hs, g⟩
    · rw [g]; exact one _ trivial
    · rw [g]
      simp only [FD_00 hv]
      have e : (dl.map fun r => (((T.cl c).map fun d => ind (dec T r) (.cor d true true)).sum + ind (dec T r) (ex T c)) / 4) =
          dl.map fun r => (1 / 4) * (((T.cl c).map fun d => ind (dec T r) (.cor d true true)).sum + ind (dec T r) (ex T c)) := by
        apply List.map_congr_left; intro r _; linarith
      rw [e, List.sum_map_mul_left, List.sum_map_add, hx1]
      have h2 : ∀ l : List (PC P), (dl.map fun r => (l.map fun d => ind (dec T r) (.cor d true true)).sum).sum = (l.length : ℚ) := by
        intro l
        induction l with
        | nil => simp
        | cons a l ih =>
          simp only [List.map_cons, List.sum_cons]
          rw [List.sum_map_add, ih, one (.cor a true true) trivial, List.length_cons]; push_cast; linarith
      rw [h2, ((V3_iff c).1 hv).2]; norm_num
    · rw [g]
      simp only [FD_av hv hs, edge3]
      rcases cross T c s with _ | d
      · exact two _ _ trivial (by rw [hex]; trivial)
      · exact two _ _ trivial trivial
  · have e : (dl.map fun r => FD T (dec T r) b) = dl.map fun r => Wa T (dec T r) b • (1 : ℚ) := by
      apply List.map_congr_left
      intro r _
      rw [FD_eq _ b (fun c x y e => by by_contra hcon; exact hv ⟨c, x, y, e, by simpa using hcon⟩), smul_eq_mul, mul_one]
    rw [e, sum_Wa ok hn hdl (fun _ => (1 : ℚ)) hb]
    exact LV_one ok b

/-! ## counting -/

theorem vertexCountG_eq {T : Topo P} (ok : Ok T) (hb : BVal T) (c : PC P) : vertexCount T c = ∑ d ∈ (T.cl c).toFinset, cntG (AE T) d := by
  cases h : V3 T c
  · have e1 : vertexCount T c = Smooth.vertexCount T c := by
      unfold vertexCount Smooth.vertexCount
      cases hi : T.interior c
      · have hl := hb c hi
        have h3 : (T.cl c).length ≠ 3 := by
          intro e; rw [(V3_iff c).2 ⟨hi, e⟩] at h; cases h
        have hg : ¬ ((T.cl c).length : ℤ) > 2 := by omega
        simp [hg]
      · simp
    rw [e1, vertexCount_eq ok]
    apply Finset.sum_congr rfl
    intro d hd
    rw [List.mem_toFinset] at hd
    unfold cnt cntG
    congr 1
    apply List.map_congr_left
    intro a ha
    rw [mem_corL] at ha
    obtain ⟨x, y, rfl⟩ := ha
    unfold fr frG
    rw [AE_eq]
    intro c' x' y' e
    simp only [ADof.cor.injEq] at e
    rw [← e.1, V3_same ok hd]; exact h
  · obtain ⟨hi, h3⟩ := (V3_iff c).1 h
    obtain ⟨m, hm, hex, -⟩ := ex_spec ok c
    have hcnt : ∀ d ∈ (T.cl c).toFinset, cntG (AE T) d = 1 + if d = m then 1 else 0 := by
      intro d hd
      rw [List.mem_toFinset] at hd
      have hvd : V3 T d = true := by rw [V3_same ok hd]; exact h
      have h00 : AE T (.cor d false false) = decide (d ≠ m) := by
        simp only [AE, hvd, if_true, ex_same ok hd, hex]
        simp
      have hu : AE T (.cor d false true) = true := by simp [AE, hvd]
      have hw : AE T (.cor d true false) = true := by simp [AE, hvd]
      have h11 : AE T (.cor d true true) = false := rfl
      unfold cntG corL frG
      simp only [List.map_cons, List.map_nil, List.sum_cons, List.sum_nil, h00, hu, hw, h11]
      by_cases he : d = m <;> simp [he]
    rw [Finset.sum_congr rfl hcnt, Finset.sum_add_distrib, Finset.sum_ite_eq', if_pos (List.mem_toFinset.2 hm)]
    simp only [Finset.sum_const, nsmul_eq_mul, mul_one]
    rw [List.toFinset_card_of_nodup (ok.cl_nodup c), h3]
    unfold vertexCount
    cases hc : T.c0 c <;> simp [hi, h3, hc]

end Verif.DPatch
