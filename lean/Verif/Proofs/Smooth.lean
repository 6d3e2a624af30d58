import Verif.Model.Smooth
import Mathlib.Tactic.Ring
import Mathlib.Tactic.Linarith
import Mathlib.Tactic.FieldSimp
import Mathlib.Tactic.NormNum
import Mathlib.Algebra.BigOperators.Group.List.Basic
import Mathlib.Data.List.Perm.Basic
/-! Helper lemmas for the smoothing matrix: structural names of the local functions, closed form of the matrix. -/
set_option autoImplicit false
set_option linter.unusedSectionVars false
set_option linter.unusedSimpArgs false
namespace Verif.Smooth
open Verif

variable {P : Type} [DecidableEq P]

/-- Structural name of a local function: in the 2×2 block of a corner, near a side, or in the interior. -/
inductive ADof (P : Type)
  | cor (c : PC P) (a b : Bool)
  | sid (s : PS P) (off : Bool) (m : ℕ)
  | int (p : P) (i j : ℕ)
deriving DecidableEq

def AValid (T : Topo P) : ADof P → Prop
  | .cor _ _ _ => True
  | .sid s _ m => 2 ≤ m ∧ m + 2 < len T s
  | .int p i j => 2 ≤ i ∧ i + 2 < T.n0 p ∧ 2 ≤ j ∧ j + 2 < T.n1 p

def enc (T : Topo P) : ADof P → Dof P
  | .cor c a b => (c.1, fromEnd (T.n0 c.1) c.2.pu a.toNat, fromEnd (T.n1 c.1) c.2.pv b.toNat)
  | .sid s off m => sideDof T s off.toNat m
  | .int p i j => (p, i, j)

/-- distance class from the two ends: `some (far, one step)`, or `none` in the middle -/
def zone (n i : ℕ) : Option (Bool × Bool) :=
  if i = 0 then some (false, false) else if i = 1 then some (false, true)
  else if i + 1 = n then some (true, false) else if i + 2 = n then some (true, true) else none

def dec (T : Topo P) (d : Dof P) : ADof P :=
  match zone (T.n0 d.1) d.2.1, zone (T.n1 d.1) d.2.2 with
  | some (fu, a), some (fv, b) => .cor (d.1, Corner.mk fu fv) a b
  | some (fu, a), none => .sid (d.1, if fu then .east else .west) a d.2.2
  | none, some (fv, b) => .sid (d.1, if fv then .north else .south) b d.2.1
  | none, none => .int d.1 d.2.1 d.2.2

theorem zone_fromEnd {n : ℕ} (hn : 4 ≤ n) (f k : Bool) : zone n (fromEnd n f k.toNat) = some (f, k) := by
  unfold zone fromEnd
  cases f <;> cases k <;> simp only [Bool.toNat_false, Bool.toNat_true, if_true, if_false, Bool.false_eq_true]
  · rfl
  · rw [if_neg (by omega), if_neg (by omega), if_pos (by omega)]
  · rw [if_neg (by omega), if_neg (by omega), if_neg (by omega), if_pos (by omega)]

theorem zone_mid {n i : ℕ} (h : 2 ≤ i) (h' : i + 2 < n) : zone n i = none := by
  unfold zone
  rw [if_neg (by omega), if_neg (by omega), if_neg (by omega), if_neg (by omega)]

theorem zone_some {n i : ℕ} {f k : Bool} (h : zone n i = some (f, k)) : i = fromEnd n f k.toNat := by
  unfold zone at h
  unfold fromEnd
  split_ifs at h <;> simp at h <;> obtain ⟨rfl, rfl⟩ := h <;> simp <;> omega

theorem zone_none {n i : ℕ} (hi : i < n) (h : zone n i = none) : 2 ≤ i ∧ i + 2 < n := by
  unfold zone at h
  split_ifs at h
  omega

theorem mk_pu (u v : Bool) : (Corner.mk u v).pu = u := by cases u <;> cases v <;> rfl
theorem mk_pv (u v : Bool) : (Corner.mk u v).pv = v := by cases u <;> cases v <;> rfl
theorem mk_eta (c : Corner) : Corner.mk c.pu c.pv = c := by cases c <;> rfl

theorem dec_enc {T : Topo P} (ok : Ok T) {x : ADof P} (hx : AValid T x) : dec T (enc T x) = x := by
  cases x with
  | cor c a b =>
    obtain ⟨p, c⟩ := c
    simp only [enc, dec, zone_fromEnd (ok.n0_ge p), zone_fromEnd (ok.n1_ge p), mk_eta]
  | sid s off m =>
    obtain ⟨p, s⟩ := s
    obtain ⟨h1, h2⟩ := hx
    cases s <;> simp only [len, Side.dir, Side.par] at h2 <;>
      simp [enc, dec, sideDof, Side.dir, Side.par] <;>
      simp at h2 <;>
      rw [zone_mid h1 h2] <;>
      first
      | simp [zone_fromEnd (ok.n0_ge p)]
      | simp [zone_fromEnd (ok.n1_ge p)]
  | int p i j =>
    obtain ⟨h1, h2, h3, h4⟩ := hx
    simp [enc, dec, zone_mid h1 h2, zone_mid h3 h4]

theorem enc_dec {T : Topo P} {d : Dof P} (hd : valid T d) : AValid T (dec T d) ∧ enc T (dec T d) = d := by
  obtain ⟨p, i, j⟩ := d
  obtain ⟨h1, h2⟩ := hd
  simp only at h1 h2
  unfold dec
  simp only
  rcases e1 : zone (T.n0 p) i with _ | ⟨fu, a⟩ <;> rcases e2 : zone (T.n1 p) j with _ | ⟨fv, b⟩
  · have g1 := zone_none h1 e1; have g2 := zone_none h2 e2
    exact ⟨⟨g1.1, g1.2, g2.1, g2.2⟩, rfl⟩
  · have g1 := zone_none h1 e1; have g2 := zone_some e2
    simp only
    cases fv <;> simp [AValid, len, Side.dir, enc, sideDof, Side.par, g1, ← g2]
  · have g1 := zone_some e1; have g2 := zone_none h2 e2
    simp only
    cases fu <;> simp [AValid, len, Side.dir, enc, sideDof, Side.par, g2, ← g1]
  · have g1 := zone_some e1; have g2 := zone_some e2
    simp [AValid, enc, mk_pu, mk_pv, ← g1, ← g2]

theorem enc_valid {T : Topo P} (ok : Ok T) {x : ADof P} (hx : AValid T x) : valid T (enc T x) := by
  cases x with
  | cor c a b =>
    obtain ⟨p, c⟩ := c
    have := ok.n0_ge p; have := ok.n1_ge p
    unfold valid enc fromEnd
    constructor <;> (simp only; split_ifs) <;> cases a <;> cases b <;> simp <;> omega
  | sid s off m =>
    obtain ⟨p, s⟩ := s
    obtain ⟨h1, h2⟩ := hx
    have := ok.n0_ge p; have := ok.n1_ge p
    cases s <;> simp only [len, Side.dir] at h2 <;> simp at h2 <;>
      simp [valid, enc, sideDof, Side.dir, Side.par, fromEnd] <;> cases off <;> simp <;> omega
  | int p i j =>
    obtain ⟨h1, h2, h3, h4⟩ := hx
    unfold valid enc
    constructor <;> simp only <;> omega

theorem enc_inj {T : Topo P} (ok : Ok T) {x y : ADof P} (hx : AValid T x) (hy : AValid T y) (h : enc T x = enc T y) :
    x = y := by
  rw [← dec_enc ok hx, ← dec_enc ok hy, h]

/-- the function `k` steps along side `s` from corner `c` and `l` steps inward -/
def av (c : PC P) (s : Side) (k l : Bool) : ADof P := if s.dir then .cor c k l else .cor c l k

theorem vert_enc (T : Topo P) (c : PC P) {s : Side} (hs : s ∈ c.2.sides) (k l : Bool) :
    vert T c s k.toNat l.toNat = enc T (av c s k l) := by
  obtain ⟨p, c⟩ := c
  simp [Corner.sides] at hs
  rcases hs with rfl | rfl <;> cases c <;>
    simp [vert, sideDof, len, av, enc, Corner.uside, Corner.vside, Corner.pu, Corner.pv, Side.dir, Side.par, Corner.tang]

theorem vert00 (T : Topo P) (c : PC P) {s : Side} (hs : s ∈ c.2.sides) : vert T c s 0 0 = enc T (av c s false false) :=
  vert_enc T c hs false false
theorem vert10 (T : Topo P) (c : PC P) {s : Side} (hs : s ∈ c.2.sides) : vert T c s 1 0 = enc T (av c s true false) :=
  vert_enc T c hs true false
theorem vert01 (T : Topo P) (c : PC P) {s : Side} (hs : s ∈ c.2.sides) : vert T c s 0 1 = enc T (av c s false true) :=
  vert_enc T c hs false true
theorem vert11 (T : Topo P) (c : PC P) {s : Side} (hs : s ∈ c.2.sides) : vert T c s 1 1 = enc T (av c s true true) :=
  vert_enc T c hs true true

theorem av_diag (c : PC P) (s : Side) (k : Bool) : av c s k k = .cor c k k := by unfold av; split_ifs <;> rfl
theorem uside_mem (c : Corner) : c.uside ∈ c.sides := by simp [Corner.sides]
theorem vside_mem (c : Corner) : c.vside ∈ c.sides := by simp [Corner.sides]
theorem uside_dir (c : Corner) : c.uside.dir = false := by cases c <;> rfl
theorem vside_dir (c : Corner) : c.vside.dir = true := by cases c <;> rfl

theorem mem_sides_corner (s : Side) (t : Bool) : s ∈ (s.corner t).sides := by cases s <;> cases t <;> decide
theorem tang_corner (s : Side) (t : Bool) : (s.corner t).tang s = t := by cases s <;> cases t <;> decide
theorem corner_tang {c : Corner} {s : Side} (h : s ∈ c.sides) : s.corner (c.tang s) = c := by
  revert h; cases s <;> cases c <;> decide
theorem sides_ne {c : Corner} {s t : Side} (hs : s ∈ c.sides) (ht : t ∈ c.sides) (hd : s.dir = t.dir) : s = t := by
  revert hs ht hd; cases c <;> cases s <;> cases t <;> decide

/-! ## crossing an interface -/

theorem cross_some {T : Topo P} {c : PC P} {s : Side} {t : PS P} (h : T.nb (c.1, s) = some t) :
    cross T c s = some (t.1, t.2.corner (xor (c.2.tang s) (T.flip (c.1, s)))) := by
  unfold cross; rw [h]; rfl

theorem cross_none {T : Topo P} {c : PC P} {s : Side} : cross T c s = none ↔ T.nb (c.1, s) = none := by
  unfold cross; cases T.nb (c.1, s) <;> simp

/-- crossing data: neighbour side and corner -/
theorem cross_data {T : Topo P} {c d : PC P} {s : Side} (h : cross T c s = some d) :
    ∃ t : Side, T.nb (c.1, s) = some (d.1, t) ∧ t ∈ d.2.sides ∧ d.2 = t.corner (xor (c.2.tang s) (T.flip (c.1, s))) := by
  unfold cross at h
  rcases hn : T.nb (c.1, s) with _ | ⟨q, t⟩
  · rw [hn] at h; simp at h
  · rw [hn] at h
    simp only [Option.map_some, Option.some.injEq] at h
    subst h
    exact ⟨t, rfl, mem_sides_corner _ _, rfl⟩

theorem cross_back {T : Topo P} (ok : Ok T) {c d : PC P} {s t : Side} (hs : s ∈ c.2.sides) (h : cross T c s = some d)
    (ht : T.nb (c.1, s) = some (d.1, t)) : cross T d t = some c := by
  obtain ⟨t', h1, h2, h3⟩ := cross_data h
  rw [ht] at h1
  simp only [Option.some.injEq, Prod.mk.injEq, true_and] at h1
  subst h1
  have hb := ok.nb_symm _ _ ht
  have hf := ok.flip_symm _ _ ht
  rw [cross_some hb, hf, h3, tang_corner]
  have : (((c.2.tang s).xor (T.flip (c.1, s))).xor (T.flip (c.1, s))) = c.2.tang s := by
    cases c.2.tang s <;> cases T.flip (c.1, s) <;> rfl
  rw [this, corner_tang hs]

theorem cross_ne {T : Topo P} (ok : Ok T) {c d : PC P} {s : Side} (hs : s ∈ c.2.sides) (h : cross T c s = some d) : d ≠ c := by
  rintro rfl
  obtain ⟨t, h1, h2, h3⟩ := cross_data h
  obtain ⟨g1, g2⟩ := ok.no_fold d.1 s t h1
  exact g2 (sides_ne h2 hs g1)

theorem cl_len {T : Topo P} (ok : Ok T) {c d : PC P} (h : d ∈ T.cl c) : (T.cl d).length = (T.cl c).length := by
  have : (T.cl d).Perm (T.cl c) := (List.perm_ext_iff_of_nodup (ok.cl_nodup d) (ok.cl_nodup c)).2 (ok.cl_same c d h)
  exact this.length_eq

theorem interior_same {T : Topo P} (ok : Ok T) {c d : PC P} (h : d ∈ T.cl c) : T.interior d = T.interior c := by
  rw [Bool.eq_iff_iff, ok.interior_iff, ok.interior_iff]
  simp only [ok.cl_same c d h]

theorem len_pos {T : Topo P} (ok : Ok T) (c : PC P) : 1 ≤ (T.cl c).length :=
  List.length_pos_of_mem (ok.cl_self c)

/-- At a vertex of valence one both sides are boundary. -/
theorem v1_boundary {T : Topo P} (ok : Ok T) {c : PC P} (h1 : (T.cl c).length = 1) {s : Side} (hs : s ∈ c.2.sides) :
    cross T c s = none := by
  rcases h : cross T c s with _ | d
  · rfl
  · exfalso
    have hm := ok.cl_cross c s d hs h
    have hc := ok.cl_self c
    have hne := cross_ne ok hs h
    rw [List.length_eq_one_iff] at h1
    obtain ⟨x, hx⟩ := h1
    rw [hx] at hm hc
    simp at hm hc
    exact hne (by rw [hm, hc])

/-- At a boundary vertex of valence two, exactly one of the two sides of each corner is an interface. -/
theorem v2_side {T : Topo P} (ok : Ok T) {c : PC P} (hi : T.interior c = false) (h2 : (T.cl c).length = 2) :
    (∃ d, cross T c c.2.uside = some d ∧ cross T c c.2.vside = none) ∨
    (∃ d, cross T c c.2.vside = some d ∧ cross T c c.2.uside = none) := by
  -- some side is an interface
  have hex : ∃ s ∈ c.2.sides, ∃ d, cross T c s = some d := by
    have : ∃ d ∈ T.cl c, d ≠ c := by
      by_contra hcon
      push Not at hcon
      have : T.cl c = [c] := by
        rcases hl : T.cl c with _ | ⟨a, _ | ⟨b, l⟩⟩
        · rw [hl] at h2; simp at h2
        · rw [hl] at h2; simp at h2
        · exfalso
          have ha := hcon a (by simp [hl]); have hb := hcon b (by simp [hl])
          have := ok.cl_nodup c
          rw [hl, ha, hb] at this; simp at this
      rw [this] at h2; simp at h2
    obtain ⟨d, hd, hne⟩ := this
    have := ok.cl_conn c d hd
    rcases this.cases_head with h | ⟨e, ⟨s, hs, he⟩, -⟩
    · exact absurd h.symm hne
    · exact ⟨s, hs, e, he⟩
  -- not both
  have hnot : ¬ ∃ d d', cross T c c.2.uside = some d ∧ cross T c c.2.vside = some d' := by
    rintro ⟨d, d', hu, hv⟩
    have hdc := cross_ne ok (uside_mem _) hu
    have hdc' := cross_ne ok (vside_mem _) hv
    have m1 := ok.cl_cross c _ d (uside_mem _) hu
    have m2 := ok.cl_cross c _ d' (vside_mem _) hv
    have m0 := ok.cl_self c
    have hcl : ∀ x ∈ T.cl c, x = c ∨ x = d := by
      have hnd := ok.cl_nodup c
      rcases hl : T.cl c with _ | ⟨a, _ | ⟨b, _ | ⟨e, l⟩⟩⟩
      · rw [hl] at h2; simp at h2
      · rw [hl] at h2; simp at h2
      · rw [hl] at m0 m1
        simp only [List.mem_cons, List.not_mem_nil, or_false] at m0 m1 ⊢
        intro x hx
        rcases m0 with rfl | rfl <;> rcases m1 with rfl | rfl <;> simp at hdc <;> tauto
      · rw [hl] at h2; simp at h2
    have hdd : d' = d := by rcases hcl d' m2 with h | h; exact absurd h hdc'; exact h
    subst hdd
    have : T.interior c = true := by
      rw [ok.interior_iff]
      intro x hx s hs
      rcases hcl x hx with rfl | rfl
      · simp only [Corner.sides, List.mem_cons, List.not_mem_nil, or_false] at hs
        rcases hs with rfl | rfl
        · obtain ⟨t, h1, -⟩ := cross_data hu; simp [h1]
        · obtain ⟨t, h1, -⟩ := cross_data hv; simp [h1]
      · obtain ⟨t1, h1, g1, -⟩ := cross_data hu
        obtain ⟨t2, h2', g2, -⟩ := cross_data hv
        have b1 := ok.nb_symm _ _ h1
        have b2 := ok.nb_symm _ _ h2'
        have hne : t1 ≠ t2 := by
          rintro rfl
          rw [b1] at b2
          simp only [Option.some.injEq, Prod.mk.injEq, true_and] at b2
          have := congrArg Side.dir b2
          rw [uside_dir, vside_dir] at this; cases this
        have : s = t1 ∨ s = t2 := by
          revert hne hs g1 g2
          generalize x.2 = xc
          cases xc <;> cases t1 <;> cases t2 <;> cases s <;> decide
        rcases this with rfl | rfl
        · simp [b1]
        · simp [b2]
    rw [hi] at this; cases this
  obtain ⟨s, hs, d, hd⟩ := hex
  simp only [Corner.sides, List.mem_cons, List.not_mem_nil, or_false] at hs
  rcases hs with rfl | rfl
  · left
    refine ⟨d, hd, ?_⟩
    rcases h : cross T c c.2.vside with _ | d'
    · rfl
    · exact absurd ⟨d, d', hd, h⟩ hnot
  · right
    refine ⟨d, hd, ?_⟩
    rcases h : cross T c c.2.uside with _ | d'
    · rfl
    · exact absurd ⟨d', d, h, hd⟩ hnot

end Verif.Smooth
