import Verif.Model.EV
import Verif.Proofs.SmoothMatrix
import Mathlib.Data.Fintype.Pigeonhole
import Mathlib.Data.List.Perm.Subperm
/-! Going around a vertex. -/
set_option autoImplicit false
set_option linter.unusedSectionVars false
set_option linter.unusedSimpArgs false
namespace Verif.EV
open Verif Verif.Smooth

variable {P Q : Type} [DecidableEq P] [DecidableEq Q]

def othS (c : Corner) (s : Side) : Side := if s = c.uside then c.vside else c.uside

theorem othS_mem (c : Corner) (s : Side) : othS c s ∈ c.sides := by
  unfold othS; split_ifs <;> simp [Corner.sides]
theorem othS_othS {c : Corner} {s : Side} (h : s ∈ c.sides) : othS c (othS c s) = s := by
  revert h; cases c <;> cases s <;> decide
theorem othS_ne {c : Corner} {s : Side} (h : s ∈ c.sides) : othS c s ≠ s := by
  revert h; cases c <;> cases s <;> decide
theorem side_cases {c : Corner} {s t : Side} (h : s ∈ c.sides) (h' : t ∈ c.sides) : t = s ∨ t = othS c s := by
  revert h h'; cases c <;> cases s <;> cases t <;> decide
theorem otherSide_eq {c : Corner} {s : Side} (h : s ∈ c.sides) : otherSide c s = some (othS c s) := by
  revert h; cases c <;> cases s <;> decide

abbrev Flag (P : Type) := PC P × Side

def rev (x : Flag P) : Flag P := (x.1, othS x.1.2 x.2)

def nxt (T : Topo P) (x : Flag P) : Flag P :=
  match cross T x.1 x.2 with
  | none => x
  | some d => (d, othS d.2 (nbSide T x.1 x.2))

/-- corners around an interior vertex -/
structure Vtx (T : Topo P) (L : List (PC P)) : Prop where
  ok : Ok T
  cl : ∃ c, L = T.cl c ∧ T.interior c = true

def FL (L : List (PC P)) (x : Flag P) : Prop := x.1 ∈ L ∧ x.2 ∈ x.1.2.sides

section
variable {T : Topo P} {L : List (PC P)}

theorem fl_cross (h : Vtx T L) {x : Flag P} (hx : FL L x) :
    ∃ d t, cross T x.1 x.2 = some d ∧ T.nb (x.1.1, x.2) = some (d.1, t) ∧ t ∈ d.2.sides ∧
      nbSide T x.1 x.2 = t ∧ d ∈ L ∧ nxt T x = (d, othS d.2 t) ∧ d ≠ x.1 ∧ cross T d t = some x.1 ∧ nbSide T d t = x.2 := by
  obtain ⟨ok, c, rfl, hi⟩ := h
  have h1 := (ok.interior_iff c).1 hi x.1 hx.1 x.2 hx.2
  rw [Option.isSome_iff_exists] at h1
  obtain ⟨⟨q, t⟩, h1⟩ := h1
  have hc := cross_some h1
  set d : PC P := (q, t.corner (x.1.2.tang x.2 ^^ T.flip (x.1.1, x.2))) with hd
  have ht : t ∈ d.2.sides := mem_sides_corner _ _
  have hn : nbSide T x.1 x.2 = t := by unfold nbSide; rw [h1]; rfl
  refine ⟨d, t, hc, h1, ht, hn, ?_, ?_, cross_ne ok hx.2 hc, cross_back ok hx.2 hc h1, ?_⟩
  · rw [← ok.cl_same c x.1 hx.1]; exact ok.cl_cross _ _ _ hx.2 hc
  · unfold nxt; rw [hc]; simp only; rw [hn]
  · unfold nbSide; rw [ok.nb_symm _ _ h1]; rfl

theorem nxt_fl (h : Vtx T L) {x : Flag P} (hx : FL L x) : FL L (nxt T x) := by
  obtain ⟨d, t, -, -, -, -, hd, hn, -⟩ := fl_cross h hx
  rw [hn]; exact ⟨hd, othS_mem _ _⟩

theorem rev_fl {x : Flag P} (hx : FL L x) : FL L (rev x) := ⟨hx.1, othS_mem _ _⟩

theorem rev_rev {x : Flag P} (hx : FL L x) : rev (rev x) = x := by
  unfold rev; simp only; rw [othS_othS hx.2]

theorem rev_ne {x : Flag P} (hx : FL L x) : rev x ≠ x := by
  intro h; exact othS_ne hx.2 (congrArg Prod.snd h)

theorem nxt_rev_nxt (h : Vtx T L) {x : Flag P} (hx : FL L x) : nxt T (rev (nxt T x)) = rev x := by
  obtain ⟨d, t, h1, h2, h3, h4, hd, hn, h5, h6, h7⟩ := fl_cross h hx
  rw [hn]
  have : rev ((d, othS d.2 t) : Flag P) = (d, t) := by unfold rev; simp only; rw [othS_othS h3]
  rw [this]
  unfold nxt
  simp only
  rw [h6]
  simp only
  rw [h7]; rfl

theorem nxt_inj (h : Vtx T L) {x y : Flag P} (hx : FL L x) (hy : FL L y) (e : nxt T x = nxt T y) : x = y := by
  have := nxt_rev_nxt h hx
  rw [e, nxt_rev_nxt h hy] at this
  rw [← rev_rev hx, ← rev_rev hy, this]

theorem nxt_corner_ne (h : Vtx T L) {x : Flag P} (hx : FL L x) : (nxt T x).1 ≠ x.1 := by
  obtain ⟨d, t, -, -, -, -, -, hn, h5, -⟩ := fl_cross h hx
  rw [hn]; exact h5

/-- orbit -/
def orb (T : Topo P) (x : Flag P) (i : ℕ) : Flag P := (nxt T)^[i] x

theorem orb_succ (x : Flag P) (i : ℕ) : orb T x (i + 1) = nxt T (orb T x i) := Function.iterate_succ_apply' _ _ _
theorem orb_zero (x : Flag P) : orb T x 0 = x := rfl

theorem orb_fl (h : Vtx T L) {x : Flag P} (hx : FL L x) (i : ℕ) : FL L (orb T x i) := by
  induction i with
  | zero => exact hx
  | succ i ih => rw [orb_succ]; exact nxt_fl h ih

theorem orb_not_rev (h : Vtx T L) {x : Flag P} (hx : FL L x) (k : ℕ) : ∀ i, orb T x (i + k) ≠ rev (orb T x i) := by
  induction k using Nat.strong_induction_on with
  | _ k ih =>
    intro i e
    rcases k with _ | _ | k
    · exact rev_ne (orb_fl h hx i) e.symm
    · rw [Nat.zero_add, orb_succ] at e
      exact nxt_corner_ne h (orb_fl h hx i) (by rw [e]; rfl)
    · have e' : i + (k + 2) = (i + 1 + k) + 1 := by omega
      rw [e', orb_succ] at e
      have h1 := nxt_rev_nxt h (orb_fl h hx (i + 1 + k))
      rw [e, rev_rev (orb_fl h hx i), ← orb_succ] at h1
      refine ih k (by omega) (i + 1) ?_
      rw [h1, rev_rev (orb_fl h hx _)]

theorem orb_corner (h : Vtx T L) {x : Flag P} (hx : FL L x) {i j : ℕ} (e : (orb T x i).1 = (orb T x j).1) :
    orb T x i = orb T x j := by
  have hi := orb_fl h hx i
  have hj := orb_fl h hx j
  have hs := hi.2
  rw [e] at hs
  rcases side_cases hj.2 hs with h1 | h1
  · exact Prod.ext e h1
  · exfalso
    have hr : orb T x i = rev (orb T x j) := Prod.ext e h1
    rcases Nat.le_total j i with hle | hle
    · obtain ⟨k, rfl⟩ := Nat.exists_eq_add_of_le hle
      exact orb_not_rev h hx k j hr
    · obtain ⟨k, rfl⟩ := Nat.exists_eq_add_of_le hle
      refine orb_not_rev h hx k i ?_
      rw [hr, rev_rev hj]

theorem orb_cancel (h : Vtx T L) {x : Flag P} (hx : FL L x) (i k : ℕ) (e : orb T x i = orb T x (i + k)) :
    x = orb T x k := by
  induction i with
  | zero => rw [Nat.zero_add] at e; exact e
  | succ i ih =>
    apply ih
    have e' : i + 1 + k = (i + k) + 1 := by omega
    rw [e', orb_succ, orb_succ] at e
    exact nxt_inj h (orb_fl h hx _) (orb_fl h hx _) e

theorem orb_period (h : Vtx T L) {x : Flag P} (hx : FL L x) : ∃ k, 0 < k ∧ orb T x k = x := by
  have : ∃ i j : Fin (L.length + 1), i ≠ j ∧ (orb T x i).1 = (orb T x j).1 := by
    let f : Fin (L.length + 1) → {d // d ∈ L} := fun i => ⟨(orb T x i).1, (orb_fl h hx i).1⟩
    have hcard : Fintype.card {d // d ∈ L} < Fintype.card (Fin (L.length + 1)) := by
      rw [Fintype.card_fin]
      have : Fintype.card {d // d ∈ L} ≤ L.toFinset.card := by
        rw [← Fintype.card_coe]
        exact Fintype.card_le_of_injective (fun d => (⟨d.1, List.mem_toFinset.2 d.2⟩ : {d // d ∈ L.toFinset}))
          (fun a b hab => by simpa [Subtype.ext_iff] using hab)
      have := List.toFinset_card_le L
      omega
    obtain ⟨i, j, hne, he⟩ := Fintype.exists_ne_map_eq_of_card_lt f hcard
    exact ⟨i, j, hne, congrArg Subtype.val he⟩
  obtain ⟨i, j, hne, he⟩ := this
  have he' := orb_corner h hx he
  rcases Nat.lt_or_ge i.1 j.1 with hlt | hge
  · refine ⟨j.1 - i.1, by omega, ?_⟩
    refine (orb_cancel h hx i.1 (j.1 - i.1) ?_).symm
    rw [Nat.add_sub_cancel' hlt.le]; exact he'
  · have hlt : j.1 < i.1 := by
      rcases Nat.lt_or_ge j.1 i.1 with h1 | h1
      · exact h1
      · exact absurd (Fin.ext (by omega)) hne
    refine ⟨i.1 - j.1, by omega, ?_⟩
    refine (orb_cancel h hx j.1 (i.1 - j.1) ?_).symm
    rw [Nat.add_sub_cancel' hlt.le]; exact he'.symm

theorem vtx_nodup (h : Vtx T L) : L.Nodup := by obtain ⟨ok, c, rfl, -⟩ := h; exact ok.cl_nodup c

/-- Going around visits every corner exactly once and returns to the start. -/
theorem orb_perm (h : Vtx T L) {x : Flag P} (hx : FL L x) :
    ((List.range L.length).map fun i => (orb T x i).1).Perm L ∧ orb T x L.length = x := by
  classical
  have hper := orb_period h hx
  set n := Nat.find hper with hn
  obtain ⟨hpos, hfix⟩ := Nat.find_spec hper
  have hmin : ∀ k, 0 < k → k < n → orb T x k ≠ x := fun k h1 h2 h3 => Nat.find_min hper h2 ⟨h1, h3⟩
  rw [← hn] at hpos hfix
  set C := (List.range n).map fun i => (orb T x i).1 with hC
  have hCn : C.Nodup := by
    rw [hC, List.nodup_map_iff_inj_on List.nodup_range]
    intro i hi j hj e
    rw [List.mem_range] at hi hj
    have e' := orb_corner h hx e
    by_contra hne
    rcases Nat.lt_or_ge i j with hlt | hge
    · refine hmin (j - i) (by omega) (by omega) ?_
      refine (orb_cancel h hx i (j - i) ?_).symm
      rw [Nat.add_sub_cancel' hlt.le]; exact e'
    · refine hmin (i - j) (by omega) (by omega) ?_
      refine (orb_cancel h hx j (i - j) ?_).symm
      rw [Nat.add_sub_cancel' hge]; exact e'.symm
  have hsub : ∀ d ∈ C, d ∈ L := by
    intro d hd
    rw [hC, List.mem_map] at hd
    obtain ⟨i, -, rfl⟩ := hd
    exact (orb_fl h hx i).1
  -- closed under steps
  have hclosed : ∀ d ∈ C, ∀ e, Step T d e → e ∈ C := by
    intro d hd e hst
    rw [hC, List.mem_map] at hd
    obtain ⟨i, hi, rfl⟩ := hd
    rw [List.mem_range] at hi
    obtain ⟨s, hs, hcr⟩ := hst
    have hmem : ∀ j, (orb T x j).1 ∈ C := by
      intro j
      have hmod : orb T x j = orb T x (j % n) := by
        have hp : ∀ m r, orb T x (m * n + r) = orb T x r := by
          intro m
          induction m with
          | zero => intro r; rw [Nat.zero_mul, Nat.zero_add]
          | succ m ih =>
            intro r
            have : (m + 1) * n + r = m * n + (r + n) := by ring
            rw [this, ih]
            unfold orb
            rw [Function.iterate_add_apply]
            have : (nxt T)^[n] x = x := hfix
            rw [this]
        conv_lhs => rw [← Nat.div_add_mod j n, Nat.mul_comm]
        exact hp _ _
      rw [hC, List.mem_map]
      exact ⟨j % n, List.mem_range.2 (Nat.mod_lt _ hpos), by rw [← hmod]⟩
    have hfl := orb_fl h hx i
    rcases side_cases hfl.2 hs with h1 | h1
    · -- forward
      obtain ⟨d', t, g1, -, -, -, -, g2, -⟩ := fl_cross h hfl
      rw [h1, g1] at hcr
      cases hcr
      have := hmem (i + 1)
      rw [orb_succ, g2] at this
      exact this
    · -- backward
      have hj : ∃ j, orb T x (j + 1) = orb T x i := by
        rcases i with _ | i
        · refine ⟨n - 1, ?_⟩
          rw [Nat.sub_add_cancel hpos]; exact hfix
        · exact ⟨i, rfl⟩
      obtain ⟨j, hj⟩ := hj
      have hflj := orb_fl h hx j
      obtain ⟨d', t, g1, g1', g3, g4, g5, g2, g6, g7, g8⟩ := fl_cross h hflj
      rw [← hj, orb_succ, g2] at h1 hcr
      simp only at h1 hcr
      rw [othS_othS g3] at h1
      rw [h1, g7] at hcr
      cases hcr
      exact hmem j
  have hall : ∀ d ∈ L, d ∈ C := by
    intro d hd
    have hxC : x.1 ∈ C := by
      rw [hC, List.mem_map]; exact ⟨0, List.mem_range.2 hpos, rfl⟩
    have hreach : Relation.ReflTransGen (Step T) x.1 d := by
      obtain ⟨ok, c, rfl, -⟩ := h
      exact ok.cl_conn _ _ ((ok.cl_same c x.1 hx.1 d).2 hd)
    induction hreach with
    | refl => exact hxC
    | tail _ hst ih =>
      rename_i b e hbc
      have hb : b ∈ L := by
        obtain ⟨ok, c, rfl, -⟩ := h
        obtain ⟨s, hs, hcr⟩ := hst
        obtain ⟨t, g1, g2, -⟩ := cross_data hcr
        have hback := cross_back ok hs hcr g1
        have := ok.cl_cross _ _ _ g2 hback
        rw [ok.cl_same c _ hd] at this
        exact this
      exact hclosed _ (ih hb) _ hst
  have hperm : C.Perm L := (List.perm_ext_iff_of_nodup hCn (vtx_nodup h)).2 fun d => ⟨hsub d, hall d⟩
  have hlen : n = L.length := by
    have := hperm.length_eq
    rw [hC, List.length_map, List.length_range] at this
    exact this
  rw [← hlen]
  exact ⟨hperm, hfix⟩

end

/-! ### The loop of the code -/

theorem findCorner_eq {L : List (PC P)} {os : PS P} {d : PC P} (hd : d ∈ L)
    (hc : d = (os.1, os.2.corner false) ∨ d = (os.1, os.2.corner true))
    (hu : ∀ e ∈ L, e.1 = d.1 → e = d) (prev : Option (PC P)) : findCorner L prev os = some d := by
  have hp : d.1 = os.1 := by rcases hc with rfl | rfl <;> rfl
  have key : ∀ (l : List (PC P)), (∀ e ∈ l, e.1 = d.1 → e = d) → ∀ prev : Option (PC P), (d ∈ l ∨ prev = some d) →
      findCorner l prev os = some d := by
    intro l
    induction l with
    | nil => intro _ prev h; rcases h with h | h
             · simp at h
             · exact h
    | cons e l ih =>
      intro hu prev h
      unfold findCorner
      rw [List.foldl_cons]
      refine ih (fun e' he' => hu e' (List.mem_cons_of_mem _ he')) _ ?_
      by_cases h1 : e = (os.1, os.2.corner false)
      · right
        rw [if_pos h1, ← h1]
        exact congrArg some (hu e List.mem_cons_self (by rw [hp, h1]))
      · rw [if_neg h1]
        by_cases h2 : e = (os.1, os.2.corner true)
        · right
          rw [if_pos h2, ← h2]
          exact congrArg some (hu e List.mem_cons_self (by rw [hp, h2]))
        · rw [if_neg h2]
          rcases h with h | h
          · rcases List.mem_cons.1 h with h | h
            · subst h; rcases hc with hc | hc
              · exact absurd hc h1
              · exact absurd hc h2
            · exact Or.inl h
          · exact Or.inr h
  exact key L hu prev (Or.inl hd)

/-- distinct patches around a vertex -/
def Distinct (L : List (PC P)) : Prop := (L.map Prod.fst).Nodup

theorem distinct_inj {L : List (PC P)} (h : Distinct L) {a b : PC P} (ha : a ∈ L) (hb : b ∈ L) (e : a.1 = b.1) : a = b :=
  List.inj_on_of_nodup_map h ha hb e

section
variable {T : Topo P} {L : List (PC P)}

theorem walk_eq (h : Vtx T L) (hd : Distinct L) (n : ℕ) : ∀ (x : Flag P), FL L x → ∀ prev : Option (PC P),
    walk T L n x.1 x.2 prev = some ((List.range n).map (orb T x)) := by
  induction n with
  | zero => intro x _ prev; rfl
  | succ n ih =>
    intro x hx prev
    obtain ⟨d, t, h1, h2, h3, h4, h5, h6, h7, h8, h9⟩ := fl_cross h hx
    unfold walk
    have hf : findCorner L prev (d.1, t) = some d := by
      refine findCorner_eq h5 ?_ (fun e he hed => distinct_inj hd he h5 hed) prev
      have := corner_tang h3
      cases ht : d.2.tang t
      · left; rw [ht] at this; exact Prod.ext rfl this.symm
      · right; rw [ht] at this; exact Prod.ext rfl this.symm
    simp only [h2, Option.bind_eq_bind, Option.bind_some, hf, otherSide_eq h3]
    have hx' : FL L ((d, othS d.2 t) : Flag P) := ⟨h5, othS_mem _ _⟩
    rw [ih (d, othS d.2 t) hx' (some d)]
    simp only [Option.bind_some, Option.pure_def]
    rw [List.range_succ_eq_map, List.map_cons, List.map_map]
    congr 1
    congr 1
    apply List.map_congr_left
    intro i _
    show orb T (d, othS d.2 t) i = orb T x (i + 1)
    rw [← h6]
    unfold orb
    rw [Function.iterate_succ_apply]

/-- start flag -/
def start : List (PC P) → Option (Flag P)
  | [] => none
  | c :: _ => some (c, c.2.uside)

theorem vtx_ne_nil (h : Vtx T L) : L ≠ [] := by
  obtain ⟨ok, c, rfl, -⟩ := h
  exact List.ne_nil_of_mem (ok.cl_self c)

/-- The walk of the code goes once around the vertex. -/
theorem evWalk_eq (h : Vtx T L) (hd : Distinct L) :
    ∃ x, FL L x ∧ evWalk T L = some ((List.range L.length).map (orb T x)) := by
  have hne := vtx_ne_nil h
  rcases hL : L with _ | ⟨c, L'⟩
  · exact absurd hL hne
  · refine ⟨(c, c.2.uside), ⟨List.mem_cons_self, uside_mem _⟩, ?_⟩
    unfold evWalk
    have := walk_eq h hd L.length (c, c.2.uside) ⟨by rw [hL]; exact List.mem_cons_self, uside_mem _⟩ none
    rw [hL] at this
    exact this

end

end Verif.EV
