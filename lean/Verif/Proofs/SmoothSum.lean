import Verif.Proofs.SmoothClosed
import Mathlib.Algebra.Module.Basic
import Mathlib.Algebra.Module.Rat
import Mathlib.Algebra.BigOperators.Group.List.Lemmas
import Mathlib.Tactic.Module
import Mathlib.Data.ZMod.Basic
import Mathlib.Algebra.BigOperators.Group.Finset.Basic
import Mathlib.Algebra.BigOperators.Ring.Finset
import Mathlib.Algebra.Order.BigOperators.Group.Finset
/-! Evaluating the smoothing matrix on coefficients; boundary sides at a vertex. -/
set_option autoImplicit false
set_option linter.unusedSectionVars false
set_option linter.unusedSimpArgs false
set_option linter.unusedVariables false
namespace Verif.Smooth
open Verif

variable {P : Type} [DecidableEq P] {V : Type} [AddCommGroup V] [Module ℚ V]

theorem sum_single {α : Type} [DecidableEq α] {l : List α} (hn : l.Nodup) {e : α} (he : e ∈ l) (f : α → V) :
    (l.map fun r => (if r = e then (1 : ℚ) else 0) • f r).sum = f e := by
  induction l with
  | nil => simp at he
  | cons a l ih =>
    rw [List.nodup_cons] at hn
    rw [List.map_cons, List.sum_cons]
    by_cases h : a = e
    · subst h
      have : (l.map fun r => (if r = a then (1 : ℚ) else 0) • f r).sum = 0 := by
        apply List.sum_eq_zero
        intro x hx
        rw [List.mem_map] at hx
        obtain ⟨d, hd, rfl⟩ := hx
        have : d ≠ a := fun h => hn.1 (h ▸ hd)
        simp [this]
      rw [this]; simp
    · have he' : e ∈ l := by simp [Ne.symm h] at he; exact he
      rw [ih hn.2 he']; simp [h]

/-- sum against an indicator of a structural name -/
theorem sum_ind_eval {T : Topo P} (ok : Ok T) {dl : List (Dof P)} (hn : dl.Nodup) (hdl : ∀ d, d ∈ dl ↔ valid T d)
    (x : Dof P → V) {a : ADof P} (ha : AValid T a) :
    (dl.map fun r => ind (dec T r) a • x r).sum = x (enc T a) := by
  rw [← sum_single hn ((hdl _).2 (enc_valid ok ha)) x]
  congr 1
  apply List.map_congr_left
  intro r hr
  have hr' := (hdl r).1 hr
  obtain ⟨h1, h2⟩ := enc_dec hr'
  unfold ind
  have : dec T r = a ↔ r = enc T a := by
    constructor
    · intro h; rw [← h2, h]
    · intro h; rw [h, dec_enc ok ha]
  simp only [this]

/-- The value of a local coefficient in terms of the smooth coefficients `y`. -/
def edgeL (T : Topo P) (y : ADof P → V) (c : PC P) (s : Side) (x : ADof P) : V :=
  match cross T c s with
  | none => y x
  | some d => (1 / 2 : ℚ) • (y (.cor c true true) + y (.cor d true true))

def cornL (T : Topo P) (y : ADof P → V) (c : PC P) : V :=
  if T.interior c then (1 / ((T.cl c).length : ℚ)) • ((T.cl c).map fun d => y (.cor d true true)).sum
  else if (T.cl c).length = 2 ∧ ¬ T.c0 c then
    match cross T c (regularSide T c) with
    | some d => (1 / 2 : ℚ) • (y (av c (regularSide T c) false true) + y (av d (nbSide T c (regularSide T c)) false true))
    | none => 0
  else y (.cor c false false)

def LV (T : Topo P) (y : ADof P → V) : ADof P → V
  | .int p i j => y (.int p i j)
  | .sid s true m => y (.sid s true m)
  | .sid s false m =>
    match T.nb s with
    | none => y (.sid s false m)
    | some t => (1 / 2 : ℚ) • (y (.sid s true m) + y (.sid t true (mt T s m)))
  | .cor c true true => y (.cor c true true)
  | .cor c true false => edgeL T y c c.2.vside (.cor c true false)
  | .cor c false true => edgeL T y c c.2.uside (.cor c false true)
  | .cor c false false => cornL T y c

theorem sum_half {T : Topo P} (ok : Ok T) {dl : List (Dof P)} (hn : dl.Nodup) (hdl : ∀ d, d ∈ dl ↔ valid T d)
    (x : Dof P → V) {a b : ADof P} (ha : AValid T a) (hb : AValid T b) :
    (dl.map fun r => ((ind (dec T r) a + ind (dec T r) b) / 2) • x r).sum = (1 / 2 : ℚ) • (x (enc T a) + x (enc T b)) := by
  rw [← sum_ind_eval ok hn hdl x ha, ← sum_ind_eval ok hn hdl x hb, ← List.sum_map_add, List.smul_sum, List.map_map]
  congr 1
  apply List.map_congr_left
  intro r _
  simp only [Function.comp]
  module

theorem sum_list {T : Topo P} (ok : Ok T) {dl : List (Dof P)} (hn : dl.Nodup) (hdl : ∀ d, d ∈ dl ↔ valid T d)
    (x : Dof P → V) (l : List (PC P)) (k : ℚ) :
    (dl.map fun r => ((l.map fun d => ind (dec T r) (.cor d true true)).sum / k) • x r).sum =
      (1 / k) • (l.map fun d => x (enc T (.cor d true true))).sum := by
  induction l with
  | nil =>
    simp only [List.map_nil, List.sum_nil, zero_div, zero_smul, smul_zero]
    apply List.sum_eq_zero
    intro y hy
    rw [List.mem_map] at hy
    obtain ⟨_, _, rfl⟩ := hy
    rfl
  | cons c l ih =>
    simp only [List.map_cons, List.sum_cons, smul_add]
    rw [← ih, ← sum_ind_eval ok hn hdl x (a := .cor c true true) trivial, List.smul_sum, List.map_map, ← List.sum_map_add]
    congr 1
    apply List.map_congr_left
    intro r _
    simp only [Function.comp]
    module

theorem sum_Wa {T : Topo P} (ok : Ok T) {dl : List (Dof P)} (hn : dl.Nodup) (hdl : ∀ d, d ∈ dl ↔ valid T d)
    (x : Dof P → V) {b : ADof P} (hb : AValid T b) :
    (dl.map fun r => Wa T (dec T r) b • x r).sum = LV T (fun a => x (enc T a)) b := by
  have edge : ∀ (c : PC P) (s : Side), s ∈ c.2.sides → ∀ b : ADof P, AValid T b →
      (dl.map fun r => edgeW T c s (dec T r) b • x r).sum = edgeL T (fun a => x (enc T a)) c s b := by
    intro c s hs b hb
    unfold edgeW edgeL
    rcases h : cross T c s with _ | d
    · exact sum_ind_eval ok hn hdl x hb
    · exact sum_half ok hn hdl x trivial trivial
  cases b with
  | int p i j => exact sum_ind_eval ok hn hdl x hb
  | sid s off m =>
    cases off
    · simp only [Wa, LV]
      rcases h : T.nb s with _ | t
      · exact sum_ind_eval ok hn hdl x hb
      · refine sum_half ok hn hdl x hb ?_
        show 2 ≤ _ ∧ _ < len T t
        rw [ok.nb_len s t h]
        exact mt_mid hb
    · exact sum_ind_eval ok hn hdl x hb
  | cor c p q =>
    cases p <;> cases q
    · simp only [Wa, LV]
      unfold cornW cornL
      cases hi : T.interior c
      · simp only [Bool.false_eq_true, if_false]
        by_cases h2 : (T.cl c).length = 2 ∧ ¬ T.c0 c = true
        · rw [if_pos h2]
          simp only [if_pos h2]
          obtain ⟨d, t, s', hs, hd, ht, htm, hn', hs', hne, hn''⟩ := regular_data ok hi h2.1
          rw [hd]
          exact sum_half ok hn hdl x (av_valid ..) (av_valid ..)
        · simp only [if_neg h2]
          exact sum_ind_eval ok hn hdl x trivial
      · simp only [if_true]
        exact sum_list ok hn hdl x _ _
    · exact edge c _ (uside_mem _) _ trivial
    · exact edge c _ (vside_mem _) _ trivial
    · exact sum_ind_eval ok hn hdl x hb

/-- coefficients that are one everywhere give one everywhere -/
theorem LV_one {T : Topo P} (ok : Ok T) (b : ADof P) : LV T (fun _ => (1 : ℚ)) b = 1 := by
  have edge : ∀ (c : PC P) (s : Side) (b : ADof P), edgeL T (fun _ => (1 : ℚ)) c s b = 1 := by
    intro c s b
    unfold edgeL
    split <;> norm_num
  cases b with
  | int p i j => rfl
  | sid s off m =>
    cases off
    · simp only [LV]; split <;> norm_num
    · rfl
  | cor c p q =>
    cases p <;> cases q
    · simp only [LV]
      unfold cornL
      cases hi : T.interior c
      · simp only [Bool.false_eq_true, if_false]
        by_cases h2 : (T.cl c).length = 2 ∧ ¬ T.c0 c = true
        · rw [if_pos h2]
          obtain ⟨d, t, s', hs, hd, ht, htm, hn', hs', hne, hn''⟩ := regular_data ok hi h2.1
          rw [hd]; norm_num
        · rw [if_neg h2]
      · have := len_pos ok c
        have h : ((T.cl c).length : ℚ) ≠ 0 := by exact_mod_cast (by omega : (T.cl c).length ≠ 0)
        simp only [if_true, List.map_const', List.sum_replicate, smul_eq_mul, nsmul_eq_mul, mul_one]
        field_simp
    · exact edge c c.2.uside (.cor c false true)
    · exact edge c c.2.vside (.cor c true false)
    · rfl

theorem ind_nonneg (a b : ADof P) : 0 ≤ ind a b := by unfold ind; split_ifs <;> norm_num

theorem Wa_nonneg {T : Topo P} (a b : ADof P) : 0 ≤ Wa T a b := by
  have edge : ∀ (c : PC P) (s : Side) (b : ADof P), 0 ≤ edgeW T c s a b := by
    intro c s b
    unfold edgeW
    split
    · exact ind_nonneg _ _
    · exact div_nonneg (add_nonneg (ind_nonneg _ _) (ind_nonneg _ _)) (by norm_num)
  cases b with
  | int p i j => exact ind_nonneg _ _
  | sid s off m =>
    cases off
    · simp only [Wa]; split
      · exact ind_nonneg _ _
      · exact div_nonneg (add_nonneg (ind_nonneg _ _) (ind_nonneg _ _)) (by norm_num)
    · exact ind_nonneg _ _
  | cor c p q =>
    cases p <;> cases q
    · simp only [Wa]
      unfold cornW
      split_ifs
      · apply div_nonneg _ (by positivity)
        apply List.sum_nonneg
        intro x hx
        rw [List.mem_map] at hx
        obtain ⟨d, -, rfl⟩ := hx
        exact ind_nonneg _ _
      · split
        · exact div_nonneg (add_nonneg (ind_nonneg _ _) (ind_nonneg _ _)) (by norm_num)
        · exact le_refl _
      · exact ind_nonneg _ _
    · exact edge ..
    · exact edge ..
    · exact ind_nonneg _ _

/-- a row with a non-zero weight is free -/
theorem row_free {T : Topo P} (ok : Ok T) {a b : ADof P} (h : Wa T a b ≠ 0) : AElim T a = false := by
  have hind : ∀ {c : ADof P}, AElim T c = false → ind a c ≠ 0 → AElim T a = false := by
    intro c hc h
    have : a = c := by by_contra hne; exact h (ind_ne hne)
    rw [this]; exact hc
  have half : ∀ {c d : ADof P}, AElim T c = false → AElim T d = false → (ind a c + ind a d) / 2 ≠ 0 → AElim T a = false := by
    intro c d hc hd h
    rcases ind_or h with rfl | rfl
    · exact hc
    · exact hd
  by_cases hab : a = b
  · subst hab
    rw [W_diag ok] at h
    by_contra hcon
    apply h; rw [if_pos (by simpa using hcon)]
  have edge : ∀ (c : PC P) (s : Side), edgeW T c s a b ≠ 0 → AElim T a = false := by
    intro c s h
    unfold edgeW at h
    rcases hc : cross T c s with _ | d
    · rw [hc] at h; exact absurd (ind_ne hab) h
    · rw [hc] at h; exact half rfl rfl h
  cases b with
  | int p i j => exact absurd (ind_ne hab) h
  | sid s off m =>
    cases off
    · simp only [Wa] at h
      rcases hn : T.nb s with _ | t
      · rw [hn] at h; exact absurd (ind_ne hab) h
      · rw [hn] at h; exact half rfl rfl h
    · exact absurd (ind_ne hab) h
  | cor c p q =>
    cases p <;> cases q
    · simp only [Wa] at h
      unfold cornW at h
      cases hi : T.interior c
      · simp only [hi, Bool.false_eq_true, if_false] at h
        by_cases h2 : (T.cl c).length = 2 ∧ ¬ T.c0 c = true
        · rw [if_pos h2] at h
          obtain ⟨d, t, s', hs, hd, ht, htm, hn', hs', hne, hn''⟩ := regular_data ok hi h2.1
          obtain ⟨b1, b2, b3, b4, b5⟩ := regular_back ok hi h2.1 hs hd ht htm
          rw [hd, hn'] at h
          have free01 : ∀ (c : PC P), T.interior c = false → (T.cl c).length = 2 → AElim T (av c (regularSide T c) false true) = false := by
            intro c hi h2
            obtain ⟨d, t, s', hs, hd, ht, htm, hn', hs', hne, hn''⟩ := regular_data ok hi h2
            have := W_diag ok (av c (regularSide T c) false true)
            rw [edge01_self hs hs' hne hn'', ind_self] at this
            by_contra hcon
            rw [if_pos (by simpa using hcon)] at this
            norm_num at this
          have f2 := free01 d b4 b5
          rw [b1] at f2
          exact half (free01 c hi h2.1) f2 h
        · rw [if_neg h2] at h
          exact absurd (ind_ne hab) h
      · simp only [hi, if_true] at h
        have hsum : ((T.cl c).map fun d => ind a (.cor d true true)).sum ≠ 0 := by
          intro h'; rw [h'] at h; simp at h
        obtain ⟨d, hd, rfl⟩ := sum_ind_ne hsum
        rfl
    · exact edge _ _ h
    · exact edge _ _ h
    · exact absurd (ind_ne hab) h

/-! ## boundary sides at a vertex -/

def hs (c : PC P) : Finset Side := {c.2.uside, c.2.vside}

theorem mem_hs {c : PC P} {s : Side} : s ∈ hs c ↔ s ∈ c.2.sides := by simp [hs, Corner.sides]

theorem hs_card (c : PC P) : (hs c).card = 2 := by
  unfold hs
  rw [Finset.card_pair]
  intro e; have := congrArg Side.dir e; rw [uside_dir, vside_dir] at this; cases this

/-- number of boundary sides at a corner -/
def bsides (T : Topo P) (c : PC P) : ℕ := ((hs c).filter fun s => cross T c s = none).card

/-- half edges of a corner leaving a set of corners -/
def opn (T : Topo P) (A : Finset (PC P)) (c : PC P) : ℕ := ((hs c).filter fun s => ∀ d ∈ A, cross T c s ≠ some d).card

theorem opn_mono (T : Topo P) {A B : Finset (PC P)} (h : A ⊆ B) (c : PC P) : opn T B c ≤ opn T A c := by
  apply Finset.card_le_card
  intro s hs
  rw [Finset.mem_filter] at hs ⊢
  exact ⟨hs.1, fun d hd => hs.2 d (h hd)⟩

theorem grow {T : Topo P} (ok : Ok T) (c : PC P) (k : ℕ) (hk : k < (T.cl c).length) :
    ∃ A : Finset (PC P), c ∈ A ∧ A ⊆ (T.cl c).toFinset ∧ A.card = k + 1 ∧ (∑ x ∈ A, opn T A x) ≤ 2 := by
  induction k with
  | zero =>
    refine ⟨{c}, by simp, by simpa using ok.cl_self c, by simp, ?_⟩
    rw [Finset.sum_singleton]
    unfold opn
    exact le_trans (Finset.card_filter_le _ _) (le_of_eq (hs_card c))
  | succ k ih =>
    obtain ⟨A, h1, h2, h3, h4⟩ := ih (by omega)
    -- a step out of A
    have hcard : (T.cl c).toFinset.card = (T.cl c).length := List.toFinset_card_of_nodup (ok.cl_nodup c)
    have hex : ∃ e ∈ T.cl c, e ∉ A := by
      by_contra hcon
      push Not at hcon
      have : (T.cl c).toFinset ⊆ A := fun x hx => hcon x (by simpa using hx)
      have := Finset.card_le_card this
      omega
    obtain ⟨e, he, heA⟩ := hex
    have hstep : ∃ x ∈ A, ∃ y, y ∉ A ∧ Step T x y := by
      by_contra hcon
      push Not at hcon
      have : ∀ z, Relation.ReflTransGen (Step T) c z → z ∈ A := by
        intro z hz
        induction hz with
        | refl => exact h1
        | tail _ hs ih =>
          by_contra hne
          exact hcon _ ih _ hne hs
      exact heA (this e (ok.cl_conn c e he))
    obtain ⟨x, hx, y, hy, s, hs, hxy⟩ := hstep
    have hxc : x ∈ T.cl c := by simpa using h2 hx
    have hyc : y ∈ T.cl c := by
      have := ok.cl_cross x s y hs hxy
      exact (ok.cl_same c x hxc y).1 this
    refine ⟨insert y A, by simp [h1], ?_, by rw [Finset.card_insert_of_notMem hy, h3], ?_⟩
    · intro z hz
      rw [Finset.mem_insert] at hz
      rcases hz with rfl | hz
      · simpa using hyc
      · exact h2 hz
    · rw [Finset.sum_insert hy]
      obtain ⟨t, g1, g2, -⟩ := cross_data hxy
      have hback := cross_back ok hs hxy g1
      have hy1 : opn T (insert y A) y ≤ 1 := by
        have hlt : opn T (insert y A) y < (Verif.Smooth.hs y).card := by
          apply Finset.card_lt_card
          rw [Finset.filter_ssubset]
          refine ⟨t, mem_hs.2 g2, ?_⟩
          push Not
          exact ⟨x, by simp [hx], hback⟩
        rw [hs_card] at hlt
        omega
      have hx1 : opn T (insert y A) x + 1 ≤ opn T A x := by
        apply Nat.succ_le_of_lt
        apply Finset.card_lt_card
        refine ⟨?_, ?_⟩
        · intro s' hs'
          rw [Finset.mem_filter] at hs' ⊢
          exact ⟨hs'.1, fun d hd => hs'.2 d (by simp [hd])⟩
        · intro hsub
          have : s ∈ (Verif.Smooth.hs x).filter fun s => ∀ d ∈ A, cross T x s ≠ some d := by
            rw [Finset.mem_filter]
            refine ⟨mem_hs.2 hs, ?_⟩
            intro d hd h
            rw [hxy] at h
            cases h
            exact hy hd
          have := hsub this
          rw [Finset.mem_filter] at this
          exact this.2 y (by simp) hxy
      have hsum : (∑ z ∈ A, opn T (insert y A) z) + 1 ≤ ∑ z ∈ A, opn T A z := by
        rw [← Finset.add_sum_erase A _ hx, ← Finset.add_sum_erase A (opn T A) hx]
        have : ∑ z ∈ A.erase x, opn T (insert y A) z ≤ ∑ z ∈ A.erase x, opn T A z :=
          Finset.sum_le_sum fun z _ => opn_mono T (Finset.subset_insert y A) z
        omega
      omega

/-- the half edges of a vertex -/
def halves (T : Topo P) (c : PC P) : Finset (Σ _ : PC P, Side) := (T.cl c).toFinset.sigma fun d => hs d

theorem even_iface {T : Topo P} (ok : Ok T) (c : PC P) :
    Even ((halves T c).filter fun h => (T.nb (h.1.1, h.2)).isSome = true).card := by
  set I := (halves T c).filter fun h => (T.nb (h.1.1, h.2)).isSome = true with hI
  have hdat : ∀ h ∈ I, h.1 ∈ T.cl c ∧ h.2 ∈ h.1.2.sides ∧ ∃ d t, cross T h.1 h.2 = some d ∧ T.nb (h.1.1, h.2) = some (d.1, t) ∧ t ∈ d.2.sides := by
    intro h hh
    rw [hI, Finset.mem_filter, halves, Finset.mem_sigma] at hh
    obtain ⟨⟨h1, h2⟩, h3⟩ := hh
    rw [Option.isSome_iff_exists] at h3
    obtain ⟨⟨q, t⟩, ht⟩ := h3
    refine ⟨by simpa using h1, mem_hs.1 h2, ?_⟩
    have := cross_some ht
    exact ⟨_, t, this, ht, mem_sides_corner _ _⟩
  let g : ∀ h ∈ I, (Σ _ : PC P, Side) := fun h _ => ⟨(cross T h.1 h.2).getD h.1, nbSide T h.1 h.2⟩
  have hg : ∀ h (hh : h ∈ I) d t, cross T h.1 h.2 = some d → T.nb (h.1.1, h.2) = some (d.1, t) → g h hh = ⟨d, t⟩ := by
    intro h hh d t h1 h2
    simp only [g, h1, Option.getD_some, nbSide, h2, Option.map_some]
  have hmem : ∀ h hh, g h hh ∈ I := by
    intro h hh
    obtain ⟨h1, h2, d, t, h3, h4, h5⟩ := hdat h hh
    rw [hg h hh d t h3 h4, hI, Finset.mem_filter, halves, Finset.mem_sigma]
    refine ⟨⟨?_, mem_hs.2 h5⟩, ?_⟩
    · have := ok.cl_cross _ _ d h2 h3
      simpa using (ok.cl_same c _ h1 d).1 this
    · simp only
      rw [ok.nb_symm _ _ h4]; rfl
  have hinv : ∀ h hh, g (g h hh) (hmem h hh) = h := by
    intro h hh
    obtain ⟨h1, h2, d, t, h3, h4, h5⟩ := hdat h hh
    have e := hg h hh d t h3 h4
    have hb := cross_back ok h2 h3 h4
    have hn := ok.nb_symm _ _ h4
    have hm2 : (⟨d, t⟩ : (Σ _ : PC P, Side)) ∈ I := e ▸ hmem h hh
    have h5 : g ⟨d, t⟩ hm2 = ⟨h.1, h.2⟩ := hg ⟨d, t⟩ hm2 h.1 h.2 hb hn
    simp only [e, h5]
  have hne : ∀ h hh, g h hh ≠ h := by
    intro h hh e
    obtain ⟨h1, h2, d, t, h3, h4, h5⟩ := hdat h hh
    rw [hg h hh d t h3 h4] at e
    have : d = h.1 := by rw [← e]
    exact cross_ne ok h2 h3 this
  have hz : (∑ _h ∈ I, (1 : ZMod 2)) = 0 :=
    Finset.sum_involution g (fun _ _ => by decide) (fun h hh _ => hne h hh) hmem hinv
  rw [Finset.sum_const, nsmul_eq_mul, mul_one] at hz
  exact (ZMod.natCast_eq_zero_iff_even).1 hz

/-- A vertex that is not interior has exactly two boundary sides. -/
theorem two_boundary {T : Topo P} (ok : Ok T) {c : PC P} (hi : T.interior c = false) :
    ∑ d ∈ (T.cl c).toFinset, bsides T d = 2 := by
  have hcard : (T.cl c).toFinset.card = (T.cl c).length := List.toFinset_card_of_nodup (ok.cl_nodup c)
  -- at most two
  have hle : ∑ d ∈ (T.cl c).toFinset, bsides T d ≤ 2 := by
    have hp := len_pos ok c
    obtain ⟨A, h1, h2, h3, h4⟩ := grow ok c ((T.cl c).length - 1) (by omega)
    have hA : A = (T.cl c).toFinset := Finset.eq_of_subset_of_card_le h2 (by omega)
    rw [hA] at h4
    refine le_trans (Finset.sum_le_sum fun d _ => ?_) h4
    apply Finset.card_le_card
    intro s hs
    rw [Finset.mem_filter] at hs ⊢
    refine ⟨hs.1, fun d' _ => ?_⟩
    rw [hs.2]; simp
  -- at least one
  have hge : 1 ≤ ∑ d ∈ (T.cl c).toFinset, bsides T d := by
    have : ¬ ∀ d ∈ T.cl c, ∀ s ∈ d.2.sides, (T.nb (d.1, s)).isSome = true := by
      rw [← ok.interior_iff, hi]; simp
    push Not at this
    obtain ⟨d, hd, s, hs, hn⟩ := this
    have h1 : 1 ≤ bsides T d := by
      unfold bsides
      apply Finset.card_pos.2
      refine ⟨s, ?_⟩
      rw [Finset.mem_filter]
      refine ⟨mem_hs.2 hs, cross_none.2 (by simpa using hn)⟩
    exact le_trans h1 (Finset.single_le_sum (f := bsides T) (fun _ _ => Nat.zero_le _) (by simpa using hd))
  -- even
  have hev : Even (∑ d ∈ (T.cl c).toFinset, bsides T d) := by
    have htot : (halves T c).card = 2 * (T.cl c).length := by
      unfold halves
      rw [Finset.card_sigma]
      simp only [hs_card, Finset.sum_const, smul_eq_mul]
      rw [hcard]; ring
    have hB : ∑ d ∈ (T.cl c).toFinset, bsides T d = ((halves T c).filter fun h => ¬ (T.nb (h.1.1, h.2)).isSome = true).card := by
      unfold halves
      have : (((T.cl c).toFinset.sigma fun d => hs d).filter fun h => ¬ (T.nb (h.1.1, h.2)).isSome = true) =
          (T.cl c).toFinset.sigma fun d => (hs d).filter fun s => cross T d s = none := by
        ext ⟨d, s⟩
        simp only [Finset.mem_filter, Finset.mem_sigma, cross_none]
        simp [and_assoc]
      rw [this, Finset.card_sigma]
      rfl
    have := Finset.card_filter_add_card_filter_not (s := halves T c) (fun h => (T.nb (h.1.1, h.2)).isSome = true)
    rw [hB]
    have hI := even_iface ok c
    rw [htot] at this
    have h2 : Even (2 * (T.cl c).length) := even_two_mul _
    rw [← this, Nat.even_add] at h2
    exact h2.1 hI
  obtain ⟨k, hk⟩ := hev
  omega

end Verif.Smooth
