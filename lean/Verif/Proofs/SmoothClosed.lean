import Verif.Proofs.SmoothMatrix
/-! The state after `_computeSmoothMatrix` is given by the closed form, whatever the order of the loops. -/
set_option autoImplicit false
set_option linter.unusedSectionVars false
set_option linter.unusedSimpArgs false
set_option linter.unusedVariables false
namespace Verif.Smooth
open Verif

variable {P : Type} [DecidableEq P]

/-! ## functions along a side -/

def mids (n : ℕ) : List ℕ := (List.range n).filter fun m => decide (2 ≤ m ∧ m + 2 < n)

theorem mem_mids {n m : ℕ} : m ∈ mids n ↔ 2 ≤ m ∧ m + 2 < n := by
  unfold mids
  simp only [List.mem_filter, List.mem_range, decide_eq_true_eq]
  constructor
  · exact fun h => h.2
  · exact fun h => ⟨by omega, h⟩

theorem sideDof_inj {T : Topo P} {s : PS P} {off m m' : ℕ} (h : sideDof T s off m = sideDof T s off m') : m = m' := by
  unfold sideDof at h
  split_ifs at h
  · simp only [Prod.mk.injEq, true_and, and_true] at h; exact h
  · simp only [Prod.mk.injEq, true_and, and_true] at h; exact h

theorem len_ge {T : Topo P} (ok : Ok T) (s : PS P) : 4 ≤ len T s := by
  unfold len; split_ifs
  · exact ok.n0_ge _
  · exact ok.n1_ge _

theorem not_selected {T : Topo P} (ok : Ok T) (s : PS P) (off : ℕ) {m : ℕ} (hm : m < len T s) :
    sideDof T s off m ∉ selected T s off ↔ 2 ≤ m ∧ m + 2 < len T s := by
  have hl := len_ge ok s
  have hsel : selected T s off = [sideDof T s off 0, sideDof T s off 1, sideDof T s off (len T s - 1), sideDof T s off (len T s - 2)] := by
    unfold selected Side.corners vert
    simp only [List.flatMap_cons, List.flatMap_nil, tang_corner, fromEnd, List.append_nil, List.cons_append, List.nil_append,
      Bool.false_eq_true, if_false, if_true, Prod.mk.eta]
    rfl
  rw [hsel]
  simp only [List.mem_cons, List.not_mem_nil, or_false]
  constructor
  · intro h
    push Not at h
    obtain ⟨h0, h1, h2, h3⟩ := h
    have a0 : m ≠ 0 := by rintro rfl; exact h0 rfl
    have a1 : m ≠ 1 := by rintro rfl; exact h1 rfl
    have a2 : m ≠ len T s - 1 := by intro e; exact h2 (by rw [← e])
    have a3 : m ≠ len T s - 2 := by intro e; exact h3 (by rw [← e])
    omega
  · rintro ⟨h1, h2⟩ h
    rcases h with h | h | h | h <;> have := sideDof_inj h <;> omega

theorem withoutEnds_side {T : Topo P} (ok : Ok T) (s : PS P) (off : ℕ) :
    withoutEnds T s off (sideList T s off) = (mids (len T s)).map (sideDof T s off) := by
  unfold withoutEnds sideList mids
  rw [List.filter_map]
  congr 1
  apply List.filter_congr
  intro m hm
  simp only [List.mem_range] at hm
  simp only [Function.comp, not_selected ok s off hm]

theorem mt_mid {T : Topo P} {s : PS P} {m : ℕ} (h : 2 ≤ m ∧ m + 2 < len T s) : 2 ≤ mt T s m ∧ mt T s m + 2 < len T s := by
  unfold mt; split_ifs <;> omega

theorem mt_mt {T : Topo P} (ok : Ok T) {s t : PS P} (h : T.nb s = some t) {m : ℕ} (hm : m < len T s) : mt T t (mt T s m) = m := by
  unfold mt
  rw [ok.flip_symm s t h, ok.nb_len s t h]
  split_ifs <;> omega

theorem withoutEnds_match {T : Topo P} (ok : Ok T) {s t : PS P} (h : T.nb s = some t) (off : ℕ) :
    withoutEnds T t off (matchWith T (s, t) off).2 = (mids (len T s)).map fun m => sideDof T t off (mt T s m) := by
  unfold withoutEnds matchWith mids
  simp only
  rw [List.filter_map]
  congr 1
  apply List.filter_congr
  intro m hm
  simp only [List.mem_range] at hm
  simp only [Function.comp]
  have hlen := ok.nb_len s t h
  have : (if T.flip s = true then len T s - 1 - m else m) < len T t := by rw [hlen]; split_ifs <;> omega
  rw [decide_eq_decide, not_selected ok t off this, hlen]
  split_ifs <;> omega

theorem ifaceRows_map (l : List ℕ) (o a b : ℕ → Dof P) :
    ifaceRows (l.map o) (l.map a) (l.map b) = l.flatMap fun m => [(o m, o m, 1), (o m, a m, 1 / 2), (o m, b m, 1 / 2)] := by
  unfold ifaceRows
  induction l with
  | nil => rfl
  | cons x l ih => simp only [List.map_cons, List.zip_cons_cons, List.flatMap_cons]; rw [ih]

/-- entries of one side of an interface -/
def sideEntries (T : Topo P) (s t : PS P) (m : ℕ) : List (Entry P) :=
  [(enc T (.sid s true m), enc T (.sid s true m), 1), (enc T (.sid s true m), enc T (.sid s false m), 1 / 2),
   (enc T (.sid s true m), enc T (.sid t false (mt T s m)), 1 / 2)]

theorem mem_ifaceEntries {T : Topo P} (ok : Ok T) {s t : PS P} (h : T.nb s = some t) (e : Entry P) :
    e ∈ ifaceEntries T (s, t) ↔
      (∃ m, (2 ≤ m ∧ m + 2 < len T s) ∧ e ∈ sideEntries T s t m) ∨ (∃ m, (2 ≤ m ∧ m + 2 < len T t) ∧ e ∈ sideEntries T t s m) := by
  have hlen := ok.nb_len s t h
  have e0 := withoutEnds_match ok h 0
  have e1 := withoutEnds_match ok h 1
  unfold ifaceEntries
  simp only
  rw [e0, e1]
  have f0 : (matchWith T (s, t) 0).1 = sideList T s 0 := rfl
  have f1 : (matchWith T (s, t) 1).1 = sideList T s 1 := rfl
  rw [f0, f1, withoutEnds_side ok, withoutEnds_side ok, ifaceRows_map, ifaceRows_map, List.mem_append]
  have g0 : ∀ (x : PS P) m, sideDof T x 0 m = enc T (.sid x false m) := fun _ _ => rfl
  have g1 : ∀ (x : PS P) m, sideDof T x 1 m = enc T (.sid x true m) := fun _ _ => rfl
  simp only [List.mem_flatMap, g0, g1, mem_mids]
  apply or_congr
  · rfl
  · constructor
    · rintro ⟨m, hm, he⟩
      have hm' := mt_mid (T := T) hm
      refine ⟨mt T s m, by rw [hlen]; exact hm', ?_⟩
      unfold sideEntries
      rw [mt_mt ok h (by omega)]
      exact he
    · rintro ⟨m, hm, he⟩
      have hb := ok.nb_symm s t h
      have hm' := mt_mid (T := T) hm
      refine ⟨mt T t m, by rw [← hlen]; exact hm', ?_⟩
      rw [mt_mt ok hb (by omega)]
      exact he

theorem Ent_sid_ne {T : Topo P} (ok : Ok T) {s t : PS P} (h : T.nb s = some t) : t ≠ s := by
  rintro rfl
  exact (ok.no_fold t.1 t.2 t.2 h).2 rfl

theorem sideEntries_good {T : Topo P} (ok : Ok T) {s t : PS P} (h : T.nb s = some t) {m : ℕ} (hm : 2 ≤ m ∧ m + 2 < len T s)
    {e : Entry P} (he : e ∈ sideEntries T s t m) : Good T e := by
  have hne := Ent_sid_ne ok h
  have hm' := mt_mid (T := T) hm
  have hlen := ok.nb_len s t h
  unfold sideEntries at he
  simp only [List.mem_cons, List.not_mem_nil, or_false] at he
  rcases he with rfl | rfl | rfl
  · exact good_mk hm hm (by simp [Wa, ind_self])
  · refine good_mk hm hm ?_
    rw [Wa, h]
    simp only [ind_self]
    rw [ind_ne (by simp [Ne.symm hne])]; norm_num
  · refine good_mk hm (by show 2 ≤ _ ∧ _ < len T t; rw [hlen]; exact hm') ?_
    rw [Wa, ok.nb_symm s t h]
    simp only
    rw [mt_mt ok h (by omega), ind_self, ind_ne (by simp [Ne.symm hne])]; norm_num

/-! ## which functions are eliminated -/

def AElim (T : Topo P) : ADof P → Bool
  | .int _ _ _ => false
  | .sid _ true _ => false
  | .sid s false _ => (T.nb s).isSome
  | .cor _ true true => false
  | .cor c true false => (T.nb (c.1, c.2.vside)).isSome
  | .cor c false true => (T.nb (c.1, c.2.uside)).isSome
  | .cor c false false => T.interior c || ((T.cl c).length == 2 && !T.c0 c)

theorem cross_isSome (T : Topo P) (c : PC P) (s : Side) : (T.nb (c.1, s)).isSome = (cross T c s).isSome := by
  unfold cross; simp

theorem edgeW_self {T : Topo P} (c : PC P) (s : Side) {x : ADof P} (hx : ∀ d, x ≠ .cor d true true) :
    edgeW T c s x x = if (T.nb (c.1, s)).isSome then 0 else 1 := by
  rw [cross_isSome]
  unfold edgeW
  rcases h : cross T c s with _ | d
  · simp [ind_self]
  · simp only [Option.isSome_some, if_true]
    rw [ind_ne (hx c), ind_ne (hx d)]; norm_num

theorem W_diag {T : Topo P} (ok : Ok T) (a : ADof P) : Wa T a a = if AElim T a then 0 else 1 := by
  cases a with
  | int p i j => simp [Wa, AElim, ind_self]
  | sid s off m =>
    cases off
    · rw [Wa, AElim]
      rcases h : T.nb s with _ | t
      · simp [ind_self]
      · simp only [Option.isSome_some, if_true]
        rw [ind_ne (by simp), ind_ne (by simp)]; norm_num
    · simp [Wa, AElim, ind_self]
  | cor c a b =>
    cases a <;> cases b
    · rw [Wa, AElim, cornW]
      cases hi : T.interior c
      · simp only [Bool.false_eq_true, if_false, Bool.false_or, Bool.and_eq_true, beq_iff_eq, Bool.not_eq_true', Bool.not_eq_true]
        by_cases h2 : (T.cl c).length = 2 ∧ T.c0 c = false
        · rw [if_pos h2, if_pos h2]
          obtain ⟨d, t, s', hs, hd, ht, htm, hn, hs', hne, hn'⟩ := regular_data ok hi h2.1
          rw [hd]
          simp only
          rw [ind_ne (by unfold av; split_ifs <;> simp), ind_ne (by unfold av; split_ifs <;> simp)]; norm_num
        · rw [if_neg h2, if_neg h2, ind_self]
      · simp only [if_true, Bool.true_or]
        have : ((T.cl c).map fun d => ind (.cor c false false) (.cor d true true : ADof P)).sum = 0 := by
          apply List.sum_eq_zero
          intro x hx
          rw [List.mem_map] at hx
          obtain ⟨d, -, rfl⟩ := hx
          exact ind_ne (by simp)
        rw [this]; simp
    · rw [Wa, edgeW_self c _ (by simp), AElim]
    · rw [Wa, edgeW_self c _ (by simp), AElim]
    · simp [Wa, AElim, ind_self]

/-- what the mapper of a corner eliminates -/
theorem mem_vertElim {T : Topo P} (ok : Ok T) (c : PC P) (a : ADof P) (ha : AValid T a) :
    enc T a ∈ vertElim T c ↔ (∃ x y, a = .cor c x y) ∧ AElim T a = true := by
  have hinj : ∀ {b : ADof P}, AValid T b → (enc T a = enc T b ↔ a = b) := fun hb => ⟨enc_inj ok ha hb, fun h => by rw [h]⟩
  have h00 : enc T a = enc T (.cor c false false) ↔ a = .cor c false false := hinj trivial
  have h10 : enc T a = enc T (.cor c true false) ↔ a = .cor c true false := hinj trivial
  have h01 : enc T a = enc T (.cor c false true) ↔ a = .cor c false true := hinj trivial
  unfold vertElim isIface
  simp only [Corner.sides, List.flatMap_cons, List.flatMap_nil, vert00 T c (uside_mem _), vert00 T c (vside_mem _),
    vert10 T c (uside_mem _), vert10 T c (vside_mem _), av, uside_dir, vside_dir, List.append_nil]
  simp only [Bool.false_eq_true, if_false, if_true]
  cases hi : T.interior c
  · simp only [Bool.false_eq_true, if_false]
    by_cases h1 : (T.cl c).length = 1
    · rw [if_pos h1]
      constructor
      · simp
      · rintro ⟨⟨x, y, rfl⟩, h⟩
        exfalso
        have b1 := cross_none.1 (v1_boundary ok h1 (uside_mem _))
        have b2 := cross_none.1 (v1_boundary ok h1 (vside_mem _))
        cases x <;> cases y <;> simp [AElim, hi, h1, b1, b2] at h
    · rw [if_neg h1]
      by_cases h2 : (T.cl c).length = 2 ∧ T.c0 c = false
      · have h2' : (T.cl c).length = 2 ∧ ¬ T.c0 c = true := by simpa using h2
        rw [if_pos h2', List.mem_append]
        obtain ⟨g2, g0⟩ := h2
        have hside := v2_side ok hi g2
        have hside' : ((T.nb (c.1, c.2.uside)).isSome = true ∧ (T.nb (c.1, c.2.vside)).isSome = false) ∨
            ((T.nb (c.1, c.2.vside)).isSome = true ∧ (T.nb (c.1, c.2.uside)).isSome = false) := by
          rw [cross_isSome, cross_isSome]
          rcases hside with ⟨d, e1, e2⟩ | ⟨d, e1, e2⟩
          · left; rw [e1, e2]; exact ⟨rfl, rfl⟩
          · right; rw [e1, e2]; exact ⟨rfl, rfl⟩
        rcases hside' with ⟨e1, e2⟩ | ⟨e1, e2⟩ <;> rw [e1, e2] <;>
          simp only [if_true, Bool.false_eq_true, if_false, List.mem_cons, List.not_mem_nil, or_false, false_or, h00, h10, h01] <;>
          constructor
        · rintro (rfl | rfl)
          · exact ⟨⟨_, _, rfl⟩, by simp [AElim, g2, g0]⟩
          · exact ⟨⟨_, _, rfl⟩, by simp [AElim, e1]⟩
        · rintro ⟨⟨x, y, rfl⟩, h⟩
          cases x <;> cases y <;> simp [AElim, e1, e2] at h ⊢
        · rintro (rfl | rfl)
          · exact ⟨⟨_, _, rfl⟩, by simp [AElim, g2, g0]⟩
          · exact ⟨⟨_, _, rfl⟩, by simp [AElim, e1]⟩
        · rintro ⟨⟨x, y, rfl⟩, h⟩
          cases x <;> cases y <;> simp [AElim, e1, e2] at h ⊢
      · have h2' : ¬ ((T.cl c).length = 2 ∧ ¬ T.c0 c = true) := by simpa using h2
        rw [if_neg h2', List.mem_append]
        have hz : AElim T (.cor c false false) = false := by
          simp only [AElim, hi, Bool.false_or]
          by_contra hcon
          simp at hcon
          exact h2 hcon
        cases e1 : (T.nb (c.1, c.2.uside)).isSome <;> cases e2 : (T.nb (c.1, c.2.vside)).isSome <;>
          simp only [if_true, Bool.false_eq_true, if_false, List.mem_cons, List.not_mem_nil, or_false, false_or, h00, h10, h01] <;>
          constructor
        all_goals first
          | exact False.elim
          | (rintro ⟨⟨x, y, rfl⟩, h⟩
             cases x <;> cases y <;> first
               | (rw [hz] at h; cases h)
               | (simp [AElim, e1, e2] at h ⊢))
          | (rintro rfl; exact ⟨⟨_, _, rfl⟩, by simp [AElim, e1, e2]⟩)
          | (rintro (rfl | rfl) <;> exact ⟨⟨_, _, rfl⟩, by simp [AElim, e1, e2]⟩)
  · have hb := (ok.interior_iff c).1 hi c (ok.cl_self c)
    have b1 := hb _ (uside_mem _)
    have b2 := hb _ (vside_mem _)
    simp only [if_true, List.mem_append, List.mem_cons, List.not_mem_nil, or_false, h00, h10, h01]
    constructor
    · rintro ((rfl | rfl) | (rfl | rfl))
      · exact ⟨⟨_, _, rfl⟩, by simp [AElim, hi]⟩
      · exact ⟨⟨_, _, rfl⟩, by simp [AElim, b1]⟩
      · exact ⟨⟨_, _, rfl⟩, by simp [AElim, hi]⟩
      · exact ⟨⟨_, _, rfl⟩, by simp [AElim, b2]⟩
    · rintro ⟨⟨x, y, rfl⟩, h⟩
      cases x <;> cases y <;> simp [AElim] at h ⊢

/-- invariant of the interface loop of the mapper -/
structure MapInv (T : Topo P) (st : MapSt P) : Prop where
  elim_iff : ∀ d, st.elim d = true ↔ ∃ s m, st.schk s = true ∧ (2 ≤ m ∧ m + 2 < len T s) ∧ d = sideDof T s 0 m
  nb_some : ∀ s, st.schk s = true → ∃ t, T.nb s = some t ∧ st.schk t = true

theorem mem_mid_list {T : Topo P} (ok : Ok T) (s : PS P) (d : Dof P) :
    d ∈ withoutEnds T s 0 (sideList T s 0) ↔ ∃ m, (2 ≤ m ∧ m + 2 < len T s) ∧ d = sideDof T s 0 m := by
  rw [withoutEnds_side ok, List.mem_map]
  simp only [mem_mids]
  constructor
  · rintro ⟨m, h, rfl⟩; exact ⟨m, h, rfl⟩
  · rintro ⟨m, h, rfl⟩; exact ⟨m, h, rfl⟩

theorem ifaceMapSide_elim {T : Topo P} (ok : Ok T) (st : MapSt P)
    (h : ∀ d, st.elim d = true ↔ ∃ s m, st.schk s = true ∧ (2 ≤ m ∧ m + 2 < len T s) ∧ d = sideDof T s 0 m) (s : PS P) :
    (∀ d, (ifaceMapSide T st s).elim d = true ↔
      ∃ s' m, (ifaceMapSide T st s).schk s' = true ∧ (2 ≤ m ∧ m + 2 < len T s') ∧ d = sideDof T s' 0 m) ∧
    (∀ x, (ifaceMapSide T st s).schk x = true ↔ x = s ∨ st.schk x = true) := by
  unfold ifaceMapSide
  by_cases hc : st.schk s = true
  · rw [if_pos hc]
    refine ⟨h, fun x => ⟨Or.inr, ?_⟩⟩
    rintro (rfl | hx)
    · exact hc
    · exact hx
  · rw [if_neg hc]
    refine ⟨fun d => ?_, fun x => by simp⟩
    unfold elimList
    simp only [Bool.or_eq_true, decide_eq_true_eq, h, mem_mid_list ok]
    constructor
    · rintro (⟨s', m, h1, h2⟩ | ⟨m, h1⟩)
      · exact ⟨s', m, Or.inr h1, h2⟩
      · exact ⟨s, m, Or.inl rfl, h1⟩
    · rintro ⟨s', m, rfl | h1, h2⟩
      · exact Or.inr ⟨m, h2⟩
      · exact Or.inl ⟨s', m, h1, h2⟩

theorem ifaceMap_inv {T : Topo P} (ok : Ok T) (st : MapSt P) (h : MapInv T st) (i : PS P × PS P) (hi : T.nb i.1 = some i.2) :
    MapInv T (ifaceMap T st i) ∧ (∀ x, (ifaceMap T st i).schk x = true ↔ x = i.1 ∨ x = i.2 ∨ st.schk x = true) := by
  unfold ifaceMap
  by_cases hc : st.schk i.2 = true
  · rw [if_pos hc]
    refine ⟨h, fun x => ⟨fun hx => Or.inr (Or.inr hx), ?_⟩⟩
    rintro (rfl | rfl | hx)
    · obtain ⟨t, h1, h2⟩ := h.nb_some _ hc
      rw [ok.nb_symm _ _ hi] at h1
      cases h1; exact h2
    · exact hc
    · exact hx
  · rw [if_neg hc]
    obtain ⟨a1, a2⟩ := ifaceMapSide_elim ok st h.elim_iff i.1
    obtain ⟨b1, b2⟩ := ifaceMapSide_elim ok _ a1 i.2
    have hs : ∀ x, (ifaceMapSide T (ifaceMapSide T st i.1) i.2).schk x = true ↔ x = i.1 ∨ x = i.2 ∨ st.schk x = true := by
      intro x; rw [b2, a2]; tauto
    refine ⟨⟨b1, ?_⟩, hs⟩
    intro x hx
    simp only [hs] at hx ⊢
    rcases hx with rfl | rfl | hx
    · exact ⟨_, hi, Or.inr (Or.inl rfl)⟩
    · exact ⟨_, ok.nb_symm _ _ hi, Or.inl rfl⟩
    · obtain ⟨t, h1, h2⟩ := h.nb_some _ hx
      exact ⟨t, h1, Or.inr (Or.inr h2)⟩

theorem ifaceMap_fold {T : Topo P} (ok : Ok T) (il : List (PS P × PS P)) (hil : ∀ i ∈ il, T.nb i.1 = some i.2)
    (st : MapSt P) (h : MapInv T st) :
    MapInv T (il.foldl (ifaceMap T) st) ∧
    ∀ x, (il.foldl (ifaceMap T) st).schk x = true ↔ st.schk x = true ∨ ∃ i ∈ il, x = i.1 ∨ x = i.2 := by
  induction il generalizing st with
  | nil => exact ⟨h, by simp⟩
  | cons i il ih =>
    rw [List.foldl_cons]
    obtain ⟨h1, h2⟩ := ifaceMap_inv ok st h i (hil i (by simp))
    obtain ⟨g1, g2⟩ := ih (fun j hj => hil j (by simp [hj])) _ h1
    refine ⟨g1, fun x => ?_⟩
    rw [g2, h2]
    constructor
    · rintro ((h | h | h) | ⟨j, hj, h⟩)
      · exact Or.inr ⟨i, by simp, Or.inl h⟩
      · exact Or.inr ⟨i, by simp, Or.inr h⟩
      · exact Or.inl h
      · exact Or.inr ⟨j, by simp [hj], h⟩
    · rintro (h | ⟨j, hj, h⟩)
      · exact Or.inl (Or.inr (Or.inr h))
      · rw [List.mem_cons] at hj
        rcases hj with rfl | hj
        · rcases h with h | h
          · exact Or.inl (Or.inl h)
          · exact Or.inl (Or.inr (Or.inl h))
        · exact Or.inr ⟨j, hj, h⟩

theorem bdryMap_fold (bl : List (PS P)) (st : MapSt P) : (bl.foldl bdryMap st).elim = st.elim ∧ (bl.foldl bdryMap st).vchk = st.vchk := by
  induction bl generalizing st with
  | nil => exact ⟨rfl, rfl⟩
  | cons s bl ih => rw [List.foldl_cons]; exact ih _

theorem vertMap_fold {T : Topo P} (vl : List (PC P)) (st : MapSt P) (e0 : Dof P → Bool)
    (h : ∀ d, st.elim d = true ↔ e0 d = true ∨ ∃ c, st.vchk c = true ∧ d ∈ vertElim T c) (d : Dof P) :
    (vl.foldl (vertMap T) st).elim d = true ↔
      e0 d = true ∨ ∃ c, (st.vchk c = true ∨ c ∈ vl) ∧ d ∈ vertElim T c := by
  induction vl generalizing st with
  | nil => simpa using h d
  | cons c vl ih =>
    rw [List.foldl_cons]
    have hv : ∀ x, (vertMap T st c).vchk x = true ↔ x = c ∨ st.vchk x = true := by
      intro x
      unfold vertMap
      split_ifs with hc
      · constructor
        · exact Or.inr
        · rintro (rfl | h)
          · exact hc
          · exact h
      · simp
    rw [ih (vertMap T st c)]
    · simp only [hv, List.mem_cons]
      constructor
      · rintro (h | ⟨x, (h1 | h1) | h1, h2⟩)
        · exact Or.inl h
        · exact Or.inr ⟨x, Or.inr (Or.inl h1), h2⟩
        · exact Or.inr ⟨x, Or.inl h1, h2⟩
        · exact Or.inr ⟨x, Or.inr (Or.inr h1), h2⟩
      · rintro (h | ⟨x, h1 | h1 | h1, h2⟩)
        · exact Or.inl h
        · exact Or.inr ⟨x, Or.inl (Or.inr h1), h2⟩
        · exact Or.inr ⟨x, Or.inl (Or.inl h1), h2⟩
        · exact Or.inr ⟨x, Or.inr h1, h2⟩
    · intro d
      simp only [hv]
      unfold vertMap
      split_ifs with hc
      · rw [h]
        constructor
        · rintro (h | ⟨x, h1, h2⟩)
          · exact Or.inl h
          · exact Or.inr ⟨x, Or.inr h1, h2⟩
        · rintro (h | ⟨x, rfl | h1, h2⟩)
          · exact Or.inl h
          · exact Or.inr ⟨x, hc, h2⟩
          · exact Or.inr ⟨x, h1, h2⟩
      · unfold elimList
        simp only [Bool.or_eq_true, decide_eq_true_eq, h]
        constructor
        · rintro ((h | ⟨x, h1, h2⟩) | h)
          · exact Or.inl h
          · exact Or.inr ⟨x, Or.inr h1, h2⟩
          · exact Or.inr ⟨c, Or.inl rfl, h⟩
        · rintro (h | ⟨x, rfl | h1, h2⟩)
          · exact Or.inl (Or.inl h)
          · exact Or.inr h2
          · exact Or.inl (Or.inr ⟨x, h1, h2⟩)

/-- The mapper eliminates exactly the functions `AElim`. -/
theorem mapper_elim {T : Topo P} (ok : Ok T) {il : List (PS P × PS P)} {bl : List (PS P)} {vl : List (PC P)}
    (hl : Lists T il bl vl) {a : ADof P} (ha : AValid T a) : (computeMapper T il bl vl).elim (enc T a) = AElim T a := by
  have h0 : MapInv T ({ elim := fun _ => false, schk := fun _ => false, vchk := fun _ => false } : MapSt P) :=
    ⟨by simp, by simp⟩
  obtain ⟨g1, g2⟩ := ifaceMap_fold ok il hl.il_sound _ h0
  have gv : ∀ st : MapSt P, (il.foldl (ifaceMap T) st).vchk = st.vchk := by
    intro st
    clear g1 g2
    have hl' := hl.il_sound
    clear hl
    induction il generalizing st with
    | nil => rfl
    | cons i il ih =>
      rw [List.foldl_cons, ih _ (fun j hj => hl' j (by simp [hj]))]
      unfold ifaceMap ifaceMapSide
      split_ifs <;> rfl
  rw [Bool.eq_iff_iff]
  unfold computeMapper
  simp only
  rw [vertMap_fold vl _ (il.foldl (ifaceMap T) { elim := fun _ => false, schk := fun _ => false, vchk := fun _ => false }).elim]
  · rw [g1.elim_iff]
    simp only [g2, (bdryMap_fold bl _).2, gv, Bool.false_eq_true, false_or]
    constructor
    · rintro (⟨s, m, ⟨i, hi, hs⟩, hm, he⟩ | ⟨c, -, hc⟩)
      · have : a = .sid s false m := enc_inj ok ha (y := ADof.sid s false m) hm he
        subst this
        have hnb := hl.il_sound i hi
        rcases hs with rfl | rfl
        · simp [AElim, hnb]
        · simp [AElim, ok.nb_symm _ _ hnb]
      · exact ((mem_vertElim ok c a ha).1 hc).2
    · intro h
      cases a with
      | int p i j => simp [AElim] at h
      | sid s off m =>
        cases off
        · left
          rw [AElim, Option.isSome_iff_exists] at h
          obtain ⟨t, ht⟩ := h
          rcases hl.il_complete s t ht with h | h
          · exact ⟨s, m, ⟨_, h, Or.inl rfl⟩, ha, rfl⟩
          · exact ⟨s, m, ⟨_, h, Or.inr rfl⟩, ha, rfl⟩
        · simp [AElim] at h
      | cor c x y =>
        right
        exact ⟨c, hl.vl_all c, (mem_vertElim ok c _ ha).2 ⟨⟨x, y, rfl⟩, h⟩⟩
  · intro d
    rw [(bdryMap_fold bl _).1, (bdryMap_fold bl _).2, gv]
    simp

/-! ## the matrix -/

/-- entries pushed so far describe the matrix -/
structure Inv (T : Topo P) (st : St P) (S : Entry P → Prop) : Prop where
  good : ∀ e, S e → Good T e
  diag : ∀ e, S e → S (e.1, e.1, 1)
  hit : ∀ e, S e → st.M e.1 e.2.1 = W T e.1 e.2.1
  miss : ∀ r c, (¬ ∃ w, S (r, c, w)) → st.M r c = 0
  bchk : ∀ r, st.bchk r = true ↔ ∃ c w, S (r, c, w)

theorem good_W {T : Topo P} (ok : Ok T) {e : Entry P} (h : Good T e) : e.2.2 = W T e.1 e.2.1 := by
  obtain ⟨a, b, ha, hb, h1, h2, h3⟩ := h
  unfold W
  rw [h1, h2, h3, dec_enc ok ha, dec_enc ok hb]

theorem push_M {T : Topo P} (l : List (Entry P)) (hl : ∀ e ∈ l, e.2.2 = W T e.1 e.2.1) (st : St P) :
    (∀ r c, (∃ w, (r, c, w) ∈ l) → (push st l).M r c = W T r c) ∧
    (∀ r c, (¬ ∃ w, (r, c, w) ∈ l) → (push st l).M r c = st.M r c) ∧
    (∀ r, (push st l).bchk r = true ↔ st.bchk r = true ∨ ∃ c w, (r, c, w) ∈ l) ∧
    (push st l).vchk = st.vchk ∧ (push st l).schk = st.schk := by
  induction l generalizing st with
  | nil => refine ⟨?_, ?_, ?_, rfl, rfl⟩ <;> simp [push]
  | cons e l ih =>
    obtain ⟨i1, i2, i3, i4, i5⟩ := ih (fun x hx => hl x (by simp [hx])) (push1 st e)
    have hp : push st (e :: l) = push (push1 st e) l := rfl
    rw [hp]
    refine ⟨?_, ?_, ?_, i4, i5⟩
    · rintro r c ⟨w, hw⟩
      by_cases h : ∃ w, (r, c, w) ∈ l
      · exact i1 r c h
      · rw [i2 r c h]
        rw [List.mem_cons] at hw
        rcases hw with rfl | hw
        · simp only [push1, and_self, if_true]
          exact hl (r, c, w) (by simp)
        · exact absurd ⟨w, hw⟩ h
    · intro r c h
      have h1 : ¬ ∃ w, (r, c, w) ∈ l := fun ⟨w, hw⟩ => h ⟨w, by simp [hw]⟩
      rw [i2 r c h1]
      have : ¬ (r = e.1 ∧ c = e.2.1) := by
        rintro ⟨rfl, rfl⟩
        exact h ⟨e.2.2, by simp⟩
      simp only [push1, if_neg this]
    · intro r
      rw [i3]
      simp only [push1, Bool.or_eq_true, decide_eq_true_eq, List.mem_cons]
      constructor
      · rintro ((rfl | h) | ⟨c, w, h⟩)
        · exact Or.inr ⟨e.2.1, e.2.2, Or.inl rfl⟩
        · exact Or.inl h
        · exact Or.inr ⟨c, w, Or.inr h⟩
      · rintro (h | ⟨c, w, rfl | h⟩)
        · exact Or.inl (Or.inr h)
        · exact Or.inl (Or.inl rfl)
        · exact Or.inr ⟨c, w, h⟩

theorem inv_push {T : Topo P} (ok : Ok T) {st : St P} {S : Entry P → Prop} (h : Inv T st S) {l : List (Entry P)}
    (hg : ∀ e ∈ l, Good T e) (hd : ∀ e ∈ l, (e.1, e.1, (1 : ℚ)) ∈ l) : Inv T (push st l) (fun e => S e ∨ e ∈ l) := by
  obtain ⟨i1, i2, i3, i4, i5⟩ := push_M l (fun e he => good_W ok (hg e he)) st
  refine ⟨?_, ?_, ?_, ?_, ?_⟩
  · rintro e (h' | h')
    · exact h.good e h'
    · exact hg e h'
  · rintro e (h' | h')
    · exact Or.inl (h.diag e h')
    · exact Or.inr (hd e h')
  · intro e he
    by_cases hm : ∃ w, (e.1, e.2.1, w) ∈ l
    · exact i1 _ _ hm
    · rcases he with he | he
      · rw [i2 _ _ hm]; exact h.hit e he
      · exact absurd ⟨e.2.2, he⟩ hm
  · intro r c hn
    rw [i2 r c (fun ⟨w, hw⟩ => hn ⟨w, Or.inr hw⟩)]
    exact h.miss r c (fun ⟨w, hw⟩ => hn ⟨w, Or.inl hw⟩)
  · intro r
    rw [i3, h.bchk]
    constructor
    · rintro (⟨c, w, h⟩ | ⟨c, w, h⟩)
      · exact ⟨c, w, Or.inl h⟩
      · exact ⟨c, w, Or.inr h⟩
    · rintro ⟨c, w, h | h⟩
      · exact Or.inl ⟨c, w, h⟩
      · exact Or.inr ⟨c, w, h⟩

theorem inv_congr {T : Topo P} {st st' : St P} {S S' : Entry P → Prop} (h : Inv T st S) (hM : st'.M = st.M) (hb : st'.bchk = st.bchk)
    (hS : ∀ e, S' e ↔ S e) : Inv T st' S' := by
  have : S' = S := by funext e; exact propext (hS e)
  subst this
  exact ⟨h.good, h.diag, by rw [hM]; exact h.hit, by rw [hM]; exact h.miss, by rw [hb]; exact h.bchk⟩

/-- every entry list of a vertex contains the diagonal entries of its rows -/
theorem vert_diag {T : Topo P} (ok : Ok T) (c : PC P) {l : List (Entry P)} (h : vertEntries T c = some l) :
    ∀ e ∈ l, (e.1, e.1, (1 : ℚ)) ∈ l := by
  cases hi : T.interior c
  · have := len_pos ok c
    rcases Nat.lt_or_ge 2 (T.cl c).length with h' | h'
    · obtain ⟨h1, -⟩ := irregular_good ok hi h'
      rw [h1] at h
      cases h
      rw [irregular_eq ok]
      intro e he
      simp only [List.mem_append, List.mem_cons, List.not_mem_nil, or_false, List.mem_flatMap] at he ⊢
      rcases he with (rfl | ⟨s, hs, he⟩) | rfl
      · simp
      · rcases hx : cross T c s with _ | d
        · rw [hx] at he
          simp only [List.mem_cons, List.not_mem_nil, or_false] at he
          subst he
          exact Or.inl (Or.inr ⟨s, hs, by rw [hx]; simp⟩)
        · rw [hx] at he
          simp only [List.mem_cons, List.not_mem_nil, or_false] at he
          rcases he with rfl | rfl <;> simp
      · simp
    · rcases (by omega : (T.cl c).length = 1 ∨ (T.cl c).length = 2) with h' | h'
      · obtain ⟨l', h1, -, h2⟩ := corner_good ok hi h'
        rw [h1] at h; cases h
        intro e he
        obtain ⟨a, b, rfl⟩ := h2 e he
        exact he
      · obtain ⟨d, t, s', hs, hd, ht, htm, hn, hs', hne, hn'⟩ := regular_data ok hi h'
        obtain ⟨e1, e2⟩ := regular_eq ok hs hd ht htm
        unfold vertEntries at h
        by_cases hc : T.c0 c = true
        · simp only [hi, h', hc, Bool.false_eq_true, if_false, OfNat.ofNat_ne_one, not_true_eq_false, and_false, if_true, e2,
            Option.some.injEq] at h
          subst h
          intro e he
          simp only [List.mem_cons, List.not_mem_nil, or_false] at he
          rcases he with rfl | rfl | rfl <;> simp
        · simp only [hi, h', hc, Bool.false_eq_true, if_false, OfNat.ofNat_ne_one, not_false_eq_true, and_self, if_true, e1,
            Option.some.injEq] at h
          subst h
          intro e he
          simp only [List.mem_cons, List.not_mem_nil, or_false] at he
          rcases he with rfl | rfl | rfl | rfl | rfl | rfl <;> simp
  · obtain ⟨d1, d2, t1, t2, c1, c2, h1, h2, m1, m2, he⟩ := interior_eq ok hi
    have : vertEntries T c = interiorEntries T c := by unfold vertEntries; simp [hi]
    rw [this, he] at h
    cases h
    intro e hm
    simp only [List.mem_append, List.mem_cons, List.not_mem_nil, or_false, List.mem_map] at hm
    rcases hm with ((rfl | ⟨d, hd, rfl⟩) | rfl | rfl) | rfl | rfl <;> simp

/-- The vertex loop. -/
theorem vertex_fold {T : Topo P} (ok : Ok T) (vl : List (PC P)) (st : St P) (S : Entry P → Prop) (h : Inv T st S)
    (hv : ∀ c, st.vchk c = true → ∀ l, vertEntries T c = some l → ∀ e ∈ l, S e)
    (hS : ∀ e, S e → ∃ c l, vertEntries T c = some l ∧ e ∈ l) :
    ∃ st' S', vl.foldlM (handleVertex T) st = some st' ∧ Inv T st' S' ∧ st'.schk = st.schk ∧
      (∀ e, S e → S' e) ∧
      (∀ e, S' e → ∃ c l, vertEntries T c = some l ∧ e ∈ l) ∧
      (∀ c, (st.vchk c = true ∨ c ∈ vl) → st'.vchk c = true ∧ ∀ l, vertEntries T c = some l → ∀ e ∈ l, S' e) := by
  induction vl generalizing st S with
  | nil =>
    refine ⟨st, S, rfl, h, rfl, fun _ => id, hS, ?_⟩
    rintro c (hc | hc)
    · exact ⟨hc, hv c hc⟩
    · simp at hc
  | cons c vl ih =>
    rw [List.foldlM_cons]
    by_cases hc : st.vchk c = true
    · have : handleVertex T st c = some st := by unfold handleVertex; rw [if_pos hc]
      rw [this]
      obtain ⟨st', S', g1, g2, g3, g4, g5, g6⟩ := ih st S h hv hS
      refine ⟨st', S', g1, g2, g3, g4, g5, ?_⟩
      rintro x (hx | hx)
      · exact g6 x (Or.inl hx)
      · rw [List.mem_cons] at hx
        rcases hx with rfl | hx
        · exact g6 x (Or.inl hc)
        · exact g6 x (Or.inr hx)
    · obtain ⟨l, hl, hg⟩ := vert_good ok c
      have hstep : handleVertex T st c = some { push st l with vchk := fun x => x = c || st.vchk x } := by
        unfold handleVertex; rw [if_neg hc, hl]; rfl
      rw [hstep]
      have hpv := (push_M l (fun e he => good_W ok (hg e he)) st)
      have hinv := inv_push ok h hg (vert_diag ok c hl)
      obtain ⟨st', S', g1, g2, g3, g4, g5, g6⟩ :=
        ih { push st l with vchk := fun x => x = c || st.vchk x } _ (inv_congr hinv rfl rfl (fun _ => Iff.rfl)) (by
          intro x hx l' hl' e he
          simp only [Bool.or_eq_true, decide_eq_true_eq] at hx
          rcases hx with rfl | hx
          · rw [hl] at hl'; cases hl'; exact Or.inr he
          · exact Or.inl (hv x hx l' hl' e he)) (by
          rintro e (he | he)
          · exact hS e he
          · exact ⟨c, l, hl, he⟩)
      refine ⟨st', S', g1, g2, by rw [g3]; exact hpv.2.2.2.2, fun e he => g4 e (Or.inl he), g5, ?_⟩
      rintro x (hx | hx)
      · exact g6 x (Or.inl (by simp [hx]))
      · rw [List.mem_cons] at hx
        rcases hx with rfl | hx
        · exact g6 x (Or.inl (by simp))
        · exact g6 x (Or.inr hx)

theorem iface_good {T : Topo P} (ok : Ok T) {s t : PS P} (h : T.nb s = some t) :
    (∀ e ∈ ifaceEntries T (s, t), Good T e) ∧ ∀ e ∈ ifaceEntries T (s, t), (e.1, e.1, (1 : ℚ)) ∈ ifaceEntries T (s, t) := by
  have hb := ok.nb_symm s t h
  constructor
  · intro e he
    rw [mem_ifaceEntries ok h] at he
    rcases he with ⟨m, hm, he⟩ | ⟨m, hm, he⟩
    · exact sideEntries_good ok h hm he
    · exact sideEntries_good ok hb hm he
  · intro e he
    rw [mem_ifaceEntries ok h] at he ⊢
    rcases he with ⟨m, hm, he⟩ | ⟨m, hm, he⟩
    · refine Or.inl ⟨m, hm, ?_⟩
      unfold sideEntries at he ⊢
      simp only [List.mem_cons, List.not_mem_nil, or_false] at he
      rcases he with rfl | rfl | rfl <;> simp
    · refine Or.inr ⟨m, hm, ?_⟩
      unfold sideEntries at he ⊢
      simp only [List.mem_cons, List.not_mem_nil, or_false] at he
      rcases he with rfl | rfl | rfl <;> simp

/-- The interface loop. -/
theorem iface_fold {T : Topo P} (ok : Ok T) (il : List (PS P × PS P)) (hil : ∀ i ∈ il, T.nb i.1 = some i.2) (st : St P)
    (S : Entry P → Prop) (h : Inv T st S)
    (hs : ∀ s, st.schk s = true → ∃ t, T.nb s = some t ∧ st.schk t = true ∧
      ∀ m, (2 ≤ m ∧ m + 2 < len T s) → ∀ e ∈ sideEntries T s t m, S e) :
    ∃ S', Inv T (il.foldl (handleIface T) st) S' ∧ (il.foldl (handleIface T) st).vchk = st.vchk ∧ (∀ e, S e → S' e) ∧
      (∀ e, S' e → S e ∨ ∃ i ∈ il, e ∈ ifaceEntries T i) ∧
      (∀ s t, T.nb s = some t → (st.schk s = true ∨ (s, t) ∈ il ∨ (t, s) ∈ il) →
        (il.foldl (handleIface T) st).schk s = true ∧ ∀ m, (2 ≤ m ∧ m + 2 < len T s) → ∀ e ∈ sideEntries T s t m, S' e) := by
  induction il generalizing st S with
  | nil =>
    refine ⟨S, h, rfl, fun _ => id, fun _ => Or.inl, ?_⟩
    rintro s t hn (hc | hc | hc)
    · obtain ⟨t', h1, -, h2⟩ := hs s hc
      rw [hn] at h1; cases h1
      exact ⟨hc, h2⟩
    · simp at hc
    · simp at hc
  | cons i il ih =>
    rw [List.foldl_cons]
    obtain ⟨a, b⟩ := i
    have hnb : T.nb a = some b := hil (a, b) (by simp)
    have hnb' := ok.nb_symm a b hnb
    by_cases hc : st.schk a = true ∨ st.schk b = true
    · have : handleIface T st (a, b) = st := by
        unfold handleIface; rw [if_pos (by simpa using hc)]
      rw [this]
      have hab : st.schk a = true ∧ st.schk b = true := by
        rcases hc with hc | hc
        · obtain ⟨t, h1, h2, -⟩ := hs a hc
          rw [hnb] at h1; cases h1; exact ⟨hc, h2⟩
        · obtain ⟨t, h1, h2, -⟩ := hs b hc
          rw [hnb'] at h1; cases h1; exact ⟨h2, hc⟩
      obtain ⟨S', g1, g2, g3, g4, g5⟩ := ih (fun j hj => hil j (by simp [hj])) st S h hs
      refine ⟨S', g1, g2, g3, ?_, ?_⟩
      · intro e he
        rcases g4 e he with h | ⟨j, hj, h⟩
        · exact Or.inl h
        · exact Or.inr ⟨j, by simp [hj], h⟩
      · intro s t hst hor
        apply g5 s t hst
        rcases hor with h | h | h
        · exact Or.inl h
        · rw [List.mem_cons] at h
          rcases h with h | h
          · cases h; exact Or.inl hab.1
          · exact Or.inr (Or.inl h)
        · rw [List.mem_cons] at h
          rcases h with h | h
          · cases h; exact Or.inl hab.2
          · exact Or.inr (Or.inr h)
    · have hstep : handleIface T st (a, b) =
          { push st (ifaceEntries T (a, b)) with schk := fun x => x = a || x = b || st.schk x } := by
        unfold handleIface; rw [if_neg (by simpa using hc)]
      rw [hstep]
      obtain ⟨hg, hd⟩ := iface_good ok hnb
      have hpv := (push_M _ (fun e he => good_W ok (hg e he)) st)
      have hinv := inv_push ok h hg hd
      obtain ⟨S', g1, g2, g3, g4, g5⟩ := ih (fun j hj => hil j (by simp [hj]))
        { push st (ifaceEntries T (a, b)) with schk := fun x => x = a || x = b || st.schk x } _
        (inv_congr hinv rfl rfl (fun _ => Iff.rfl)) (by
          intro s hx
          simp only [Bool.or_eq_true, decide_eq_true_eq] at hx ⊢
          rcases hx with (rfl | rfl) | hx
          · exact ⟨b, hnb, Or.inl (Or.inr rfl), fun m hm e he => Or.inr ((mem_ifaceEntries ok hnb e).2 (Or.inl ⟨m, hm, he⟩))⟩
          · exact ⟨a, hnb', Or.inl (Or.inl rfl), fun m hm e he => Or.inr ((mem_ifaceEntries ok hnb e).2 (Or.inr ⟨m, hm, he⟩))⟩
          · obtain ⟨t, h1, h2, h3⟩ := hs s hx
            exact ⟨t, h1, Or.inr h2, fun m hm e he => Or.inl (h3 m hm e he)⟩)
      refine ⟨S', g1, by rw [g2]; exact hpv.2.2.2.1, fun e he => g3 e (Or.inl he), ?_, ?_⟩
      · intro e he
        rcases g4 e he with (h | h) | ⟨j, hj, h⟩
        · exact Or.inl h
        · exact Or.inr ⟨_, by simp, h⟩
        · exact Or.inr ⟨j, by simp [hj], h⟩
      · intro s t hst hor
        apply g5 s t hst
        rcases hor with h | h | h
        · exact Or.inl (by simp [h])
        · rw [List.mem_cons] at h
          rcases h with h | h
          · cases h; exact Or.inl (by simp)
          · exact Or.inr (Or.inl h)
        · rw [List.mem_cons] at h
          rcases h with h | h
          · cases h; exact Or.inl (by simp)
          · exact Or.inr (Or.inr h)

/-- The boundary loop. -/
theorem bdry_fold {T : Topo P} (ok : Ok T) (bl : List (PS P)) (hbl : ∀ s ∈ bl, T.nb s = none) (st : St P)
    (S : Entry P → Prop) (h : Inv T st S) :
    ∃ S', Inv T (bl.foldl (handleBdry T) st) S' ∧ (bl.foldl (handleBdry T) st).vchk = st.vchk ∧ (∀ e, S e → S' e) ∧
      (∀ s, (bl.foldl (handleBdry T) st).schk s = true ↔ st.schk s = true ∨ s ∈ bl) := by
  induction bl generalizing st S with
  | nil => exact ⟨S, h, rfl, fun _ => id, by simp⟩
  | cons s bl ih =>
    rw [List.foldl_cons]
    have hn := hbl s (by simp)
    have hmem : ∀ e, e ∈ ((withoutEnds T s 0 (sideList T s 0)).map fun d => (d, d, (1 : ℚ))) ↔
        ∃ m, (2 ≤ m ∧ m + 2 < len T s) ∧ e = (enc T (.sid s false m), enc T (.sid s false m), 1) := by
      intro e
      rw [List.mem_map]
      simp only [mem_mid_list ok]
      constructor
      · rintro ⟨d, ⟨m, hm, rfl⟩, rfl⟩; exact ⟨m, hm, rfl⟩
      · rintro ⟨m, hm, rfl⟩; exact ⟨_, ⟨m, hm, rfl⟩, rfl⟩
    have hg : ∀ e ∈ ((withoutEnds T s 0 (sideList T s 0)).map fun d => (d, d, (1 : ℚ))), Good T e := by
      intro e he
      obtain ⟨m, hm, rfl⟩ := (hmem e).1 he
      exact good_mk hm hm (by rw [Wa, hn]; simp [ind_self])
    have hd : ∀ e ∈ ((withoutEnds T s 0 (sideList T s 0)).map fun d => (d, d, (1 : ℚ))),
        (e.1, e.1, (1 : ℚ)) ∈ ((withoutEnds T s 0 (sideList T s 0)).map fun d => (d, d, (1 : ℚ))) := by
      intro e he
      obtain ⟨m, hm, rfl⟩ := (hmem e).1 he
      exact he
    have hpv := (push_M _ (fun e he => good_W ok (hg e he)) st)
    obtain ⟨S', g1, g2, g3, g4⟩ := ih (fun j hj => hbl j (by simp [hj])) (handleBdry T st s) _
      (inv_congr (inv_push ok h hg hd) rfl rfl (fun _ => Iff.rfl))
    refine ⟨S', g1, by rw [g2]; exact hpv.2.2.2.1, fun e he => g3 e (Or.inl he), ?_⟩
    intro x
    rw [g4]
    simp only [handleBdry, Bool.or_eq_true, decide_eq_true_eq, List.mem_cons]
    tauto

theorem interior_fold {T : Topo P} (ok : Ok T) (elim : Dof P → Bool) (dl : List (Dof P)) (st : St P) :
    (dl.foldl (interior1 elim) st).vchk = st.vchk ∧ (dl.foldl (interior1 elim) st).schk = st.schk ∧
    (∀ r, (dl.foldl (interior1 elim) st).bchk r = true ↔ st.bchk r = true ∨ (r ∈ dl ∧ elim r = false)) ∧
    (∀ r c, (dl.foldl (interior1 elim) st).M r c =
      if r = c ∧ r ∈ dl ∧ elim r = false ∧ st.bchk r = false then 1 else st.M r c) := by
  induction dl generalizing st with
  | nil => simp
  | cons d dl ih =>
    rw [List.foldl_cons]
    obtain ⟨i1, i2, i3, i4⟩ := ih (interior1 elim st d)
    unfold interior1 at i1 i2 i3 i4 ⊢
    by_cases hc : elim d = true ∨ st.bchk d = true
    · rw [if_pos (by simpa using hc)] at i1 i2 i3 i4 ⊢
      refine ⟨i1, i2, ?_, ?_⟩
      · intro r
        rw [i3, List.mem_cons]
        constructor
        · rintro (h | ⟨h1, h2⟩)
          · exact Or.inl h
          · exact Or.inr ⟨Or.inr h1, h2⟩
        · rintro (h | ⟨rfl | h1, h2⟩)
          · exact Or.inl h
          · rcases hc with hc | hc
            · rw [hc] at h2; cases h2
            · exact Or.inl hc
          · exact Or.inr ⟨h1, h2⟩
      · intro r c
        rw [i4]
        have : (r = c ∧ r ∈ dl ∧ elim r = false ∧ st.bchk r = false) ↔
            (r = c ∧ r ∈ d :: dl ∧ elim r = false ∧ st.bchk r = false) := by
          rw [List.mem_cons]
          constructor
          · rintro ⟨h1, h2, h3⟩; exact ⟨h1, Or.inr h2, h3⟩
          · rintro ⟨h1, rfl | h2, h3, h4⟩
            · rcases hc with hc | hc
              · rw [hc] at h3; cases h3
              · rw [hc] at h4; cases h4
            · exact ⟨h1, h2, h3, h4⟩
        simp only [this]
    · rw [if_neg (by simpa using hc)] at i1 i2 i3 i4 ⊢
      push Not at hc
      obtain ⟨he, hb⟩ := hc
      have he' : elim d = false := by simpa using he
      have hb' : st.bchk d = false := by simpa using hb
      refine ⟨i1, i2, ?_, ?_⟩
      · intro r
        rw [i3]
        simp only [push1, Bool.or_eq_true, decide_eq_true_eq, List.mem_cons]
        constructor
        · rintro ((rfl | h) | ⟨h1, h2⟩)
          · exact Or.inr ⟨Or.inl rfl, he'⟩
          · exact Or.inl h
          · exact Or.inr ⟨Or.inr h1, h2⟩
        · rintro (h | ⟨rfl | h1, h2⟩)
          · exact Or.inl (Or.inr h)
          · exact Or.inl (Or.inl rfl)
          · exact Or.inr ⟨h1, h2⟩
      · intro r c
        rw [i4]
        by_cases hr : r = d
        · subst hr
          by_cases hrc : r = c
          · subst hrc
            simp [push1, he', hb']
          · have : ¬ (c = r) := fun h => hrc h.symm
            simp [push1, hrc, this]
        · have hbr : (push1 st (d, d, 1)).bchk r = st.bchk r := by simp [push1, hr]
          have hMr : (push1 st (d, d, 1)).M r c = st.M r c := by simp [push1, hr]
          rw [hbr, hMr]
          simp [hr]

/-- an edge function next to a vertex is written by both adjoining corners -/
theorem edge_pushed {T : Topo P} (ok : Ok T) {c d : PC P} {s t : Side} (hs : s ∈ c.2.sides) (h : cross T c s = some d)
    (ht : T.nb (c.1, s) = some (d.1, t)) {l : List (Entry P)} (hl : vertEntries T c = some l) :
    (enc T (.cor c true true), enc T (av c s true false), (1 / 2 : ℚ)) ∈ l ∧
    (enc T (.cor c true true), enc T (av d t true false), (1 / 2 : ℚ)) ∈ l := by
  cases hi : T.interior c
  · have := len_pos ok c
    rcases Nat.lt_or_ge 2 (T.cl c).length with h' | h'
    · obtain ⟨h1, -⟩ := irregular_good ok hi h'
      rw [h1] at hl
      cases hl
      rw [irregular_eq ok]
      have hn : nbSide T c s = t := by unfold nbSide; rw [ht]; rfl
      simp only [List.mem_append, List.mem_flatMap]
      constructor
      · exact Or.inl (Or.inr ⟨s, hs, by rw [h]; simp⟩)
      · exact Or.inl (Or.inr ⟨s, hs, by rw [h, hn]; simp⟩)
    · rcases (by omega : (T.cl c).length = 1 ∨ (T.cl c).length = 2) with h' | h'
      · have := v1_boundary ok h' hs
        rw [this] at h; cases h
      · obtain ⟨d', t', s', hs1, hd1, ht1, htm, hn, hs', hne, hn'⟩ := regular_data ok hi h'
        have hsr : s = regularSide T c := by
          have h1 : s ≠ s' := by rintro rfl; rw [hn'] at h; cases h
          revert hs hs1 hs' hne h1
          generalize regularSide T c = r
          generalize c.2 = cc
          cases cc <;> cases s <;> cases s' <;> cases r <;> decide
        subst hsr
        rw [hd1] at h; cases h
        rw [ht] at ht1; cases ht1
        obtain ⟨e1, e2⟩ := regular_eq ok hs1 hd1 ht htm
        unfold vertEntries at hl
        by_cases hc : T.c0 c = true
        · simp only [hi, h', hc, Bool.false_eq_true, if_false, OfNat.ofNat_ne_one, not_true_eq_false, and_false, if_true, e2,
            Option.some.injEq] at hl
          subst hl
          simp
        · simp only [hi, h', hc, Bool.false_eq_true, if_false, OfNat.ofNat_ne_one, not_false_eq_true, and_self, if_true, e1,
            Option.some.injEq] at hl
          subst hl
          simp
  · obtain ⟨d1, d2, t1, t2, c1, c2, h1, h2, m1, m2, he⟩ := interior_eq ok hi
    have : vertEntries T c = interiorEntries T c := by unfold vertEntries; simp [hi]
    rw [this, he] at hl
    cases hl
    simp only [Corner.sides, List.mem_cons, List.not_mem_nil, or_false] at hs
    rcases hs with rfl | rfl
    · rw [c1] at h; cases h
      rw [h1] at ht; cases ht
      simp
    · rw [c2] at h; cases h
      rw [h2] at ht; cases ht
      simp

theorem sum_ind_ne {l : List (PC P)} {r : ADof P} (h : (l.map fun d => ind r (.cor d true true)).sum ≠ 0) :
    ∃ d ∈ l, r = .cor d true true := by
  by_contra hcon
  push Not at hcon
  apply h
  apply List.sum_eq_zero
  intro x hx
  rw [List.mem_map] at hx
  obtain ⟨d, hd, rfl⟩ := hx
  exact ind_ne (hcon d hd)

theorem ind_or {r x y : ADof P} (h : (ind r x + ind r y) / 2 ≠ 0) : r = x ∨ r = y := by
  by_contra hcon
  push Not at hcon
  rw [ind_ne hcon.1, ind_ne hcon.2] at h
  norm_num at h

/-- L2: every off-diagonal non-zero weight is written by a handler -/
theorem offdiag_pushed {T : Topo P} (ok : Ok T) {S : Entry P → Prop}
    (hv : ∀ c l, vertEntries T c = some l → ∀ e ∈ l, S e)
    (hs : ∀ s t, T.nb s = some t → ∀ m, (2 ≤ m ∧ m + 2 < len T s) → ∀ e ∈ sideEntries T s t m, S e)
    {a b : ADof P} (ha : AValid T a) (hb : AValid T b) (hne : a ≠ b) (hw : Wa T a b ≠ 0) :
    ∃ w, S (enc T a, enc T b, w) := by
  have edge : ∀ (c : PC P) (s : Side), s ∈ c.2.sides → edgeW T c s a (av c s true false) ≠ 0 → a ≠ av c s true false →
      ∃ w, S (enc T a, enc T (av c s true false), w) := by
    intro c s hsm hw hne
    unfold edgeW at hw
    rcases hc : cross T c s with _ | d
    · rw [hc] at hw
      exact absurd (ind_ne hne) hw
    · rw [hc] at hw
      obtain ⟨t, g1, g2, g3⟩ := cross_data hc
      rcases ind_or hw with rfl | rfl
      · obtain ⟨l, hl, -⟩ := vert_good ok c
        exact ⟨_, hv c l hl _ (edge_pushed ok hsm hc g1 hl).1⟩
      · obtain ⟨l, hl, -⟩ := vert_good ok d
        have hbk := cross_back ok hsm hc g1
        have hnb := ok.nb_symm _ _ g1
        exact ⟨_, hv d l hl _ (edge_pushed ok g2 hbk hnb hl).2⟩
  cases b with
  | int p i j => exact absurd (ind_ne hne) hw
  | sid s off m =>
    cases off
    · rw [Wa] at hw
      rcases h : T.nb s with _ | t
      · rw [h] at hw; exact absurd (ind_ne hne) hw
      · rw [h] at hw
        rcases ind_or hw with rfl | rfl
        · exact ⟨_, hs s t h m hb _ (by unfold sideEntries; exact List.mem_cons_of_mem _ (List.mem_cons_self))⟩
        · have hbk := ok.nb_symm _ _ h
          have := hs t s hbk (mt T s m) ha (enc T (.sid t true (mt T s m)), enc T (.sid s false (mt T t (mt T s m))), 1 / 2)
            (by unfold sideEntries; simp)
          rw [mt_mt ok h (by have := hb.2; omega)] at this
          exact ⟨_, this⟩
    · exact absurd (ind_ne hne) hw
  | cor c x y =>
    cases x <;> cases y
    · rw [Wa, cornW] at hw
      cases hi : T.interior c
      · rw [hi] at hw
        simp only [Bool.false_eq_true, if_false] at hw
        by_cases h2 : (T.cl c).length = 2 ∧ ¬ T.c0 c = true
        · rw [if_pos h2] at hw
          obtain ⟨d, t, s', hsm, hd, ht, htm, hn, hs', hne', hn'⟩ := regular_data ok hi h2.1
          obtain ⟨b1, b2, b3, b4, b5⟩ := regular_back ok hi h2.1 hsm hd ht htm
          have hm := ok.cl_cross c _ d hsm hd
          rw [hd] at hw
          have main : ∀ (c d : PC P) (t : Side), T.interior c = false → (T.cl c).length = 2 ∧ ¬ T.c0 c = true →
              regularSide T c ∈ c.2.sides → cross T c (regularSide T c) = some d → T.nb (c.1, regularSide T c) = some (d.1, t) →
              t ∈ d.2.sides → S (enc T (av c (regularSide T c) false true), enc T (.cor c false false), 1 / 2) ∧
                S (enc T (av c (regularSide T c) false true), enc T (.cor d false false), 1 / 2) := by
            intro c d t hi h2 hsm hd ht htm
            obtain ⟨e1, -⟩ := regular_eq ok hsm hd ht htm
            have hl : vertEntries T c = regularEntries T c [0, 1] := by
              unfold vertEntries
              simp only [hi, h2.1, h2.2, Bool.false_eq_true, if_false, OfNat.ofNat_ne_one, not_false_eq_true, and_self, if_true]
            rw [e1] at hl
            constructor
            · exact hv c _ hl _ (by simp)
            · exact hv c _ hl _ (by simp)
          rw [hn] at hw
          rcases ind_or hw with rfl | rfl
          · exact ⟨_, (main c d t hi h2 hsm hd ht htm).1⟩
          · have hnb := ok.nb_symm _ _ ht
            have := main d c (regularSide T c) b4 ⟨b5, by rw [ok.c0_same c d hm]; exact h2.2⟩ (by rw [b1]; exact htm)
              (by rw [b1]; exact b2) (by rw [b1]; exact hnb) hsm
            rw [b1] at this
            exact ⟨_, this.2⟩
        · rw [if_neg h2] at hw
          exact absurd (ind_ne hne) hw
      · rw [hi] at hw
        simp only [if_true] at hw
        have hsum : ((T.cl c).map fun d => ind a (.cor d true true)).sum ≠ 0 := by
          intro h; rw [h] at hw; simp at hw
        obtain ⟨d, hd, rfl⟩ := sum_ind_ne hsum
        have hid : T.interior d = true := by rw [interior_same ok hd]; exact hi
        obtain ⟨d1, d2, t1, t2, c1, c2, h1, h2, m1, m2, he⟩ := interior_eq ok hid
        have hl : vertEntries T d = interiorEntries T d := by
          unfold vertEntries; simp only [hid, if_true]
        rw [he] at hl
        have hcd : c ∈ T.cl d := by rw [ok.cl_same c d hd]; exact ok.cl_self c
        refine ⟨1 / ((T.cl d).length : ℚ), hv d _ hl _ ?_⟩
        simp only [List.mem_append, List.mem_map]
        exact Or.inl (Or.inl (Or.inr ⟨c, hcd, rfl⟩))
    · have e : (ADof.cor c false true : ADof P) = av c c.2.uside true false := by simp [av, uside_dir]
      rw [e] at hne ⊢
      apply edge c c.2.uside (uside_mem _) _ hne
      rw [Wa] at hw; rw [← e]; exact hw
    · have e : (ADof.cor c true false : ADof P) = av c c.2.vside true false := by simp [av, vside_dir]
      rw [e] at hne ⊢
      apply edge c c.2.vside (vside_mem _) _ hne
      rw [Wa] at hw; rw [← e]; exact hw
    · exact absurd (ind_ne hne) hw

/-- The whole construction has the closed form, for every order and every repetition in the loops. -/
theorem closed_form {T : Topo P} (ok : Ok T) {il : List (PS P × PS P)} {bl : List (PS P)} {vl : List (PC P)} {dl : List (Dof P)}
    (hl : Lists T il bl vl) (hdl : ∀ d, d ∈ dl ↔ valid T d) :
    ∃ st, smoothMatrix T (computeMapper T il bl vl).elim il bl vl dl = some st ∧
      (∀ r c, st.M r c = if valid T r ∧ valid T c then W T r c else 0) ∧
      (∀ r, valid T r → (st.bchk r = true ↔ AElim T (dec T r) = false)) ∧ (∀ c, st.vchk c = true) ∧ (∀ s, st.schk s = true) ∧
      (∀ r, st.bchk r = true → valid T r) := by
  set elim := (computeMapper T il bl vl).elim with helim
  have hel : ∀ d, valid T d → elim d = AElim T (dec T d) := by
    intro d hd
    obtain ⟨g1, g2⟩ := enc_dec hd
    rw [helim, ← g2, mapper_elim ok hl g1, g2]
  unfold smoothMatrix
  simp only
  have h0 : Inv T ({ M := fun _ _ => 0, bchk := fun _ => false, vchk := fun _ => false, schk := fun _ => false } : St P)
      (fun _ => False) := ⟨by simp, by simp, by simp, by simp, by simp⟩
  obtain ⟨st1, S1, a1, a2, a3, -, a5, a6⟩ := vertex_fold ok vl _ _ h0 (by simp) (by simp)
  rw [a1]
  obtain ⟨S2, b1, b2, b3, b4, b5⟩ := iface_fold ok il hl.il_sound st1 S1 a2 (by rw [a3]; simp)
  obtain ⟨S3, c1, c2, c3, c4⟩ := bdry_fold ok bl (fun s hs => (hl.bl_iff s).1 hs) _ S2 b1
  generalize hst3 : bl.foldl (handleBdry T) (il.foldl (handleIface T) st1) = st3 at c1 c2 c4
  obtain ⟨d1, d2, d3, d4⟩ := interior_fold ok elim dl st3
  refine ⟨_, rfl, ?_⟩
  simp only [hst3]
  -- pushed entries are between valid functions, rows are free
  have hval : ∀ e, S3 e → valid T e.1 ∧ valid T e.2.1 := by
    intro e he
    obtain ⟨a, b, ha, hb, h1, h2, -⟩ := c1.good e he
    rw [h1, h2]
    exact ⟨enc_valid ok ha, enc_valid ok hb⟩
  have hfree : ∀ e, S3 e → AElim T (dec T e.1) = false := by
    intro e he
    have hd := c1.diag e he
    have := good_W ok (c1.good _ hd)
    simp only [W] at this
    rw [W_diag ok] at this
    cases hx : AElim T (dec T e.1)
    · rfl
    · rw [hx] at this; simp at this
  refine ⟨?_, ?_, ?_, ?_, ?_⟩
  · intro r c
    rw [d4]
    by_cases hvv : valid T r ∧ valid T c
    · rw [if_pos hvv]
      obtain ⟨hr, hc⟩ := hvv
      obtain ⟨r1, r2⟩ := enc_dec hr
      obtain ⟨c1', c2'⟩ := enc_dec hc
      by_cases hpush : ∃ w, S3 (r, c, w)
      · obtain ⟨w, hw⟩ := hpush
        have hb : st3.bchk r = true := (c1.bchk r).2 ⟨c, w, hw⟩
        rw [if_neg (by rw [hb]; simp)]
        exact c1.hit _ hw
      · rw [c1.miss r c hpush]
        by_cases hrc : r = c
        · subst hrc
          have hdiag : W T r r = if AElim T (dec T r) then 0 else 1 := W_diag ok _
          rw [hdiag]
          cases hx : AElim T (dec T r)
          · have hb : st3.bchk r = false := by
              rw [Bool.eq_false_iff]
              intro hb
              obtain ⟨c', w', hw'⟩ := (c1.bchk r).1 hb
              exact hpush ⟨1, c1.diag _ hw'⟩
            rw [if_pos ⟨rfl, (hdl r).2 hr, by rw [hel r hr]; exact hx, hb⟩]
            simp
          · rw [if_neg (by rw [hel r hr, hx]; simp)]
            simp
        · rw [if_neg (by tauto)]
          by_contra hcon
          apply hpush
          have hne : dec T r ≠ dec T c := by
            intro h; apply hrc; rw [← r2, ← c2', h]
          have := offdiag_pushed ok (S := S3) (fun c l hcl e he => c3 e (b3 e ((a6 c (Or.inr (hl.vl_all c))).2 l hcl e he)))
            (fun s t hst m hm e he => c3 e ((b5 s t hst (Or.inr (hl.il_complete s t hst))).2 m hm e he)) r1 c1' hne
            (fun h => hcon h.symm)
          rw [r2, c2'] at this
          exact this
    · rw [if_neg hvv, if_neg]
      · apply c1.miss
        rintro ⟨w, hw⟩
        exact hvv (hval _ hw)
      · rintro ⟨rfl, h2, -⟩
        exact hvv ⟨(hdl r).1 h2, (hdl r).1 h2⟩
  · intro r hr
    rw [d3]
    constructor
    · rintro (h | ⟨-, h⟩)
      · obtain ⟨c', w', hw'⟩ := (c1.bchk r).1 h
        exact hfree _ hw'
      · rw [hel r hr] at h; exact h
    · intro h
      exact Or.inr ⟨(hdl r).2 hr, by rw [hel r hr]; exact h⟩
  · intro c
    rw [d1, c2, b2]
    exact (a6 c (Or.inr (hl.vl_all c))).1
  · intro s
    rw [d2, c4]
    rcases h : T.nb s with _ | t
    · exact Or.inr ((hl.bl_iff s).2 h)
    · exact Or.inl (b5 s t h (Or.inr (hl.il_complete s t h))).1
  · intro r h
    rw [d3] at h
    rcases h with h | ⟨h, -⟩
    · obtain ⟨c', w', hw'⟩ := (c1.bchk r).1 h
      exact (hval _ hw').1
    · exact (hdl r).1 h

end Verif.Smooth
