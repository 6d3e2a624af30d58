import Verif.Model.SmoothGen
import Verif.Proofs.SmoothCount
/-! The loops of `gsDPatchBase` with other vertex rules: elimination, closed form of the matrix, counting. -/
set_option autoImplicit false
set_option linter.unusedSectionVars false
set_option linter.unusedSimpArgs false
set_option linter.unusedVariables false
namespace Verif.Smooth
open Verif

variable {P : Type} [DecidableEq P]

def isCor : ADof P → Bool
  | .cor _ _ _ => true
  | _ => false

/-! ## mapper -/

/-- a vertex rule eliminates exactly the functions `AE` of the corners it marks -/
def RuleOk (T : Topo P) (AE : ADof P → Bool) (rule : PC P → Option (List (Dof P) × List (PC P))) : Prop :=
  ∀ c, ∃ l m, rule c = some (l, m) ∧ (∀ d, d ∈ l ↔ ∃ e x y, (e = c ∨ e ∈ m) ∧ AE (.cor e x y) = true ∧ d = enc T (.cor e x y))

theorem vertMapG_fold {T : Topo P} {AE : ADof P → Bool} {rule : PC P → Option (List (Dof P) × List (PC P))} (hr : RuleOk T AE rule)
    (vl : List (PC P)) (st : MapSt P) (e0 : Dof P → Bool)
    (h : ∀ d, st.elim d = true ↔ e0 d = true ∨ ∃ e x y, st.vchk e = true ∧ AE (.cor e x y) = true ∧ d = enc T (.cor e x y)) :
    ∃ st', vl.foldlM (vertMapG rule) st = some st' ∧ st'.schk = st.schk ∧ (∀ c, (st.vchk c = true ∨ c ∈ vl) → st'.vchk c = true) ∧
      ∀ d, st'.elim d = true ↔ e0 d = true ∨ ∃ e x y, st'.vchk e = true ∧ AE (.cor e x y) = true ∧ d = enc T (.cor e x y) := by
  induction vl generalizing st with
  | nil => exact ⟨st, rfl, rfl, by simp, h⟩
  | cons c vl ih =>
    rw [List.foldlM_cons]
    by_cases hc : st.vchk c = true
    · have hs : vertMapG rule st c = some st := by unfold vertMapG; rw [if_pos hc]
      rw [hs]
      obtain ⟨st', g1, g2, g3, g4⟩ := ih st h
      refine ⟨st', g1, g2, ?_, g4⟩
      rintro x (hx | hx)
      · exact g3 x (Or.inl hx)
      · rw [List.mem_cons] at hx
        rcases hx with rfl | hx
        · exact g3 x (Or.inl hc)
        · exact g3 x (Or.inr hx)
    · obtain ⟨l, m, hlm, hmem⟩ := hr c
      have hs : vertMapG rule st c = some { st with elim := elimList st.elim l, vchk := fun x => x = c || decide (x ∈ m) || st.vchk x } := by
        unfold vertMapG; rw [if_neg hc, hlm]; rfl
      rw [hs]
      obtain ⟨st', g1, g2, g3, g4⟩ := ih { st with elim := elimList st.elim l, vchk := fun x => x = c || decide (x ∈ m) || st.vchk x } (by
        intro d
        simp only [elimList, Bool.or_eq_true, decide_eq_true_eq, h, hmem]
        constructor
        · rintro ((h | ⟨e, x, y, h1, h2⟩) | ⟨e, x, y, h1, h2⟩)
          · exact Or.inl h
          · exact Or.inr ⟨e, x, y, Or.inr h1, h2⟩
          · exact Or.inr ⟨e, x, y, Or.inl h1, h2⟩
        · rintro (h | ⟨e, x, y, h1 | h1, h2⟩)
          · exact Or.inl (Or.inl h)
          · exact Or.inr ⟨e, x, y, h1, h2⟩
          · exact Or.inl (Or.inr ⟨e, x, y, h1, h2⟩))
      refine ⟨st', g1, g2, ?_, g4⟩
      rintro x (hx | hx)
      · exact g3 x (Or.inl (by simp [hx]))
      · rw [List.mem_cons] at hx
        rcases hx with rfl | hx
        · exact g3 x (Or.inl (by simp))
        · exact g3 x (Or.inr hx)

/-- The mapper eliminates exactly the functions `AE`. -/
theorem mapperG_elim {T : Topo P} (ok : Ok T) {AE : ADof P → Bool} (hne : ∀ a, isCor a = false → AE a = AElim T a)
    {rule : PC P → Option (List (Dof P) × List (PC P))} (hr : RuleOk T AE rule) {il : List (PS P × PS P)} {bl : List (PS P)} {vl : List (PC P)}
    (hl : Lists T il bl vl) : ∃ st, computeMapperG T rule il bl vl = some st ∧ ∀ a, AValid T a → st.elim (enc T a) = AE a := by
  have h0 : MapInv T ({ elim := fun _ => false, schk := fun _ => false, vchk := fun _ => false } : MapSt P) :=
    ⟨by simp, by simp⟩
  obtain ⟨g1, g2⟩ := ifaceMap_fold ok il hl.il_sound _ h0
  have gv : ∀ st : MapSt P, (il.foldl (ifaceMap T) st).vchk = st.vchk := by
    intro st
    clear g1 g2
    have hl' := hl.il_sound
    clear hl
    induction il generalizing st with
    | nil => rfl
    | cons i il ih =>
      rw [List.foldl_cons, ih _ (fun j hj => hl' j (by simp [hj]))]
      unfold ifaceMap ifaceMapSide
      split_ifs <;> rfl
  unfold computeMapperG
  simp only
  obtain ⟨st', f1, f2, f3, f4⟩ := vertMapG_fold hr vl
    (bl.foldl bdryMap (il.foldl (ifaceMap T) { elim := fun _ => false, schk := fun _ => false, vchk := fun _ => false }))
    (il.foldl (ifaceMap T) { elim := fun _ => false, schk := fun _ => false, vchk := fun _ => false }).elim (by
      intro d
      rw [(bdryMap_fold bl _).1, (bdryMap_fold bl _).2, gv]
      simp)
  refine ⟨st', f1, ?_⟩
  intro a ha
  rw [Bool.eq_iff_iff, f4, g1.elim_iff]
  simp only [g2, Bool.false_eq_true, false_or]
  constructor
  · rintro (⟨s, m, ⟨i, hi, hs⟩, hm, he⟩ | ⟨e, x, y, -, h2, h3⟩)
    · have : a = .sid s false m := enc_inj ok ha (y := ADof.sid s false m) hm he
      subst this
      rw [hne _ rfl]
      have hnb := hl.il_sound i hi
      rcases hs with rfl | rfl
      · simp [AElim, hnb]
      · simp [AElim, ok.nb_symm _ _ hnb]
    · have : a = .cor e x y := enc_inj ok ha (y := ADof.cor e x y) trivial h3
      rw [this]; exact h2
  · intro h
    cases a with
    | int p i j => rw [hne _ rfl] at h; simp [AElim] at h
    | sid s off m =>
      rw [hne _ rfl] at h
      cases off
      · left
        rw [AElim, Option.isSome_iff_exists] at h
        obtain ⟨t, ht⟩ := h
        rcases hl.il_complete s t ht with h | h
        · exact ⟨s, m, ⟨_, h, Or.inl rfl⟩, ha, rfl⟩
        · exact ⟨s, m, ⟨_, h, Or.inr rfl⟩, ha, rfl⟩
      · simp [AElim] at h
    | cor c x y => exact Or.inr ⟨c, x, y, f3 c (Or.inr (hl.vl_all c)), h, rfl⟩

/-! ## matrix -/

/-- A consistent entry for the weights `F`. -/
def GoodF (T : Topo P) (F : ADof P → ADof P → ℚ) (e : Entry P) : Prop :=
  ∃ a b, AValid T a ∧ AValid T b ∧ e.1 = enc T a ∧ e.2.1 = enc T b ∧ e.2.2 = F a b

theorem goodF_mk {T : Topo P} {F : ADof P → ADof P → ℚ} {a b : ADof P} {w : ℚ} (ha : AValid T a) (hb : AValid T b) (h : w = F a b) :
    GoodF T F (enc T a, enc T b, w) := ⟨a, b, ha, hb, rfl, rfl, h⟩

def WF (T : Topo P) (F : ADof P → ADof P → ℚ) (r c : Dof P) : ℚ := F (dec T r) (dec T c)

theorem goodF_W {T : Topo P} (ok : Ok T) {F : ADof P → ADof P → ℚ} {e : Entry P} (h : GoodF T F e) : e.2.2 = WF T F e.1 e.2.1 := by
  obtain ⟨a, b, ha, hb, h1, h2, h3⟩ := h
  unfold WF
  rw [h1, h2, h3, dec_enc ok ha, dec_enc ok hb]

theorem push_gen {G : Dof P → Dof P → ℚ} (l : List (Entry P)) (hl : ∀ e ∈ l, e.2.2 = G e.1 e.2.1) (st : St P) :
    (∀ r c, (∃ w, (r, c, w) ∈ l) → (push st l).M r c = G r c) ∧
    (∀ r c, (¬ ∃ w, (r, c, w) ∈ l) → (push st l).M r c = st.M r c) ∧
    (∀ r, (push st l).bchk r = true ↔ st.bchk r = true ∨ ∃ c w, (r, c, w) ∈ l) ∧
    (push st l).vchk = st.vchk ∧ (push st l).schk = st.schk := by
  induction l generalizing st with
  | nil => refine ⟨?_, ?_, ?_, rfl, rfl⟩ <;> simp [push]
  | cons e l ih =>
    obtain ⟨i1, i2, i3, i4, i5⟩ := ih (fun x hx => hl x (by simp [hx])) (push1 st e)
    have hp : push st (e :: l) = push (push1 st e) l := rfl
    rw [hp]
    refine ⟨?_, ?_, ?_, i4, i5⟩
    · rintro r c ⟨w, hw⟩
      by_cases h : ∃ w, (r, c, w) ∈ l
      · exact i1 r c h
      · rw [i2 r c h]
        rw [List.mem_cons] at hw
        rcases hw with rfl | hw
        · simp only [push1, and_self, if_true]
          exact hl (r, c, w) (by simp)
        · exact absurd ⟨w, hw⟩ h
    · intro r c h
      have h1 : ¬ ∃ w, (r, c, w) ∈ l := fun ⟨w, hw⟩ => h ⟨w, by simp [hw]⟩
      rw [i2 r c h1]
      have : ¬ (r = e.1 ∧ c = e.2.1) := by
        rintro ⟨rfl, rfl⟩
        exact h ⟨e.2.2, by simp⟩
      simp only [push1, if_neg this]
    · intro r
      rw [i3]
      simp only [push1, Bool.or_eq_true, decide_eq_true_eq, List.mem_cons]
      constructor
      · rintro ((rfl | h) | ⟨c, w, h⟩)
        · exact Or.inr ⟨e.2.1, e.2.2, Or.inl rfl⟩
        · exact Or.inl h
        · exact Or.inr ⟨c, w, Or.inr h⟩
      · rintro (h | ⟨c, w, rfl | h⟩)
        · exact Or.inl (Or.inr h)
        · exact Or.inl (Or.inl rfl)
        · exact Or.inr ⟨c, w, h⟩

/-- entries pushed and rows marked so far describe the matrix -/
structure InvF (T : Topo P) (F : ADof P → ADof P → ℚ) (st : St P) (S : Entry P → Prop) (Z : Dof P → Prop) : Prop where
  good : ∀ e, S e → GoodF T F e
  diag : ∀ e, S e → ∃ w, S (e.1, e.1, w)
  hit : ∀ e, S e → st.M e.1 e.2.1 = WF T F e.1 e.2.1
  miss : ∀ r c, (¬ ∃ w, S (r, c, w)) → st.M r c = 0
  bchk : ∀ r, st.bchk r = true ↔ Z r ∨ ∃ c w, S (r, c, w)

theorem invF_push {T : Topo P} (ok : Ok T) {F : ADof P → ADof P → ℚ} {st : St P} {S : Entry P → Prop} {Z : Dof P → Prop} (h : InvF T F st S Z)
    {l : List (Entry P)} (hg : ∀ e ∈ l, GoodF T F e) (hd : ∀ e ∈ l, ∃ w, (e.1, e.1, w) ∈ l) : InvF T F (push st l) (fun e => S e ∨ e ∈ l) Z := by
  obtain ⟨i1, i2, i3, i4, i5⟩ := push_gen (G := WF T F) l (fun e he => goodF_W ok (hg e he)) st
  refine ⟨?_, ?_, ?_, ?_, ?_⟩
  · rintro e (h' | h')
    · exact h.good e h'
    · exact hg e h'
  · rintro e (h' | h')
    · obtain ⟨w, hw⟩ := h.diag e h'; exact ⟨w, Or.inl hw⟩
    · obtain ⟨w, hw⟩ := hd e h'; exact ⟨w, Or.inr hw⟩
  · intro e he
    by_cases hm : ∃ w, (e.1, e.2.1, w) ∈ l
    · exact i1 _ _ hm
    · rcases he with he | he
      · rw [i2 _ _ hm]; exact h.hit e he
      · exact absurd ⟨e.2.2, he⟩ hm
  · intro r c hn
    rw [i2 r c (fun ⟨w, hw⟩ => hn ⟨w, Or.inr hw⟩)]
    exact h.miss r c (fun ⟨w, hw⟩ => hn ⟨w, Or.inl hw⟩)
  · intro r
    rw [i3, h.bchk]
    constructor
    · rintro ((h | ⟨c, w, h⟩) | ⟨c, w, h⟩)
      · exact Or.inl h
      · exact Or.inr ⟨c, w, Or.inl h⟩
      · exact Or.inr ⟨c, w, Or.inr h⟩
    · rintro (h | ⟨c, w, h | h⟩)
      · exact Or.inl (Or.inl h)
      · exact Or.inl (Or.inr ⟨c, w, h⟩)
      · exact Or.inr ⟨c, w, h⟩

theorem invF_st {T : Topo P} {F : ADof P → ADof P → ℚ} {st st' : St P} {S : Entry P → Prop} {Z : Dof P → Prop} (h : InvF T F st S Z)
    (hM : st'.M = st.M) (hb : st'.bchk = st.bchk) : InvF T F st' S Z :=
  ⟨h.good, h.diag, by rw [hM]; exact h.hit, by rw [hM]; exact h.miss, by rw [hb]; exact h.bchk⟩

/-- What the vertex handlers of a derived class must satisfy for the weights `F`, eliminated functions `AE` and zero rows `AZ`. -/
structure VertOk (T : Topo P) (F : ADof P → ADof P → ℚ) (AE AZ : ADof P → Bool) (ve : PC P → Option (List (Entry P))) (mr : PC P → List (Dof P))
    (mc : PC P → List (PC P)) : Prop where
  F_non : ∀ a b, isCor b = false → F a b = Wa T a b
  AE_non : ∀ a, isCor a = false → AE a = AElim T a
  AZ_non : ∀ a, isCor a = false → AZ a = false
  zero : ∀ a, AE a = true ∨ AZ a = true → F a a = 0
  entries : ∀ c, ∃ l, ve c = some l ∧ (∀ e ∈ l, GoodF T F e) ∧ (∀ e ∈ l, ∃ w, (e.1, e.1, w) ∈ l) ∧
    (∀ e ∈ l, ∃ a, AValid T a ∧ e.1 = enc T a ∧ AE a = false ∧ AZ a = false)
  diag : ∀ a, AValid T a → isCor a = true → AE a = false → AZ a = false → F a a = 1 ∨ ∃ c l w, ve c = some l ∧ (enc T a, enc T a, w) ∈ l
  off : ∀ a b, AValid T a → AValid T b → isCor b = true → a ≠ b → F a b ≠ 0 → ∃ c l w, ve c = some l ∧ (enc T a, enc T b, w) ∈ l
  marks : ∀ c, ∀ d ∈ mr c, ∃ a, AValid T a ∧ d = enc T a ∧ AE a = false ∧ AZ a = true
  marks_all : ∀ a, AValid T a → AE a = false → AZ a = true → ∃ c, enc T a ∈ mr c
  skip_e : ∀ c d, d ∈ mc c → ∀ l l', ve c = some l → ve d = some l' → ∀ e ∈ l', e ∈ l
  skip_m : ∀ c d, d ∈ mc c → ∀ e ∈ mr d, e ∈ mr c

variable {T : Topo P} {F : ADof P → ADof P → ℚ} {AE AZ : ADof P → Bool} {ve : PC P → Option (List (Entry P))} {mr : PC P → List (Dof P)}
    {mc : PC P → List (PC P)}

/-- The vertex loop. -/
theorem vertexG_fold (ok : Ok T) (hv : VertOk T F AE AZ ve mr mc) (vl : List (PC P)) (st : St P) (S : Entry P → Prop) (Z : Dof P → Prop)
    (h : InvF T F st S Z)
    (h1 : ∀ c, st.vchk c = true → (∀ l, ve c = some l → ∀ e ∈ l, S e) ∧ ∀ d ∈ mr c, Z d)
    (h2 : ∀ e, S e → ∃ c l, ve c = some l ∧ e ∈ l) (h3 : ∀ d, Z d → ∃ c, d ∈ mr c) :
    ∃ st' S' Z', vl.foldlM (handleVertexG ve mr mc) st = some st' ∧ InvF T F st' S' Z' ∧ st'.schk = st.schk ∧
      (∀ e, S' e → ∃ c l, ve c = some l ∧ e ∈ l) ∧ (∀ d, Z' d → ∃ c, d ∈ mr c) ∧
      (∀ c, (st.vchk c = true ∨ c ∈ vl) → st'.vchk c = true ∧ (∀ l, ve c = some l → ∀ e ∈ l, S' e) ∧ ∀ d ∈ mr c, Z' d) := by
  induction vl generalizing st S Z with
  | nil =>
    refine ⟨st, S, Z, rfl, h, rfl, h2, h3, ?_⟩
    rintro c (hc | hc)
    · exact ⟨hc, h1 c hc⟩
    · simp at hc
  | cons c vl ih =>
    rw [List.foldlM_cons]
    by_cases hc : st.vchk c = true
    · have : handleVertexG ve mr mc st c = some st := by unfold handleVertexG; rw [if_pos hc]
      rw [this]
      obtain ⟨st', S', Z', g1, g2, g3, g4, g5, g6⟩ := ih st S Z h h1 h2 h3
      refine ⟨st', S', Z', g1, g2, g3, g4, g5, ?_⟩
      rintro x (hx | hx)
      · exact g6 x (Or.inl hx)
      · rw [List.mem_cons] at hx
        rcases hx with rfl | hx
        · exact g6 x (Or.inl hc)
        · exact g6 x (Or.inr hx)
    · obtain ⟨l, hl, hg, hd, -⟩ := hv.entries c
      have hstep : handleVertexG ve mr mc st c = some { push st l with
          vchk := fun x => x = c || decide (x ∈ mc c) || st.vchk x, bchk := fun r => decide (r ∈ mr c) || (push st l).bchk r } := by
        unfold handleVertexG; rw [if_neg hc, hl]; rfl
      rw [hstep]
      have hpv := (push_gen (G := WF T F) l (fun e he => goodF_W ok (hg e he)) st)
      have hinv := invF_push ok h hg hd
      have hinv' : InvF T F ({ push st l with
          vchk := fun x => x = c || decide (x ∈ mc c) || st.vchk x, bchk := fun r => decide (r ∈ mr c) || (push st l).bchk r } : St P)
          (fun e => S e ∨ e ∈ l) (fun d => Z d ∨ d ∈ mr c) := by
        refine ⟨hinv.good, hinv.diag, hinv.hit, hinv.miss, ?_⟩
        intro r
        simp only [Bool.or_eq_true, decide_eq_true_eq, hinv.bchk]
        generalize (∃ c w, S (r, c, w) ∨ (r, c, w) ∈ l) = A
        generalize Z r = B
        generalize (r ∈ mr c) = C
        tauto
      obtain ⟨st', S', Z', g1, g2, g3, g4, g5, g6⟩ := ih _ _ _ hinv' (by
          intro x hx
          simp only [Bool.or_eq_true, decide_eq_true_eq] at hx
          rcases hx with (rfl | hx) | hx
          · refine ⟨?_, fun d hd => Or.inr hd⟩
            intro l' hl' e he
            rw [hl] at hl'; cases hl'; exact Or.inr he
          · refine ⟨?_, fun d hd => Or.inr (hv.skip_m c x hx d hd)⟩
            intro l' hl' e he
            exact Or.inr (hv.skip_e c x hx l l' hl hl' e he)
          · refine ⟨fun l' hl' e he => Or.inl ((h1 x hx).1 l' hl' e he), fun d hd => Or.inl ((h1 x hx).2 d hd)⟩) (by
          rintro e (he | he)
          · exact h2 e he
          · exact ⟨c, l, hl, he⟩) (by
          rintro d (hd | hd)
          · exact h3 d hd
          · exact ⟨c, hd⟩)
      refine ⟨st', S', Z', g1, g2, by rw [g3]; exact hpv.2.2.2.2, g4, g5, ?_⟩
      rintro x (hx | hx)
      · exact g6 x (Or.inl (by simp [hx]))
      · rw [List.mem_cons] at hx
        rcases hx with rfl | hx
        · exact g6 x (Or.inl (by simp))
        · exact g6 x (Or.inr hx)

theorem ifaceG_good (ok : Ok T) (hF : ∀ a b, isCor b = false → F a b = Wa T a b) {s t : PS P} (h : T.nb s = some t) :
    (∀ e ∈ ifaceEntries T (s, t), GoodF T F e) ∧ ∀ e ∈ ifaceEntries T (s, t), ∃ w, (e.1, e.1, w) ∈ ifaceEntries T (s, t) := by
  obtain ⟨h1, h2⟩ := iface_good ok h
  refine ⟨?_, fun e he => ⟨1, h2 e he⟩⟩
  intro e he
  have hb : ∃ x : ADof P, AValid T x ∧ isCor x = false ∧ e.2.1 = enc T x := by
    rw [mem_ifaceEntries ok h] at he
    have hmt : ∀ {a b : PS P} {m : ℕ}, T.nb a = some b → (2 ≤ m ∧ m + 2 < len T a) → AValid T (.sid b false (mt T a m)) := by
      intro a b m hab hm
      have := mt_mid (T := T) hm
      show 2 ≤ _ ∧ _ < len T b
      rw [ok.nb_len a b hab]; exact this
    have hn' := ok.nb_symm s t h
    rcases he with ⟨m, hm, he⟩ | ⟨m, hm, he⟩ <;> unfold sideEntries at he <;>
      simp only [List.mem_cons, List.not_mem_nil, or_false] at he <;> rcases he with rfl | rfl | rfl
    · exact ⟨.sid s true m, hm, rfl, rfl⟩
    · exact ⟨.sid s false m, hm, rfl, rfl⟩
    · exact ⟨.sid t false (mt T s m), hmt h hm, rfl, rfl⟩
    · exact ⟨.sid t true m, hm, rfl, rfl⟩
    · exact ⟨.sid t false m, hm, rfl, rfl⟩
    · exact ⟨.sid s false (mt T t m), hmt hn' hm, rfl, rfl⟩
  obtain ⟨x, hx, hc, hex⟩ := hb
  obtain ⟨a, b, ha, hb, e1, e2, e3⟩ := h1 e he
  have : b = x := enc_inj ok hb hx (by rw [← e2, hex])
  subst this
  exact ⟨a, b, ha, hb, e1, e2, by rw [e3, hF a b hc]⟩

/-- The interface loop. -/
theorem ifaceG_fold (ok : Ok T) (hF : ∀ a b, isCor b = false → F a b = Wa T a b) (il : List (PS P × PS P)) (hil : ∀ i ∈ il, T.nb i.1 = some i.2)
    (st : St P) (S : Entry P → Prop) (Z : Dof P → Prop) (h : InvF T F st S Z)
    (hs : ∀ s, st.schk s = true → ∃ t, T.nb s = some t ∧ st.schk t = true ∧
      ∀ m, (2 ≤ m ∧ m + 2 < len T s) → ∀ e ∈ sideEntries T s t m, S e) :
    ∃ S', InvF T F (il.foldl (handleIface T) st) S' Z ∧ (il.foldl (handleIface T) st).vchk = st.vchk ∧ (∀ e, S e → S' e) ∧
      (∀ e, S' e → S e ∨ ∃ i ∈ il, e ∈ ifaceEntries T i) ∧
      (∀ s t, T.nb s = some t → (st.schk s = true ∨ (s, t) ∈ il ∨ (t, s) ∈ il) →
        (il.foldl (handleIface T) st).schk s = true ∧ ∀ m, (2 ≤ m ∧ m + 2 < len T s) → ∀ e ∈ sideEntries T s t m, S' e) := by
  induction il generalizing st S with
  | nil =>
    refine ⟨S, h, rfl, fun _ => id, fun _ => Or.inl, ?_⟩
    rintro s t hn (hc | hc | hc)
    · obtain ⟨t', h1, -, h2⟩ := hs s hc
      rw [hn] at h1; cases h1
      exact ⟨hc, h2⟩
    · simp at hc
    · simp at hc
  | cons i il ih =>
    rw [List.foldl_cons]
    obtain ⟨a, b⟩ := i
    have hnb : T.nb a = some b := hil (a, b) (by simp)
    have hnb' := ok.nb_symm a b hnb
    by_cases hc : st.schk a = true ∨ st.schk b = true
    · have : handleIface T st (a, b) = st := by
        unfold handleIface; rw [if_pos (by simpa using hc)]
      rw [this]
      have hab : st.schk a = true ∧ st.schk b = true := by
        rcases hc with hc | hc
        · obtain ⟨t, h1, h2, -⟩ := hs a hc
          rw [hnb] at h1; cases h1; exact ⟨hc, h2⟩
        · obtain ⟨t, h1, h2, -⟩ := hs b hc
          rw [hnb'] at h1; cases h1; exact ⟨h2, hc⟩
      obtain ⟨S', g1, g2, g3, g4, g5⟩ := ih (fun j hj => hil j (by simp [hj])) st S h hs
      refine ⟨S', g1, g2, g3, ?_, ?_⟩
      · intro e he
        rcases g4 e he with h | ⟨j, hj, h⟩
        · exact Or.inl h
        · exact Or.inr ⟨j, by simp [hj], h⟩
      · intro s t hst hor
        apply g5 s t hst
        rcases hor with h | h | h
        · exact Or.inl h
        · rw [List.mem_cons] at h
          rcases h with h | h
          · cases h; exact Or.inl hab.1
          · exact Or.inr (Or.inl h)
        · rw [List.mem_cons] at h
          rcases h with h | h
          · cases h; exact Or.inl hab.2
          · exact Or.inr (Or.inr h)
    · have hstep : handleIface T st (a, b) =
          { push st (ifaceEntries T (a, b)) with schk := fun x => x = a || x = b || st.schk x } := by
        unfold handleIface; rw [if_neg (by simpa using hc)]
      rw [hstep]
      obtain ⟨hg, hd⟩ := ifaceG_good (F := F) ok hF hnb
      have hpv := (push_gen (G := WF T F) _ (fun e he => goodF_W ok (hg e he)) st)
      have hinv := invF_push ok h hg hd
      obtain ⟨S', g1, g2, g3, g4, g5⟩ := ih (fun j hj => hil j (by simp [hj]))
        { push st (ifaceEntries T (a, b)) with schk := fun x => x = a || x = b || st.schk x } _
        (invF_st hinv rfl rfl) (by
          intro s hx
          simp only [Bool.or_eq_true, decide_eq_true_eq] at hx ⊢
          rcases hx with (rfl | rfl) | hx
          · exact ⟨b, hnb, Or.inl (Or.inr rfl), fun m hm e he => Or.inr ((mem_ifaceEntries ok hnb e).2 (Or.inl ⟨m, hm, he⟩))⟩
          · exact ⟨a, hnb', Or.inl (Or.inl rfl), fun m hm e he => Or.inr ((mem_ifaceEntries ok hnb e).2 (Or.inr ⟨m, hm, he⟩))⟩
          · obtain ⟨t, h1, h2, h3⟩ := hs s hx
            exact ⟨t, h1, Or.inr h2, fun m hm e he => Or.inl (h3 m hm e he)⟩)
      refine ⟨S', g1, by rw [g2]; exact hpv.2.2.2.1, fun e he => g3 e (Or.inl he), ?_, ?_⟩
      · intro e he
        rcases g4 e he with (h | h) | ⟨j, hj, h⟩
        · exact Or.inl h
        · exact Or.inr ⟨_, by simp, h⟩
        · exact Or.inr ⟨j, by simp [hj], h⟩
      · intro s t hst hor
        apply g5 s t hst
        rcases hor with h | h | h
        · exact Or.inl (by simp [h])
        · rw [List.mem_cons] at h
          rcases h with h | h
          · cases h; exact Or.inl (by simp)
          · exact Or.inr (Or.inl h)
        · rw [List.mem_cons] at h
          rcases h with h | h
          · cases h; exact Or.inl (by simp)
          · exact Or.inr (Or.inr h)

/-- The boundary loop. -/
theorem bdryG_fold (ok : Ok T) (hF : ∀ a b, isCor b = false → F a b = Wa T a b) (bl : List (PS P)) (hbl : ∀ s ∈ bl, T.nb s = none) (st : St P)
    (S : Entry P → Prop) (Z : Dof P → Prop) (h : InvF T F st S Z) :
    ∃ S', InvF T F (bl.foldl (handleBdry T) st) S' Z ∧ (bl.foldl (handleBdry T) st).vchk = st.vchk ∧ (∀ e, S e → S' e) ∧
      (∀ e, S' e → S e ∨ ∃ s m, T.nb s = none ∧ (2 ≤ m ∧ m + 2 < len T s) ∧ e.1 = enc T (.sid s false m)) ∧
      (∀ s, (bl.foldl (handleBdry T) st).schk s = true ↔ st.schk s = true ∨ s ∈ bl) := by
  induction bl generalizing st S with
  | nil => exact ⟨S, h, rfl, fun _ => id, fun _ => Or.inl, by simp⟩
  | cons s bl ih =>
    rw [List.foldl_cons]
    have hn := hbl s (by simp)
    have hmem : ∀ e, e ∈ ((withoutEnds T s 0 (sideList T s 0)).map fun d => (d, d, (1 : ℚ))) ↔
        ∃ m, (2 ≤ m ∧ m + 2 < len T s) ∧ e = (enc T (.sid s false m), enc T (.sid s false m), 1) := by
      intro e
      rw [List.mem_map]
      simp only [mem_mid_list ok]
      constructor
      · rintro ⟨d, ⟨m, hm, rfl⟩, rfl⟩; exact ⟨m, hm, rfl⟩
      · rintro ⟨m, hm, rfl⟩; exact ⟨_, ⟨m, hm, rfl⟩, rfl⟩
    have hg : ∀ e ∈ ((withoutEnds T s 0 (sideList T s 0)).map fun d => (d, d, (1 : ℚ))), GoodF T F e := by
      intro e he
      obtain ⟨m, hm, rfl⟩ := (hmem e).1 he
      exact goodF_mk hm hm (by rw [hF _ _ rfl, Wa, hn]; simp [ind_self])
    have hd : ∀ e ∈ ((withoutEnds T s 0 (sideList T s 0)).map fun d => (d, d, (1 : ℚ))),
        ∃ w, (e.1, e.1, w) ∈ ((withoutEnds T s 0 (sideList T s 0)).map fun d => (d, d, (1 : ℚ))) := by
      intro e he
      obtain ⟨m, hm, rfl⟩ := (hmem e).1 he
      exact ⟨_, he⟩
    have hpv := (push_gen (G := WF T F) _ (fun e he => goodF_W ok (hg e he)) st)
    obtain ⟨S', g1, g2, g3, g4, g5⟩ := ih (fun j hj => hbl j (by simp [hj])) (handleBdry T st s) _
      (invF_st (invF_push ok h hg hd) rfl rfl)
    refine ⟨S', g1, by rw [g2]; exact hpv.2.2.2.1, fun e he => g3 e (Or.inl he), ?_, ?_⟩
    · intro e he
      rcases g4 e he with (h | h) | h
      · exact Or.inl h
      · obtain ⟨m, hm, rfl⟩ := (hmem e).1 h
        exact Or.inr ⟨s, m, hn, hm, rfl⟩
      · exact Or.inr h
    · intro x
      rw [g5]
      simp only [handleBdry, Bool.or_eq_true, decide_eq_true_eq, List.mem_cons]
      tauto

/-- The whole construction has the closed form, for every order and every repetition in the loops. -/
theorem closed_formG (ok : Ok T) (hv : VertOk T F AE AZ ve mr mc) {il : List (PS P × PS P)} {bl : List (PS P)} {vl : List (PC P)}
    {dl : List (Dof P)} (hl : Lists T il bl vl) (hdl : ∀ d, d ∈ dl ↔ valid T d) {elim : Dof P → Bool}
    (hel' : ∀ a, AValid T a → elim (enc T a) = AE a) :
    ∃ st, smoothMatrixG T ve mr mc elim il bl vl dl = some st ∧
      (∀ r c, st.M r c = if valid T r ∧ valid T c then WF T F r c else 0) ∧
      (∀ r, st.bchk r = true ↔ valid T r ∧ elim r = false) ∧ (∀ c, st.vchk c = true) ∧ (∀ s, st.schk s = true) ∧
      (∀ a b, AValid T a → AValid T b → F a b ≠ 0 → AE a = false ∧ AZ a = false) := by
  have hel : ∀ d, valid T d → elim d = AE (dec T d) := by
    intro d hd
    obtain ⟨g1, g2⟩ := enc_dec hd
    have := hel' _ g1
    rw [g2] at this; exact this
  unfold smoothMatrixG
  simp only
  have h0 : InvF T F ({ M := fun _ _ => 0, bchk := fun _ => false, vchk := fun _ => false, schk := fun _ => false } : St P)
      (fun _ => False) (fun _ => False) := ⟨by simp, by simp, by simp, by simp, by simp⟩
  obtain ⟨st1, S1, Z, a1, a2, a3, a4, a5, a6⟩ := vertexG_fold ok hv vl _ _ _ h0 (by simp) (by simp) (by simp)
  rw [a1]
  obtain ⟨S2, b1, b2, b3, b4, b5⟩ := ifaceG_fold ok hv.F_non il hl.il_sound st1 S1 Z a2 (by rw [a3]; simp)
  obtain ⟨S3, c1, c2, c3, c4, c5⟩ := bdryG_fold ok hv.F_non bl (fun s hs => (hl.bl_iff s).1 hs) _ S2 Z b1
  generalize hst3 : bl.foldl (handleBdry T) (il.foldl (handleIface T) st1) = st3 at c1 c2 c5
  obtain ⟨d1, d2, d3, d4⟩ := interior_fold ok elim dl st3
  refine ⟨_, rfl, ?_⟩
  simp only [hst3]
  -- pushed entries are between valid functions, rows are free
  have hval : ∀ e, S3 e → valid T e.1 ∧ valid T e.2.1 := by
    intro e he
    obtain ⟨a, b, ha, hb, h1, h2, -⟩ := c1.good e he
    rw [h1, h2]
    exact ⟨enc_valid ok ha, enc_valid ok hb⟩
  have hfree : ∀ e, S3 e → AE (dec T e.1) = false ∧ AZ (dec T e.1) = false := by
    intro e he
    rcases c4 e he with he | ⟨s, m, hn, hm, he⟩
    · rcases b4 e he with he | ⟨i, hi, he⟩
      · obtain ⟨c, l, hcl, hm⟩ := a4 e he
        obtain ⟨l', hcl', -, -, hf⟩ := hv.entries c
        rw [hcl] at hcl'; cases hcl'
        obtain ⟨a, ha, h1, h2, h3⟩ := hf e hm
        rw [h1, dec_enc ok ha]; exact ⟨h2, h3⟩
      · have hnb := hl.il_sound i hi
        have key : ∃ (s : PS P) (m : ℕ), (2 ≤ m ∧ m + 2 < len T s) ∧ e.1 = enc T (.sid s true m) := by
          rcases (mem_ifaceEntries ok hnb e).1 he with ⟨m, hm, he⟩ | ⟨m, hm, he⟩ <;> unfold sideEntries at he <;>
            simp only [List.mem_cons, List.not_mem_nil, or_false] at he <;> rcases he with rfl | rfl | rfl <;> exact ⟨_, m, hm, rfl⟩
        obtain ⟨s, m, hm, he⟩ := key
        rw [he, dec_enc ok (x := .sid s true m) hm, hv.AE_non _ rfl, hv.AZ_non _ rfl]
        exact ⟨rfl, rfl⟩
    · rw [he, dec_enc ok (x := .sid s false m) hm, hv.AE_non _ rfl, hv.AZ_non _ rfl]
      exact ⟨by simp [AElim, hn], rfl⟩
  have hZ : ∀ d, Z d ↔ ∃ a, AValid T a ∧ d = enc T a ∧ AE a = false ∧ AZ a = true := by
    intro d
    constructor
    · intro h
      obtain ⟨c, hc⟩ := a5 d h
      exact hv.marks c d hc
    · rintro ⟨a, ha, rfl, h1, h2⟩
      obtain ⟨c, hc⟩ := hv.marks_all a ha h1 h2
      exact (a6 c (Or.inr (hl.vl_all c))).2.2 _ hc
  have hS3v : ∀ c l, ve c = some l → ∀ e ∈ l, S3 e := fun c l hcl e he =>
    c3 e (b3 e ((a6 c (Or.inr (hl.vl_all c))).2.1 l hcl e he))
  have hS3s : ∀ s t, T.nb s = some t → ∀ m, (2 ≤ m ∧ m + 2 < len T s) → ∀ e ∈ sideEntries T s t m, S3 e := fun s t hst m hm e he =>
    c3 e ((b5 s t hst (Or.inr (hl.il_complete s t hst))).2 m hm e he)
  have hoff : ∀ a b, AValid T a → AValid T b → a ≠ b → F a b ≠ 0 → ∃ w, S3 (enc T a, enc T b, w) := by
    intro a b ha hb hne hw
    cases hcb : isCor b
    · rw [hv.F_non a b hcb] at hw
      cases b with
      | int p i j => exact absurd (ind_ne hne) hw
      | cor c x y => simp [isCor] at hcb
      | sid s off m =>
        cases off
        · rw [Wa] at hw
          rcases h : T.nb s with _ | t
          · rw [h] at hw; exact absurd (ind_ne hne) hw
          · rw [h] at hw
            rcases ind_or hw with rfl | rfl
            · exact ⟨_, hS3s s t h m hb _ (by unfold sideEntries; exact List.mem_cons_of_mem _ (List.mem_cons_self))⟩
            · have hbk := ok.nb_symm _ _ h
              have := hS3s t s hbk (mt T s m) ha (enc T (.sid t true (mt T s m)), enc T (.sid s false (mt T t (mt T s m))), 1 / 2)
                (by unfold sideEntries; simp)
              rw [mt_mt ok h (by have := hb.2; omega)] at this
              exact ⟨_, this⟩
        · exact absurd (ind_ne hne) hw
    · obtain ⟨c, l, w, h1, h2⟩ := hv.off a b ha hb hcb hne hw
      exact ⟨w, hS3v c l h1 _ h2⟩
  refine ⟨?_, ?_, ?_, ?_, ?_⟩
  · intro r c
    rw [d4]
    by_cases hvv : valid T r ∧ valid T c
    · rw [if_pos hvv]
      obtain ⟨hr, hc⟩ := hvv
      obtain ⟨r1, r2⟩ := enc_dec hr
      obtain ⟨c1', c2'⟩ := enc_dec hc
      by_cases hpush : ∃ w, S3 (r, c, w)
      · obtain ⟨w, hw⟩ := hpush
        have hb : st3.bchk r = true := (c1.bchk r).2 (Or.inr ⟨c, w, hw⟩)
        rw [if_neg (by rw [hb]; simp)]
        exact c1.hit _ hw
      · rw [c1.miss r c hpush]
        by_cases hrc : r = c
        · subst hrc
          cases hx : AE (dec T r)
          · cases hz : AZ (dec T r)
            · have hb : st3.bchk r = false := by
                rw [Bool.eq_false_iff]
                intro hb
                rcases (c1.bchk r).1 hb with hZr | ⟨c', w', hw'⟩
                · obtain ⟨a, ha, he, -, h2⟩ := (hZ r).1 hZr
                  rw [he, dec_enc ok ha, h2] at hz; cases hz
                · exact hpush (c1.diag _ hw')
              rw [if_pos ⟨rfl, (hdl r).2 hr, by rw [hel r hr]; exact hx, hb⟩]
              unfold WF
              cases hcr : isCor (dec T r)
              · rw [hv.F_non _ _ hcr, W_diag ok, ← hv.AE_non _ hcr, hx]; simp
              · rcases hv.diag _ r1 hcr hx hz with h | ⟨c', l, w, h1, h2⟩
                · exact h.symm
                · rw [r2] at h2
                  exact absurd ⟨w, hS3v c' l h1 _ h2⟩ hpush
            · have hb : st3.bchk r = true := (c1.bchk r).2 (Or.inl ((hZ r).2 ⟨_, r1, r2.symm, hx, hz⟩))
              rw [if_neg (by rw [hb]; simp)]
              unfold WF
              rw [hv.zero _ (Or.inr hz)]
          · rw [if_neg (by rw [hel r hr, hx]; simp)]
            unfold WF
            rw [hv.zero _ (Or.inl hx)]
        · rw [if_neg (by tauto)]
          by_contra hcon
          apply hpush
          have hne : dec T r ≠ dec T c := by
            intro h; apply hrc; rw [← r2, ← c2', h]
          have := hoff _ _ r1 c1' hne (fun h => hcon h.symm)
          rw [r2, c2'] at this
          exact this
    · rw [if_neg hvv, if_neg]
      · apply c1.miss
        rintro ⟨w, hw⟩
        exact hvv (hval _ hw)
      · rintro ⟨rfl, h2, -⟩
        exact hvv ⟨(hdl r).1 h2, (hdl r).1 h2⟩
  · intro r
    rw [d3]
    constructor
    · rintro (h | ⟨h1, h2⟩)
      · rcases (c1.bchk r).1 h with hZr | ⟨c', w', hw'⟩
        · obtain ⟨a, ha, rfl, h1, -⟩ := (hZ r).1 hZr
          exact ⟨enc_valid ok ha, by rw [hel' a ha]; exact h1⟩
        · have hr := (hval _ hw').1
          exact ⟨hr, by rw [hel r hr]; exact (hfree _ hw').1⟩
      · exact ⟨(hdl r).1 h1, h2⟩
    · rintro ⟨h1, h2⟩
      exact Or.inr ⟨(hdl r).2 h1, h2⟩
  · intro c
    rw [d1, c2, b2]
    exact (a6 c (Or.inr (hl.vl_all c))).1
  · intro s
    rw [d2, c5]
    rcases h : T.nb s with _ | t
    · exact Or.inr ((hl.bl_iff s).2 h)
    · exact Or.inl (b5 s t h (Or.inr (hl.il_complete s t h))).1
  · intro a b ha hb hab
    by_cases hne : a = b
    · subst hne
      constructor
      · rw [Bool.eq_false_iff]; intro h; exact hab (hv.zero a (Or.inl h))
      · rw [Bool.eq_false_iff]; intro h; exact hab (hv.zero a (Or.inr h))
    · obtain ⟨w, hw⟩ := hoff a b ha hb hne hab
      have := hfree _ hw
      simp only [dec_enc ok ha] at this
      exact this

/-! ## counting -/

def frG (AE : ADof P → Bool) (a : ADof P) : ℤ := if AE a then 0 else 1
def cntG (AE : ADof P → Bool) (c : PC P) : ℤ := ((corL c).map (frG AE)).sum

theorem free_countG (ok : Ok T) {pl : List P} (hpn : pl.Nodup) (hpl : ∀ p, p ∈ pl) {dl : List (Dof P)} (hn : dl.Nodup)
    (hdl : ∀ d, d ∈ dl ↔ valid T d) (elim : Dof P → Bool) (he : ∀ a, AValid T a → elim (enc T a) = AE a) :
    ((dl.filter fun d => !elim d).length : ℤ) = ((allA T pl).map (frG AE)).sum := by
  have hperm : dl.Perm ((allA T pl).map (enc T)) := by
    rw [List.perm_ext_iff_of_nodup hn]
    · intro d
      rw [hdl, List.mem_map]
      constructor
      · intro h
        obtain ⟨h1, h2⟩ := enc_dec h
        exact ⟨dec T d, (mem_allA hpl _).2 h1, h2⟩
      · rintro ⟨a, ha, rfl⟩
        exact enc_valid ok ((mem_allA hpl _).1 ha)
    · apply List.Nodup.map_on _ (allA_nodup hpn)
      intro a ha b hb h
      exact enc_inj ok ((mem_allA hpl _).1 ha) ((mem_allA hpl _).1 hb) h
  rw [length_filter_sum, (hperm.map _).sum_eq, List.map_map]
  congr 1
  apply List.map_congr_left
  intro a ha
  simp only [Function.comp, he a ((mem_allA hpl _).1 ha), frG]
  cases AE a <;> simp

theorem countVerticesG_eq (ok : Ok T) {vc : PC P → ℤ} {cn : PC P → ℤ} (hvc : ∀ c, vc c = ∑ d ∈ (T.cl c).toFinset, cn d)
    (U : Finset (PC P)) (hU : ∀ c, c ∈ U) (vl passed : List (PC P)) (hp : ∀ c d, d ∈ T.cl c → c ∈ passed → d ∈ passed) :
    countVerticesG T vc vl passed = ∑ x ∈ U.filter (fun x => x ∉ passed ∧ ∃ c ∈ vl, x ∈ T.cl c), cn x := by
  induction vl generalizing passed with
  | nil => simp [countVerticesG]
  | cons c vl ih =>
    rw [countVerticesG]
    split_ifs with hc
    · rw [ih passed hp]
      congr 1
      apply Finset.filter_congr
      intro x _
      constructor
      · rintro ⟨h1, d, hd, h2⟩; exact ⟨h1, d, by simp [hd], h2⟩
      · rintro ⟨h1, d, hd, h2⟩
        rw [List.mem_cons] at hd
        rcases hd with rfl | hd
        · exact absurd (hp d x h2 hc) h1
        · exact ⟨h1, d, hd, h2⟩
    · have hclosed : ∀ a b, b ∈ T.cl a → a ∈ T.cl c ++ passed → b ∈ T.cl c ++ passed := by
        intro a b hb ha
        rw [List.mem_append] at ha ⊢
        rcases ha with ha | ha
        · exact Or.inl ((ok.cl_same c a ha b).1 hb)
        · exact Or.inr (hp a b hb ha)
      rw [ih _ hclosed, hvc]
      have hsplit : U.filter (fun x => x ∉ passed ∧ ∃ d ∈ c :: vl, x ∈ T.cl d) =
          (T.cl c).toFinset ∪ U.filter (fun x => x ∉ T.cl c ++ passed ∧ ∃ d ∈ vl, x ∈ T.cl d) := by
        ext x
        simp only [Finset.mem_filter, Finset.mem_union, List.mem_toFinset, List.mem_append, List.mem_cons]
        constructor
        · rintro ⟨h0, h1, d, rfl | hd, h2⟩
          · exact Or.inl h2
          · by_cases hx : x ∈ T.cl c
            · exact Or.inl hx
            · exact Or.inr ⟨h0, by tauto, d, hd, h2⟩
        · rintro (h | ⟨h0, h1, d, hd, h2⟩)
          · refine ⟨hU x, ?_, c, Or.inl rfl, h⟩
            intro hxp
            apply hc
            apply hp x c _ hxp
            rw [ok.cl_same c x h]; exact ok.cl_self c
          · exact ⟨h0, by tauto, d, Or.inr hd, h2⟩
      rw [hsplit, Finset.sum_union]
      rw [Finset.disjoint_left]
      intro x h1 h2
      rw [Finset.mem_filter] at h2
      exact h2.2.1 (by rw [List.mem_append]; left; simpa using h1)

/-- The counting formulas give the number of free functions. -/
theorem countG_eq (ok : Ok T) (hne : ∀ a, isCor a = false → AE a = AElim T a) {vc : PC P → ℤ}
    (hvc : ∀ c, vc c = ∑ d ∈ (T.cl c).toFinset, cntG AE d) {pl : List P} (hpn : pl.Nodup) (hpl : ∀ p, p ∈ pl) {dl : List (Dof P)} (hn : dl.Nodup)
    (hdl : ∀ d, d ∈ dl ↔ valid T d) {il : List (PS P × PS P)} {bl : List (PS P)} {vl : List (PC P)} (hl : Lists T il bl vl)
    (hil : (il.map Prod.fst ++ il.map Prod.snd).Nodup) (hbl : bl.Nodup) {elim : Dof P → Bool} (hel : ∀ a, AValid T a → elim (enc T a) = AE a) :
    ((dl.filter fun d => !elim d).length : ℤ) = countDofsG T vc pl il bl vl := by
  have hbase := count_eq ok hpn hpl hn hdl hl hil hbl
  rw [free_count ok hpn hpl hn hdl _ (fun a ha => mapper_elim ok hl ha)] at hbase
  rw [free_countG ok hpn hpl hn hdl _ hel]
  unfold allA at hbase ⊢
  rw [List.map_append, List.sum_append, List.map_append, List.sum_append, sum_map_flatMap, sum_map_flatMap, sum_map_flatMap] at hbase ⊢
  have hfr : ∀ l : List (ADof P), (∀ a ∈ l, isCor a = false) → l.map (frG AE) = l.map (fr T) := by
    intro l hl
    apply List.map_congr_left
    intro a ha
    unfold frG fr; rw [hne a (hl a ha)]
  have h1 : ∀ p, ((intL T p).map (frG AE)) = ((intL T p).map (fr T)) := fun p => hfr _ (by
    intro a ha; obtain ⟨i, j, rfl, -⟩ := mem_intL.1 ha; rfl)
  have h2 : ∀ s, ((sidL T s).map (frG AE)) = ((sidL T s).map (fr T)) := fun p => hfr _ (by
    intro a ha; obtain ⟨i, j, rfl, -⟩ := mem_sidL.1 ha; rfl)
  simp only [h1, h2]
  have cv : ∀ (cn : PC P → ℤ) (w : List (PC P) → List (PC P) → ℤ),
      (∀ (U : Finset (PC P)), (∀ c, c ∈ U) → ∀ vl passed : List (PC P), (∀ c d, d ∈ T.cl c → c ∈ passed → d ∈ passed) →
        w vl passed = ∑ x ∈ U.filter (fun x => x ∉ passed ∧ ∃ c ∈ vl, x ∈ T.cl c), cn x) →
      ((allCorners pl).map cn).sum = w vl [] := by
    intro cn w hw
    rw [hw (allCorners pl).toFinset (fun c => by simpa using mem_allCorners hpl c) vl [] (by simp)]
    have : (allCorners pl).toFinset.filter (fun x => x ∉ ([] : List (PC P)) ∧ ∃ c ∈ vl, x ∈ T.cl c) = (allCorners pl).toFinset := by
      apply Finset.filter_true_of_mem
      intro x _
      exact ⟨by simp, x, hl.vl_all x, ok.cl_self x⟩
    rw [this, List.sum_toFinset _ (allCorners_nodup hpn)]
  have hv := cv (cntG AE) (countVerticesG T vc) (fun U hU vl passed hp => countVerticesG_eq ok hvc U hU vl passed hp)
  have hv0 := cv (cnt T) (countVertices T) (fun U hU vl passed hp => countVertices_eq ok U hU vl passed hp)
  unfold cntG at hv
  unfold cnt at hv0
  rw [hv0] at hbase
  rw [hv]
  unfold countDofs at hbase
  unfold countDofsG
  linarith

end Verif.Smooth
