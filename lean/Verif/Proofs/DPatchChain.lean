import Verif.Proofs.DPatchMap
import Verif.Proofs.SmoothExport
/-! Helper lemmas: the three patches at a boundary vertex, and the exported coefficients of the coarse space of `gsDPatch`. -/
set_option autoImplicit false
set_option linter.unusedSectionVars false
set_option linter.unusedVariables false
set_option linter.unusedSimpArgs false
namespace Verif.DPatch
open Verif Smooth AlmostC1

section chain
variable {P : Type} [DecidableEq P]

/-- The three corners at a boundary vertex with three patches form a chain. -/
theorem chain3 {T : Topo P} (ok : Ok T) {c d : PC P} (hi : T.interior c = false) (h3 : (T.cl c).length = 3) {s t : Side} (hs : s ∈ c.2.sides)
    (hd : cross T c s = some d) (ht : T.nb (c.1, s) = some (d.1, t)) :
    ∃ e, (T.cl c).Perm [c, d, e] ∧ ((cross T c (oside c.2 s) = none ∧ cross T d (oside d.2 t) = some e) ∨
      (cross T c (oside c.2 s) = some e ∧ cross T d (oside d.2 t) = none)) := by
  obtain ⟨t0, ht0, htm, -⟩ := cross_data hd
  rw [ht] at ht0
  simp only [Option.some.injEq, Prod.mk.injEq, true_and] at ht0
  subst ht0
  have hbd := ok.nb_symm _ _ ht
  have cbd := cross_back ok hs hd ht
  have hcd : d ≠ c := cross_ne ok hs hd
  have hself := ok.cl_self c
  have md := ok.cl_cross c s d hs hd
  have two : ∀ (A : List (PC P)), c ∈ A → A.length < 3 →
      (∀ x ∈ A, ∀ s ∈ x.2.sides, ∀ y, cross T x s = some y → y ∈ A) → False := by
    intro A h1 h2 h3'
    have := length_le_of_subset (ok.cl_nodup c) (closed_reach ok A h1 h3')
    omega
  have perm : ∀ e ∈ T.cl c, e ≠ c → e ≠ d → (T.cl c).Perm [c, d, e] := by
    intro e he h1 h2
    have hnd : [c, d, e].Nodup := by
      simp only [List.nodup_cons, List.mem_cons, List.not_mem_nil, or_false, not_or, not_false_eq_true, List.nodup_nil, and_true]
      exact ⟨⟨hcd.symm, h1.symm⟩, h2.symm⟩
    have hsub : List.Subperm [c, d, e] (T.cl c) := List.subperm_of_subset hnd (by
      intro x hx
      simp only [List.mem_cons, List.not_mem_nil, or_false] at hx
      rcases hx with rfl | rfl | rfl
      · exact hself
      · exact md
      · exact he)
    exact (hsub.perm_of_length_le (by rw [h3]; rfl)).symm
  rcases he : cross T c (oside c.2 s) with _ | e
  · rcases hf : cross T d (oside d.2 t) with _ | f
    · exfalso
      apply two [c, d] (by simp) (by simp)
      intro x hx s' hs' y hy
      simp only [List.mem_cons, List.not_mem_nil, or_false] at hx ⊢
      rcases hx with rfl | rfl
      · rcases sides_or hs hs' with rfl | rfl
        · rw [hd] at hy; cases hy; exact Or.inr rfl
        · rw [he] at hy; cases hy
      · rcases sides_or htm hs' with rfl | rfl
        · rw [cbd] at hy; cases hy; exact Or.inl rfl
        · rw [hf] at hy; cases hy
    · obtain ⟨w, hw, hwm, -⟩ := cross_data hf
      have hbf := ok.nb_symm _ _ hw
      have cbf := cross_back ok (oside_mem _ _) hf hw
      have mf : f ∈ T.cl c := (ok.cl_same c d md f).1 (ok.cl_cross d _ f (oside_mem _ _) hf)
      refine ⟨f, perm f mf ?_ (cross_ne ok (oside_mem _ _) hf), Or.inl ⟨rfl, rfl⟩⟩
      rintro rfl
      rcases sides_or hs hwm with rfl | rfl
      · rw [ht] at hbf
        simp only [Option.some.injEq, Prod.mk.injEq, true_and] at hbf
        exact oside_ne hbf.symm
      · rw [he] at cbf; cases cbf
  · obtain ⟨u, hu, hum, -⟩ := cross_data he
    have hbe := ok.nb_symm _ _ hu
    have cbe := cross_back ok (oside_mem _ _) he hu
    have hce : e ≠ c := cross_ne ok (oside_mem _ _) he
    have me := ok.cl_cross c _ e (oside_mem _ _) he
    have hed : e ≠ d := by
      rintro rfl
      have hut : u ≠ t := by
        rintro rfl
        rw [hbd] at hbe
        simp only [Option.some.injEq, Prod.mk.injEq, true_and] at hbe
        exact oside_ne hbe.symm
      have hu' : u = oside e.2 t := (sides_or htm hum).resolve_left hut
      apply two [c, e] (by simp) (by simp)
      intro x hx s' hs' y hy
      simp only [List.mem_cons, List.not_mem_nil, or_false] at hx ⊢
      rcases hx with rfl | rfl
      · rcases sides_or hs hs' with rfl | rfl
        · rw [hd] at hy; cases hy; exact Or.inr rfl
        · rw [he] at hy; cases hy; exact Or.inr rfl
      · rcases sides_or htm hs' with rfl | rfl
        · rw [cbd] at hy; cases hy; exact Or.inl rfl
        · rw [← hu', cbe] at hy; cases hy; exact Or.inl rfl
    refine ⟨e, perm e me hce hed, Or.inr ⟨rfl, ?_⟩⟩
    rcases hf : cross T d (oside d.2 t) with _ | f
    · rfl
    · exfalso
      obtain ⟨w, hw, hwm, -⟩ := cross_data hf
      have hbf := ok.nb_symm _ _ hw
      have cbf := cross_back ok (oside_mem _ _) hf hw
      have mf : f ∈ T.cl c := (ok.cl_same c d md f).1 (ok.cl_cross d _ f (oside_mem _ _) hf)
      have hdf : f ≠ d := cross_ne ok (oside_mem _ _) hf
      have hfc : f ≠ c := by
        rintro rfl
        have hws : w ≠ s := by
          rintro rfl
          rw [ht] at hbf
          simp only [Option.some.injEq, Prod.mk.injEq, true_and] at hbf
          exact oside_ne hbf.symm
        have hw' : w = oside f.2 s := (sides_or hs hwm).resolve_left hws
        rw [← hw'] at hu he
        rw [cbf] at he
        cases he
        exact hed rfl
      have hm3 : ∀ x ∈ T.cl c, x = c ∨ x = d ∨ x = e := by
        intro x hx
        have := (perm e me hce hed).mem_iff.1 hx
        simpa using this
      have hef : f = e := by
        rcases hm3 f mf with h | h | h
        · exact absurd h hfc
        · exact absurd h hdf
        · exact h
      subst hef
      have huw : u ≠ w := by
        rintro rfl
        rw [cbe] at cbf
        cases cbf
        exact hcd rfl
      have hw' : w = oside f.2 u := (sides_or hum hwm).resolve_left (Ne.symm huw)
      have : T.interior c = true := by
        rw [ok.interior_iff]
        intro x hx s' hs'
        rcases hm3 x hx with rfl | rfl | rfl
        · rcases sides_or hs hs' with rfl | rfl
          · rw [ht]; rfl
          · rw [hu]; rfl
        · rcases sides_or htm hs' with rfl | rfl
          · rw [hbd]; rfl
          · rw [hw]; rfl
        · rcases sides_or hum hs' with rfl | rfl
          · rw [hbe]; rfl
          · rw [← hw', hbf]; rfl
      rw [hi] at this; cases this

end chain

section values
variable {P : Type} [LinearOrder P] {V : Type} [AddCommGroup V] [Module ℚ V]

private theorem smul_map_sum {α : Type} (l : List α) (q : ℚ) (f : α → V) : (l.map fun a => q • f a).sum = q • (l.map f).sum := by
  induction l with
  | nil => simp
  | cons a l ih => simp only [List.map_cons, List.sum_cons, ih, smul_add]

/-- Values of the exported coefficients. -/
theorem sum_FDv {T : Topo P} (ok : Ok T) {dl : List (Dof P)} (hn : dl.Nodup) (hdl : ∀ d, d ∈ dl ↔ valid T d) (x : Dof P → V) :
    (∀ b, AValid T b → (∀ c k l, b = .cor c k l → V3 T c = false) → (dl.map fun r => FD T (dec T r) b • x r).sum = LV T (fun a => x (enc T a)) b) ∧
    (∀ c, (dl.map fun r => FD T (dec T r) (.cor c true true) • x r).sum = x (enc T (.cor c true true))) ∧
    (∀ c s d, s ∈ c.2.sides → cross T c s = some d → (dl.map fun r => FD T (dec T r) (av c s true false) • x r).sum =
      (1 / 2 : ℚ) • (x (enc T (.cor c true true)) + x (enc T (.cor d true true)))) ∧
    (∀ c s, V3 T c = true → s ∈ c.2.sides → cross T c s = none → (dl.map fun r => FD T (dec T r) (av c s true false) • x r).sum =
      (1 / 2 : ℚ) • (x (enc T (.cor c true true)) + x (enc T (ex T c)))) ∧
    (∀ c, V3 T c = true → (dl.map fun r => FD T (dec T r) (.cor c false false) • x r).sum =
      (1 / 4 : ℚ) • (((T.cl c).map fun d => x (enc T (.cor d true true))).sum + x (enc T (ex T c)))) := by
  have one : ∀ a, AValid T a → (dl.map fun r => ind (dec T r) a • x r).sum = x (enc T a) := fun a ha => sum_ind_eval ok hn hdl x ha
  have hex : ∀ c, AValid T (ex T c) := by
    intro c
    obtain ⟨m, hm, hex, -⟩ := ex_spec ok c
    rw [hex]; trivial
  have two : ∀ a b, AValid T a → AValid T b → (dl.map fun r => ((ind (dec T r) a + ind (dec T r) b) / 2 : ℚ) • x r).sum =
      (1 / 2 : ℚ) • (x (enc T a) + x (enc T b)) := by
    intro a b ha hb
    have e : (dl.map fun r => ((ind (dec T r) a + ind (dec T r) b) / 2 : ℚ) • x r) =
        dl.map fun r => (1 / 2 : ℚ) • (ind (dec T r) a • x r + ind (dec T r) b • x r) := by
      apply List.map_congr_left; intro r _; rw [← add_smul, smul_smul]; congr 1; linarith
    rw [e, smul_map_sum, List.sum_map_add, one a ha, one b hb]
  have base : ∀ b, AValid T b → (∀ c k l, b = .cor c k l → V3 T c = false) →
      (dl.map fun r => FD T (dec T r) b • x r).sum = LV T (fun a => x (enc T a)) b := by
    intro b hb h
    simp only [FD_eq _ b h]
    exact sum_Wa ok hn hdl x hb
  refine ⟨base, fun c => one (.cor c true true) trivial, ?_, ?_, ?_⟩
  · intro c s d hs hd
    cases hv : V3 T c
    · rw [base _ (av_valid ..), LV_edge_some _ hs hd]
      obtain ⟨k, l, e⟩ := av_cor c s
      intro c' k' l' h
      rw [e] at h
      simp only [ADof.cor.injEq] at h
      rw [← h.1]; exact hv
    · simp only [FD_av hv hs, edge3, hd]
      exact two _ _ trivial trivial
  · intro c s hv hs hd
    simp only [FD_av hv hs, edge3, hd]
    exact two _ _ trivial (hex c)
  · intro c hv
    simp only [FD_00 hv]
    have e : (dl.map fun r => ((((T.cl c).map fun d => ind (dec T r) (.cor d true true)).sum + ind (dec T r) (ex T c)) / 4 : ℚ) • x r) =
        dl.map fun r => (1 / 4 : ℚ) • ((((T.cl c).map fun d => ind (dec T r) (.cor d true true)).sum) • x r + ind (dec T r) (ex T c) • x r) := by
      apply List.map_congr_left; intro r _; rw [← add_smul, smul_smul]; congr 1; linarith
    rw [e, smul_map_sum, List.sum_map_add, one _ (hex c)]
    have h2 : ∀ l : List (PC P), (dl.map fun r => ((l.map fun d => ind (dec T r) (.cor d true true)).sum) • x r).sum =
        (l.map fun d => x (enc T (.cor d true true))).sum := by
      intro l
      induction l with
      | nil => simp
      | cons a l ih =>
        simp only [List.map_cons, List.sum_cons, add_smul]
        rw [List.sum_map_add, ih, one (.cor a true true) trivial]
    rw [h2]

end values

end Verif.DPatch
