import Verif.Props.EV
import Verif.Proofs.AlmostC1Indep
/-!
# Property C43 for `gsDPatch`

The smooth functions are linearly independent, in the coarse space and after the projection at extraordinary vertices. The projection itself is not one-to-one (it has rank three); what keeps the functions
independent are the refined functions it does not change.
-/
set_option autoImplicit false
set_option linter.unusedSectionVars false
set_option linter.unusedVariables false
set_option linter.unusedSimpArgs false
namespace Verif.EV
open Verif Smooth
open _root_.Verif.DPatch (coarse freeOf coarse_spec exported_val)

variable {P Q : Type} [LinearOrder P] [DecidableEq Q]

/-- C43 for the coarse space of `gsDPatch`. -/
theorem C43_dpatch_coarse {V : Type} [AddCommGroup V] [Module ℚ V] {T : Topo P} {il : List (PS P × PS P)} {bl : List (PS P)} {vl : List (PC P)} {dl : List (Dof P)}
    (h : Setting T il bl vl dl) (hb : ∀ c, T.interior c = false → (T.cl c).length ≤ 3) {ms : MapSt P} {st : St P} (hst : coarse T il bl vl dl = some (ms, st))
    (x : Dof P → V) (hx : ∀ d ∈ dl, exported st.M (freeOf ms dl) x d = 0) : ∀ r ∈ freeOf ms dl, x r = 0 := by
  obtain ⟨ms', st', e, -, h2, -⟩ := coarse_spec h hb
  rw [e] at hst; cases hst
  obtain ⟨v1, v2, v3, v4, v5⟩ := DPatch.sum_FDv h.ok h.dofs_nodup h.dofs_iff x
  have hz : ∀ b, AValid T b → (dl.map fun r => DPatch.FD T (dec T r) b • x r).sum = 0 := by
    intro b hb'
    rw [← exported_val h hb e x hb']
    exact hx _ ((h.dofs_iff _).2 (enc_valid h.ok hb'))
  intro r hr
  unfold freeOf at hr
  rw [List.mem_filter, h.dofs_iff] at hr
  obtain ⟨r1, r2⟩ := enc_dec hr.1
  have hel : DPatch.AE T (dec T r) = false := by rw [← h2 _ r1, r2]; simpa using hr.2
  by_cases hv : ∃ c k l, dec T r = .cor c k l ∧ DPatch.V3 T c = true
  · obtain ⟨c, k, l, hd, hv⟩ := hv
    have h11 : ∀ d, x (enc T (.cor d true true)) = 0 := by
      intro d
      rw [← v2 d]; exact hz (.cor d true true) trivial
    rcases AlmostC1.cor_cases c k l with g | g | ⟨s, hs, g⟩
    · rw [← r2, hd, g]; exact h11 c
    · have h5 := v5 c hv
      rw [hz (.cor c false false) trivial] at h5
      have hs0 : ((T.cl c).map fun d => x (enc T (.cor d true true))).sum = 0 := by
        apply List.sum_eq_zero
        intro y hy
        rw [List.mem_map] at hy
        obtain ⟨d, -, rfl⟩ := hy
        exact h11 d
      rw [hs0, zero_add] at h5
      have hne : dec T r = DPatch.ex T c := by
        rw [hd, g] at hel ⊢
        simp only [DPatch.AE, hv, if_true, decide_eq_false_iff_not, not_not] at hel
        exact hel
      rw [← hne, r2] at h5
      have := congrArg (fun z => (4 : ℚ) • z) h5.symm
      simpa [smul_smul] using this
    · rw [hd, g, DPatch.AE_av hv hs] at hel; cases hel
  · have hno : ∀ c k l, dec T r = .cor c k l → DPatch.V3 T c = false := by
      intro c k l e
      by_contra hcon
      exact hv ⟨c, k, l, e, by simpa using hcon⟩
    have h1 := hz _ r1
    have hel' : AElim T (dec T r) = false := by rw [← DPatch.AE_eq _ hno]; exact hel
    have hcol : ∀ r' ∈ dl, DPatch.FD T (dec T r') (dec T r) • x r' = if r' = r then x r else 0 := by
      intro r' hr''
      obtain ⟨w1, w2⟩ := enc_dec ((h.dofs_iff r').1 hr'')
      rw [DPatch.FD_eq _ _ hno, Wa_free _ _ hel']
      by_cases he : r' = r
      · subst he; rw [ind_self, if_pos rfl, one_smul]
      · rw [ind_ne, if_neg he, zero_smul]
        intro hcon; apply he; rw [← w2, ← r2, hcon]
    rw [List.map_congr_left hcol, AlmostC1.sum_one_at h.dofs_nodup ((h.dofs_iff r).2 hr.1) (x r)] at h1
    exact h1

private theorem cast_exported (M : Dof P → Dof P → ℚ) (rows : List (Dof P)) (x : Dof P → ℝ) (d : Dof P) :
    exported M rows x d = (rows.map fun r => ((M r d : ℚ) : ℝ) * x r).sum := by
  unfold exported
  simp only [Rat.smul_def]

private theorem sum_swap {α β : Type} (l : List α) (m : List β) (f : α → β → ℝ) :
    (l.map fun a => (m.map fun b => f a b).sum).sum = (m.map fun b => (l.map fun a => f a b).sum).sum := by
  induction l with
  | nil => simp
  | cons a l ih => simp only [List.map_cons, List.sum_cons, ih, List.sum_map_add]

/-- C43 for `gsDPatch`. After the projection at the extraordinary vertices the smooth functions are linearly independent. Assumed about the refinement: it is one-to-one (`hinj`), and the refined functions the
projection does not touch determine the control points 1,1 / 2,1 / 1,2 at the extraordinary vertices (`hfar`). -/
theorem C43_dpatch_independent {T : Topo P} {il : List (PS P × PS P)} {bl : List (PS P)} {vl : List (PC P)} {dl : List (Dof P)} {F : Fine P Q} {tm : Q → Dof P → ℝ}
    {evs : List (List (PC P))} (h : Run T il bl vl dl F tm evs)
    (hinj : ∀ y : Dof P → ℝ, (∀ q, (dl.map fun d => y d * tm q d).sum = 0) → ∀ d ∈ dl, y d = 0)
    (hfar : ∀ y : Dof P → ℝ, (∀ q, (∀ L ∈ evs, ∀ c ∈ L, ∀ s ∈ c.2.sides, q ≠ F.at' c s 0 0 ∧ q ≠ F.at' c s 1 0 ∧ q ≠ F.at' c s 1 1 ∧ q ≠ F.at' c s 2 1 ∧ q ≠ F.at' c s 2 0 ∧
        q ≠ F.at' c s 3 0) → (dl.map fun d => y d * tm q d).sum = 0) →
      ∀ L ∈ evs, ∀ c ∈ L, ∀ s ∈ c.2.sides, y (vert T c s 1 1) = 0 ∧ y (vert T c s 2 1) = 0)
    (ori : PS P → Bool) (opt : ℤ) (ho : opt = 0 ∨ opt = 1) (beta : ℝ) (level : ℕ) {ms : MapSt P} {M' : Mat P Q}
    (hrun : dpatch T il bl vl dl ori F tm opt beta level evs = some (ms, M')) (x : Dof P → ℝ) (hx : ∀ q, point M' (freeOf ms dl) x q = 0) :
    ∀ r ∈ freeOf ms dl, x r = 0 := by
  obtain ⟨ms', st, M'', h1, h2, h3⟩ := C15_local h ori opt ho beta level
  rw [hrun] at h2; cases h2
  have ok := h.setting.ok
  set y : Dof P → ℝ := fun d => exported st.M (freeOf ms dl) x d with hy
  have hsum : ∀ q, (dl.map fun d => y d * tm q d).sum = ((freeOf ms dl).map fun r => (dl.map fun d => ((st.M r d : ℚ) : ℝ) * tm q d).sum * x r).sum := by
    intro q
    simp only [hy, cast_exported]
    have e1 : (dl.map fun d => ((freeOf ms dl).map fun r => ((st.M r d : ℚ) : ℝ) * x r).sum * tm q d) =
        dl.map fun d => ((freeOf ms dl).map fun r => ((st.M r d : ℚ) : ℝ) * tm q d * x r).sum := by
      apply List.map_congr_left
      intro d _
      rw [← List.sum_map_mul_right]
      congr 1
      apply List.map_congr_left
      intro r _
      ring
    rw [e1, sum_swap]
    congr 1
    apply List.map_congr_left
    intro r _
    rw [← List.sum_map_mul_right]
  -- the coefficients of the inner points
  have hin : ∀ L ∈ evs, ∀ c ∈ L, ∀ s ∈ c.2.sides, x (vert T c s 1 1) = 0 ∧ x (vert T c s 2 1) = 0 := by
    intro L hL c hc s hs
    obtain ⟨z1, z2⟩ := hfar y (by
      intro q hq
      rw [hsum]
      have e : ((freeOf ms dl).map fun r => (dl.map fun d => ((st.M r d : ℚ) : ℝ) * tm q d).sum * x r) = (freeOf ms dl).map fun r => M' r q * x r := by
        apply List.map_congr_left
        intro r _
        congr 1
        by_contra hcon
        obtain ⟨L', hL', -, c', hc', s', hs', hq'⟩ := h3 r q (Ne.symm hcon)
        obtain ⟨q1, q2, q3, q4, q5, q6⟩ := hq L' hL' c' hc' s' hs'
        rcases hq' with g | g | g | g | g | g
        · exact q1 g
        · exact q2 g
        · exact q3 g
        · exact q4 g
        · exact q5 g
        · exact q6 g
      rw [e]; exact hx q) L hL c hc s hs
    obtain ⟨v1, v2, -⟩ := DPatch.sum_FDv ok h.setting.dofs_nodup h.setting.dofs_iff x
    constructor
    · rw [vert11 T c hs, av_diag] at z1 ⊢
      rw [← v2 c, ← z1]
      exact (exported_val h.setting h.bdry h1 x (b := .cor c true true) trivial).symm
    · have hv := sid_valid h.six c s 2 (Or.inl rfl) true
      have ev : vert T c s 2 1 = enc T (.sid (c.1, s) true (fromEnd (len T (c.1, s)) (c.2.tang s) 2)) := vert_sid T c s 2 true
      rw [ev] at z2 ⊢
      have := v1 _ hv (by simp)
      simp only [LV] at this
      rw [← this, ← z2]
      exact (exported_val h.setting h.bdry h1 x hv).symm
  have hall : ∀ q, (dl.map fun d => y d * tm q d).sum = 0 := by
    intro q
    rw [hsum]
    have e : ((freeOf ms dl).map fun r => (dl.map fun d => ((st.M r d : ℚ) : ℝ) * tm q d).sum * x r) = (freeOf ms dl).map fun r => M' r q * x r := by
      apply List.map_congr_left
      intro r _
      by_cases hcon : M' r q = (dl.map fun d => ((st.M r d : ℚ) : ℝ) * tm q d).sum
      · rw [hcon]
      · obtain ⟨L', hL', ⟨c', hc', s', hs', hr⟩, -⟩ := h3 r q hcon
        obtain ⟨x1, x2⟩ := hin L' hL' c' hc' s' hs'
        have : x r = 0 := by
          rcases hr with rfl | rfl
          · exact x1
          · exact x2
        rw [this, mul_zero, mul_zero]
    rw [e]; exact hx q
  exact C43_dpatch_coarse h.setting h.bdry h1 x (hinj y hall)

/-! ## Example: three patches with biquadratic splines, uniformly refined -/

private theorem one_dim (g : ℕ → ℝ) (h : ∀ a < 10, ((List.range 6).map fun i => refine a i * g i).sum = 0) : ∀ i < 6, g i = 0 := by
  have h0 := h 0 (by decide)
  have h1 := h 1 (by decide)
  have h2 := h 2 (by decide)
  have h4 := h 4 (by decide)
  have h6 := h 6 (by decide)
  have h9 := h 9 (by decide)
  simp [List.range_succ, refine] at h0 h1 h2 h4 h6 h9
  intro i hi
  rcases (by omega : i = 0 ∨ i = 1 ∨ i = 2 ∨ i = 3 ∨ i = 4 ∨ i = 5) with rfl | rfl | rfl | rfl | rfl | rfl <;> linarith

private theorem one_dim_far (g : ℕ → ℝ) (h : ∀ a, a = 2 ∨ a = 3 → ((List.range 6).map fun i => refine a i * g i).sum = 0) : g 1 = 0 ∧ g 2 = 0 := by
  have h2 := h 2 (Or.inl rfl)
  have h3 := h 3 (Or.inr rfl)
  simp [List.range_succ, refine] at h2 h3
  constructor <;> linarith

private theorem three_inj (y : Dof (Fin 3) → ℝ) (h : ∀ q, ((dofs (threeN 6) [0, 1, 2]).map fun d => y d * refine2 q d).sum = 0) :
    ∀ d ∈ dofs (threeN 6) [0, 1, 2], y d = 0 := by
  intro d hd
  obtain ⟨p, i, j⟩ := d
  have hv := (dofs_iff (threeN 6) [0, 1, 2] (by decide) (p, i, j)).1 hd
  have hi : i < 6 := hv.1
  have hj : j < 6 := hv.2
  refine one_dim (fun j => y (p, i, j)) (fun b hb => ?_) j hj
  refine one_dim (fun i => ((List.range 6).map fun j => refine b j * y (p, i, j)).sum) (fun a ha => ?_) i hi
  have := h (p, a, b)
  rw [sum_dofs] at this
  exact this

private theorem three_far (y : Dof (Fin 3) → ℝ)
    (h : ∀ q, (∀ L ∈ [[((0 : Fin 3), Corner.sw), (1, .sw), (2, .sw)]], ∀ c ∈ L, ∀ s ∈ c.2.sides, q ≠ threeF.at' c s 0 0 ∧ q ≠ threeF.at' c s 1 0 ∧ q ≠ threeF.at' c s 1 1 ∧
      q ≠ threeF.at' c s 2 1 ∧ q ≠ threeF.at' c s 2 0 ∧ q ≠ threeF.at' c s 3 0) → ((dofs (threeN 6) [0, 1, 2]).map fun d => y d * refine2 q d).sum = 0) :
    ∀ L ∈ [[((0 : Fin 3), Corner.sw), (1, .sw), (2, .sw)]], ∀ c ∈ L, ∀ s ∈ c.2.sides, y (vert (threeN 6) c s 1 1) = 0 ∧ y (vert (threeN 6) c s 2 1) = 0 := by
  have key : ∀ p a b, (a = 2 ∨ a = 3) → (b = 2 ∨ b = 3) →
      ((List.range 6).map fun i => refine a i * ((List.range 6).map fun j => refine b j * y (p, i, j)).sum).sum = 0 := by
    intro p a b ha hb
    have := h (p, a, b) (by
      have dec : ∀ p : Fin 3, ∀ a ∈ [2, 3], ∀ b ∈ [2, 3], ∀ L ∈ [[((0 : Fin 3), Corner.sw), (1, .sw), (2, .sw)]], ∀ c ∈ L, ∀ s ∈ c.2.sides,
          (p, a, b) ≠ vert (threeN 10) c s 0 0 ∧ (p, a, b) ≠ vert (threeN 10) c s 1 0 ∧ (p, a, b) ≠ vert (threeN 10) c s 1 1 ∧
          (p, a, b) ≠ vert (threeN 10) c s 2 1 ∧ (p, a, b) ≠ vert (threeN 10) c s 2 0 ∧ (p, a, b) ≠ vert (threeN 10) c s 3 0 := by decide +kernel
      exact dec p a (by simpa using ha) b (by simpa using hb))
    rw [sum_dofs] at this
    exact this
  have z : ∀ p i j, (i = 1 ∨ i = 2) → (j = 1 ∨ j = 2) → y (p, i, j) = 0 := by
    intro p i j hi hj
    have hz : ∀ b, (b = 2 ∨ b = 3) → ((List.range 6).map fun j => refine b j * y (p, i, j)).sum = 0 := by
      intro b hb
      have := one_dim_far (fun i => ((List.range 6).map fun j => refine b j * y (p, i, j)).sum) (fun a ha => key p a b ha hb)
      rcases hi with rfl | rfl
      · exact this.1
      · exact this.2
    have := one_dim_far (fun j => y (p, i, j)) hz
    rcases hj with rfl | rfl
    · exact this.1
    · exact this.2
  intro L hL c hc s hs
  have at1 : ∀ L ∈ [[((0 : Fin 3), Corner.sw), (1, .sw), (2, .sw)]], ∀ c ∈ L, ∀ s ∈ c.2.sides,
      vert (threeN 6) c s 1 1 = (c.1, 1, 1) ∧ (vert (threeN 6) c s 2 1 = (c.1, 1, 2) ∨ vert (threeN 6) c s 2 1 = (c.1, 2, 1)) := by decide +kernel
  obtain ⟨e1, e2⟩ := at1 L hL c hc s hs
  refine ⟨by rw [e1]; exact z _ _ _ (Or.inl rfl) (Or.inl rfl), ?_⟩
  rcases e2 with e | e <;> rw [e]
  · exact z _ _ _ (Or.inl rfl) (Or.inr rfl)
  · exact z _ _ _ (Or.inr rfl) (Or.inl rfl)

example := fun ms M' => C43_dpatch_independent three_run three_inj three_far (fun _ => true) 0 (Or.inl rfl) (2/5) 0 (ms := ms) (M' := M')
example := fun ms st => C43_dpatch_coarse (V := ℚ) DPatch.fan3_setting DPatch.fan3_bval (ms := ms) (st := st)

end Verif.EV
