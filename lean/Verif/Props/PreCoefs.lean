import Verif.Proofs.PreCoefs
import Verif.Proofs.AlmostC1Indep
import Verif.Props.DPatchMap
import Verif.Props.AlmostC1
/-!
# Property C44: what `_preCoefficients` takes from a surface gives the surface back

For a surface that lies in the smooth space (its control points are the export of smooth coefficients `y`), the coefficients taken from it should be `y`, and the export of them the surface.
-/
set_option autoImplicit false
set_option linter.unusedSectionVars false
set_option linter.unusedVariables false
set_option linter.unusedSimpArgs false
namespace Verif.PreCoefs
open Verif Smooth
open _root_.Verif.DPatch (V3 V3_iff V3_same ex ex_spec ex_same AE BVal matched coarse coarse_spec exported_val sum_FDv FD FD_eq fan3 fan3_ok fan3I fan3B fan3V fan3_setting fan3_bval)

variable {P : Type} [LinearOrder P] {V : Type} [AddCommGroup V] [Module ℚ V]

/-- The patch of corner `d` lies at the end of the fan around the vertex: one of its two sides at the corner has no neighbour. -/
def Outer (T : Topo P) (d : PC P) : Prop := ∃ s ∈ d.2.sides, T.nb (d.1, s) = none
instance (T : Topo P) (d : PC P) : Decidable (Outer T d) := by unfold Outer; infer_instance

/-- Control point at the corner, and the one diagonally next to it. -/
def at00 (T : Topo P) (x : Dof P → V) (d : PC P) : V := x (vert T d d.2.uside 0 0)
def at11 (T : Topo P) (x : Dof P → V) (d : PC P) : V := x (vert T d d.2.uside 1 1)

/-- Sum of the diagonal control points over the corners of a vertex that satisfy `p`. -/
def sum11 (T : Topo P) (x : Dof P → V) (p : PC P → Prop) [DecidablePred p] (c : PC P) : V := (((T.cl c).filter fun d => decide (p d)).map (at11 T x)).sum

/-- C44 for `gsSmoothInterfaces`. Every row of the coefficient matrix is written, and a surface in the smooth space is reproduced. -/
theorem C44_smooth_reproduces {T : Topo P} {il : List (PS P × PS P)} {bl : List (PS P)} {vl : List (PC P)} {dl : List (Dof P)} (h : Setting T il bl vl dl)
    {st : St P} (hst : result T il bl vl dl = some st) (x : Dof P → V) :
    ∃ z, (∀ r ∈ freeRows T il bl vl dl, smoothCoefs (computeMapper T il bl vl).elim x dl r = some (z r)) ∧
      ((∃ y, ∀ d ∈ dl, x d = exported st.M (freeRows T il bl vl dl) y d) → ∀ d ∈ dl, exported st.M (freeRows T il bl vl dl) z d = x d) := by
  refine ⟨x, ?_, ?_⟩
  · intro r hr
    unfold freeRows at hr
    rw [List.mem_filter] at hr
    obtain ⟨d, hd, h1, h2⟩ := fill_spec (fun d => if (computeMapper T il bl vl).elim d then none else some d) x r dl
      ⟨r, hr.1, by have := hr.2; simp only [Bool.not_eq_true'] at this; simp [this]⟩
    unfold smoothCoefs
    rw [h2]
    split_ifs at h1 with he
    simp only [Option.some.injEq] at h1
    rw [h1]
  · rintro ⟨y, hy⟩ d hd
    rw [hy d hd]
    have e : ∀ r ∈ freeRows T il bl vl dl, st.M r d • x r = st.M r d • y r := by
      intro r hr
      rw [hy r (List.mem_of_mem_filter hr), (AlmostC1.C43_base_independent h hst y).1 r hr]
    unfold exported
    rw [List.map_congr_left e]

section dpatch
variable {T : Topo P} {il : List (PS P × PS P)} {bl : List (PS P)} {vl : List (PC P)} {dl : List (Dof P)}

private theorem outer_iff (d : PC P) : decide (Outer T d) = B T d := by
  rw [Bool.eq_iff_iff, decide_eq_true_eq]
  unfold Outer B isIface
  simp only [Corner.sides, List.mem_cons, List.not_mem_nil, or_false, exists_eq_or_imp, exists_eq_left, Bool.or_eq_true, Bool.not_eq_true']
  cases T.nb (d.1, d.2.uside) <;> cases T.nb (d.1, d.2.vside) <;> simp

private theorem flat_eq (x : Dof P → V) (c : PC P) : flat T x c = sum11 T x (Outer T) c - sum11 T x (fun d => ¬ Outer T d) c := by
  unfold flat sum11
  induction T.cl c with
  | nil => simp
  | cons d l ih =>
    rw [List.map_cons, List.sum_cons, ih, List.filter_cons, List.filter_cons, decide_not, outer_iff]
    have : at11 T x d = x (enc T (.cor d true true)) := by unfold at11; rw [h11]
    cases B T d <;> simp [this] <;> abel

private theorem split11 (x : Dof P → V) (c : PC P) : sum11 T x (fun _ => True) c = sum11 T x (Outer T) c + sum11 T x (fun d => ¬ Outer T d) c := by
  unfold sum11
  induction T.cl c with
  | nil => simp
  | cons d l ih =>
    simp only [List.filter_cons, decide_true, if_true, decide_not] at ih ⊢
    rw [List.map_cons, List.sum_cons, ih]
    by_cases h : Outer T d <;> simp [h] <;> abel

/-- What `gsDPatch::_preCoefficients` computes: no row is left unwritten and nothing unwritten is read; a function that does not belong to a boundary vertex with three patches has its own control
point; the function of such a vertex has the sum of the diagonal control points of the two outer patches minus the one of the middle patch, if there is a corner of the vertex that is not skipped,
and otherwise the control point of one of the corners. -/
theorem C44_dpatch_coefficients (h : Setting T il bl vl dl) (hb : ∀ c, T.interior c = false → (T.cl c).length ≤ 3) {ms : MapSt P} {st : St P}
    (hst : coarse T il bl vl dl = some (ms, st)) (skip : PC P → Bool) (x : Dof P → V) :
    ∃ st', ∃ z : Dof P → V, dpatchCoefs T ms.elim skip vl x dl = some st' ∧ (∀ r ∈ DPatch.freeOf ms dl, st'.coef r = some (z r)) ∧
      (∀ r ∈ DPatch.freeOf ms dl, (∀ c, T.interior c = false → (T.cl c).length = 3 → r ≠ vert T c c.2.uside 0 0) → z r = x r) ∧
      (∀ c, T.interior c = false → (T.cl c).length = 3 → ∃ r ∈ DPatch.freeOf ms dl, matched T c = some r ∧
        ((∃ d ∈ T.cl c, skip d = false) → z r = sum11 T x (Outer T) c - sum11 T x (fun d => ¬ Outer T d) c) ∧
        ((∀ d ∈ T.cl c, skip d = true) → ∃ d ∈ T.cl c, z r = at00 T x d)) := by
  obtain ⟨ms', st0, e, -, h2, -, -, -, -, -⟩ := coarse_spec h hb
  rw [e] at hst
  cases hst
  have hF : ∀ c, V3 T c = true → fill (rowName T ms.elim) x dl (enc T (.cor c true true)) = some (x (enc T (.cor c true true))) := by
    intro c hc
    refine fill_free h.ok h2 x h.dofs_iff (a := .cor c true true) trivial (AE_11 h.ok h2 c) ?_
    intro c' hc' heq
    obtain ⟨m, hm, hex, -⟩ := ex_spec h.ok c'
    rw [hex] at heq; simp at heq
  obtain ⟨st', g1, g2⟩ := loop h.ok h2 skip x _ hF vl
  have free_v3 : ∀ c, V3 T c = true → enc T (ex T c) ∈ DPatch.freeOf ms dl := by
    intro c hc
    obtain ⟨m, hm, hex, -⟩ := ex_spec h.ok c
    unfold DPatch.freeOf
    rw [List.mem_filter, h.dofs_iff, h2 _ (by rw [hex]; trivial), AE_ex h.ok h2 hc]
    exact ⟨enc_valid h.ok (by rw [hex]; trivial), rfl⟩
  have hrow : ∀ r ∈ DPatch.freeOf ms dl, (∃ c, V3 T c = true ∧ r = enc T (ex T c)) ∨ ((∀ c, V3 T c = true → r ≠ enc T (ex T c)) ∧ st'.coef r = some (x r)) := by
    intro r hr
    unfold DPatch.freeOf at hr
    rw [List.mem_filter, h.dofs_iff] at hr
    obtain ⟨r1, r2⟩ := enc_dec hr.1
    by_cases hc : ∃ c, V3 T c = true ∧ r = enc T (ex T c)
    · exact Or.inl hc
    · have hn : ∀ c, V3 T c = true → r ≠ enc T (ex T c) := fun c hc' heq => hc ⟨c, hc', heq⟩
      refine Or.inr ⟨hn, ?_⟩
      rw [g2.rest r hn, ← r2]
      apply fill_free h.ok h2 x h.dofs_iff r1
      · rw [← h2 _ r1, r2]; simpa using hr.2
      · intro c hc' heq; exact hn c hc' (by rw [← heq, r2])
  have hmet : ∀ c, met T skip vl c = true ↔ ∃ d ∈ T.cl c, skip d = false := by
    intro c; unfold met
    rw [List.any_eq_true]
    constructor
    · rintro ⟨d, -, hd⟩; simp at hd; exact ⟨d, hd.1, hd.2⟩
    · rintro ⟨d, hd, hk⟩; exact ⟨d, h.lists.vl_all d, by simp [hd, hk]⟩
  have some_all : ∀ r ∈ DPatch.freeOf ms dl, ∃ v, st'.coef r = some v := by
    intro r hr
    rcases hrow r hr with ⟨c, hc, rfl⟩ | ⟨-, he⟩
    · rw [g2.v3 c hc]
      split_ifs
      · exact ⟨_, rfl⟩
      · obtain ⟨d, -, hd⟩ := fill_v3 h.ok h2 x h.dofs_iff hc
        exact ⟨_, hd⟩
    · exact ⟨_, he⟩
  have hz : ∀ r ∈ DPatch.freeOf ms dl, st'.coef r = some ((st'.coef r).getD 0) := by
    intro r hr; obtain ⟨v, hv⟩ := some_all r hr; rw [hv]; rfl
  refine ⟨st', fun r => (st'.coef r).getD 0, g1, hz, ?_, ?_⟩
  · intro r hr hn
    rcases hrow r hr with ⟨c, hc, rfl⟩ | ⟨-, he⟩
    · obtain ⟨m, hm, hex, -⟩ := ex_spec h.ok c
      have hvm : V3 T m = true := by rw [V3_same h.ok hm]; exact hc
      have := hn m ((V3_iff m).1 hvm).1 ((V3_iff m).1 hvm).2
      rw [h00, hex] at this
      exact absurd rfl this
    · simp only [he]; rfl
  · intro c hi h3
    have hv : V3 T c = true := (V3_iff c).2 ⟨hi, h3⟩
    obtain ⟨m, hm, hex, hmat⟩ := ex_spec h.ok c
    refine ⟨_, free_v3 c hv, hmat, ?_, ?_⟩
    · intro hd
      simp only [g2.v3 c hv]
      rw [if_pos ((hmet c).2 hd), flat_eq]
      rfl
    · intro hd
      obtain ⟨d, hd', hf⟩ := fill_v3 h.ok h2 x h.dofs_iff hv
      refine ⟨d, hd', ?_⟩
      simp only [g2.v3 c hv]
      rw [if_neg, hf]
      · unfold at00; rw [h00]; rfl
      · rw [hmet]; rintro ⟨d, hd1, hd2⟩; rw [hd d hd1] at hd2; cases hd2

private theorem val_free (h : Setting T il bl vl dl) (hb : ∀ c, T.interior c = false → (T.cl c).length ≤ 3) {ms : MapSt P} {st : St P}
    (hst : coarse T il bl vl dl = some (ms, st)) (y : Dof P → V) {a : ADof P} (ha : AValid T a) (hf : AE T a = false) (hne : ∀ c, V3 T c = true → a ≠ ex T c) :
    exported st.M (DPatch.freeOf ms dl) y (enc T a) = y (enc T a) := by
  rw [exported_val h hb hst y ha]
  have hcol : ∀ r ∈ dl, FD T (dec T r) a • y r = if r = enc T a then y (enc T a) else 0 := by
    intro r hr
    obtain ⟨v1, v2⟩ := enc_dec ((h.dofs_iff r).1 hr)
    have hi : FD T (dec T r) a = ind (dec T r) a := by
      by_cases hc : ∀ c k l, a = .cor c k l → V3 T c = false
      · rw [FD_eq _ _ hc, Wa_free _ _ (by rw [← DPatch.AE_eq _ hc]; exact hf)]
      · simp only [not_forall, Bool.not_eq_false] at hc
        obtain ⟨c, k, l, rfl, hv⟩ := hc
        cases k <;> cases l
        · simp only [AE, hv, if_true, ne_eq, decide_not, Bool.not_eq_false', decide_eq_true_eq] at hf
          exact absurd hf (hne c hv)
        · simp [AE, hv] at hf
        · simp [AE, hv] at hf
        · rfl
    rw [hi]
    by_cases he : r = enc T a
    · subst he; rw [dec_enc h.ok ha, ind_self, if_pos rfl, one_smul]
    · rw [ind_ne, if_neg he, zero_smul]
      intro hcon; apply he; rw [← v2, hcon]
  rw [List.map_congr_left hcol]
  exact AlmostC1.sum_one_at h.dofs_nodup ((h.dofs_iff _).2 (enc_valid h.ok ha)) _

/-- C44 for the coarse space of `gsDPatch`: a surface in the smooth space is reproduced if and only if, at every boundary vertex with three patches, its corner control point is the midpoint of the
diagonal control points of the two outer patches (and, if all corners of the vertex are skipped, a third of the sum of the three diagonal control points). -/
theorem C44_dpatch_reproduces_iff (h : Setting T il bl vl dl) (hb : ∀ c, T.interior c = false → (T.cl c).length ≤ 3) {ms : MapSt P} {st : St P}
    (hst : coarse T il bl vl dl = some (ms, st)) (skip : PC P → Bool) (x y : Dof P → V) (hx : ∀ d ∈ dl, x d = exported st.M (DPatch.freeOf ms dl) y d) :
    ∃ st', ∃ z : Dof P → V, dpatchCoefs T ms.elim skip vl x dl = some st' ∧ (∀ r ∈ DPatch.freeOf ms dl, st'.coef r = some (z r)) ∧
      ((∀ d ∈ dl, exported st.M (DPatch.freeOf ms dl) z d = x d) ↔
        ∀ c, T.interior c = false → (T.cl c).length = 3 →
          ((∃ d ∈ T.cl c, skip d = false) → at00 T x c = (1 / 2 : ℚ) • sum11 T x (Outer T) c) ∧
          ((∀ d ∈ T.cl c, skip d = true) → at00 T x c = (1 / 3 : ℚ) • sum11 T x (fun _ => True) c)) := by
  obtain ⟨st', z, g1, g2, g3, g4⟩ := C44_dpatch_coefficients h hb hst skip x
  refine ⟨st', z, g1, g2, ?_⟩
  have hval : ∀ a, AValid T a → enc T a ∈ dl := fun a ha => (h.dofs_iff _).2 (enc_valid h.ok ha)
  obtain ⟨ms', st0, e, -, h2, -, -, -, -, -⟩ := coarse_spec h hb
  rw [e] at hst
  cases hst
  have x11 : ∀ d : PC P, x (enc T (.cor d true true)) = y (enc T (.cor d true true)) := by
    intro d
    rw [hx _ (hval (.cor d true true) trivial)]
    refine val_free h hb e y (a := .cor d true true) trivial (AE_11 h.ok h2 d) ?_
    intro c hc heq
    obtain ⟨m, hm, hex, -⟩ := ex_spec h.ok c
    rw [hex] at heq; simp at heq
  -- rows that are not rows of vertices with three patches
  have zrow : ∀ r ∈ DPatch.freeOf ms dl, (∀ c, V3 T c = true → r ≠ enc T (ex T c)) → z r = y r := by
    intro r hr hn
    have hr' := hr
    unfold DPatch.freeOf at hr'
    rw [List.mem_filter, h.dofs_iff] at hr'
    obtain ⟨r1, r2⟩ := enc_dec hr'.1
    have hae : AE T (dec T r) = false := by rw [← h2 _ r1, r2]; simpa using hr'.2
    have hne : ∀ c, V3 T c = true → dec T r ≠ ex T c := fun c hc heq => hn c hc (by rw [← heq, r2])
    rw [g3 r hr, ← r2, hx _ (hval _ r1), val_free h hb e y r1 hae hne]
    intro c hi h3 heq
    have hv : V3 T c = true := (V3_iff c).2 ⟨hi, h3⟩
    rw [h00] at heq
    have : dec T r = .cor c false false := by rw [heq, dec_enc h.ok (x := .cor c false false) trivial]
    rw [this] at hae hne
    simp only [AE, hv, if_true, ne_eq, decide_not, Bool.not_eq_false', decide_eq_true_eq] at hae
    exact hne c hv hae
  have sum_all : ∀ (w : Dof P → V) c, ((T.cl c).map fun d => w (enc T (.cor d true true))).sum = sum11 T w (fun _ => True) c := by
    intro w c; unfold sum11 at11; simp only [decide_true, List.filter_true, h11]
  have s11 : ∀ c, sum11 T x (fun _ => True) c = sum11 T y (fun _ => True) c := by
    intro c; rw [← sum_all, ← sum_all]; simp only [x11]
  have z11 : ∀ c : PC P, z (enc T (.cor c true true)) = y (enc T (.cor c true true)) := by
    intro c
    apply zrow
    · unfold DPatch.freeOf
      rw [List.mem_filter, h2 (.cor c true true) trivial, AE_11 h.ok h2 c]
      exact ⟨hval (.cor c true true) trivial, rfl⟩
    · intro c' hc' heq
      obtain ⟨m, hm, hex, -⟩ := ex_spec h.ok c'
      have := congrArg (dec T) heq
      rw [hex, dec_enc h.ok (x := .cor c true true) trivial, dec_enc h.ok (x := .cor m false false) trivial] at this
      simp at this
  have corner : ∀ (w : Dof P → V) c, V3 T c = true → exported st.M (DPatch.freeOf ms dl) w (enc T (.cor c false false)) =
      (1 / 4 : ℚ) • (sum11 T w (fun _ => True) c + w (enc T (ex T c))) := by
    intro w c hc
    rw [exported_val h hb e w (b := .cor c false false) trivial, (sum_FDv h.ok h.dofs_nodup h.dofs_iff w).2.2.2.2 c hc, sum_all]
  have hzs : ∀ c, sum11 T z (fun _ => True) c = sum11 T y (fun _ => True) c := by
    intro c; rw [← sum_all, ← sum_all]; simp only [z11]
  have x00 : ∀ c, V3 T c = true → at00 T x c = (1 / 4 : ℚ) • (sum11 T x (fun _ => True) c + y (enc T (ex T c))) := by
    intro c hc; unfold at00; rw [h00, hx _ (hval (.cor c false false) trivial), corner y c hc, s11]
  -- coefficient equal at the vertex
  have key : ∀ c, V3 T c = true → (z (enc T (ex T c)) = y (enc T (ex T c)) ↔
      (((∃ d ∈ T.cl c, skip d = false) → at00 T x c = (1 / 2 : ℚ) • sum11 T x (Outer T) c) ∧
          ((∀ d ∈ T.cl c, skip d = true) → at00 T x c = (1 / 3 : ℚ) • sum11 T x (fun _ => True) c))) := by
    intro c hc
    obtain ⟨r, hr, hm, k1, k2⟩ := g4 c ((V3_iff c).1 hc).1 ((V3_iff c).1 hc).2
    obtain ⟨m, hmm, hex, hmat⟩ := ex_spec h.ok c
    rw [hmat] at hm
    cases hm
    have hy : y (enc T (ex T c)) = (4 : ℚ) • at00 T x c - sum11 T x (fun _ => True) c := by rw [x00 c hc]; module
    by_cases hs : ∃ d ∈ T.cl c, skip d = false
    · have hs' : ¬ ∀ d ∈ T.cl c, skip d = true := by
        obtain ⟨d, h1, h2⟩ := hs
        intro g; rw [g d h1] at h2; cases h2
      rw [k1 hs, hy, split11]
      constructor
      · intro g
        refine ⟨fun _ => ?_, fun g => absurd g hs'⟩
        have : at00 T x c = (1 / 4 : ℚ) • ((4 : ℚ) • at00 T x c - (sum11 T x (Outer T) c + sum11 T x (fun d => ¬ Outer T d) c)
            + (sum11 T x (Outer T) c + sum11 T x (fun d => ¬ Outer T d) c)) := by module
        rw [this, ← g]; module
      · rintro ⟨g, -⟩
        rw [g hs]; module
    · have hs' : ∀ d ∈ T.cl c, skip d = true := by
        intro d hd; by_contra g; exact hs ⟨d, hd, by simpa using g⟩
      obtain ⟨d, hd, hz⟩ := k2 hs'
      have hvd : V3 T d = true := by rw [V3_same h.ok hd]; exact hc
      have hperm : (T.cl d).Perm (T.cl c) := (List.perm_ext_iff_of_nodup (h.ok.cl_nodup d) (h.ok.cl_nodup c)).2 (h.ok.cl_same c d hd)
      have hsame : at00 T x d = at00 T x c := by
        rw [x00 d hvd, x00 c hc, ex_same h.ok hd, ← sum_all, ← sum_all, (hperm.map _).sum_eq]
      rw [hz, hsame, hy]
      constructor
      · intro g
        refine ⟨fun g => absurd g hs, fun _ => ?_⟩
        have : at00 T x c = (1 / 3 : ℚ) • ((4 : ℚ) • at00 T x c - at00 T x c) := by module
        rw [this]
        congr 1
        nth_rewrite 2 [g]
        module
      · rintro ⟨-, g⟩
        rw [g hs']; module
  have hz : (∀ c, V3 T c = true → z (enc T (ex T c)) = y (enc T (ex T c))) ↔ ∀ d ∈ dl, exported st.M (DPatch.freeOf ms dl) z d = x d := by
    constructor
    · intro hk d hd
      rw [hx d hd]
      unfold exported
      congr 1
      apply List.map_congr_left
      intro r hr
      by_cases hc : ∃ c, V3 T c = true ∧ r = enc T (ex T c)
      · obtain ⟨c, hc, rfl⟩ := hc; rw [hk c hc]
      · rw [zrow r hr (fun c hc' heq => hc ⟨c, hc', heq⟩)]
    · intro hk c hc
      have := hk _ (hval (.cor c false false) trivial)
      rw [corner z c hc, hx _ (hval (.cor c false false) trivial), corner y c hc, hzs] at this
      have h4 : (1 / 4 : ℚ) ≠ 0 := by norm_num
      have := smul_right_injective V h4 this
      exact add_left_cancel this
  rw [← hz]
  constructor
  · intro hk c hi h3; exact (key c ((V3_iff c).2 ⟨hi, h3⟩)).1 (hk c ((V3_iff c).2 ⟨hi, h3⟩))
  · intro hk c hc; exact (key c hc).2 (hk c ((V3_iff c).1 hc).1 ((V3_iff c).1 hc).2)

/-- C44, partial: without boundary vertices of three patches every surface in the smooth space is reproduced by the coarse space of `gsDPatch`. (With such vertices it is not: `C44_dpatch_violation`.) -/
theorem C44_dpatch_reproduces_partial (h : Setting T il bl vl dl) (hb : ∀ c, T.interior c = false → (T.cl c).length ≤ 2) {ms : MapSt P} {st : St P}
    (hst : coarse T il bl vl dl = some (ms, st)) (x y : Dof P → V) (hx : ∀ d ∈ dl, x d = exported st.M (DPatch.freeOf ms dl) y d) :
    ∃ st', ∃ z : Dof P → V, dpatchCoefs T ms.elim (skipTest T vl) vl x dl = some st' ∧ (∀ r ∈ DPatch.freeOf ms dl, st'.coef r = some (z r)) ∧
      ∀ d ∈ dl, exported st.M (DPatch.freeOf ms dl) z d = x d := by
  obtain ⟨st', z, h1, h2, h3⟩ := C44_dpatch_reproduces_iff h (fun c hc => by have := hb c hc; omega) hst (skipTest T vl) x y hx
  refine ⟨st', z, h1, h2, h3.2 ?_⟩
  intro c hi hl
  have := hb c hi
  omega

end dpatch

/-- C44: the test meant to exempt vertices marked C0 (`gsDPatch.hpp:99`) does not: it holds exactly at south-west corners, and only if any vertex at all is marked. -/
theorem C44_c0_test (T : Topo P) (vl : List (PC P)) (hv : ∀ c, c ∈ vl) (c : PC P) : skipTest T vl c = true ↔ c.2 = .sw ∧ ∃ d, T.c0 d = true := by
  unfold skipTest countC0
  rw [decide_eq_true_eq, ← Nat.pos_iff_ne_zero, List.countP_pos_iff]
  constructor
  · rintro ⟨b, hb, he⟩
    rw [List.mem_map] at hb
    obtain ⟨d, -, rfl⟩ := hb
    rw [decide_eq_true_eq] at he
    obtain ⟨p, k⟩ := c
    cases hd : T.c0 d <;> rw [hd] at he <;> cases k <;> simp [Corner.idx] at he ⊢
    exact ⟨d.1, d.2, hd⟩
  · rintro ⟨h1, d, hd⟩
    exact ⟨true, List.mem_map.2 ⟨d, hv d, hd⟩, by rw [h1]; rfl⟩

/-- The smooth function of the common vertex of `fan3`, as a surface. -/
def peak (r : Dof (Fin 3)) : ℚ := if r = (0, 0, 0) then 1 else 0

/-- C44 is violated: the smooth function of the vertex of `fan3`, taken as a surface, has the control point 1/4 at the vertex; the surface exported from the coefficients taken from it has 0. -/
theorem C44_dpatch_violation : ∃ ms st st', ∃ z : Dof (Fin 3) → ℚ, coarse fan3 fan3I fan3B fan3V (dofs fan3 [0, 1, 2]) = some (ms, st) ∧
    dpatchCoefs fan3 ms.elim (skipTest fan3 fan3V) fan3V (exported st.M (DPatch.freeOf ms (dofs fan3 [0, 1, 2])) peak) (dofs fan3 [0, 1, 2]) = some st' ∧
    (∀ r ∈ DPatch.freeOf ms (dofs fan3 [0, 1, 2]), st'.coef r = some (z r)) ∧
    exported st.M (DPatch.freeOf ms (dofs fan3 [0, 1, 2])) peak (0, 0, 0) = 1 / 4 ∧ exported st.M (DPatch.freeOf ms (dofs fan3 [0, 1, 2])) z (0, 0, 0) = 0 := by
  obtain ⟨ms, st, e, -, h2, -, -, -, -, -⟩ := coarse_spec fan3_setting fan3_bval
  set x := exported st.M (DPatch.freeOf ms (dofs fan3 [0, 1, 2])) peak with hx
  obtain ⟨st', z, g1, g2, g3, g4⟩ := C44_dpatch_coefficients fan3_setting fan3_bval e (skipTest fan3 fan3V) x
  have hv : V3 fan3 (0, .sw) = true := by decide
  have hex : ex fan3 (0, .sw) = .cor (0, .sw) false false := by decide +kernel
  have e00 : enc fan3 (.cor (0, .sw) false false) = (0, 0, 0) := by decide
  have hcl : fan3.cl (0, .sw) = [(0, .sw), (1, .sw), (2, .sw)] := by decide
  have x11 : ∀ p : Fin 3, x (enc fan3 (.cor (p, .sw) true true)) = 0 := by
    intro p
    rw [hx, exported_val fan3_setting fan3_bval e peak (b := .cor (p, .sw) true true) trivial,
      (sum_FDv fan3_setting.ok fan3_setting.dofs_nodup fan3_setting.dofs_iff peak).2.1]
    revert p
    decide
  have corner : ∀ w : Dof (Fin 3) → ℚ, exported st.M (DPatch.freeOf ms (dofs fan3 [0, 1, 2])) w (0, 0, 0) =
      (1 / 4 : ℚ) • (w (enc fan3 (.cor (0, .sw) true true)) + (w (enc fan3 (.cor (1, .sw) true true)) + (w (enc fan3 (.cor (2, .sw) true true)) + 0)) + w (0, 0, 0)) := by
    intro w
    have := (exported_val fan3_setting fan3_bval e w (b := .cor (0, .sw) false false) trivial).trans
      ((sum_FDv fan3_setting.ok fan3_setting.dofs_nodup fan3_setting.dofs_iff w).2.2.2.2 (0, .sw) hv)
    rw [e00, hcl, hex, e00] at this
    exact this
  have z11 : ∀ p : Fin 3, z (enc fan3 (.cor (p, .sw) true true)) = 0 := by
    intro p
    rw [g3, x11]
    · unfold DPatch.freeOf
      rw [List.mem_filter, h2 (.cor (p, .sw) true true) trivial, AE_11 fan3_ok h2]
      exact ⟨(fan3_setting.dofs_iff _).2 (enc_valid fan3_ok (x := .cor (p, .sw) true true) trivial), rfl⟩
    · intro c _ _ heq
      rw [h00] at heq
      have := congrArg (dec fan3) heq
      rw [dec_enc fan3_ok (x := .cor (p, .sw) true true) trivial, dec_enc fan3_ok (x := .cor c false false) trivial] at this
      simp at this
  refine ⟨ms, st, st', z, e, g1, g2, ?_, ?_⟩
  · rw [corner]
    have : ∀ p : Fin 3, peak (enc fan3 (.cor (p, .sw) true true)) = 0 := by decide
    rw [this, this, this]
    norm_num [peak]
  · rw [corner, z11, z11, z11]
    obtain ⟨r, hr, hm, k1, -⟩ := g4 (0, .sw) (by decide) (by decide)
    have hm' : matched fan3 (0, .sw) = some (0, 0, 0) := by decide +kernel
    rw [hm'] at hm
    cases hm
    rw [k1 ⟨(0, .sw), by decide, by decide +kernel⟩]
    have s0 : ∀ (p : PC (Fin 3) → Prop) [DecidablePred p], sum11 fan3 x p (0, .sw) = 0 := by
      intro p _
      unfold sum11
      apply List.sum_eq_zero
      intro v hv
      rw [List.mem_map] at hv
      obtain ⟨d, hd, rfl⟩ := hv
      have hd' := List.mem_of_mem_filter hd
      rw [hcl] at hd'
      have : d.2 = .sw := by
        simp only [List.mem_cons, List.not_mem_nil, or_false] at hd'
        rcases hd' with rfl | rfl | rfl <;> rfl
      obtain ⟨p, k⟩ := d
      simp only at this
      subst this
      unfold at11
      rw [h11]; exact x11 p
    rw [s0, s0]; norm_num

/-! ## Examples -/

/-- `fan3` with the vertex north-east of patch 0 marked C0. -/
def fan3m : Topo (Fin 3) := { fan3 with c0 := fun c => decide (c = (0, .ne)) }

/-- The vertex common to the three patches is not marked, and yet skipped at all its corners. -/
example : fan3m.c0 (0, .sw) = false ∧ ∀ d ∈ fan3m.cl (0, .sw), skipTest fan3m fan3V d = true := by decide +kernel

/-- Reproduction on two patches with an interface: the hypotheses hold. -/
example (mark : Bool) (y : Dof Bool → ℚ) : ∃ st, result (two mark) twoI twoB (corners [true, false]) (dofs (two mark) [false, true]) = some st ∧
    ∃ z, (∀ r ∈ freeRows (two mark) twoI twoB (corners [true, false]) (dofs (two mark) [false, true]),
      smoothCoefs (computeMapper (two mark) twoI twoB (corners [true, false])).elim
        (exported st.M (freeRows (two mark) twoI twoB (corners [true, false]) (dofs (two mark) [false, true])) y) (dofs (two mark) [false, true]) r = some (z r)) ∧
      ∀ d ∈ dofs (two mark) [false, true], exported st.M (freeRows (two mark) twoI twoB (corners [true, false]) (dofs (two mark) [false, true])) z d =
        exported st.M (freeRows (two mark) twoI twoB (corners [true, false]) (dofs (two mark) [false, true])) y d := by
  obtain ⟨st, h1, -⟩ := C08_partition_of_unity (two_setting mark)
  obtain ⟨z, h2, h3⟩ := C44_smooth_reproduces (V := ℚ) (two_setting mark) h1 (exported st.M (freeRows (two mark) twoI twoB (corners [true, false]) (dofs (two mark) [false, true])) y)
  exact ⟨st, h1, z, h2, h3 ⟨y, fun _ _ => rfl⟩⟩

/-- Boundary vertices with at most two patches: `three` with its interior vertex of three patches. -/
example : ∃ ms st, coarse three threeI threeB threeV (dofs three [0, 1, 2]) = some (ms, st) ∧ ∀ y : Dof (Fin 3) → ℚ, ∃ st', ∃ z : Dof (Fin 3) → ℚ,
    dpatchCoefs three ms.elim (skipTest three threeV) threeV (exported st.M (DPatch.freeOf ms (dofs three [0, 1, 2])) y) (dofs three [0, 1, 2]) = some st' ∧
    (∀ r ∈ DPatch.freeOf ms (dofs three [0, 1, 2]), st'.coef r = some (z r)) ∧
    ∀ d ∈ dofs three [0, 1, 2], exported st.M (DPatch.freeOf ms (dofs three [0, 1, 2])) z d = exported st.M (DPatch.freeOf ms (dofs three [0, 1, 2])) y d := by
  obtain ⟨ms, st, e, -⟩ := coarse_spec three_setting (by unfold BVal; decide)
  exact ⟨ms, st, e, fun y => C44_dpatch_reproduces_partial three_setting (by decide) e _ y (fun _ _ => rfl)⟩

end Verif.PreCoefs
