import Verif.Proofs.DPatchChain
import Verif.Props.Smooth
/-!
# Properties C08 – C11 for the coarse space of `gsDPatch`

Mapper and smoothing matrix of `gsDPatch` before the step at extraordinary vertices (`coarse`). Boundary vertices with more than three patches are not supported by the code
(`C11_dpatch_valence_error`).
-/
set_option autoImplicit false
set_option linter.unusedSectionVars false
set_option linter.unusedVariables false
set_option linter.unusedSimpArgs false
namespace Verif.DPatch
open Verif Smooth

variable {P : Type} [LinearOrder P] {V : Type} [AddCommGroup V] [Module ℚ V]

/-- The smooth functions: the local functions the mapper did not eliminate; the functions matched with each other count once. -/
def freeOf (ms : MapSt P) (dl : List (Dof P)) : List (Dof P) := dl.filter fun d => ! ms.elim d

/-- `_computeMapper` and `_computeSmoothMatrix` of `gsDPatch`, `gsDPatchBase.hpp:1182-1262`. -/
def coarse (T : Topo P) (il : List (PS P × PS P)) (bl : List (PS P)) (vl : List (PC P)) (dl : List (Dof P)) : Option (MapSt P × St P) := do
  let ms ← computeMapper T il bl vl
  let st ← smoothMatrix T ms.elim il bl vl dl
  pure (ms, st)

theorem ae_ne {T : Topo P} : ∀ a, isCor a = false → AE T a = AElim T a := by
  intro a ha; cases a <;> simp [isCor] at ha <;> rfl

/-- What the two phases compute. -/
theorem coarse_spec {T : Topo P} {il : List (PS P × PS P)} {bl : List (PS P)} {vl : List (PC P)} {dl : List (Dof P)} (h : Setting T il bl vl dl) (hb : BVal T) :
    ∃ ms st, coarse T il bl vl dl = some (ms, st) ∧ computeMapper T il bl vl = some ms ∧ (∀ a, AValid T a → ms.elim (enc T a) = AE T a) ∧
      (∀ r c, st.M r c = if valid T r ∧ valid T c then FD T (dec T r) (dec T c) else 0) ∧
      (∀ r, st.bchk r = true ↔ valid T r ∧ ms.elim r = false) ∧ (∀ c, st.vchk c = true) ∧ (∀ s, st.schk s = true) ∧
      (∀ a b, AValid T a → AValid T b → FD T a b ≠ 0 → AE T a = false) := by
  obtain ⟨ms, h1, h2⟩ := mapperG_elim h.ok ae_ne (rule_ok h.ok hb) h.lists
  obtain ⟨st, g1, g2, g3, g4, g5, g6⟩ := closed_formG h.ok (vertOk h.ok hb) h.lists h.dofs_iff h2
  have h1' : computeMapper T il bl vl = some ms := h1
  have g1' : smoothMatrix T ms.elim il bl vl dl = some st := g1
  refine ⟨ms, st, ?_, h1, h2, g2, g3, g4, g5, fun a b ha hb' hne => (g6 a b ha hb' hne).1⟩
  unfold coarse
  rw [h1']
  simp only [Option.bind_eq_bind, Option.bind_some, g1', Option.pure_def]

theorem exported_val {T : Topo P} {il : List (PS P × PS P)} {bl : List (PS P)} {vl : List (PC P)} {dl : List (Dof P)} (h : Setting T il bl vl dl) (hb : BVal T)
    {ms : MapSt P} {st : St P} (hst : coarse T il bl vl dl = some (ms, st)) (x : Dof P → V) {b : ADof P} (hb' : AValid T b) :
    exported st.M (freeOf ms dl) x (enc T b) = (dl.map fun r => FD T (dec T r) b • x r).sum := by
  obtain ⟨ms', st', e, -, h2, g2, -, -, -, g6⟩ := coarse_spec h hb
  rw [e] at hst
  cases hst
  unfold exported freeOf
  rw [sum_filter_zero]
  · congr 1
    apply List.map_congr_left
    intro r hr
    rw [g2, if_pos ⟨(h.dofs_iff r).1 hr, enc_valid h.ok hb'⟩, dec_enc h.ok hb']
  · intro r hr he
    have hr' := (h.dofs_iff r).1 hr
    obtain ⟨r1, r2⟩ := enc_dec hr'
    rw [g2, if_pos ⟨hr', enc_valid h.ok hb'⟩, dec_enc h.ok hb']
    by_cases hw : FD T (dec T r) b = 0
    · rw [hw, zero_smul]
    · have := g6 _ _ r1 hb' hw
      rw [← h2 _ r1, r2] at this
      rw [this] at he; simp at he

/-! ## C11 -/

/-- C11 for `gsDPatch`. If no boundary vertex has more than three patches, `_computeMapper` does not stop with an error, and the size computed by `_countDoFs` is the number of smooth functions. -/
theorem C11_dpatch_count {T : Topo P} {il : List (PS P × PS P)} {bl : List (PS P)} {vl : List (PC P)} {dl : List (Dof P)} (h : Setting T il bl vl dl)
    (hb : ∀ c, T.interior c = false → (T.cl c).length ≤ 3) {pl : List P} (hpn : pl.Nodup) (hpl : ∀ p, p ∈ pl)
    (hil : (il.map Prod.fst ++ il.map Prod.snd).Nodup) (hbl : bl.Nodup) :
    ∃ ms, computeMapper T il bl vl = some ms ∧ countDofs T pl il bl vl = (freeOf ms dl).length := by
  obtain ⟨ms, h1, h2⟩ := mapperG_elim h.ok ae_ne (rule_ok h.ok hb) h.lists
  refine ⟨ms, h1, ?_⟩
  exact (countG_eq h.ok ae_ne (vertexCountG_eq h.ok hb) hpn hpl h.dofs_nodup h.dofs_iff h.lists hil hbl h2).symm

/-- C11 for `gsDPatch`, the limit: with a boundary vertex of more than three patches `_computeMapper` stops with an error, whatever the order of the loops. -/
theorem C11_dpatch_valence_error {T : Topo P} (ok : Ok T) {il : List (PS P × PS P)} {bl : List (PS P)} {vl : List (PC P)} {c : PC P} (hc : c ∈ vl)
    (hi : T.interior c = false) (h4 : 3 < (T.cl c).length) : computeMapper T il bl vl = none := by
  have key : ∀ (vl : List (PC P)) (st : MapSt P), c ∈ vl → st.vchk c = false → vl.foldlM (vertMapG (vertElim T)) st = none := by
    intro vl
    induction vl with
    | nil => intro st h; simp at h
    | cons d vl ih =>
      intro st hm hv
      rw [List.foldlM_cons]
      by_cases hdc : d ∈ T.cl c
      · by_cases hd : d = c
        · subst hd
          have hr : vertElim T d = none := by
            unfold vertElim
            have e1 : (T.cl d).length ≠ 1 := by omega
            have e2 : (T.cl d).length ≠ 2 := by omega
            have e3 : (T.cl d).length ≠ 3 := by omega
            simp only [hi, Bool.false_eq_true, not_false_eq_true, true_and, e1, e2, e3, if_false, false_and, h4, gt_iff_lt, if_true]
          simp only [vertMapG, hv, hr, Bool.false_eq_true, if_false, Option.map_none, Option.bind_eq_bind, Option.bind_none]
        · have hm' : c ∈ vl := by
            rcases List.mem_cons.1 hm with h | h
            · exact absurd h.symm hd
            · exact h
          have hl : (T.cl d).length = (T.cl c).length := cl_len ok hdc
          have hid : T.interior d = false := by rw [interior_same ok hdc]; exact hi
          have hr : vertElim T d = none := by
            unfold vertElim
            rw [hl, hid]
            have e1 : (T.cl c).length ≠ 1 := by omega
            have e2 : (T.cl c).length ≠ 2 := by omega
            have e3 : (T.cl c).length ≠ 3 := by omega
            simp only [Bool.false_eq_true, not_false_eq_true, true_and, e1, e2, e3, if_false, false_and, h4, gt_iff_lt, if_true]
          cases hvd : st.vchk d
          · simp only [vertMapG, hvd, hr, Bool.false_eq_true, if_false, Option.map_none, Option.bind_eq_bind, Option.bind_none]
          · simp only [vertMapG, hvd, if_true, Option.bind_eq_bind, Option.bind_some]
            exact ih st hm' hv
      · have hne : c ≠ d := by rintro rfl; exact hdc (ok.cl_self c)
        have hm' : c ∈ vl := by
          rcases List.mem_cons.1 hm with h | h
          · exact absurd h hne
          · exact h
        cases hvd : st.vchk d
        · rcases hr : vertElim T d with _ | r
          · simp only [vertMapG, hvd, hr, Bool.false_eq_true, if_false, Option.map_none, Option.bind_eq_bind, Option.bind_none]
          · simp only [vertMapG, hvd, hr, Bool.false_eq_true, if_false, Option.map_some, Option.bind_eq_bind, Option.bind_some]
            apply ih _ hm'
            have hnot : c ∉ r.2 := by
              intro hcr
              have : r.2 = [] ∨ r.2 = T.cl d := by
                unfold vertElim at hr
                dsimp only at hr
                split_ifs at hr <;> cases hr <;> simp
              rcases this with h | h
              · rw [h] at hcr; simp at hcr
              · rw [h] at hcr; exact hdc (AlmostC1.cl_symm ok hcr)
            simp [hne, hnot, hv]
        · simp only [vertMapG, hvd, if_true, Option.bind_eq_bind, Option.bind_some]
          exact ih st hm' hv
  have h1 : ∀ (il : List (PS P × PS P)) (st : MapSt P), (il.foldl (ifaceMap T) st).vchk = st.vchk := by
    intro il
    induction il with
    | nil => intro st; rfl
    | cons i il ih => intro st; rw [List.foldl_cons, ih]; unfold ifaceMap ifaceMapSide; split_ifs <;> rfl
  have h2 : ∀ (bl : List (PS P)) (st : MapSt P), (bl.foldl bdryMap st).vchk = st.vchk := by
    intro bl
    induction bl with
    | nil => intro st; rfl
    | cons i bl ih => intro st; rw [List.foldl_cons, ih]; rfl
  unfold computeMapper computeMapperG
  apply key vl _ hc
  rw [h2, h1]

/-! ## C08, C09 -/

/-- C08, C09 for `gsDPatch`. If no boundary vertex has more than three patches, the coarse smoothing matrix is computed without error; the weights of every local function are non-negative and sum to
one over the smooth functions; entries lie in rows of smooth functions and columns of local functions; exactly the smooth functions are marked as handled and the final checks succeed. -/
theorem C08_dpatch_coarse {T : Topo P} {il : List (PS P × PS P)} {bl : List (PS P)} {vl : List (PC P)} {dl : List (Dof P)} (h : Setting T il bl vl dl)
    (hb : ∀ c, T.interior c = false → (T.cl c).length ≤ 3) :
    ∃ ms st, coarse T il bl vl dl = some (ms, st) ∧
      (∀ c, valid T c → ((freeOf ms dl).map fun r => st.M r c).sum = 1) ∧ (∀ r c, 0 ≤ st.M r c) ∧
      (∀ r c, st.M r c ≠ 0 → r ∈ freeOf ms dl ∧ c ∈ dl) ∧ (∀ r, st.bchk r = true ↔ r ∈ freeOf ms dl) ∧
      ∀ sl cl, performChecks st sl cl (freeOf ms dl) = true := by
  obtain ⟨ms, st, e, -, h2, g2, g3, g4, g5, g6⟩ := coarse_spec h hb
  have hfree : ∀ r, r ∈ freeOf ms dl ↔ valid T r ∧ ms.elim r = false := by
    intro r
    unfold freeOf
    rw [List.mem_filter, h.dofs_iff]; simp
  refine ⟨ms, st, e, ?_, ?_, ?_, ?_, ?_⟩
  · intro c hc
    obtain ⟨c1, c2⟩ := enc_dec hc
    have := exported_val h hb e (fun _ => (1 : ℚ)) c1
    rw [c2] at this
    simp only [exported, smul_eq_mul, mul_one] at this
    rw [this]
    exact sum_FD h.ok h.dofs_nodup h.dofs_iff c1
  · intro r c
    rw [g2]
    split_ifs
    · exact FD_nonneg h.ok _ _
    · exact le_refl _
  · intro r c hne'
    rw [g2] at hne'
    by_cases hv : valid T r ∧ valid T c
    · rw [if_pos hv] at hne'
      obtain ⟨r1, r2⟩ := enc_dec hv.1
      obtain ⟨c1, c2⟩ := enc_dec hv.2
      refine ⟨(hfree r).2 ⟨hv.1, ?_⟩, (h.dofs_iff c).2 hv.2⟩
      have := g6 _ _ r1 c1 hne'
      rw [← h2 _ r1, r2] at this
      exact this
    · rw [if_neg hv] at hne'; exact absurd rfl hne'
  · intro r; rw [g3, hfree]
  · intro sl cl
    unfold performChecks
    simp only [Bool.and_eq_true, List.all_eq_true]
    exact ⟨⟨fun s _ => g5 s, fun c _ => g4 c⟩, fun r hr => (g3 r).2 ((hfree r).1 hr)⟩

/-! ## C10 -/

/-- C10 for `gsDPatch`. Along every interface, at every position except the two ends: the two patches have the same control point, and it is the midpoint of the two control points next to it across
the interface. -/
theorem C10_dpatch_interface {T : Topo P} {il : List (PS P × PS P)} {bl : List (PS P)} {vl : List (PC P)} {dl : List (Dof P)} (h : Setting T il bl vl dl)
    (hb : ∀ c, T.interior c = false → (T.cl c).length ≤ 3) {ms : MapSt P} {st : St P} (hst : coarse T il bl vl dl = some (ms, st)) (x : Dof P → V) {s t : PS P}
    (hst' : T.nb s = some t) (m : ℕ) (hm : 1 ≤ m) (hm' : m + 1 < len T s) :
    let X := exported st.M (freeOf ms dl) x
    X (sideDof T s 0 m) = X (sideDof T t 0 (facing T s m)) ∧
    X (sideDof T s 0 m) = (1 / 2 : ℚ) • (X (sideDof T s 1 m) + X (sideDof T t 1 (facing T s m))) := by
  intro X
  obtain ⟨v1, v2, v3, -⟩ := sum_FDv h.ok h.dofs_nodup h.dofs_iff x
  apply iface_aux h.ok (fun b => x (enc T b)) X ?_ ?_ ?_ hst' m hm hm'
  · intro s off m hv
    exact (exported_val h hb hst x hv).trans (v1 _ hv (by simp))
  · intro c s d hs hd
    rw [LV_edge_some _ hs hd]
    exact (exported_val h hb hst x (av_valid ..)).trans (v3 c s d hs hd)
  · intro c
    exact (exported_val h hb hst x (b := .cor c true true) trivial).trans (v2 c)

/-- C10 for `gsDPatch`. At an interior vertex with four patches, at a boundary vertex with two patches not marked C0 and at a boundary vertex with three patches the midpoint property holds up to
the end of the interface. `s` is a side through corner `c`, `d` the corner facing `c` and `t` the neighbouring side. -/
theorem C10_dpatch_vertex {T : Topo P} {il : List (PS P × PS P)} {bl : List (PS P)} {vl : List (PC P)} {dl : List (Dof P)} (h : Setting T il bl vl dl)
    (hb : ∀ c, T.interior c = false → (T.cl c).length ≤ 3) {ms : MapSt P} {st : St P} (hst : coarse T il bl vl dl = some (ms, st)) (x : Dof P → V) {c d : PC P} {s t : Side}
    (hs : s ∈ c.2.sides) (hnb : T.nb (c.1, s) = some (d.1, t)) (hd : cross T c s = some d)
    (hsmooth : (T.interior c = true ∧ (T.cl c).length = 4) ∨ (T.interior c = false ∧ (T.cl c).length = 2 ∧ T.c0 c = false) ∨
      (T.interior c = false ∧ (T.cl c).length = 3)) :
    let X := exported st.M (freeOf ms dl) x
    X (vert T c s 0 0) = X (vert T d t 0 0) ∧
    X (vert T c s 0 0) = (1 / 2 : ℚ) • (X (vert T c s 0 1) + X (vert T d t 0 1)) := by
  intro X
  have ok := h.ok
  obtain ⟨v1, v2, v3, v4, v5⟩ := sum_FDv ok h.dofs_nodup h.dofs_iff x
  rw [← or_assoc] at hsmooth
  rcases hsmooth with hsmooth | ⟨hi, h3⟩
  · have hv : V3 T c = false := by
      by_contra hcon
      rw [Bool.not_eq_false, V3_iff] at hcon
      rcases hsmooth with g | g
      · rw [g.1] at hcon; cases hcon.1
      · omega
    apply smooth_vertex_aux ok (fun b => x (enc T b)) X ?_ hs hnb hd hsmooth
    intro e he u k l
    have hva : AValid T (av e u k l) := av_valid ..
    apply (exported_val h hb hst x hva).trans
    apply v1 _ hva
    intro c' k' l' heq
    have : c' = e := by
      unfold av at heq
      split_ifs at heq <;> simp only [ADof.cor.injEq] at heq <;> exact heq.1.symm
    rw [this, V3_same ok he]; exact hv
  · obtain ⟨t0, ht0, htm, -⟩ := cross_data hd
    rw [hnb] at ht0
    simp only [Option.some.injEq, Prod.mk.injEq, true_and] at ht0
    subst ht0
    have hm := ok.cl_cross c s d hs hd
    have hv : V3 T c = true := (V3_iff c).2 ⟨hi, h3⟩
    have hvd : V3 T d = true := by rw [V3_same ok hm]; exact hv
    have hperm : (T.cl d).Perm (T.cl c) :=
      (List.perm_ext_iff_of_nodup (ok.cl_nodup d) (ok.cl_nodup c)).2 (ok.cl_same c d hm)
    obtain ⟨e, hp, hcase⟩ := chain3 ok hi h3 hs hd hnb
    have e1 : X (vert T c s 0 0) = (1 / 4 : ℚ) • (((T.cl c).map fun d => x (enc T (.cor d true true))).sum + x (enc T (ex T c))) := by
      rw [vert00 T c hs, av_diag]
      exact (exported_val h hb hst x (b := .cor c false false) trivial).trans (v5 c hv)
    have e2 : X (vert T d t 0 0) = (1 / 4 : ℚ) • (((T.cl c).map fun d => x (enc T (.cor d true true))).sum + x (enc T (ex T c))) := by
      rw [vert00 T d htm, av_diag, ← (hperm.map _).sum_eq, ← ex_same ok hm]
      exact (exported_val h hb hst x (b := .cor d false false) trivial).trans (v5 d hvd)
    have e3 : X (vert T c s 0 1) = (dl.map fun r => FD T (dec T r) (av c (oside c.2 s) true false) • x r).sum := by
      rw [vert01 T c hs, av_oside hs]
      exact exported_val h hb hst x (av_valid ..)
    have e4 : X (vert T d t 0 1) = (dl.map fun r => FD T (dec T r) (av d (oside d.2 t) true false) • x r).sum := by
      rw [vert01 T d htm, av_oside htm]
      exact exported_val h hb hst x (av_valid ..)
    refine ⟨e1.trans e2.symm, ?_⟩
    rw [e1, (hp.map _).sum_eq, e3, e4]
    simp only [List.map_cons, List.map_nil, List.sum_cons, List.sum_nil]
    rcases hcase with ⟨k1, k2⟩ | ⟨k1, k2⟩
    · rw [v4 c _ hv (oside_mem _ _) k1, v3 d _ e (oside_mem _ _) k2]
      module
    · rw [v3 c _ e (oside_mem _ _) k1, v4 d _ hvd (oside_mem _ _) k2, ex_same ok hm]
      module

/-- C10 for `gsDPatch`. All patches at an interior vertex, and all patches at a boundary vertex with three patches, have the same control point there. -/
theorem C10_dpatch_vertex_agrees {T : Topo P} {il : List (PS P × PS P)} {bl : List (PS P)} {vl : List (PC P)} {dl : List (Dof P)} (h : Setting T il bl vl dl)
    (hb : ∀ c, T.interior c = false → (T.cl c).length ≤ 3) {ms : MapSt P} {st : St P} (hst : coarse T il bl vl dl = some (ms, st)) (x : Dof P → V) (c d : PC P)
    (hi : T.interior c = true ∨ (T.cl c).length = 3) (hd : d ∈ T.cl c) :
    let X := exported st.M (freeOf ms dl) x
    X (vert T c c.2.uside 0 0) = X (vert T d d.2.uside 0 0) := by
  intro X
  have ok := h.ok
  obtain ⟨v1, v2, v3, v4, v5⟩ := sum_FDv ok h.dofs_nodup h.dofs_iff x
  have hperm : (T.cl d).Perm (T.cl c) :=
    (List.perm_ext_iff_of_nodup (ok.cl_nodup d) (ok.cl_nodup c)).2 (ok.cl_same c d hd)
  have e1 : X (vert T c c.2.uside 0 0) = (dl.map fun r => FD T (dec T r) (.cor c false false) • x r).sum := by
    rw [vert00 T c (uside_mem _), av_diag]
    exact exported_val h hb hst x (b := .cor c false false) trivial
  have e2 : X (vert T d d.2.uside 0 0) = (dl.map fun r => FD T (dec T r) (.cor d false false) • x r).sum := by
    rw [vert00 T d (uside_mem _), av_diag]
    exact exported_val h hb hst x (b := .cor d false false) trivial
  rw [e1, e2]
  by_cases hint : T.interior c = true
  · have hv : V3 T c = false := by unfold V3; simp [hint]
    have hvd : V3 T d = false := by rw [V3_same ok hd]; exact hv
    rw [v1 (.cor c false false) trivial (by intro c' k l e; simp only [ADof.cor.injEq] at e; rw [← e.1]; exact hv),
      v1 (.cor d false false) trivial (by intro c' k l e; simp only [ADof.cor.injEq] at e; rw [← e.1]; exact hvd)]
    simp only [LV, cornL, interior_same ok hd, hint, if_true, hperm.length_eq, (hperm.map _).sum_eq]
  · have h3 := hi.resolve_left hint
    have hv : V3 T c = true := (V3_iff c).2 ⟨by simpa using hint, h3⟩
    have hvd : V3 T d = true := by rw [V3_same ok hd]; exact hv
    rw [v5 c hv, v5 d hvd, (hperm.map _).sum_eq, ex_same ok hd]

/-! ## example -/

/-- Three patches in a fan around a point of the boundary (their south-west corners). -/
def fan3 : Topo (Fin 3) where
  n0 := fun _ => 6
  n1 := fun _ => 6
  nb := fun s => match s.2 with
    | .west => if s.1 = 2 then none else some (s.1 + 1, .south) | .south => if s.1 = 0 then none else some (s.1 - 1, .west) | _ => none
  flip := fun _ => false
  cl := fun c => match c.2 with
    | .sw => [c, (c.1 + 1, .sw), (c.1 + 2, .sw)] | .ne => [c]
    | .nw => if c.1 = 2 then [c] else [c, (c.1 + 1, .se)] | .se => if c.1 = 0 then [c] else [c, (c.1 - 1, .nw)]
  interior := fun _ => false
  c0 := fun _ => false

theorem fan3_ok : Ok fan3 where
  n0_ge := by decide
  n1_ge := by decide
  nb_symm := by decide
  flip_symm := by decide
  nb_len := by decide
  no_fold := by decide
  cl_self := by decide
  cl_nodup := by decide
  cl_same := by decide +kernel
  cl_cross := by decide
  cl_conn := by
    intro c d hd
    have s1 : ∀ p : Fin 3, p ≠ 2 → Step fan3 (p, .sw) (p + 1, .sw) ∧ Step fan3 (p + 1, .sw) (p, .sw) := by unfold Step; decide
    have up : ∀ p : Fin 3, Relation.ReflTransGen (Step fan3) (0, .sw) (p, .sw) ∧ Relation.ReflTransGen (Step fan3) (p, .sw) (0, .sw) := by
      have t0 := s1 0 (by decide)
      have t1 := s1 1 (by decide)
      intro p
      fin_cases p
      · exact ⟨.refl, .refl⟩
      · exact ⟨.single t0.1, .single t0.2⟩
      · exact ⟨.head t0.1 (.single t1.1), .head t1.2 (.single t0.2)⟩
    have h : ∀ c d, d ∈ fan3.cl c → d = c ∨ Step fan3 c d ∨ (c.2 = .sw ∧ d.2 = .sw) := by
      unfold Step
      decide +kernel
    rcases h c d hd with rfl | h | ⟨h1, h2⟩
    · exact Relation.ReflTransGen.refl
    · exact Relation.ReflTransGen.single h
    · obtain ⟨p, c⟩ := c
      obtain ⟨q, d⟩ := d
      simp only at h1 h2
      subst h1 h2
      exact (up p).2.trans (up q).1
  interior_iff := by decide
  c0_same := by decide

def fan3I : List (PS (Fin 3) × PS (Fin 3)) := [((0, .west), (1, .south)), ((1, .west), (2, .south))]
def fan3B : List (PS (Fin 3)) := (0, .south) :: (2, .west) :: [0, 1, 2].flatMap fun p => [(p, .east), (p, .north)]
def fan3V : List (PC (Fin 3)) := [0, 1, 2].flatMap fun p => Corner.all.map fun c => (p, c)

theorem fan3_setting : Setting fan3 fan3I fan3B fan3V (dofs fan3 [0, 1, 2]) where
  ok := fan3_ok
  lists := ⟨by decide +kernel, by decide +kernel, by decide +kernel, by decide +kernel⟩
  dofs_nodup := dofs_nodup _ (by decide)
  dofs_iff := dofs_iff _ _ (by decide)

theorem fan3_bval : ∀ c, fan3.interior c = false → (fan3.cl c).length ≤ 3 := by decide

/-- 84 smooth functions: four per vertex (32), two rows along every side without neighbour (32), one row on each side of the two interfaces (8), and four inside every patch (12). -/
example : ∃ ms, computeMapper fan3 fan3I fan3B fan3V = some ms ∧ countDofs fan3 [0, 1, 2] fan3I fan3B fan3V = 84 ∧ (freeOf ms (dofs fan3 [0, 1, 2])).length = 84 := by
  obtain ⟨ms, h1, h2⟩ := C11_dpatch_count fan3_setting fan3_bval (pl := [0, 1, 2]) (by decide) (by decide) (by decide) (by decide)
  have h3 : countDofs fan3 [0, 1, 2] fan3I fan3B fan3V = 84 := by decide +kernel
  refine ⟨ms, h1, h3, ?_⟩
  rw [h3] at h2
  exact_mod_cast h2.symm

/-- The corner function of the common vertex is the mean of four smooth coefficients. -/
example : (coarse fan3 fan3I fan3B fan3V (dofs fan3 [0, 1, 2])).map (fun r => [r.2.M (0, 0, 0) (2, 0, 0), r.2.M (0, 1, 1) (2, 0, 0), r.2.M (2, 1, 1) (2, 0, 0), r.2.M (2, 0, 0) (2, 0, 0)]) =
    some [1 / 4, 1 / 4, 1 / 4, 0] := by decide +kernel

end Verif.DPatch
