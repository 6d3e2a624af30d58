import Verif.Proofs.SmoothExport
import Mathlib.Data.Fintype.Prod
import Mathlib.Tactic.FinCases
/-!
# Properties C08 – C12: the smoothing matrix

The setting: a topology satisfying the assumptions `Ok`, the loops over all interfaces, boundary sides and corners in any
order and with any repetition, and the list of all local functions.
-/
set_option autoImplicit false
set_option linter.unusedSectionVars false
namespace Verif.Smooth
open Verif

variable {P : Type} [DecidableEq P] {V : Type} [AddCommGroup V] [Module ℚ V]

/-- What is assumed about a run. -/
structure Setting (T : Topo P) (il : List (PS P × PS P)) (bl : List (PS P)) (vl : List (PC P)) (dl : List (Dof P)) : Prop where
  ok : Ok T
  lists : Lists T il bl vl
  dofs_nodup : dl.Nodup
  dofs_iff : ∀ d, d ∈ dl ↔ valid T d

/-- The smooth functions: the local functions the mapper did not eliminate (`m_mapModified.index` numbers these). -/
def freeRows (T : Topo P) (il : List (PS P × PS P)) (bl : List (PS P)) (vl : List (PC P)) (dl : List (Dof P)) : List (Dof P) :=
  dl.filter fun d => !(computeMapper T il bl vl).elim d

/-- The result of `_computeMapper` followed by `_computeSmoothMatrix`. -/
def result (T : Topo P) (il : List (PS P × PS P)) (bl : List (PS P)) (vl : List (PC P)) (dl : List (Dof P)) : Option (St P) :=
  smoothMatrix T (computeMapper T il bl vl).elim il bl vl dl

/-- Local coefficients of the exported patches for smooth coefficients `x`: `m_matrix.transpose() * x`
(`gsDPatchBase.hpp:_exportPatch`). Coefficients may be points of any dimension. -/
def exported (M : Dof P → Dof P → ℚ) (rows : List (Dof P)) (x : Dof P → V) (d : Dof P) : V :=
  (rows.map fun r => M r d • x r).sum

/-- The position facing position `m` of side `s` on the neighbouring side. -/
def facing (T : Topo P) (s : PS P) (m : ℕ) : ℕ := if T.flip s then len T s - 1 - m else m

theorem exported_eq {T : Topo P} {il : List (PS P × PS P)} {bl : List (PS P)} {vl : List (PC P)} {dl : List (Dof P)}
    (h : Setting T il bl vl dl) {st : St P} (hst : result T il bl vl dl = some st) (x : Dof P → V) {a : ADof P} (ha : AValid T a) :
    exported st.M (freeRows T il bl vl dl) x (enc T a) = LV T (fun b => x (enc T b)) a := by
  obtain ⟨st', h1, h2, -⟩ := closed_form h.ok h.lists h.dofs_iff
  unfold result at hst
  rw [h1] at hst
  cases hst
  rw [← sum_Wa h.ok h.dofs_nodup h.dofs_iff x ha]
  unfold exported freeRows
  rw [sum_filter_zero]
  · congr 1
    apply List.map_congr_left
    intro r hr
    rw [h2, if_pos ⟨(h.dofs_iff r).1 hr, enc_valid h.ok ha⟩]
    unfold W
    rw [dec_enc h.ok ha]
  · intro r hr he
    have hr' := (h.dofs_iff r).1 hr
    obtain ⟨g1, g2⟩ := enc_dec hr'
    have hel : (computeMapper T il bl vl).elim r = true := by simpa using he
    rw [← g2, mapper_elim h.ok h.lists g1] at hel
    rw [h2, if_pos ⟨hr', enc_valid h.ok ha⟩]
    unfold W
    rw [dec_enc h.ok ha]
    by_cases hw : Wa T (dec T r) a = 0
    · rw [hw]; simp
    · have := row_free h.ok hw
      rw [this] at hel; cases hel

/-! ## C08 -/

/-- C08. The construction never stops with an error, and the weights of every local function over the smooth functions
sum to one. -/
theorem C08_partition_of_unity {T : Topo P} {il : List (PS P × PS P)} {bl : List (PS P)} {vl : List (PC P)} {dl : List (Dof P)}
    (h : Setting T il bl vl dl) :
    ∃ st, result T il bl vl dl = some st ∧
      ∀ c, valid T c → ((freeRows T il bl vl dl).map fun r => st.M r c).sum = 1 := by
  obtain ⟨st, h1, -⟩ := closed_form h.ok h.lists h.dofs_iff
  refine ⟨st, h1, ?_⟩
  intro c hc
  obtain ⟨g1, g2⟩ := enc_dec hc
  have := exported_eq h h1 (fun _ => (1 : ℚ)) g1
  rw [LV_one h.ok, g2] at this
  rw [← this]
  unfold exported
  simp

/-- C08. Constants are reproduced: equal smooth coefficients give equal local coefficients. -/
theorem C08_constants {T : Topo P} {il : List (PS P × PS P)} {bl : List (PS P)} {vl : List (PC P)} {dl : List (Dof P)}
    (h : Setting T il bl vl dl) {st : St P} (hst : result T il bl vl dl = some st) (v : V) (c : Dof P) (hc : valid T c) :
    exported st.M (freeRows T il bl vl dl) (fun _ => v) c = v := by
  obtain ⟨st', h1, h2⟩ := C08_partition_of_unity h
  rw [h1] at hst; cases hst
  unfold exported
  have h3 : ((freeRows T il bl vl dl).map fun r => st.M r c • v).sum = ((freeRows T il bl vl dl).map fun r => st.M r c).sum • v := by
    generalize freeRows T il bl vl dl = l
    induction l with
    | nil => simp
    | cons a l ih => simp only [List.map_cons, List.sum_cons, ih, add_smul]
  rw [h3, h2 c hc, one_smul]

/-! ## C09 -/

/-- C09. Weights are non-negative; only rows of smooth functions and columns of local functions are written; the final
checks of the code succeed. -/
theorem C09_nonneg_in_range {T : Topo P} {il : List (PS P × PS P)} {bl : List (PS P)} {vl : List (PC P)} {dl : List (Dof P)}
    (h : Setting T il bl vl dl) :
    ∃ st, result T il bl vl dl = some st ∧ (∀ r c, 0 ≤ st.M r c) ∧
      (∀ r c, st.M r c ≠ 0 → r ∈ freeRows T il bl vl dl ∧ c ∈ dl) ∧
      (∀ r, st.bchk r = true ↔ r ∈ freeRows T il bl vl dl) ∧
      (∀ sl cl, performChecks st sl cl (freeRows T il bl vl dl) = true) := by
  obtain ⟨st, h1, h2, h3, h4, h5, h6⟩ := closed_form h.ok h.lists h.dofs_iff
  have hfree : ∀ r, r ∈ freeRows T il bl vl dl ↔ valid T r ∧ AElim T (dec T r) = false := by
    intro r
    unfold freeRows
    rw [List.mem_filter, h.dofs_iff]
    apply and_congr_right
    intro hr
    obtain ⟨g1, g2⟩ := enc_dec hr
    rw [← g2, mapper_elim h.ok h.lists g1, g2]
    simp
  have hb : ∀ r, st.bchk r = true ↔ r ∈ freeRows T il bl vl dl := by
    intro r
    rw [hfree]
    constructor
    · intro hr
      have hv := h6 r hr
      exact ⟨hv, (h3 r hv).1 hr⟩
    · rintro ⟨hv, hr⟩
      exact (h3 r hv).2 hr
  refine ⟨st, h1, ?_, ?_, hb, ?_⟩
  · intro r c
    rw [h2]
    split_ifs
    · exact Wa_nonneg _ _
    · exact le_refl _
  · intro r c hne
    rw [h2] at hne
    by_cases hv : valid T r ∧ valid T c
    · rw [if_pos hv] at hne
      exact ⟨(hfree r).2 ⟨hv.1, row_free h.ok hne⟩, (h.dofs_iff c).2 hv.2⟩
    · rw [if_neg hv] at hne; exact absurd rfl hne
  · intro sl cl
    unfold performChecks
    simp only [Bool.and_eq_true, List.all_eq_true]
    exact ⟨⟨fun s _ => h5 s, fun c _ => h4 c⟩, fun r hr => (hb r).2 hr⟩

/-! ## C10 -/

/-- Along an interface, for local coefficients `X` which have the values `LV` beside the ends of sides. -/
theorem iface_aux {T : Topo P} (ok : Ok T) (y : ADof P → V) (X : Dof P → V)
    (hS : ∀ s off m, AValid T (.sid s off m) → X (enc T (.sid s off m)) = LV T y (.sid s off m))
    (hE : ∀ c s d, s ∈ c.2.sides → cross T c s = some d → X (enc T (av c s true false)) = LV T y (av c s true false))
    (hD : ∀ c, X (enc T (.cor c true true)) = LV T y (.cor c true true)) {s t : PS P}
    (hst' : T.nb s = some t) (m : ℕ) (hm : 1 ≤ m) (hm' : m + 1 < len T s) :
    X (sideDof T s 0 m) = X (sideDof T t 0 (facing T s m)) ∧
    X (sideDof T s 0 m) = (1 / 2 : ℚ) • (X (sideDof T s 1 m) + X (sideDof T t 1 (facing T s m))) := by
  have hlen := ok.nb_len s t hst'
  have hb := ok.nb_symm s t hst'
  by_cases hmid : 2 ≤ m ∧ m + 2 < len T s
  · have hmt := mt_mid (T := T) hmid
    have hv1 : AValid T (.sid s false m) := hmid
    have hv2 : AValid T (.sid t false (mt T s m)) := by show 2 ≤ _ ∧ _ < len T t; rw [hlen]; exact hmt
    have hv3 : AValid T (.sid s true m) := hmid
    have hv4 : AValid T (.sid t true (mt T s m)) := by show 2 ≤ _ ∧ _ < len T t; rw [hlen]; exact hmt
    have e1 := hS _ _ _ hv1; have e2 := hS _ _ _ hv2; have e3 := hS _ _ _ hv3; have e4 := hS _ _ _ hv4
    simp only [LV, hst', hb, mt_mt ok hst' (show m < len T s by omega)] at e1 e2 e3 e4
    change X (sideDof T s 0 m) = _ at e1
    change X (sideDof T t 0 (mt T s m)) = _ at e2
    change X (sideDof T s 1 m) = _ at e3
    change X (sideDof T t 1 (mt T s m)) = _ at e4
    have hf : facing T s m = mt T s m := rfl
    rw [hf, e1, e2, e3, e4]
    refine ⟨?_, rfl⟩
    rw [add_comm]
  · -- one step from an end
    obtain ⟨far, hfar⟩ : ∃ far, m = fromEnd (len T s) far true.toNat := by
      by_cases h1 : m = 1
      · exact ⟨false, h1⟩
      · refine ⟨true, ?_⟩
        simp only [fromEnd, if_true, Bool.toNat_true]; omega
    set c : PC P := (s.1, s.2.corner far) with hc
    have hsm : s.2 ∈ c.2.sides := mem_sides_corner _ _
    have hnb : T.nb (c.1, s.2) = some t := hst'
    have hcr := cross_some (c := c) (s := s.2) hnb
    set d : PC P := (t.1, t.2.corner (xor (c.2.tang s.2) (T.flip (c.1, s.2)))) with hd
    have htm : t.2 ∈ d.2.sides := mem_sides_corner _ _
    have hbk := cross_back ok hsm hcr (d := d) (t := t.2) hnb
    have hfac : facing T s m = fromEnd (len T t) (xor far (T.flip s)) true.toNat := by
      have hl4 := len_ge ok s
      unfold facing
      rw [hlen, hfar]
      unfold fromEnd
      simp only [Bool.toNat_true]
      cases T.flip s <;> cases far <;> simp <;> omega
    have htang : d.2 = t.2.corner (xor far (T.flip s)) := by
      rw [hd]; simp only [hc, tang_corner, Prod.mk.eta]
    have p1 : sideDof T s 0 m = enc T (av c s.2 true false) := by rw [hfar]; exact side_end ok s far true false
    have p2 : sideDof T s 1 m = enc T (.cor c true true) := by
      rw [hfar, ← av_diag c s.2 true]; exact side_end ok s far true true
    have hdeq : d = (t.1, t.2.corner (xor far (T.flip s))) := by rw [← htang]
    have p3 : sideDof T t 0 (facing T s m) = enc T (av d t.2 true false) := by
      rw [hfac, hdeq]; exact side_end ok t _ true false
    have p4 : sideDof T t 1 (facing T s m) = enc T (.cor d true true) := by
      rw [hfac, ← av_diag d t.2 true, hdeq]; exact side_end ok t _ true true
    rw [p1, p2, p3, p4, hE _ _ _ hsm hcr, hE _ _ _ htm hbk, hD c, hD d,
      LV_edge_some _ hsm hcr, LV_edge_some _ htm hbk, LV_11, LV_11]
    refine ⟨?_, rfl⟩
    rw [add_comm]

/-- C10. For any smooth coefficients, along every interface, at every position except the two ends: the two patches
have the same control point, and it is the midpoint of the two control points next to it across the interface. -/
theorem C10_interface_midpoint {T : Topo P} {il : List (PS P × PS P)} {bl : List (PS P)} {vl : List (PC P)} {dl : List (Dof P)}
    (h : Setting T il bl vl dl) {st : St P} (hst : result T il bl vl dl = some st) (x : Dof P → V) {s t : PS P}
    (hst' : T.nb s = some t) (m : ℕ) (hm : 1 ≤ m) (hm' : m + 1 < len T s) :
    let X := exported st.M (freeRows T il bl vl dl) x
    X (sideDof T s 0 m) = X (sideDof T t 0 (facing T s m)) ∧
    X (sideDof T s 0 m) = (1 / 2 : ℚ) • (X (sideDof T s 1 m) + X (sideDof T t 1 (facing T s m))) := by
  intro X
  exact iface_aux h.ok (fun b => x (enc T b)) X (fun _ _ _ hv => exported_eq h hst x hv) (fun _ _ _ _ _ => exported_eq h hst x (av_valid ..))
    (fun c => exported_eq h hst x (a := .cor c true true) trivial) hst' m hm hm'

/-- C10. At an interior vertex all patches around it have the same control point. -/
theorem C10_interior_vertex_agrees {T : Topo P} {il : List (PS P × PS P)} {bl : List (PS P)} {vl : List (PC P)} {dl : List (Dof P)}
    (h : Setting T il bl vl dl) {st : St P} (hst : result T il bl vl dl = some st) (x : Dof P → V) (c d : PC P)
    (hi : T.interior c = true) (hd : d ∈ T.cl c) :
    let X := exported st.M (freeRows T il bl vl dl) x
    X (vert T c c.2.uside 0 0) = X (vert T d d.2.uside 0 0) := by
  intro X
  have hX : ∀ {a : ADof P}, AValid T a → X (enc T a) = LV T (fun b => x (enc T b)) a := fun ha => exported_eq h hst x ha
  rw [vert00 T c (uside_mem _), vert00 T d (uside_mem _), av_diag, av_diag, hX (a := .cor c false false) trivial,
    hX (a := .cor d false false) trivial]
  have hperm : (T.cl d).Perm (T.cl c) :=
    (List.perm_ext_iff_of_nodup (h.ok.cl_nodup d) (h.ok.cl_nodup c)).2 (h.ok.cl_same c d hd)
  simp only [LV, cornL, interior_same h.ok hd, hi, if_true, hperm.length_eq, (hperm.map _).sum_eq]

/-- At a smooth vertex, for local coefficients `X` which have the values `LV` there. -/
theorem smooth_vertex_aux {T : Topo P} (ok : Ok T) (y : ADof P → V) (X : Dof P → V) {c d : PC P} {s t : Side}
    (hX : ∀ e ∈ T.cl c, ∀ u k l, X (enc T (av e u k l)) = LV T y (av e u k l))
    (hs : s ∈ c.2.sides) (hnb : T.nb (c.1, s) = some (d.1, t)) (hd : cross T c s = some d)
    (hsmooth : (T.interior c = true ∧ (T.cl c).length = 4) ∨ (T.interior c = false ∧ (T.cl c).length = 2 ∧ T.c0 c = false)) :
    X (vert T c s 0 0) = X (vert T d t 0 0) ∧
    X (vert T c s 0 0) = (1 / 2 : ℚ) • (X (vert T c s 0 1) + X (vert T d t 0 1)) := by
  obtain ⟨t0, ht0, htm, -⟩ := cross_data hd
  rw [hnb] at ht0
  simp only [Option.some.injEq, Prod.mk.injEq, true_and] at ht0
  subst ht0
  have hm := ok.cl_cross c s d hs hd
  rw [vert00 T c hs, vert00 T d htm, vert01 T c hs, vert01 T d htm, hX _ (ok.cl_self c), hX _ hm, hX _ (ok.cl_self c), hX _ hm,
    av_diag, av_diag]
  rcases hsmooth with ⟨hi, h4⟩ | ⟨hi, h2, h0⟩
  · have hperm : (T.cl d).Perm (T.cl c) :=
      (List.perm_ext_iff_of_nodup (ok.cl_nodup d) (ok.cl_nodup c)).2 (ok.cl_same c d hm)
    have hint := (ok.interior_iff c).1 hi
    have h1 := hint c (ok.cl_self c) _ (oside_mem c.2 s)
    have h2 := hint d hm _ (oside_mem d.2 t)
    rw [cross_isSome, Option.isSome_iff_exists] at h1 h2
    obtain ⟨e, he⟩ := h1
    obtain ⟨f, hf⟩ := h2
    have hr := ring4 ok h4 hs hd hnb he hf
    rw [av_oside hs, av_oside htm, LV_edge_some y (oside_mem _ _) he, LV_edge_some y (oside_mem _ _) hf]
    simp only [LV, cornL, interior_same ok hm, hi, if_true, hperm.length_eq, (hperm.map _).sum_eq, (hr.map _).sum_eq, h4]
    refine ⟨trivial, ?_⟩
    simp only [List.map_cons, List.map_nil, List.sum_cons, List.sum_nil]
    push_cast
    module
  · obtain ⟨d', t', s', hs1, hd1, ht1, htm1, hn1, hs', hne, hn'⟩ := regular_data ok hi h2
    have hsr : s = regularSide T c := by
      have h1 : s ≠ s' := by rintro rfl; rw [hn'] at hd; cases hd
      revert hs hs1 hs' hne h1
      generalize regularSide T c = r
      generalize c.2 = cc
      cases cc <;> cases s <;> cases s' <;> cases r <;> decide
    subst hsr
    rw [hd1] at hd
    simp only [Option.some.injEq] at hd
    subst hd
    rw [hnb] at ht1
    simp only [Option.some.injEq, Prod.mk.injEq, true_and] at ht1
    subst ht1
    obtain ⟨b1, b2, b3, b4, b5⟩ := regular_back ok hi h2 hs1 hd1 hnb htm
    have hc0 := ok.c0_same c _ hm
    obtain ⟨d2, t2, s2, q1, q2, q3, q4, q5, q6, q7, q8⟩ := regular_data ok b4 b5
    have hso : s' = oside c.2 (regularSide T c) := (sides_or hs1 hs').resolve_left hne
    have hso2 : s2 = oside d'.2 t := by rw [← b1]; exact (sides_or q1 q6).resolve_left q7
    have l1 : LV T y (.cor c false false) = (1 / 2 : ℚ) • (y (av c (regularSide T c) false true) + y (av d' t false true)) := by
      simp only [LV, cornL, hi, h2, h0, hd1, hn1, Bool.false_eq_true, if_false, not_false_eq_true, and_self, if_true]
    have l2 : LV T y (.cor d' false false) = (1 / 2 : ℚ) • (y (av d' t false true) + y (av c (regularSide T c) false true)) := by
      simp only [LV, cornL, b4, b5, hc0, h0, b1, b2, b3, Bool.false_eq_true, if_false, not_false_eq_true, and_self, if_true]
    have l3 : LV T y (av c (regularSide T c) false true) = y (av c (regularSide T c) false true) := by
      rw [av_oside hs1, LV_edge T y c (oside_mem _ _), edgeL, ← hso, hn']
    have l4 : LV T y (av d' t false true) = y (av d' t false true) := by
      rw [av_oside htm, LV_edge T y d' (oside_mem _ _), edgeL, ← hso2, q8]
    rw [l1, l2, l3, l4]
    refine ⟨?_, rfl⟩
    rw [add_comm]

/-- C10. At a vertex treated as smooth (interior of valence four, or on the boundary of valence two and not marked C0)
the midpoint property holds up to the end of the interface. `s` is a side through corner `c`, `d` the corner facing `c`
and `t` the neighbouring side. -/
theorem C10_smooth_vertex_midpoint {T : Topo P} {il : List (PS P × PS P)} {bl : List (PS P)} {vl : List (PC P)} {dl : List (Dof P)}
    (h : Setting T il bl vl dl) {st : St P} (hst : result T il bl vl dl = some st) (x : Dof P → V) {c d : PC P} {s t : Side}
    (hs : s ∈ c.2.sides) (hnb : T.nb (c.1, s) = some (d.1, t)) (hd : cross T c s = some d)
    (hsmooth : (T.interior c = true ∧ (T.cl c).length = 4) ∨ (T.interior c = false ∧ (T.cl c).length = 2 ∧ T.c0 c = false)) :
    let X := exported st.M (freeRows T il bl vl dl) x
    X (vert T c s 0 0) = X (vert T d t 0 0) ∧
    X (vert T c s 0 0) = (1 / 2 : ℚ) • (X (vert T c s 0 1) + X (vert T d t 0 1)) := by
  intro X
  exact smooth_vertex_aux h.ok (fun b => x (enc T b)) X (fun _ _ _ _ _ => exported_eq h hst x (av_valid ..)) hs hnb hd hsmooth

/-- C10, what fails. At a boundary vertex of valence two marked C0, and at every boundary vertex of valence three or more
(whether marked or not), the exported patches need not even meet: for each interface ending there and each pair of
different values there are smooth coefficients giving these values at the end of the interface in the two patches. -/
theorem C10_corner_discontinuous {T : Topo P} {il : List (PS P × PS P)} {bl : List (PS P)} {vl : List (PC P)} {dl : List (Dof P)}
    (h : Setting T il bl vl dl) {st : St P} (hst : result T il bl vl dl = some st) {c d : PC P} {s t : Side}
    (hs : s ∈ c.2.sides) (hnb : T.nb (c.1, s) = some (d.1, t)) (hd : cross T c s = some d) (hi : T.interior c = false)
    (hbad : (T.cl c).length = 2 ∧ T.c0 c = true ∨ 2 < (T.cl c).length) (v w : V) :
    ∃ x : Dof P → V, exported st.M (freeRows T il bl vl dl) x (vert T c s 0 0) = v ∧
      exported st.M (freeRows T il bl vl dl) x (vert T d t 0 0) = w := by
  obtain ⟨t0, ht0, htm, -⟩ := cross_data hd
  rw [hnb] at ht0
  simp only [Option.some.injEq, Prod.mk.injEq, true_and] at ht0
  subst ht0
  have hm := h.ok.cl_cross c s d hs hd
  have hdc := cross_ne h.ok hs hd
  refine ⟨fun r => if r = enc T (.cor c false false) then v else w, ?_, ?_⟩
  · rw [vert00 T c hs, exported_eq h hst _ (av_valid ..), av_diag]
    have : ¬ ((T.cl c).length = 2 ∧ T.c0 c = false) := by
      rintro ⟨a, b⟩; rcases hbad with ⟨_, b'⟩ | b'
      · rw [b] at b'; cases b'
      · omega
    simp [LV, cornL, hi, this]
  · rw [vert00 T d htm, exported_eq h hst _ (av_valid ..), av_diag]
    have : ¬ ((T.cl d).length = 2 ∧ T.c0 d = false) := by
      rw [cl_len h.ok hm, h.ok.c0_same c d hm]
      rintro ⟨a, b⟩; rcases hbad with ⟨_, b'⟩ | b'
      · rw [b] at b'; cases b'
      · omega
    have hne : enc T (.cor d false false) ≠ enc T (.cor c false false) := by
      intro he
      have := enc_inj h.ok (x := .cor d false false) (y := .cor c false false) trivial trivial he
      simp at this
      exact hdc this
    simp [LV, cornL, interior_same h.ok hm, hi, this, hne]

/-! ## C11 -/

/-- C11. The counted size is the number of functions the mapper left free. -/
theorem C11_count {T : Topo P} {il : List (PS P × PS P)} {bl : List (PS P)} {vl : List (PC P)} {dl : List (Dof P)}
    (h : Setting T il bl vl dl) {pl : List P} (hpn : pl.Nodup) (hpl : ∀ p, p ∈ pl)
    (hil : (il.map Prod.fst ++ il.map Prod.snd).Nodup) (hbl : bl.Nodup) :
    countDofs T pl il bl vl = ((freeRows T il bl vl dl).length : ℤ) :=
  (count_eq h.ok hpn hpl h.dofs_nodup h.dofs_iff h.lists hil hbl).symm

/-- C11. The unsigned subtractions of the interior count never go below zero. -/
theorem C11_no_wrap {T : Topo P} (hn0 : ∀ p, 4 ≤ T.n0 p) (hn1 : ∀ p, 4 ≤ T.n1 p) (pl : List P) (k : ℕ) :
    0 ≤ ((sizeSteps T pl).take k).sum := by
  have hblk : ∀ p, ∀ k, 0 ≤ (((T.n0 p * T.n1 p : ℤ) :: [0, 1].flatMap fun _k : ℕ =>
      [-(T.n1 p : ℤ), -(T.n1 p : ℤ), -((T.n0 p : ℤ) - 4), -((T.n0 p : ℤ) - 4)]).take k).sum := by
    intro p k
    have h0 : (4 : ℤ) ≤ T.n0 p := by exact_mod_cast hn0 p
    have h1 : (4 : ℤ) ≤ T.n1 p := by exact_mod_cast hn1 p
    have hp : 0 ≤ ((T.n0 p : ℤ) - 4) * ((T.n1 p : ℤ) - 4) := mul_nonneg (by linarith) (by linarith)
    simp only [List.flatMap_cons, List.flatMap_nil, List.append_nil, List.cons_append, List.nil_append]
    rcases k with _ | _ | _ | _ | _ | _ | _ | _ | _ | k <;> simp <;> nlinarith
  induction pl generalizing k with
  | nil => simp [sizeSteps]
  | cons p pl ih =>
    have e : sizeSteps T (p :: pl) = ((T.n0 p * T.n1 p : ℤ) :: [0, 1].flatMap fun _k : ℕ =>
      [-(T.n1 p : ℤ), -(T.n1 p : ℤ), -((T.n0 p : ℤ) - 4), -((T.n0 p : ℤ) - 4)]) ++ sizeSteps T pl := by
      unfold sizeSteps; rw [List.flatMap_cons]
    rw [e, List.take_append, List.sum_append]
    exact add_nonneg (hblk p k) (ih _)

/-- C09, C11. Numbering the smooth functions in order, every written row number is below the counted size, so no store
is out of range. -/
theorem C09_row_number {T : Topo P} {il : List (PS P × PS P)} {bl : List (PS P)} {vl : List (PC P)} {dl : List (Dof P)}
    (h : Setting T il bl vl dl) {pl : List P} (hpn : pl.Nodup) (hpl : ∀ p, p ∈ pl)
    (hil : (il.map Prod.fst ++ il.map Prod.snd).Nodup) (hbl : bl.Nodup) {st : St P} (hst : result T il bl vl dl = some st)
    (r : Dof P) (hr : st.bchk r = true) :
    (((freeRows T il bl vl dl).idxOf r : ℕ) : ℤ) < countDofs T pl il bl vl := by
  obtain ⟨st', h1, -, -, h4, -⟩ := C09_nonneg_in_range h
  rw [h1] at hst; cases hst
  rw [C11_count h hpn hpl hil hbl]
  exact_mod_cast List.idxOf_lt_length_of_mem ((h4 r).1 hr)

/-! ## C12 -/

/-- C12. Any two runs over the same topology, with interfaces (in either orientation), boundary sides, corners and
functions processed in any order and any number of times, give the same matrix and the same set of smooth functions. -/
theorem C12_order_independent {T : Topo P} {il il' : List (PS P × PS P)} {bl bl' : List (PS P)} {vl vl' : List (PC P)}
    {dl dl' : List (Dof P)} (h : Setting T il bl vl dl) (hl' : Lists T il' bl' vl') (hdl' : ∀ d, d ∈ dl' ↔ valid T d) :
    ∃ st st', result T il bl vl dl = some st ∧ result T il' bl' vl' dl' = some st' ∧ st'.M = st.M ∧
      (∀ d, valid T d → (computeMapper T il' bl' vl').elim d = (computeMapper T il bl vl).elim d) ∧
      (∀ r, st'.bchk r = st.bchk r) := by
  obtain ⟨st, h1, h2, h3, -, -, h6⟩ := closed_form h.ok h.lists h.dofs_iff
  obtain ⟨st', g1, g2, g3, -, -, g6⟩ := closed_form h.ok hl' hdl'
  refine ⟨st, st', h1, g1, ?_, ?_, ?_⟩
  · funext r c; rw [h2, g2]
  · intro d hd
    obtain ⟨e1, e2⟩ := enc_dec hd
    rw [← e2, mapper_elim h.ok hl' e1, mapper_elim h.ok h.lists e1]
  · intro r
    rw [Bool.eq_iff_iff]
    constructor
    · intro hr; have hv := g6 r hr; exact (h3 r hv).2 ((g3 r hv).1 hr)
    · intro hr; have hv := h6 r hr; exact (g3 r hv).2 ((h3 r hv).1 hr)

/-! ## Concrete cases -/

instance : Fintype Side := ⟨{.west, .east, .south, .north}, by intro s; cases s <;> decide⟩
instance : Fintype Corner := ⟨{.sw, .se, .nw, .ne}, by intro s; cases s <;> decide⟩

/-- Two patches side by side, the right one turned around: the east side of the first is glued to the east side of the
second with reversed direction. `mark` is the C0 mark of the four corners on the interface. -/
def two (mark : Bool) : Topo Bool where
  n0 := fun p => if p then 6 else 5
  n1 := fun _ => 7
  nb := fun s => if s.2 = .east then some (!s.1, .east) else none
  flip := fun s => s.2 = .east
  cl := fun c => match c.2 with
    | .sw => [c] | .nw => [c] | .se => [c, (!c.1, .ne)] | .ne => [c, (!c.1, .se)]
  interior := fun _ => false
  c0 := fun c => mark && (c.2 = .se || c.2 = .ne)

theorem two_ok (mark : Bool) : Ok (two mark) where
  n0_ge := by cases mark <;> decide
  n1_ge := by cases mark <;> decide
  nb_symm := by cases mark <;> decide
  flip_symm := by cases mark <;> decide
  nb_len := by cases mark <;> decide
  no_fold := by cases mark <;> decide
  cl_self := by cases mark <;> decide
  cl_nodup := by cases mark <;> decide
  cl_same := by cases mark <;> decide
  cl_cross := by cases mark <;> decide
  cl_conn := by
    intro c d hd
    have h : ∀ c d, d ∈ (two mark).cl c → d = c ∨ Step (two mark) c d := by
      unfold Step
      cases mark <;> decide
    rcases h c d hd with rfl | h
    · exact Relation.ReflTransGen.refl
    · exact Relation.ReflTransGen.single h
  interior_iff := by cases mark <;> decide
  c0_same := by cases mark <;> decide

def twoI : List (PS Bool × PS Bool) := [((true, .east), (false, .east))]
def twoB : List (PS Bool) := [(true, .west), (false, .west), (true, .north), (false, .south), (true, .south), (false, .north)]
def corners (l : List Bool) : List (PC Bool) := l.flatMap fun p => Corner.all.map fun c => (p, c)
/-- All functions of the listed patches. -/
def dofs {P : Type} (T : Topo P) (pl : List P) : List (Dof P) :=
  pl.flatMap fun p => (List.range (T.n0 p)).flatMap fun i => (List.range (T.n1 p)).map fun j => (p, i, j)

theorem dofs_iff {P : Type} (T : Topo P) (pl : List P) (hpl : ∀ p, p ∈ pl) (d : Dof P) : d ∈ dofs T pl ↔ valid T d := by
  obtain ⟨p, i, j⟩ := d
  simp only [dofs, valid, List.mem_flatMap, List.mem_range, List.mem_map, Prod.mk.injEq]
  constructor
  · rintro ⟨q, -, a, ha, b, hb, rfl, rfl, rfl⟩; exact ⟨ha, hb⟩
  · rintro ⟨h1, h2⟩; exact ⟨p, hpl p, i, h1, j, h2, rfl, rfl, rfl⟩

theorem dofs_nodup {P : Type} (T : Topo P) {pl : List P} (hpl : pl.Nodup) : (dofs T pl).Nodup := by
  apply nodup_flatMap_of hpl
  · intro p _
    apply nodup_flatMap_of List.nodup_range
    · intro i _
      exact List.Nodup.map (fun a b h => by simpa using h) List.nodup_range
    · intro i _ j _ b h1 h2
      rw [List.mem_map] at h1 h2
      obtain ⟨_, _, rfl⟩ := h1
      obtain ⟨_, _, h⟩ := h2
      simp at h; exact h.1.symm
  · intro p _ q _ b h1 h2
    simp only [List.mem_flatMap, List.mem_map] at h1 h2
    obtain ⟨_, _, _, _, rfl⟩ := h1
    obtain ⟨_, _, _, _, h⟩ := h2
    simp at h; exact h.1.symm

/-- The two-patch domain is a setting: hypotheses of C08, C09, C10, C12. -/
theorem two_setting (mark : Bool) : Setting (two mark) twoI twoB (corners [true, false]) (dofs (two mark) [false, true]) where
  ok := two_ok mark
  lists := ⟨by cases mark <;> decide, by cases mark <;> decide, by cases mark <;> decide, by decide⟩
  dofs_nodup := dofs_nodup _ (by decide)
  dofs_iff := dofs_iff _ _ (by decide)

/-- C08, C09, C12: the hypotheses are met; here the reversed order with repetitions. -/
example (mark : Bool) : ∃ st st', result (two mark) twoI twoB (corners [true, false]) (dofs (two mark) [false, true]) = some st ∧
    result (two mark) [((false, .east), (true, .east)), ((true, .east), (false, .east))] twoB.reverse (corners [false, true, false])
      (dofs (two mark) [true, false, true]) = some st' ∧ st'.M = st.M := by
  obtain ⟨st, st', h1, h2, h3, -⟩ := C12_order_independent (two_setting mark)
    (il' := [((false, .east), (true, .east)), ((true, .east), (false, .east))]) (bl' := twoB.reverse) (vl' := corners [false, true, false])
    (dl' := dofs (two mark) [true, false, true])
    ⟨by cases mark <;> decide, by cases mark <;> decide, by cases mark <;> decide, by decide⟩ (dofs_iff _ _ (by decide))
  exact ⟨st, st', h1, h2, h3⟩

/-- C11: sizes `5·7 + 6·7` minus seven pairs along the interface, plus … : 63 without marks, 67 with marks. -/
example : countDofs (two false) [false, true] twoI twoB (corners [true, false]) = 63 ∧
    countDofs (two true) [false, true] twoI twoB (corners [true, false]) = 67 := by decide

/-- C10: in the two-patch domain the middle of the interface is the midpoint of points two apart. -/
example (st : St Bool) (hst : result (two false) twoI twoB (corners [true, false]) (dofs (two false) [false, true]) = some st)
    (x : Dof Bool → ℚ) :
    let X := exported st.M (freeRows (two false) twoI twoB (corners [true, false]) (dofs (two false) [false, true])) x
    X (false, 4, 3) = X (true, 5, 3) ∧ X (false, 4, 1) = (1 / 2 : ℚ) • (X (false, 3, 1) + X (true, 4, 5)) := by
  have h3 := C10_interface_midpoint (two_setting false) hst x (s := (false, .east)) (t := (true, .east)) rfl 3 (by decide) (by decide)
  have h1 := C10_interface_midpoint (two_setting false) hst x (s := (false, .east)) (t := (true, .east)) rfl 1 (by decide) (by decide)
  exact ⟨h3.1, h1.2⟩

/-- C10, violation in the two-patch domain with marked (sharp) corners: the corner points of the two patches at the end of
the interface are independent. -/
theorem C10_not_continuous_when_marked : ∃ st, result (two true) twoI twoB (corners [true, false]) (dofs (two true) [false, true]) = some st ∧
    ∃ x : Dof Bool → ℚ,
      exported st.M (freeRows (two true) twoI twoB (corners [true, false]) (dofs (two true) [false, true])) x (false, 4, 0) = 0 ∧
      exported st.M (freeRows (two true) twoI twoB (corners [true, false]) (dofs (two true) [false, true])) x (true, 5, 6) = 1 := by
  obtain ⟨st, h1, -⟩ := C08_partition_of_unity (two_setting true)
  refine ⟨st, h1, ?_⟩
  exact C10_corner_discontinuous (two_setting true) h1 (c := (false, .se)) (d := (true, .ne)) (s := .east) (t := .east)
    (by decide) rfl (by decide) rfl (Or.inl ⟨rfl, rfl⟩) (0 : ℚ) 1

/-- Three patches around a common vertex (their south-west corners), the west side of each glued to the south side of the next. -/
def three : Topo (Fin 3) where
  n0 := fun _ => 5
  n1 := fun _ => 5
  nb := fun s => match s.2 with
    | .west => some (s.1 + 1, .south) | .south => some (s.1 - 1, .west) | _ => none
  flip := fun _ => false
  cl := fun c => match c.2 with
    | .sw => [(0, .sw), (1, .sw), (2, .sw)] | .ne => [c] | .nw => [c, (c.1 + 1, .se)] | .se => [c, (c.1 - 1, .nw)]
  interior := fun c => c.2 = .sw
  c0 := fun _ => false

theorem three_ok : Ok three where
  n0_ge := by decide
  n1_ge := by decide
  nb_symm := by decide
  flip_symm := by decide
  nb_len := by decide
  no_fold := by decide
  cl_self := by decide
  cl_nodup := by decide
  cl_same := by decide
  cl_cross := by decide
  cl_conn := by
    intro c d hd
    have h : ∀ c d, d ∈ three.cl c → d = c ∨ Step three c d := by
      unfold Step
      decide
    rcases h c d hd with rfl | h
    · exact Relation.ReflTransGen.refl
    · exact Relation.ReflTransGen.single h
  interior_iff := by decide
  c0_same := by decide

def threeI : List (PS (Fin 3) × PS (Fin 3)) := [((0, .west), (1, .south)), ((1, .west), (2, .south)), ((2, .west), (0, .south))]
def threeB : List (PS (Fin 3)) := [0, 1, 2].flatMap fun p => [(p, .east), (p, .north)]
def threeV : List (PC (Fin 3)) := [0, 1, 2].flatMap fun p => Corner.all.map fun c => (p, c)

/-- An extraordinary vertex meets the hypotheses of C08–C12. -/
theorem three_setting : Setting three threeI threeB threeV (dofs three [0, 1, 2]) where
  ok := three_ok
  lists := ⟨by decide +kernel, by decide +kernel, by decide +kernel, by decide +kernel⟩
  dofs_nodup := dofs_nodup _ (by decide)
  dofs_iff := dofs_iff _ _ (by decide)

example : countDofs three [0, 1, 2] threeI threeB threeV = 48 := by decide
example : 48 = (freeRows three threeI threeB threeV (dofs three [0, 1, 2])).length := by
  have := C11_count three_setting (pl := [0, 1, 2]) (by decide) (by decide) (by decide) (by decide)
  rw [show countDofs three [0, 1, 2] threeI threeB threeV = 48 by decide] at this
  exact_mod_cast this

/-- Four patches around a common vertex: a smooth interior vertex of C10. -/
def four : Topo (Fin 4) where
  n0 := fun _ => 4
  n1 := fun _ => 4
  nb := fun s => match s.2 with
    | .west => some (s.1 + 1, .south) | .south => some (s.1 - 1, .west) | _ => none
  flip := fun _ => false
  cl := fun c => match c.2 with
    | .sw => [(0, .sw), (1, .sw), (2, .sw), (3, .sw)] | .ne => [c] | .nw => [c, (c.1 + 1, .se)] | .se => [c, (c.1 - 1, .nw)]
  interior := fun c => c.2 = .sw
  c0 := fun _ => false

theorem four_ok : Ok four where
  n0_ge := by decide
  n1_ge := by decide
  nb_symm := by decide
  flip_symm := by decide
  nb_len := by decide
  no_fold := by decide
  cl_self := by decide
  cl_nodup := by decide
  cl_same := by decide +kernel
  cl_cross := by decide
  cl_conn := by
    intro c d hd
    have h : ∀ c d, d ∈ four.cl c → d = c ∨ Step four c d ∨ ∃ e, Step four c e ∧ Step four e d := by
      unfold Step
      decide +kernel
    rcases h c d hd with rfl | h | ⟨e, h1, h2⟩
    · exact Relation.ReflTransGen.refl
    · exact Relation.ReflTransGen.single h
    · exact (Relation.ReflTransGen.single h1).tail h2
  interior_iff := by decide
  c0_same := by decide

def fourI : List (PS (Fin 4) × PS (Fin 4)) :=
  [((0, .west), (1, .south)), ((1, .west), (2, .south)), ((2, .west), (3, .south)), ((0, .south), (3, .west))]
def fourB : List (PS (Fin 4)) := [0, 1, 2, 3].flatMap fun p => [(p, .east), (p, .north)]
def fourV : List (PC (Fin 4)) := [0, 1, 2, 3].flatMap fun p => Corner.all.map fun c => (p, c)

theorem four_setting : Setting four fourI fourB fourV (dofs four [0, 1, 2, 3]) where
  ok := four_ok
  lists := ⟨by decide +kernel, by decide +kernel, by decide +kernel, by decide +kernel⟩
  dofs_nodup := dofs_nodup _ (by decide)
  dofs_iff := dofs_iff _ _ (by decide)

example (st : St (Fin 4)) (hst : result four fourI fourB fourV (dofs four [0, 1, 2, 3]) = some st) (x : Dof (Fin 4) → ℚ) :
    let X := exported st.M (freeRows four fourI fourB fourV (dofs four [0, 1, 2, 3])) x
    X (0, 0, 0) = (1 / 2 : ℚ) • (X (0, 1, 0) + X (1, 0, 1)) :=
  (C10_smooth_vertex_midpoint four_setting hst x (c := (0, .sw)) (d := (1, .sw)) (s := .west) (t := .south) (by decide) rfl
    (by decide) (Or.inl ⟨rfl, rfl⟩)).2

/-- One patch folded onto itself: its west side glued to its south side (the tip of a cone). -/
def cone : Topo Unit where
  n0 := fun _ => 4
  n1 := fun _ => 4
  nb := fun s => match s.2 with
    | .west => some ((), .south) | .south => some ((), .west) | _ => none
  flip := fun _ => false
  cl := fun c => match c.2 with
    | .sw => [c] | .ne => [c] | .nw => [c, ((), .se)] | .se => [c, ((), .nw)]
  interior := fun c => c.2 = .sw
  c0 := fun _ => false

def coneI : List (PS Unit × PS Unit) := [(((), .west), ((), .south))]
def coneB : List (PS Unit) := [((), .east), ((), .north)]
def coneV : List (PC Unit) := Corner.all.map fun c => ((), c)

/-- C08, what fails without the exclusion of folds: matrix entries are assigned and not added, so the two halves of the
weight of the function next to the tip overwrite each other and its column sums to one half. -/
theorem C08_cone_column_sum : (result cone coneI coneB coneV (dofs cone [()])).map
    (fun st => ((freeRows cone coneI coneB coneV (dofs cone [()])).map fun r => st.M r ((), 1, 0)).sum) = some (1 / 2) := by
  decide +kernel

end Verif.Smooth
