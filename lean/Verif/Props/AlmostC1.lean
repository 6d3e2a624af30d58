import Verif.Proofs.AlmostC1Indep
import Verif.Proofs.SmoothExport
import Verif.Props.Geom
import Verif.Props.Smooth
import Verif.Props.EV
/-!
# Properties C11, C15, C42, C43 for `gsAlmostC1`

The run: mapper, smoothing matrix, product with the refinement matrix, and the triangles at special vertices (`almost`); coefficients (`almostCoefs`).
-/
set_option autoImplicit false
set_option linter.unusedSectionVars false
set_option linter.unusedVariables false
set_option linter.unusedSimpArgs false
namespace Verif.AlmostC1
open Verif Smooth Geom

variable {P K : Type} [LinearOrder P] [DecidableEq K]

/-- The smooth functions: local functions the mapper did not eliminate. -/
def freeOf (ms : MapSt P) (dl : List (Dof P)) : List (Dof P) := dl.filter fun d => ! ms.elim d

/-- A vertex the construction treats by a triangle: interior with other than four patches; on the boundary with more than two patches, or with two and marked C0. -/
def IsSpecial (T : Topo P) (c : PC P) : Prop :=
  if T.interior c then (T.cl c).length ≠ 4 else 2 < (T.cl c).length ∨ ((T.cl c).length = 2 ∧ T.c0 c = true)

/-- What is assumed about a run. `val3`: no interior vertex has one or two patches. `head`, `order`: how G+Smo lists corners (`getCornerList` starts with the given corner; loops go patch by patch).
`at_inj`: near different corners there are different refined functions. `tm_sum`, `tm_nonneg`: rows of the refinement matrix. `normal`, `planar`, `spread`: normals do not vanish, planar targets have
third coordinate zero, and the refined control points at a special vertex do not all fall on it. -/
structure Run (T : Topo P) (at' : PC P → ℕ → ℕ → K) (normal : PC P → Option V3) (mid : PC P → V3) (pts : K → V3) (tm : K → Dof P → ℝ)
    (il : List (PS P × PS P)) (bl : List (PS P)) (vl : List (PC P)) (dl : List (Dof P)) : Prop where
  setting : Setting T il bl vl dl
  val3 : ∀ c, T.interior c = true → 3 ≤ (T.cl c).length
  head : ∀ c, (T.cl c).head? = some c
  order : vl.Pairwise fun c d => c.1 ≤ d.1
  at_inj : ∀ c d i j i' j', i < 2 → j < 2 → i' < 2 → j' < 2 → at' c i j = at' d i' j' → c = d
  tm_sum : ∀ k, (dl.map fun d => tm k d).sum = 1
  tm_nonneg : ∀ k d, 0 ≤ tm k d
  normal_ne : ∀ c n, normal c = some n → n ≠ 0
  planar : ∀ c, normal c = none → mid c 2 = 0 ∧ ∀ k, pts k 2 = 0
  spread : ∀ c, IsSpecial T c → ∃ k ∈ triKeys T at' c, onPlane (normal c) (mid c) (pts k) ≠ mid c

/-! ## C11 -/

/-- C11 for `gsAlmostC1`. If no interior vertex has one or two patches, `_computeMapper` does not stop with an error, and the size computed by `_countDoFs` is the number of functions it leaves free. -/
theorem C11_almost_count {T : Topo P} {il : List (PS P × PS P)} {bl : List (PS P)} {vl : List (PC P)} {dl : List (Dof P)} (h : Setting T il bl vl dl)
    (h3 : ∀ c, T.interior c = true → 3 ≤ (T.cl c).length) {pl : List P} (hpn : pl.Nodup) (hpl : ∀ p, p ∈ pl)
    (hil : (il.map Prod.fst ++ il.map Prod.snd).Nodup) (hbl : bl.Nodup) :
    ∃ ms, computeMapper T il bl vl = some ms ∧ countDofs T pl il bl vl = (freeOf ms dl).length := by
  have hne : ∀ a, isCor a = false → AE T a = AElim T a := by
    intro a ha; cases a <;> simp [isCor] at ha <;> rfl
  obtain ⟨ms, h1, h2⟩ := mapperG_elim h.ok hne (rule_ok h.ok h3) h.lists
  refine ⟨ms, h1, ?_⟩
  exact (countG_eq h.ok hne (vertexCountG_eq h.ok h3) hpn hpl h.dofs_nodup h.dofs_iff h.lists hil hbl h2).symm

/-! ## C08, C09: the matrix before the step at special vertices -/

/-- C08, C09 for `gsAlmostC1`. The coarse smoothing matrix is computed without error; the weights of every local function are non-negative and sum to one over the smooth functions; entries lie in rows
of smooth functions and columns of local functions; exactly the smooth functions are marked as handled and the final checks succeed. -/
theorem C08_almost_coarse {T : Topo P} {il : List (PS P × PS P)} {bl : List (PS P)} {vl : List (PC P)} {dl : List (Dof P)} (h : Setting T il bl vl dl)
    (h3 : ∀ c, T.interior c = true → 3 ≤ (T.cl c).length) :
    ∃ ms st, computeMapper T il bl vl = some ms ∧ smoothMatrix T ms.elim il bl vl dl = some st ∧
      (∀ c, valid T c → ((freeOf ms dl).map fun r => st.M r c).sum = 1) ∧ (∀ r c, 0 ≤ st.M r c) ∧
      (∀ r c, st.M r c ≠ 0 → r ∈ freeOf ms dl ∧ c ∈ dl) ∧ (∀ r, st.bchk r = true ↔ r ∈ freeOf ms dl) ∧
      ∀ sl cl, performChecks st sl cl (freeOf ms dl) = true := by
  have hne : ∀ a, isCor a = false → AE T a = AElim T a := by
    intro a ha; cases a <;> simp [isCor] at ha <;> rfl
  obtain ⟨ms, h1, h2⟩ := mapperG_elim h.ok hne (rule_ok h.ok h3) h.lists
  obtain ⟨st, g1, g2, g3, g4, g5, g6⟩ := closed_formG h.ok (vertOk h.ok h2) h.lists h.dofs_iff h2
  have hfree : ∀ r, r ∈ freeOf ms dl ↔ valid T r ∧ ms.elim r = false := by
    intro r
    unfold freeOf
    rw [List.mem_filter, h.dofs_iff]; simp
  refine ⟨ms, st, h1, g1, ?_, ?_, ?_, ?_, ?_⟩
  · intro c hc
    obtain ⟨c1, c2⟩ := enc_dec hc
    rw [← sum_FA h.ok h.dofs_nodup h.dofs_iff c1]
    unfold freeOf
    rw [sum_filter_zero]
    · congr 1
      apply List.map_congr_left
      intro r hr
      rw [g2, if_pos ⟨(h.dofs_iff r).1 hr, hc⟩]; rfl
    · intro r hr he
      have hr' := (h.dofs_iff r).1 hr
      obtain ⟨r1, r2⟩ := enc_dec hr'
      rw [g2, if_pos ⟨hr', hc⟩]
      by_contra hcon
      have := (g6 _ _ r1 c1 hcon).1
      rw [← h2 _ r1, r2] at this
      rw [this] at he; simp at he
  · intro r c
    rw [g2]
    split_ifs
    · exact FA_nonneg _ _
    · exact le_refl _
  · intro r c hne'
    rw [g2] at hne'
    by_cases hv : valid T r ∧ valid T c
    · rw [if_pos hv] at hne'
      obtain ⟨r1, r2⟩ := enc_dec hv.1
      obtain ⟨c1, c2⟩ := enc_dec hv.2
      refine ⟨(hfree r).2 ⟨hv.1, ?_⟩, (h.dofs_iff c).2 hv.2⟩
      have := (g6 _ _ r1 c1 hne').1
      rw [← h2 _ r1, r2] at this
      exact this
    · rw [if_neg hv] at hne'; exact absurd rfl hne'
  · intro r; rw [g3, hfree]
  · intro sl cl
    unfold performChecks
    simp only [Bool.and_eq_true, List.all_eq_true]
    exact ⟨⟨fun s _ => g5 s, fun c _ => g4 c⟩, fun r hr => (g3 r).2 ((hfree r).1 hr)⟩

/-! ## the run -/

theorem isSpecial_iff {T : Topo P} (c : PC P) : IsSpecial T c ↔ special T c = true := by
  unfold IsSpecial special
  cases hi : T.interior c <;> cases hc : T.c0 c <;> simp
  omega

theorem mem_triKeys {T : Topo P} {at' : PC P → ℕ → ℕ → K} {c : PC P} {k : K} :
    k ∈ triKeys T at' c ↔ ∃ d ∈ T.cl c, ∃ i j, i < 2 ∧ j < 2 ∧ k = at' d i j := by
  unfold triKeys
  rw [List.mem_flatMap]
  apply exists_congr
  intro d
  apply and_congr_right
  intro _
  simp only [List.mem_cons, List.not_mem_nil, or_false]
  constructor
  · rintro (h | h | h | h)
    · exact ⟨0, 0, by decide, by decide, h⟩
    · exact ⟨0, 1, by decide, by decide, h⟩
    · exact ⟨1, 0, by decide, by decide, h⟩
    · exact ⟨1, 1, by decide, by decide, h⟩
  · rintro ⟨i, j, hi, hj, h⟩
    rcases (by omega : i = 0 ∨ i = 1) with rfl | rfl <;> rcases (by omega : j = 0 ∨ j = 1) with rfl | rfl <;> simp [h]

section run
variable {T : Topo P} {at' : PC P → ℕ → ℕ → K} {normal : PC P → Option V3} {mid : PC P → V3} {pts : K → V3} {tm : K → Dof P → ℝ}
  {il : List (PS P × PS P)} {bl : List (PS P)} {vl : List (PC P)} {dl : List (Dof P)}

theorem keys_same (ok : Ok T) {c d : PC P} (h : d ∈ T.cl c) (k : K) : k ∈ triKeys T at' d ↔ k ∈ triKeys T at' c := by
  rw [mem_triKeys, mem_triKeys]
  simp only [ok.cl_same c d h]

/-- the triangle of a special vertex -/
theorem run_triangle (h : Run T at' normal mid pts tm il bl vl dl) {c : PC P} (hc : special T c = true) :
    ∃ Cg t, triangle T at' normal mid pts c = some (Cg, t) ∧ t.map (·.1) = triKeys T at' c ∧
      (∀ e ∈ t, (∀ i, 0 ≤ e.2 i) ∧ ∑ i, e.2 i = 1 ∧ ∑ i, e.2 i • Cg i = onPlane (normal c) (mid c) (pts e.1)) ∧
      ∃ ub, Encloses (normal c) (mid c) ((triKeys T at' c).map pts) Cg ub := by
  obtain ⟨k, hk, hne⟩ := h.spread c ((isSpecial_iff c).2 hc)
  obtain ⟨Cg, ub, h1, h2⟩ := C18_triangle (normal c) (mid c) ((triKeys T at' c).map pts) (h.normal_ne c) (by
    intro hn
    obtain ⟨g1, g2⟩ := h.planar c hn
    refine ⟨g1, ?_⟩
    intro u hu
    rw [List.mem_map] at hu
    obtain ⟨k, -, rfl⟩ := hu
    exact g2 k) ⟨pts k, List.mem_map_of_mem hk, hne⟩
  have hf := h2.1
  rw [List.forall₂_map_left_iff] at hf
  refine ⟨Cg, (triKeys T at' c).zip ub, ?_, ?_, ?_, ub, h2⟩
  · unfold triangle
    rw [h1]; rfl
  · exact List.map_fst_zip (le_of_eq hf.length_eq)
  · intro e he
    have := (List.forall₂_iff_zip.1 hf).2 he
    exact this

theorem run_triOk (h : Run T at' normal mid pts tm il bl vl dl) : TriOk T (fun c => (triangle T at' normal mid pts c).map Prod.snd) := by
  have hk : ∀ c, special T c = true → keys (fun c => (triangle T at' normal mid pts c).map Prod.snd) c = triKeys T at' c := by
    intro c hc
    obtain ⟨Cg, t, h1, h2, -⟩ := run_triangle h hc
    unfold keys
    simp only [h1]
    exact h2
  refine ⟨?_, ?_⟩
  · intro c hc
    obtain ⟨Cg, t, h1, -⟩ := run_triangle h hc
    exact ⟨t, by rw [h1]; rfl⟩
  · intro c d hc hd hdc k hkc hkd
    rw [hk c hc, mem_triKeys] at hkc
    rw [hk d hd, mem_triKeys] at hkd
    obtain ⟨x, hx, i, j, hi, hj, rfl⟩ := hkc
    obtain ⟨y, hy, i', j', hi', hj', he⟩ := hkd
    have := h.at_inj x y i j i' j' hi hj hi' hj' he
    subst this
    exact hdc ((h.setting.ok.cl_same c x hx d).1 (cl_symm h.setting.ok hy))

/-- the first corner of a vertex -/
theorem first_corner (ok : Ok T) (hall : ∀ c, c ∈ vl) (c : PC P) : ∃ f ∈ T.cl c, vl.find? (fun d => decide (d ∈ T.cl f)) = some f := by
  have : ∃ f, vl.find? (fun d => decide (d ∈ T.cl c)) = some f := by
    rw [← Option.isSome_iff_exists, List.find?_isSome]
    exact ⟨c, hall c, by simpa using ok.cl_self c⟩
  obtain ⟨f, hf⟩ := this
  have hm : f ∈ T.cl c := by simpa using List.find?_some hf
  refine ⟨f, hm, ?_⟩
  rw [← hf]
  congr 1
  funext d
  rw [decide_eq_decide]
  exact ok.cl_same c f hm d

theorem run_spec (h : Run T at' normal mid pts tm il bl vl dl) :
    ∃ ms st ev, almost T at' normal mid pts tm il bl vl dl = some (ms, st, ev) ∧ computeMapper T il bl vl = some ms ∧
      smoothMatrix T ms.elim il bl vl dl = some st ∧ (∀ a, AValid T a → ms.elim (enc T a) = AE T a) ∧
      (∀ r k, (∀ c, special T c = true → k ∉ triKeys T at' c) → ev.M r k = (dl.map fun d => (st.M r d : ℝ) * tm k d).sum) ∧
      (∀ c, special T c = true → vl.find? (fun d => decide (d ∈ T.cl c)) = some c →
        ∃ Cg t rows, triangle T at' normal mid pts c = some (Cg, t) ∧ triangleRows T c = some [rows 0, rows 1, rows 2] ∧ Function.Injective rows ∧
          (∀ i, rows i ∈ freeOf ms dl) ∧ (∀ i, ∃ e ∈ T.cl c, ∃ x y, rows i = enc T (.cor e x y) ∧ AE T (.cor e x y) = false) ∧
          ∀ k ∈ triKeys T at' c, ∀ r, ev.M r k = triVal rows t r k) := by
  have hs := h.setting
  have hne : ∀ a, isCor a = false → AE T a = AElim T a := by
    intro a ha; cases a <;> simp [isCor] at ha <;> rfl
  obtain ⟨ms, h1, h2⟩ := mapperG_elim hs.ok hne (rule_ok hs.ok h.val3) hs.lists
  obtain ⟨st, g1, -⟩ := closed_formG hs.ok (vertOk hs.ok h2) hs.lists hs.dofs_iff h2
  obtain ⟨ev, e1, e2, e3⟩ := ev_loop hs.ok h.val3 h.head h2 (run_triOk h) (vl.filter fun c => special T c && ! ((T.cl c).any fun d => decide (d.1 < c.1)))
    (by intro c hc; rw [List.mem_filter, Bool.and_eq_true] at hc; exact hc.2.1)
    { M := transfer dl st.M tm, vchk := fun _ => false } (by intros; rfl)
  refine ⟨ms, st, ev, ?_, h1, g1, h2, ?_, ?_⟩
  · have ha : computeMapper T il bl vl = some ms := h1
    have hb : smoothMatrix T ms.elim il bl vl dl = some st := g1
    have hc : computeEVs T ms.elim vl dl tm (fun c => (triangle T at' normal mid pts c).map Prod.snd) st.M = some ev := e1
    unfold almost
    rw [ha]
    simp only [Option.bind_eq_bind, Option.bind_some, hb, hc, Option.pure_def]
  · intro r k hk
    rw [e2 r k]
    · rfl
    · intro c hc _
      rw [List.mem_filter, Bool.and_eq_true] at hc
      obtain ⟨Cg, t, t1, t2, -⟩ := run_triangle h hc.2.1
      unfold keys
      simp only [t1]
      show k ∉ t.map (·.1)
      rw [t2]
      exact hk c hc.2.1
  · intro c hc hf
    obtain ⟨t, rows, t1, t2, t3⟩ := e3 c (first_special hs.ok h.order hs.lists.vl_all hc hf) rfl
    obtain ⟨Cg, t', t1', t2', -⟩ := run_triangle h hc
    have htt : t = t' := by
      simp only [t1', Option.map_some] at t1
      exact (Option.some.inj t1).symm
    subst htt
    obtain ⟨rows', r1, r2, r3⟩ := tri_rows hs.ok h.val3 hc
    have hrr : rows = rows' := by
      rw [r1] at t2
      simp only [Option.some.injEq, List.cons.injEq, and_true] at t2
      funext i
      fin_cases i
      · exact t2.1.symm
      · exact t2.2.1.symm
      · exact t2.2.2.symm
    subst hrr
    refine ⟨Cg, t, rows, t1', r1, r2, ?_, r3, ?_⟩
    · intro i
      obtain ⟨e, -, x, y, i1, i2⟩ := r3 i
      unfold freeOf
      rw [List.mem_filter, hs.dofs_iff, i1]
      refine ⟨enc_valid hs.ok trivial, ?_⟩
      rw [h2 (.cor e x y) trivial, i2]; rfl
    · intro k hk r
      apply t3
      unfold keys
      simp only [t1']
      show k ∈ t.map (·.1)
      rw [t2']; exact hk

theorem key_cases (h : Run T at' normal mid pts tm il bl vl dl) (k : K) :
    (∀ c, special T c = true → k ∉ triKeys T at' c) ∨
      ∃ c, special T c = true ∧ vl.find? (fun d => decide (d ∈ T.cl c)) = some c ∧ k ∈ triKeys T at' c := by
  by_cases hk : ∃ c, special T c = true ∧ k ∈ triKeys T at' c
  · obtain ⟨c, h1, h2⟩ := hk
    obtain ⟨f, hf, hff⟩ := first_corner h.setting.ok h.setting.lists.vl_all c
    refine Or.inr ⟨f, ?_, hff, (keys_same h.setting.ok hf k).2 h2⟩
    rw [special_same h.setting.ok hf]; exact h1
  · left
    intro c h1 h2
    exact hk ⟨c, h1, h2⟩

theorem lastv_key {t : List (K × (Fin 3 → ℝ))} {k : K} (h : k ∈ t.map (·.1)) : ∃ e ∈ t, e.1 = k ∧ e.2 = lastv t k :=
  ⟨_, lastv_mem h, rfl, rfl⟩

theorem triVal_cases (rows : Fin 3 → Dof P) (t : List (K × (Fin 3 → ℝ))) (r : Dof P) (k : K) :
    (∃ i, r = rows i ∧ triVal rows t r k = lastv t k i) ∨ ((∀ i, r ≠ rows i) ∧ triVal rows t r k = 0) := by
  unfold triVal
  by_cases h2 : r = rows 2
  · left; exact ⟨2, h2, by rw [if_pos h2]⟩
  · by_cases h1 : r = rows 1
    · left; exact ⟨1, h1, by rw [if_neg h2, if_pos h1]⟩
    · by_cases h0 : r = rows 0
      · left; exact ⟨0, h0, by rw [if_neg h2, if_neg h1, if_pos h0]⟩
      · right
        refine ⟨?_, by rw [if_neg h2, if_neg h1, if_neg h0]⟩
        intro i; fin_cases i
        · exact h0
        · exact h1
        · exact h2

/-! ## C15 -/

/-- C15 for `gsAlmostC1`. The step at special vertices never stops with an error; afterwards the weights of every refined function are non-negative, lie in rows of smooth functions, and sum to one. -/
theorem C15_almost_partition_of_unity (h : Run T at' normal mid pts tm il bl vl dl) :
    ∃ ms st ev, almost T at' normal mid pts tm il bl vl dl = some (ms, st, ev) ∧
      (∀ k, ((freeOf ms dl).map fun r => ev.M r k).sum = 1) ∧ (∀ r k, 0 ≤ ev.M r k) ∧ ∀ r k, ev.M r k ≠ 0 → r ∈ freeOf ms dl := by
  obtain ⟨ms, st, ev, h1, h2, h3, h4, h5, h6⟩ := run_spec h
  obtain ⟨ms', st', h2', h3', c1, c2, c3, -⟩ := C08_almost_coarse h.setting h.val3
  rw [h2] at h2'; cases h2'
  rw [h3] at h3'; cases h3'
  have hnd : (freeOf ms dl).Nodup := h.setting.dofs_nodup.filter _
  refine ⟨ms, st, ev, h1, ?_, ?_, ?_⟩
  · intro k
    rcases key_cases h k with hk | ⟨c, hc, hf, hk⟩
    · have e : ((freeOf ms dl).map fun r => ev.M r k) = (freeOf ms dl).map fun r => (dl.map fun d => (st.M r d : ℝ) * tm k d).sum := by
        apply List.map_congr_left; intro r _; exact h5 r k hk
      rw [e]
      have swap : ∀ (A B : List (Dof P)) (f : Dof P → Dof P → ℝ), (A.map fun r => (B.map fun d => f r d).sum).sum = (B.map fun d => (A.map fun r => f r d).sum).sum := by
        intro A B f
        induction A with
        | nil => simp
        | cons a A ih => simp only [List.map_cons, List.sum_cons, ih, List.sum_map_add]
      rw [swap, ← h.tm_sum k]
      congr 1
      apply List.map_congr_left
      intro d hd
      have := c1 d ((h.setting.dofs_iff d).1 hd)
      rw [List.sum_map_mul_right]
      have hc : ((freeOf ms dl).map fun r => (st.M r d : ℝ)).sum = (((freeOf ms dl).map fun r => st.M r d).sum : ℚ) := by
        generalize freeOf ms dl = l
        induction l with
        | nil => simp
        | cons a l ih => simp only [List.map_cons, List.sum_cons, ih]; push_cast; rfl
      rw [hc, this]; simp
    · obtain ⟨Cg, t, rows, t1, t2, t3, t4, t5, t6⟩ := h6 c hc hf
      obtain ⟨Cg', t', s1, s2, s3, -⟩ := run_triangle h hc
      rw [t1] at s1; cases s1
      have e : ((freeOf ms dl).map fun r => ev.M r k) = (freeOf ms dl).map fun r => triVal rows t r k • (1 : ℝ) := by
        apply List.map_congr_left; intro r _; rw [t6 k hk r, smul_eq_mul, mul_one]
      rw [e, sum_tri hnd t3 t4]
      obtain ⟨e, he, e1, e2⟩ := lastv_key (t := t) (k := k) (by rw [s2]; exact hk)
      have := (s3 e he).2.1
      rw [e2] at this
      simpa using this
  · intro r k
    rcases key_cases h k with hk | ⟨c, hc, hf, hk⟩
    · rw [h5 r k hk]
      apply List.sum_nonneg
      intro x hx
      rw [List.mem_map] at hx
      obtain ⟨d, -, rfl⟩ := hx
      exact mul_nonneg (by exact_mod_cast c2 r d) (h.tm_nonneg k d)
    · obtain ⟨Cg, t, rows, t1, t2, t3, t4, t5, t6⟩ := h6 c hc hf
      obtain ⟨Cg', t', s1, s2, s3, -⟩ := run_triangle h hc
      rw [t1] at s1; cases s1
      rw [t6 k hk r]
      obtain ⟨e, he, e1, e2⟩ := lastv_key (t := t) (k := k) (by rw [s2]; exact hk)
      rcases triVal_cases rows t r k with ⟨i, -, hi⟩ | ⟨-, hi⟩
      · rw [hi, ← e2]; exact (s3 e he).1 i
      · rw [hi]
  · intro r k hne
    rcases key_cases h k with hk | ⟨c, hc, hf, hk⟩
    · rw [h5 r k hk] at hne
      by_contra hr
      apply hne
      apply List.sum_eq_zero
      intro x hx
      rw [List.mem_map] at hx
      obtain ⟨d, -, rfl⟩ := hx
      have : st.M r d = 0 := by
        by_contra hm; exact hr (c3 r d hm).1
      rw [this]; simp
    · obtain ⟨Cg, t, rows, t1, t2, t3, t4, t5, t6⟩ := h6 c hc hf
      rw [t6 k hk r] at hne
      rcases triVal_cases rows t r k with ⟨i, hi, -⟩ | ⟨-, hi⟩
      · rw [hi]; exact t4 i
      · exact absurd hi hne

/-- C15 for `gsAlmostC1`. The step is local: weights of refined functions other than `0,0`, `0,1`, `1,0`, `1,1` at special vertices are those of the refined smoothing matrix; the weights at a special vertex
lie in three rows, which are corner functions of that vertex. -/
theorem C15_almost_local (h : Run T at' normal mid pts tm il bl vl dl) :
    ∃ ms st ev, almost T at' normal mid pts tm il bl vl dl = some (ms, st, ev) ∧
      (∀ r k, (∀ c, IsSpecial T c → ∀ i j, i < 2 → j < 2 → k ≠ at' c i j) → ev.M r k = (dl.map fun d => (st.M r d : ℝ) * tm k d).sum) ∧
      ∀ c, IsSpecial T c → ∃ rows : Fin 3 → Dof P, (∀ n, ∃ e ∈ T.cl c, ∃ s ∈ e.2.sides, rows n = vert T e s 0 0 ∨ rows n = vert T e s 1 0) ∧
        ∀ d ∈ T.cl c, ∀ i j, i < 2 → j < 2 → ∀ r, ev.M r (at' d i j) ≠ 0 → ∃ n, r = rows n := by
  obtain ⟨ms, st, ev, h1, h2, h3, h4, h5, h6⟩ := run_spec h
  refine ⟨ms, st, ev, h1, ?_, ?_⟩
  · intro r k hk
    apply h5
    intro c hc hkc
    rw [mem_triKeys] at hkc
    obtain ⟨d, hd, i, j, hi, hj, he⟩ := hkc
    refine hk d ((isSpecial_iff d).2 ?_) i j hi hj he
    rw [special_same h.setting.ok hd]; exact hc
  · intro c hc
    obtain ⟨f, hf, hff⟩ := first_corner h.setting.ok h.setting.lists.vl_all c
    have hcs : special T f = true := by rw [special_same h.setting.ok hf]; exact (isSpecial_iff c).1 hc
    obtain ⟨Cg, t, rows, t1, t2, t3, t4, t5, t6⟩ := h6 f hcs hff
    refine ⟨rows, ?_, ?_⟩
    · intro n
      obtain ⟨e, he, x, y, e1, e2⟩ := t5 n
      have he' : e ∈ T.cl c := (h.setting.ok.cl_same c f hf e).1 he
      rcases cor_cases e x y with hc' | hc' | ⟨s, hs, hc'⟩
      · exfalso
        -- the rows are not `1,1`
        have hr := t2
        have hm : rows n ∈ [rows 0, rows 1, rows 2] := by fin_cases n <;> simp
        unfold triangleRows at hr
        split_ifs at hr with hl
        · split at hr
          · rename_i d l hd
            simp only [Option.some.injEq] at hr
            rw [← hr, List.mem_append, List.mem_singleton, all0, List.mem_map] at hm
            rcases hm with ⟨z, -, hz⟩ | hm
            · rw [e1, hc'] at hz
              have := enc_inj h.setting.ok (x := ADof.cor z false false) (y := ADof.cor e true true) trivial trivial hz
              simp at this
            · have hd' : d ∈ allIndices T 1 f := getLowest_sub T (by rw [hd]; simp)
              rw [mem_all1] at hd'
              obtain ⟨z, -, s, -, -, hz⟩ := hd'
              rw [← hm, e1, hc'] at hz
              have := enc_inj h.setting.ok (x := ADof.cor e true true) trivial (av_valid T z s true false) hz
              unfold av at this
              split_ifs at this <;> simp at this
          · cases hr
        · simp only [Option.some.injEq] at hr
          rw [← hr] at hm
          have := getLowest_sub T hm
          rw [all0, List.mem_map] at this
          obtain ⟨z, -, hz⟩ := this
          rw [e1, hc'] at hz
          have := enc_inj h.setting.ok (x := ADof.cor z false false) (y := ADof.cor e true true) trivial trivial hz
          simp at this
      · exact ⟨e, he', e.2.uside, uside_mem _, Or.inl (by rw [e1, hc', vert00 T e (uside_mem _), av_diag])⟩
      · exact ⟨e, he', s, hs, Or.inr (by rw [e1, hc', vert10 T e hs])⟩
    · intro d hd i j hi hj r hne
      rw [t6 _ (mem_triKeys.2 ⟨d, (h.setting.ok.cl_same c f hf d).2 hd, i, j, hi, hj, rfl⟩)] at hne
      rcases triVal_cases rows t r (at' d i j) with ⟨n, hn, -⟩ | ⟨-, hn⟩
      · exact ⟨n, hn⟩
      · exact absurd hn hne

/-! ## C42 -/

/-- C42. The coefficients are computed without error, and around a special vertex the exported surface has the refined control points, projected to the tangent plane of the vertex (planar targets: the
control points themselves): the corners of the triangle are put into the rows in which the barycentric coordinates were written. `c` is the corner of the vertex listed first. -/
theorem C42_control_points (h : Run T at' normal mid pts tm il bl vl dl) (free : Dof P → V3) :
    ∃ ms st ev x, almost T at' normal mid pts tm il bl vl dl = some (ms, st, ev) ∧ almostCoefs T at' normal mid pts il bl vl free = some x ∧
      ∀ c, IsSpecial T c → vl.find? (fun d => decide (d ∈ T.cl c)) = some c → ∀ d ∈ T.cl c, ∀ i j, i < 2 → j < 2 →
        ((freeOf ms dl).map fun r => ev.M r (at' d i j) • x r).sum = onPlane (normal c) (mid c) (pts (at' d i j)) := by
  obtain ⟨ms, st, ev, h1, h2, h3, h4, h5, h6⟩ := run_spec h
  have hnd : (freeOf ms dl).Nodup := h.setting.dofs_nodup.filter _
  obtain ⟨cs, c1, c2, c3⟩ := coef_loop (V := V3) h.setting.ok h.val3 h4 (corners := fun c => (triangle T at' normal mid pts c).map Prod.fst) (by
    intro c hc
    obtain ⟨Cg, t, t1, -⟩ := run_triangle h hc
    exact ⟨Cg, by rw [t1]; rfl⟩) vl { coef := free, vchk := fun _ => false } (by intros; rfl)
  refine ⟨ms, st, ev, cs.coef, h1, ?_, ?_⟩
  · unfold almostCoefs preCoefficients
    rw [h2]
    simp only [Option.bind_eq_bind, Option.bind_some, c1, Option.pure_def]
  · intro c hc hf d hd i j hi hj
    have hcs := (isSpecial_iff c).1 hc
    obtain ⟨Cg, t, rows, t1, t2, t3, t4, t5, t6⟩ := h6 c hcs hf
    obtain ⟨Cg', t', s1, s2, s3, -⟩ := run_triangle h hcs
    rw [t1] at s1; cases s1
    obtain ⟨g, rows', g1, g2, g3⟩ := c3 c hcs hf rfl
    have hg : g = Cg := by
      simp only [t1, Option.map_some] at g1
      exact (Option.some.inj g1).symm
    subst hg
    have hrr : rows' = rows := by
      rw [t2] at g2
      simp only [Option.some.injEq, List.cons.injEq, and_true] at g2
      funext i
      fin_cases i
      · exact g2.1.symm
      · exact g2.2.1.symm
      · exact g2.2.2.symm
    subst hrr
    have hk : at' d i j ∈ triKeys T at' c := mem_triKeys.2 ⟨d, hd, i, j, hi, hj, rfl⟩
    have e : ((freeOf ms dl).map fun r => ev.M r (at' d i j) • cs.coef r) = (freeOf ms dl).map fun r => triVal rows' t r (at' d i j) • cs.coef r := by
      apply List.map_congr_left; intro r _; rw [t6 _ hk r]
    rw [e, sum_tri hnd t3 t4]
    simp only [g3]
    obtain ⟨e, he, e1, e2⟩ := lastv_key (t := t) (k := at' d i j) (by rw [s2]; exact hk)
    have := (s3 e he).2.2
    rw [e2, e1] at this
    exact this

/-! ## C43 -/

theorem in_tri {c : PC P} {l : List (Dof P)} (ht : triangleRows T c = some l) :
    ((T.cl c).length ≠ 2 → ∀ x ∈ low0 T c, x ∈ l) ∧ ((T.cl c).length = 2 → ∀ d ∈ T.cl c, enc T (.cor d false false) ∈ l) ∧
      ((T.cl c).length = 2 → ∀ x ∈ low1 T c, x ∈ l) := by
  unfold triangleRows at ht
  split_ifs at ht with hl
  · refine ⟨fun h => absurd hl h, ?_⟩
    split at ht
    · rename_i d m hd
      simp only [Option.some.injEq] at ht
      subst ht
      refine ⟨fun _ e he => ?_, fun _ x hx => ?_⟩
      · rw [List.mem_append, all0]
        exact Or.inl (List.mem_map_of_mem (f := fun d => enc T (.cor d false false)) he)
      · have hm : m = [] := by
          have : (getLowest T (allIndices T 1 c) 1).length ≤ 1 := by unfold getLowest; rw [List.length_take]; omega
          rw [hd] at this
          simpa using this
        unfold low1 at hx
        rw [hd, hm] at hx
        rw [List.mem_append]
        exact Or.inr hx
    · cases ht
  · simp only [Option.some.injEq] at ht
    subst ht
    exact ⟨fun _ x hx => hx, fun h => absurd h hl, fun h => absurd h hl⟩

/-- free functions at special vertices that are not determined by the coarse matrix carry the triangle -/
theorem tri_of (h : Run T at' normal mid pts tm il bl vl dl) {a : ADof P} (ha : AE T a = false)
    (hz : AZ T a = true ∨ ∃ c, special T c = true ∧ a = .cor c false false)
    (hno : ∀ c, a = .cor c false false → T.interior c = false → T.c0 c = true → (T.cl c).length ≤ 3) :
    ∃ c, special T c = true ∧ ∀ f ∈ T.cl c, ∀ l, triangleRows T f = some l → enc T a ∈ l := by
  have ok := h.setting.ok
  have k3 : ∀ c, keep3 T c = true → special T c = true ∧ (T.cl c).length ≠ 2 := by
    intro c hk
    have hv := h.val3 c
    unfold keep3 at hk
    unfold special
    cases hi : T.interior c
    · simp [hi] at hk
      have : 2 - (T.c0 c).toNat < (T.cl c).length := by omega
      exact ⟨by simp [this], by omega⟩
    · have := hv hi
      simp [hi] at hk
      exact ⟨by simpa using hk, by omega⟩
  have k1 : ∀ c, keep1 T c = true → special T c = true ∧ (T.cl c).length = 2 := by
    intro c hk
    unfold keep1 at hk
    unfold special
    simp only [Bool.and_eq_true, Bool.not_eq_true', beq_iff_eq] at hk
    obtain ⟨⟨h1, h2⟩, h3⟩ := hk
    exact ⟨by simp [h1, h2, h3], h2⟩
  have low : ∀ c, keep3 T c = true → enc T (.cor c false false) ∈ low0 T c →
      ∃ c', special T c' = true ∧ ∀ f ∈ T.cl c', ∀ l, triangleRows T f = some l → enc T (.cor c false false) ∈ l := by
    intro c hk hm
    refine ⟨c, (k3 c hk).1, ?_⟩
    intro f hf l hl
    refine (in_tri hl).1 ?_ _ (by rw [low0_same ok hf]; exact hm)
    rw [cl_len ok hf]; exact (k3 c hk).2
  have low' : ∀ c x, keep1 T c = true → x ∈ low1 T c →
      ∃ c', special T c' = true ∧ ∀ f ∈ T.cl c', ∀ l, triangleRows T f = some l → x ∈ l := by
    intro c x hk hm
    refine ⟨c, (k1 c hk).1, ?_⟩
    intro f hf l hl
    refine (in_tri hl).2.2 ?_ _ (by rw [low1_same ok hf]; exact hm)
    rw [cl_len ok hf]; exact (k1 c hk).2
  rcases hz with hz | ⟨c, hc, rfl⟩
  · cases a with
    | int p i j => cases hz
    | sid s off m => cases hz
    | cor c x y =>
      cases x <;> cases y
      · have e : AZ T (.cor c false false) = (keep3 T c && decide (enc T (.cor c false false) ∈ low0 T c)) := rfl
        rw [e, Bool.and_eq_true, decide_eq_true_iff] at hz
        exact low c hz.1 hz.2
      · have e : AZ T (.cor c false true) = (AElim T (.cor c false true) && keep1 T c && decide (enc T (.cor c false true) ∈ low1 T c)) := rfl
        rw [e, Bool.and_eq_true, Bool.and_eq_true, decide_eq_true_iff] at hz
        exact low' c _ hz.1.2 hz.2
      · have e : AZ T (.cor c true false) = (AElim T (.cor c true false) && keep1 T c && decide (enc T (.cor c true false) ∈ low1 T c)) := rfl
        rw [e, Bool.and_eq_true, Bool.and_eq_true, decide_eq_true_iff] at hz
        exact low' c _ hz.1.2 hz.2
      · cases hz
  · rcases special_cases ok h.val3 hc with hk | ⟨hi, h0, h2⟩
    · have e : AE T (.cor c false false) = ((AElim T (.cor c false false) || keep3 T c) && ! (keep3 T c && decide (enc T (.cor c false false) ∈ low0 T c))) := rfl
      rw [hk] at e
      simp only [Bool.or_true, Bool.true_and] at e
      rw [ha] at e
      have : enc T (.cor c false false) ∈ low0 T c := by
        by_contra hcon
        simp [hcon] at e
      exact low c hk this
    · refine ⟨c, hc, ?_⟩
      intro f hf l hl
      have hcf : c ∈ T.cl f := cl_symm ok hf
      by_cases hl2 : (T.cl f).length = 2
      · exact (in_tri hl).2.1 hl2 c hcf
      · apply (in_tri hl).1 hl2
        have h3 := hno c rfl hi h0
        rw [← cl_len ok hf] at h2 h3
        have hl0 : (allIndices T 0 f).length = 3 := by rw [all0, List.length_map]; omega
        unfold low0 getLowest
        rw [List.take_of_length_le (by rw [(List.perm_insertionSort (fun a b => key T a ≤ key T b) _).length_eq, hl0]),
          (List.perm_insertionSort (fun a b => key T a ≤ key T b) _).mem_iff, all0]
        exact List.mem_map_of_mem (f := fun d => enc T (.cor d false false)) hcf

theorem sum_swap (A B : List (Dof P)) (f : Dof P → Dof P → ℝ) :
    (A.map fun r => (B.map fun d => f r d).sum).sum = (B.map fun d => (A.map fun r => f r d).sum).sum := by
  induction A with
  | nil => simp
  | cons a A ih => simp only [List.map_cons, List.sum_cons, ih, List.sum_map_add]

/-- C43 for `gsAlmostC1`, partial: if no C0 vertex on the boundary has more than three patches, the smooth functions are linearly independent. Assumed about the refinement (`hdet`): away from the
special vertices it is one-to-one except for the corner functions there; about the geometry (`hind`): at every special vertex three of the refined control points, projected to the tangent plane, do not lie on a line.
Missing: C0 vertices with four or more patches, where the claim fails (`C43_almost_zero_rows`). -/
theorem C43_almost_independent_partial (h : Run T at' normal mid pts tm il bl vl dl)
    (hno : ∀ c, T.interior c = false → T.c0 c = true → (T.cl c).length ≤ 3)
    (hdet : ∀ y : Dof P → ℝ, (∀ k, (∀ c, IsSpecial T c → ∀ i j, i < 2 → j < 2 → k ≠ at' c i j) → (dl.map fun d => y d * tm k d).sum = 0) →
      ∀ d ∈ dl, (∀ c, IsSpecial T c → d ≠ vert T c c.2.uside 0 0) → y d = 0)
    (hind : ∀ c, IsSpecial T c → ∃ k : Fin 3 → K, (∀ n, ∃ d ∈ T.cl c, ∃ i j, i < 2 ∧ j < 2 ∧ k n = at' d i j) ∧
      ∀ y : Fin 3 → ℝ, ∑ n, y n = 0 → ∑ n, y n • onPlane (normal c) (mid c) (pts (k n)) = 0 → y = 0)
    {ms : MapSt P} {st : St P} {ev : EvSt P K ℝ} (hrun : almost T at' normal mid pts tm il bl vl dl = some (ms, st, ev))
    (x : Dof P → ℝ) (hx : ∀ k, ((freeOf ms dl).map fun r => ev.M r k * x r).sum = 0) : ∀ r ∈ freeOf ms dl, x r = 0 := by
  obtain ⟨ms', st', ev', h1, h2, h3, h4, h5, h6⟩ := run_spec h
  rw [hrun] at h1
  simp only [Option.some.injEq, Prod.mk.injEq] at h1
  obtain ⟨rfl, rfl, rfl⟩ := h1
  obtain ⟨st', g1, g2, g3, g4, g5, g6⟩ := closed_formG h.setting.ok (vertOk h.setting.ok h4) h.setting.lists h.setting.dofs_iff h4
  have : st' = st := by
    have e : smoothMatrix T ms.elim il bl vl dl = some st' := g1
    rw [h3] at e; exact (Option.some.inj e).symm
  subst this
  have hnd : (freeOf ms dl).Nodup := h.setting.dofs_nodup.filter _
  have ok := h.setting.ok
  have hy : ∀ d ∈ dl, (∀ c, IsSpecial T c → d ≠ vert T c c.2.uside 0 0) → ((freeOf ms dl).map fun r => (st'.M r d : ℝ) * x r).sum = 0 := by
    apply hdet
    intro k hk
    have hk' : ∀ c, special T c = true → k ∉ triKeys T at' c := by
      intro c hc hm
      rw [mem_triKeys] at hm
      obtain ⟨d, hd, i, j, hi, hj, he⟩ := hm
      refine hk d ((isSpecial_iff d).2 ?_) i j hi hj he
      rw [special_same ok hd]; exact hc
    rw [← hx k]
    have e : ((freeOf ms dl).map fun r => ev.M r k * x r) = (freeOf ms dl).map fun r => (dl.map fun d => (st'.M r d : ℝ) * x r * tm k d).sum := by
      apply List.map_congr_left; intro r _
      rw [h5 r k hk', ← List.sum_map_mul_right]
      congr 1
      apply List.map_congr_left; intro d _; ring
    rw [e, sum_swap]
    congr 1
    apply List.map_congr_left; intro d _
    rw [← List.sum_map_mul_right]
  intro r hr
  have hr' : valid T r ∧ ms.elim r = false := by
    unfold freeOf at hr
    rw [List.mem_filter, h.setting.dofs_iff] at hr
    simpa using hr
  obtain ⟨r1, r2⟩ := enc_dec hr'.1
  have hae : AE T (dec T r) = false := by rw [← h4 _ r1, r2]; exact hr'.2
  by_cases hcase : AZ T (dec T r) = true ∨ ∃ c, special T c = true ∧ dec T r = .cor c false false
  · obtain ⟨c, hc, htri⟩ := tri_of h hae hcase (fun c _ => hno c)
    obtain ⟨f, hf, hff⟩ := first_corner ok h.setting.lists.vl_all c
    have hfs : special T f = true := by rw [special_same ok hf]; exact hc
    obtain ⟨Cg, t, rows, t1, t2, t3, t4, t5, t6⟩ := h6 f hfs hff
    obtain ⟨Cg', t', s1, s2, s3, -⟩ := run_triangle h hfs
    rw [t1] at s1; cases s1
    have hm := htri f hf _ t2
    rw [r2] at hm
    obtain ⟨k, hk, hki⟩ := hind f ((isSpecial_iff f).2 hfs)
    have hk' : ∀ n, k n ∈ triKeys T at' f := fun n => mem_triKeys.2 (hk n)
    have hkey : ∀ n, ∃ e ∈ t, e.1 = k n ∧ e.2 = lastv t (k n) := fun n => lastv_key (by rw [s2]; exact hk' n)
    have hzero := three_points (fun n => lastv t (k n)) Cg (fun n => onPlane (normal f) (mid f) (pts (k n)))
      (by
        intro n
        obtain ⟨e, he, e1, e2⟩ := hkey n
        rw [← e2]; exact (s3 e he).2.1)
      (by
        intro n
        obtain ⟨e, he, e1, e2⟩ := hkey n
        rw [← e2, (s3 e he).2.2, e1]) hki (fun i => x (rows i)) (by
        intro n
        have := hx (k n)
        have e : ((freeOf ms dl).map fun r => ev.M r (k n) * x r) = (freeOf ms dl).map fun r => triVal rows t r (k n) • x r := by
          apply List.map_congr_left; intro r _; rw [t6 _ (hk' n) r, smul_eq_mul]
        rw [e, sum_tri hnd t3 t4] at this
        exact this)
    have hall : ∀ i, x (rows i) = 0 := fun i => congrFun hzero i
    simp only [List.mem_cons, List.not_mem_nil, or_false] at hm
    rcases hm with hm | hm | hm <;> rw [hm] <;> exact hall _
  · rw [not_or] at hcase
    have hcol : ∀ r' ∈ freeOf ms dl, (st'.M r' r : ℝ) * x r' = if r' = r then x r else 0 := by
      intro r' hr''
      have hv : valid T r' := by
        unfold freeOf at hr''
        rw [List.mem_filter, h.setting.dofs_iff] at hr''
        exact hr''.1
      obtain ⟨v1, v2⟩ := enc_dec hv
      rw [g2, if_pos ⟨hv, hr'.1⟩]
      unfold WF
      rw [FA_free _ _ hae (by simpa using hcase.1)]
      by_cases he : r' = r
      · subst he; rw [ind_self, if_pos rfl]; simp
      · rw [ind_ne, if_neg he]
        · simp
        · intro hcon; apply he; rw [← v2, ← r2, hcon]
    have := hy r ((h.setting.dofs_iff r).2 hr'.1) (by
      intro c hc he
      apply hcase.2
      refine ⟨c, (isSpecial_iff c).1 hc, ?_⟩
      rw [he, vert00 T c (uside_mem _), av_diag, dec_enc ok (x := ADof.cor c false false) trivial])
    rw [List.map_congr_left hcol] at this
    rw [← this]
    exact (sum_one_at hnd hr (x r)).symm

/-- C43, violation. At a C0 vertex on the boundary with `v > 3` patches, `v - 3` of the smooth functions are identically zero, so they are not independent and a system matrix is singular. (The comment in
`gsDPatchBase.hpp:1504` says these functions are deleted later; no code does that.) Assumed: the corner function itself has weight only in the four refined functions at its corner, as for biquadratic splines. -/
theorem C43_almost_zero_rows (h : Run T at' normal mid pts tm il bl vl dl) {c : PC P} (hi : T.interior c = false) (h0 : T.c0 c = true) (h4' : 3 < (T.cl c).length)
    (hloc : ∀ d ∈ T.cl c, ∀ k, tm k (vert T d d.2.uside 0 0) ≠ 0 → ∃ i j, i < 2 ∧ j < 2 ∧ k = at' d i j) :
    ∃ ms st ev, almost T at' normal mid pts tm il bl vl dl = some (ms, st, ev) ∧
      ∃ z : List (Dof P), z.Nodup ∧ z.length = (T.cl c).length - 3 ∧ ∀ r ∈ z, r ∈ freeOf ms dl ∧ ∀ k, ev.M r k = 0 := by
  obtain ⟨ms, st, ev, h1, h2, h3, h4, h5, h6⟩ := run_spec h
  obtain ⟨st', g1, g2, g3, -, g5, g6⟩ := closed_formG h.setting.ok (vertOk h.setting.ok h4) h.setting.lists h.setting.dofs_iff h4
  have : st' = st := by
    have e : smoothMatrix T ms.elim il bl vl dl = some st' := g1
    rw [h3] at e; exact (Option.some.inj e).symm
  subst this
  have ok := h.setting.ok
  have hsp : special T c = true := by
    unfold special
    simp [hi, h0]; omega
  have hlen : (allIndices T 0 c).length = (T.cl c).length := by rw [all0, List.length_map]
  refine ⟨ms, st', ev, h1, (allIndices T 0 c).filter (fun d => decide (d ∉ low0 T c)), (all0_nodup ok c).filter _, ?_, ?_⟩
  · have e1 : ((allIndices T 0 c).filter (fun d => decide (d ∈ low0 T c))).length = 3 := by
      rw [filter_mem_length (m := low0 T c) (all0_nodup ok c) (getLowest_nodup T (all0_nodup ok c) 3) (fun x hx => getLowest_sub T hx) _ (fun x => decide_eq_true_iff)]
      exact getLowest_length T (by omega)
    have e2 := List.length_eq_length_filter_add (l := allIndices T 0 c) (fun d => decide (d ∈ low0 T c))
    have e3 : ((allIndices T 0 c).filter (fun d => ! decide (d ∈ low0 T c))) = (allIndices T 0 c).filter (fun d => decide (d ∉ low0 T c)) := by
      apply List.filter_congr; intro x _; simp
    rw [e3] at e2
    omega
  · intro r hr
    rw [List.mem_filter, all0, List.mem_map, decide_eq_true_iff] at hr
    obtain ⟨⟨d, hd, rfl⟩, hlow⟩ := hr
    have hAE : AE T (.cor d false false) = false :=
      (AE_corner (by rw [interior_same ok hd]; exact hi) (Or.inl (by rw [ok.c0_same c d hd]; exact h0))).1
    refine ⟨?_, ?_⟩
    · unfold freeOf
      rw [List.mem_filter, h.setting.dofs_iff]
      exact ⟨enc_valid ok trivial, by rw [h4 (.cor d false false) trivial, hAE]; rfl⟩
    · intro k
      rcases key_cases h k with hk | ⟨f, hf, hff, hk⟩
      · rw [h5 _ k hk]
        apply List.sum_eq_zero
        intro y hy
        rw [List.mem_map] at hy
        obtain ⟨e, he, rfl⟩ := hy
        by_contra hcon
        rw [mul_eq_zero, not_or] at hcon
        have hv := (h.setting.dofs_iff e).1 he
        obtain ⟨v1, v2⟩ := enc_dec hv
        have hM : st'.M (enc T (.cor d false false)) e ≠ 0 := by
          intro hz; apply hcon.1; rw [hz]; simp
        rw [g2, if_pos ⟨enc_valid ok trivial, hv⟩] at hM
        unfold WF at hM
        rw [dec_enc ok (x := ADof.cor d false false) trivial] at hM
        have := FA_corner_row ok d _ hM
        have he' : e = vert T d d.2.uside 0 0 := by rw [← v2, this, vert00 T d (uside_mem _), av_diag]
        rw [he'] at hcon
        obtain ⟨i, j, hi', hj', hkk⟩ := hloc d hd k hcon.2
        exact hk c hsp (mem_triKeys.2 ⟨d, hd, i, j, hi', hj', hkk⟩)
      · obtain ⟨Cg, t, rows, t1, t2, t3, t4, t5, t6⟩ := h6 f hf hff
        rw [t6 k hk]
        rcases triVal_cases rows t (enc T (.cor d false false)) k with ⟨i, hr, -⟩ | ⟨-, hr⟩
        · exfalso
          obtain ⟨e, he, x, y, e1, -⟩ := t5 i
          rw [e1] at hr
          have := enc_inj ok (x := ADof.cor d false false) (y := ADof.cor e x y) trivial trivial hr
          simp only [ADof.cor.injEq] at this
          obtain ⟨rfl, rfl, rfl⟩ := this
          have hfc : f ∈ T.cl c := (ok.cl_same c d hd f).1 (cl_symm ok he)
          have hm : rows i ∈ [rows 0, rows 1, rows 2] := by fin_cases i <;> simp
          have ht := t2
          unfold triangleRows at ht
          rw [if_neg (by rw [cl_len ok hfc]; omega)] at ht
          simp only [Option.some.injEq] at ht
          rw [← ht, e1] at hm
          apply hlow
          rw [← low0_same ok hfc]; exact hm
        · exact hr

/-- C43 without special step (`gsDPatchBase`, and the coarse stage of `gsDPatch`): the control point of a smooth function is its coefficient, so the smooth functions are linearly independent. -/
theorem C43_base_independent {V : Type} [AddCommGroup V] [Module ℚ V] (h : Setting T il bl vl dl) {st : St P} (hst : result T il bl vl dl = some st) (x : Dof P → V) :
    (∀ r ∈ freeRows T il bl vl dl, exported st.M (freeRows T il bl vl dl) x r = x r) ∧
      ((∀ d ∈ dl, exported st.M (freeRows T il bl vl dl) x d = 0) → ∀ r ∈ freeRows T il bl vl dl, x r = 0) := by
  have key : ∀ r ∈ freeRows T il bl vl dl, exported st.M (freeRows T il bl vl dl) x r = x r := by
    intro r hr
    have hr' : valid T r ∧ (Smooth.computeMapper T il bl vl).elim r = false := by
      unfold freeRows at hr
      rw [List.mem_filter, h.dofs_iff] at hr
      simpa using hr
    obtain ⟨r1, r2⟩ := enc_dec hr'.1
    have hel : AElim T (dec T r) = false := by rw [← mapper_elim h.ok h.lists r1, r2]; exact hr'.2
    have := exported_eq h hst x r1
    rw [r2, ← sum_Wa h.ok h.dofs_nodup h.dofs_iff x r1] at this
    rw [this]
    have hcol : ∀ r' ∈ dl, Wa T (dec T r') (dec T r) • x r' = if r' = r then x r else 0 := by
      intro r' hr''
      obtain ⟨v1, v2⟩ := enc_dec ((h.dofs_iff r').1 hr'')
      rw [Wa_free _ _ hel]
      by_cases he : r' = r
      · subst he; rw [ind_self, if_pos rfl, one_smul]
      · rw [ind_ne, if_neg he, zero_smul]
        intro hcon; apply he; rw [← v2, ← r2, hcon]
    rw [List.map_congr_left hcol]
    exact sum_one_at h.dofs_nodup ((h.dofs_iff r).2 hr'.1) (x r)
  refine ⟨key, ?_⟩
  intro hz r hr
  have hr' : r ∈ dl := (List.mem_filter.1 hr).1
  rw [← key r hr, hz r hr']

end run

/-! ## Examples -/

open _root_.Verif.EV (threeN refine refine2 refine_sum sum_dofs)

/-- `threeN 6` with lists of corners starting at the given one. -/
def tri3 : Topo (Fin 3) := { threeN 6 with
  cl := fun c => match c.2 with
    | .sw => [c, (c.1 + 1, .sw), (c.1 + 2, .sw)] | .ne => [c] | .nw => [c, (c.1 + 1, .se)] | .se => [c, (c.1 - 1, .nw)] }

theorem tri3_ok : Ok tri3 where
  n0_ge := by decide
  n1_ge := by decide
  nb_symm := by decide
  flip_symm := by decide
  nb_len := by decide
  no_fold := by decide
  cl_self := by decide
  cl_nodup := by decide
  cl_same := by decide +kernel
  cl_cross := by decide
  cl_conn := by
    intro c d hd
    have h : ∀ c d, d ∈ tri3.cl c → d = c ∨ Step tri3 c d := by
      unfold Step
      decide
    rcases h c d hd with rfl | h
    · exact Relation.ReflTransGen.refl
    · exact Relation.ReflTransGen.single h
  interior_iff := by decide
  c0_same := by decide

theorem tri3_setting : Setting tri3 threeI threeB threeV (dofs tri3 [0, 1, 2]) where
  ok := tri3_ok
  lists := ⟨by decide +kernel, by decide +kernel, by decide +kernel, by decide +kernel⟩
  dofs_nodup := dofs_nodup _ (by decide)
  dofs_iff := dofs_iff _ _ (by decide)

/-- C11: one interior vertex with three patches. -/
example : countDofs tri3 [0, 1, 2] threeI threeB threeV = 78 := by decide
example := C11_almost_count tri3_setting (by decide) (pl := [0, 1, 2]) (by decide) (by decide) (by decide) (by decide)
example := C08_almost_coarse tri3_setting (by decide)

/-- refined functions at the corners -/
def at10 {P : Type} (T : Topo P) (c : PC P) (i j : ℕ) : Dof P := vert { T with n0 := fun _ => 10, n1 := fun _ => 10 } c c.2.uside i j

theorem at10_sw {P : Type} (T : Topo P) (p : P) (i j : ℕ) : at10 T (p, .sw) i j = (p, j, i) := rfl

theorem special_sw : ∀ c, IsSpecial tri3 c → c.2 = .sw := by
  intro c h
  have : ∀ c, special tri3 c = true → c.2 = .sw := by decide
  exact this c ((isSpecial_iff c).1 h)

theorem refine_nonneg (i j : ℕ) : 0 ≤ refine i j := by
  unfold refine; split <;> norm_num

theorem tri3_run : Run tri3 (at10 tri3) (fun _ => none) (fun _ => 0) (fun k => ![(k.2.1 : ℝ), (k.2.2 : ℝ), 0]) refine2 threeI threeB threeV (dofs tri3 [0, 1, 2]) where
  setting := tri3_setting
  val3 := by decide
  head := by decide
  order := by decide
  at_inj := by
    intro c d i j i' j' h1 h2 h3 h4 h
    exact (_root_.Verif.EV.vert_inj { tri3 with n0 := fun _ => 10, n1 := fun _ => 10 } 4 (by decide) (by decide) c d i j i' j' (by omega) (by omega) (by omega) (by omega) h).1
  tm_sum := by
    intro q
    have := sum_dofs q (fun _ => 1)
    simp only [one_mul, mul_one] at this
    exact this.trans (by simp only [refine_sum, mul_one])
  tm_nonneg := by
    intro k d
    unfold refine2
    split_ifs
    · exact mul_nonneg (refine_nonneg _ _) (refine_nonneg _ _)
    · exact le_refl _
  normal_ne := by intro c n h; cases h
  planar := by intro c _; simp
  spread := by
    intro c hc
    refine ⟨at10 tri3 c 1 0, mem_triKeys.2 ⟨c, tri3_ok.cl_self c, 1, 0, by decide, by decide, rfl⟩, ?_⟩
    obtain ⟨p, c⟩ := c
    have := special_sw _ hc
    simp only at this
    subst this
    intro h
    have := congrFun h 1
    rw [at10_sw] at this
    simp [onPlane] at this

example := C15_almost_partition_of_unity tri3_run
example := C15_almost_local tri3_run
example := C42_control_points tri3_run (fun _ => 0)

/-- the coefficients are determined by the refined ones -/
theorem refine_inv (v : ℕ → ℝ) (f : ℕ → ℝ) (hf : ∀ a, f a = ((List.range 6).map fun i => refine a i * v i).sum) :
    v 0 = f 0 ∧ v 1 = 3 / 2 * f 2 - 1 / 2 * f 3 ∧ v 2 = 3 / 2 * f 3 - 1 / 2 * f 2 ∧ v 3 = 3 / 2 * f 5 - 1 / 2 * f 4 ∧
      v 4 = 3 / 2 * f 7 - 1 / 2 * f 6 ∧ v 5 = f 9 := by
  simp only [hf]
  refine ⟨?_, ?_, ?_, ?_, ?_, ?_⟩ <;> simp [List.range_succ, refine] <;> ring

theorem refine_zero (v : ℕ → ℝ) (h : ∀ a, 2 ≤ a → ((List.range 6).map fun i => refine a i * v i).sum = 0) (i : ℕ) (h1 : 1 ≤ i) (h6 : i < 6) : v i = 0 := by
  obtain ⟨-, g1, g2, g3, g4, g5⟩ := refine_inv v _ (fun a => rfl)
  simp only [h 2 (by decide), h 3 (by decide), h 4 (by decide), h 5 (by decide), h 6 (by decide), h 7 (by decide), h 9 (by decide)] at g1 g2 g3 g4 g5
  rcases (by omega : i = 1 ∨ i = 2 ∨ i = 3 ∨ i = 4 ∨ i = 5) with rfl | rfl | rfl | rfl | rfl <;> linarith

/-- C43: the three-patch domain meets the hypotheses. -/
example {ms : MapSt (Fin 3)} {st : St (Fin 3)} {ev : EvSt (Fin 3) (Dof (Fin 3)) ℝ} (hrun : almost tri3 (at10 tri3) (fun _ => none) (fun _ => 0)
    (fun k => ![(k.2.1 : ℝ), (k.2.2 : ℝ), 0]) refine2 threeI threeB threeV (dofs tri3 [0, 1, 2]) = some (ms, st, ev))
    (x : Dof (Fin 3) → ℝ) (hx : ∀ k, ((freeOf ms (dofs tri3 [0, 1, 2])).map fun r => ev.M r k * x r).sum = 0) :
    ∀ r ∈ freeOf ms (dofs tri3 [0, 1, 2]), x r = 0 := by
  refine C43_almost_independent_partial tri3_run (by decide) ?_ ?_ hrun x hx
  · intro y hy d hd hne
    obtain ⟨p, i, j⟩ := d
    have hv := (dofs_iff tri3 [0, 1, 2] (by decide) _).1 hd
    have hi : i < 6 := hv.1
    have hj : j < 6 := hv.2
    have S : ∀ a b, 2 ≤ a ∨ 2 ≤ b → ((List.range 6).map fun i => refine a i * ((List.range 6).map fun j => refine b j * y (p, i, j)).sum).sum = 0 := by
      intro a b hab
      have h1 := hy (p, a, b) (by
        intro c hc i' j' hi' hj' he
        obtain ⟨q, c⟩ := c
        have := special_sw _ hc
        simp only at this
        subst this
        rw [at10_sw] at he
        simp only [Prod.mk.injEq] at he
        omega)
      have h2 := sum_dofs (p, a, b) y
      exact h2.symm.trans h1
    by_cases h0 : i = 0
    · subst h0
      have hj0 : j ≠ 0 := by
        rintro rfl
        have : ∀ p, special tri3 (p, .sw) = true := by decide
        exact hne (p, .sw) ((isSpecial_iff _).2 (this p)) rfl
      apply refine_zero (fun j => y (p, 0, j)) _ j (by omega) hj
      intro b hb
      exact (refine_inv (fun i => ((List.range 6).map fun j => refine b j * y (p, i, j)).sum) _ (fun a => rfl)).1.trans (S 0 b (Or.inr hb))
    · have hrow : ∀ b, ((List.range 6).map fun j => refine b j * y (p, i, j)).sum = 0 := by
        intro b
        exact refine_zero (fun i => ((List.range 6).map fun j => refine b j * y (p, i, j)).sum) (fun a ha => S a b (Or.inl ha)) i (by omega) hi
      by_cases hj0 : j = 0
      · subst hj0
        exact (refine_inv (fun j => y (p, i, j)) _ (fun a => rfl)).1.trans (hrow 0)
      · exact refine_zero (fun j => y (p, i, j)) (fun b _ => hrow b) j (by omega) hj
  · intro c hc
    obtain ⟨p, c⟩ := c
    have := special_sw _ hc
    simp only at this
    subst this
    refine ⟨![(p, 0, 0), (p, 1, 0), (p, 0, 1)], ?_, ?_⟩
    · intro n
      refine ⟨(p, .sw), tri3_ok.cl_self _, ?_⟩
      fin_cases n
      · exact ⟨0, 0, by decide, by decide, rfl⟩
      · exact ⟨0, 1, by decide, by decide, rfl⟩
      · exact ⟨1, 0, by decide, by decide, rfl⟩
    · intro y h1 h2
      rw [Fin.sum_univ_three] at h1 h2
      have e0 := congrFun h2 0
      have e1 := congrFun h2 1
      simp [onPlane] at e0 e1
      funext n
      fin_cases n
      · show y 0 = 0; linarith
      · exact e0
      · exact e1

/-- Four patches in a fan around a point of the boundary (their south-west corners), which is marked C0. -/
def fan : Topo (Fin 4) where
  n0 := fun _ => 6
  n1 := fun _ => 6
  nb := fun s => match s.2 with
    | .west => if s.1 = 3 then none else some (s.1 + 1, .south) | .south => if s.1 = 0 then none else some (s.1 - 1, .west) | _ => none
  flip := fun _ => false
  cl := fun c => match c.2 with
    | .sw => [c, (c.1 + 1, .sw), (c.1 + 2, .sw), (c.1 + 3, .sw)] | .ne => [c]
    | .nw => if c.1 = 3 then [c] else [c, (c.1 + 1, .se)] | .se => if c.1 = 0 then [c] else [c, (c.1 - 1, .nw)]
  interior := fun _ => false
  c0 := fun c => c.2 = .sw

theorem fan_ok : Ok fan where
  n0_ge := by decide
  n1_ge := by decide
  nb_symm := by decide
  flip_symm := by decide
  nb_len := by decide
  no_fold := by decide
  cl_self := by decide
  cl_nodup := by decide
  cl_same := by decide +kernel
  cl_cross := by decide
  cl_conn := by
    intro c d hd
    have s1 : ∀ p : Fin 4, p ≠ 3 → Step fan (p, .sw) (p + 1, .sw) ∧ Step fan (p + 1, .sw) (p, .sw) := by unfold Step; decide
    have up : ∀ p : Fin 4, Relation.ReflTransGen (Step fan) (0, .sw) (p, .sw) ∧ Relation.ReflTransGen (Step fan) (p, .sw) (0, .sw) := by
      have t0 := s1 0 (by decide)
      have t1 := s1 1 (by decide)
      have t2 := s1 2 (by decide)
      intro p
      fin_cases p
      · exact ⟨.refl, .refl⟩
      · exact ⟨.single t0.1, .single t0.2⟩
      · exact ⟨.head t0.1 (.single t1.1), .head t1.2 (.single t0.2)⟩
      · exact ⟨.head t0.1 (.head t1.1 (.single t2.1)), .head t2.2 (.head t1.2 (.single t0.2))⟩
    have h : ∀ c d, d ∈ fan.cl c → d = c ∨ Step fan c d ∨ (c.2 = .sw ∧ d.2 = .sw) := by
      unfold Step
      decide +kernel
    rcases h c d hd with rfl | h | ⟨h1, h2⟩
    · exact Relation.ReflTransGen.refl
    · exact Relation.ReflTransGen.single h
    · obtain ⟨p, c⟩ := c
      obtain ⟨q, d⟩ := d
      simp only at h1 h2
      subst h1 h2
      exact (up p).2.trans (up q).1
  interior_iff := by decide
  c0_same := by decide

def fanI : List (PS (Fin 4) × PS (Fin 4)) := [((0, .west), (1, .south)), ((1, .west), (2, .south)), ((2, .west), (3, .south))]
def fanB : List (PS (Fin 4)) := (0, .south) :: (3, .west) :: [0, 1, 2, 3].flatMap fun p => [(p, .east), (p, .north)]
def fanV : List (PC (Fin 4)) := [0, 1, 2, 3].flatMap fun p => Corner.all.map fun c => (p, c)

theorem fan_setting : Setting fan fanI fanB fanV (dofs fan [0, 1, 2, 3]) where
  ok := fan_ok
  lists := ⟨by decide +kernel, by decide +kernel, by decide +kernel, by decide +kernel⟩
  dofs_nodup := dofs_nodup _ (by decide)
  dofs_iff := dofs_iff _ _ (by decide)

/-- refinement in one direction, with an arbitrary continuation beyond the ten functions -/
noncomputable def refineF (i j : ℕ) : ℝ := if i < 10 then refine i j else if j = 5 then 1 else 0

theorem refineF_sum (i : ℕ) : ((List.range 6).map fun j => refineF i j).sum = 1 := by
  unfold refineF
  by_cases h : i < 10
  · simp only [if_pos h]; exact refine_sum i
  · simp only [if_neg h]; simp [List.range_succ]

theorem refineF_corner {i : ℕ} (h : refineF i 0 ≠ 0) : i < 2 := by
  by_contra hi
  apply h
  unfold refineF
  by_cases h : i < 10
  · rw [if_pos h]
    rcases (by omega : i = 2 ∨ i = 3 ∨ i = 4 ∨ i = 5 ∨ i = 6 ∨ i = 7 ∨ i = 8 ∨ i = 9) with rfl | rfl | rfl | rfl | rfl | rfl | rfl | rfl <;> rfl
  · rw [if_neg h]; rfl

noncomputable def fanR (q d : Dof (Fin 4)) : ℝ := if d.1 = q.1 then refineF q.2.1 d.2.1 * refineF q.2.2 d.2.2 else 0

theorem fan_special : ∀ c, IsSpecial fan c → c.2 = .sw := by
  intro c h
  have : ∀ c, special fan c = true → c.2 = .sw := by decide
  exact this c ((isSpecial_iff c).1 h)

theorem fan_run : Run fan (at10 fan) (fun _ => none) (fun _ => 0) (fun k => ![(k.2.1 : ℝ), (k.2.2 : ℝ), 0]) fanR fanI fanB fanV (dofs fan [0, 1, 2, 3]) where
  setting := fan_setting
  val3 := by decide
  head := by decide
  order := by decide
  at_inj := by
    intro c d i j i' j' h1 h2 h3 h4 h
    exact (_root_.Verif.EV.vert_inj { fan with n0 := fun _ => 10, n1 := fun _ => 10 } 4 (by decide) (by decide) c d i j i' j' (by omega) (by omega) (by omega) (by omega) h).1
  tm_sum := by
    intro q
    have patch : ∀ p, ((((List.range 6).flatMap fun i => (List.range 6).map fun j => ((p, i, j) : Dof (Fin 4))).map fun d => fanR q d).sum : ℝ) = if p = q.1 then 1 else 0 := by
      intro p
      have gen : ∀ (r : List ℕ), ((r.flatMap fun i => (List.range 6).map fun j => ((p, i, j) : Dof (Fin 4))).map fun d => fanR q d).sum =
          if p = q.1 then (r.map fun i => refineF q.2.1 i).sum else 0 := by
        intro r
        induction r with
        | nil => simp
        | cons i r ih =>
          rw [List.flatMap_cons, List.map_append, List.sum_append, ih, List.map_map]
          by_cases hp : p = q.1
          · simp only [if_pos hp, List.map_cons, List.sum_cons]
            congr 1
            have : ((fun d => fanR q d) ∘ fun j => ((p, i, j) : Dof (Fin 4))) = fun j => refineF q.2.1 i * refineF q.2.2 j := by
              funext j; simp [fanR, hp]
            rw [this, List.sum_map_mul_left, refineF_sum, mul_one]
          · have : ((fun d => fanR q d) ∘ fun j => ((p, i, j) : Dof (Fin 4))) = fun _ => 0 := by
              funext j; simp [fanR, hp]
            rw [this]; simp [hp]
      rw [gen, refineF_sum]
    unfold dofs
    simp only [List.flatMap_cons, List.flatMap_nil, List.append_nil, List.map_append, List.sum_append]
    have e : ∀ p, ((((List.range (fan.n0 p)).flatMap fun i => (List.range (fan.n1 p)).map fun j => ((p, i, j) : Dof (Fin 4))).map fun d => fanR q d).sum : ℝ) = _ := patch
    rw [e, e, e, e]
    generalize q.1 = p
    fin_cases p <;> simp
  tm_nonneg := by
    intro k d
    have : ∀ i j, 0 ≤ refineF i j := by
      intro i j; unfold refineF
      split_ifs
      · exact refine_nonneg _ _
      · norm_num
      · exact le_refl _
    unfold fanR
    split_ifs
    · exact mul_nonneg (this _ _) (this _ _)
    · exact le_refl _
  normal_ne := by intro c n h; cases h
  planar := by intro c _; simp
  spread := by
    intro c hc
    refine ⟨at10 fan c 1 0, mem_triKeys.2 ⟨c, fan_ok.cl_self c, 1, 0, by decide, by decide, rfl⟩, ?_⟩
    obtain ⟨p, c⟩ := c
    have := fan_special _ hc
    simp only at this
    subst this
    intro h
    have := congrFun h 1
    rw [at10_sw] at this
    simp [onPlane] at this

/-- C43, violation: in the fan of four patches one of the smooth functions vanishes. -/
theorem C43_almost_fan : ∃ ms st ev, almost fan (at10 fan) (fun _ => none) (fun _ => 0) (fun k => ![(k.2.1 : ℝ), (k.2.2 : ℝ), 0]) fanR fanI fanB fanV (dofs fan [0, 1, 2, 3]) = some (ms, st, ev) ∧
    ∃ r ∈ freeOf ms (dofs fan [0, 1, 2, 3]), ∀ k, ev.M r k = 0 := by
  obtain ⟨ms, st, ev, h1, z, -, h2, h3⟩ := C43_almost_zero_rows fan_run (c := (0, .sw)) rfl rfl (by decide) (by
    intro d hd k hk
    obtain ⟨p, d⟩ := d
    have hsw : ∀ p d, (p, d) ∈ fan.cl (0, .sw) → d = .sw := by decide
    have := hsw p d hd
    subst this
    obtain ⟨q, a, b⟩ := k
    unfold fanR at hk
    have e : vert fan (p, .sw) (Corner.uside .sw) 0 0 = (p, 0, 0) := rfl
    simp only at hk
    rw [e] at hk
    split_ifs at hk with hq
    · simp only at hq
      subst hq
      rw [mul_ne_zero_iff] at hk
      exact ⟨b, a, refineF_corner hk.2, refineF_corner hk.1, rfl⟩
    · exact absurd rfl hk)
  refine ⟨ms, st, ev, h1, ?_⟩
  have : (fan.cl (0, .sw)).length - 3 = 1 := by decide
  rw [this] at h2
  obtain ⟨r, rfl⟩ := List.length_eq_one_iff.1 h2
  exact ⟨r, h3 r (by simp)⟩

example (st : St (Fin 3)) (hst : result tri3 threeI threeB threeV (dofs tri3 [0, 1, 2]) = some st) (x : Dof (Fin 3) → ℚ) := C43_base_independent tri3_setting hst x

end Verif.AlmostC1
