import Verif.Proofs.Reparam
import Mathlib.Algebra.BigOperators.Ring.Finset
import Mathlib.Algebra.BigOperators.Group.Finset.Sigma
import Mathlib.Algebra.BigOperators.Intervals
import Mathlib.Tactic.NormNum
/-!
# Properties C01 – C04 (reparametrisation)

Specification notions used in the statements (defined in `Proofs/Reparam.lean`, all independent of the code's
bookkeeping): `sidePts s N` lists the control points of side `s` counter-clockwise around the patch,
`cornerPt c N` is the control point of corner `c`, `rows N` lists all coefficient rows, `Net.Sym` says that the
knot vectors are mirror symmetric.
-/
namespace Verif.Reparam
open Verif
variable {α : Type}

/-! ## C01 -/

/-- C01. Any history of turns and swaps keeps exactly the same control points: the coefficient rows afterwards are a
permutation of those before (nothing dropped, duplicated, or left uninitialised). -/
theorem C01_no_control_point_lost (h : List Op) (N : Net α) (hN : N.WF) :
    (rows (runNet h N)).Perm (rows N) ∧ (runNet h N).WF :=
  ⟨run_rows_perm h N, run_wf h hN⟩

/-- C01. Where each control point goes. -/
theorem C01_positions (N : Net α) (i j : ℕ) :
    (i < N.nv → j < N.nu → (swapNet N).at' i j = N.at' j i) ∧
    (i < N.nv → j < N.nu → (acNet N).at' i j = N.at' (N.nu - 1 - j) i) ∧
    (i < N.nv → j < N.nu → (cwNet N).at' i j = N.at' j (N.nv - 1 - i)) ∧
    (i < N.nu → j < N.nv → (twNet N).at' i j = N.at' (N.nu - 1 - i) (N.nv - 1 - j)) :=
  ⟨swap_at N, ac_at N, cw_at N, tw_at N⟩

/-- C01. The turns undo each other and four quarter turns are the identity (sizes, knots and control points). -/
theorem C01_group_laws (N : Net α) (h : N.WF) :
    cwNet (acNet N) = N ∧ acNet (cwNet N) = N ∧ twNet N = acNet (acNet N) ∧ twNet (twNet N) = N ∧
    swapNet (swapNet N) = N ∧ acNet (acNet (acNet (acNet N))) = N :=
  ⟨cw_ac h, ac_cw h, (ac_ac h).symm, tw_tw h, swap_swap h, acPow_four h⟩

/-- A tensor-product parametrisation with basis functions `B knots i t` and scalar control points (one coordinate). -/
def geo (B : List ℚ → ℕ → ℚ → ℚ) (N : Net ℚ) (s t : ℚ) : ℚ :=
  ∑ i ∈ Finset.range N.nu, ∑ j ∈ Finset.range N.nv, B N.ku i s * B N.kv j t * (N.at' i j).getD 0

/-- Mirroring the knots mirrors the basis functions (true for B-splines). -/
def Mirrors (B : List ℚ → ℕ → ℚ → ℚ) (k : List ℚ) (n : ℕ) : Prop :=
  ∀ i < n, ∀ t, B (revK k) i t = B k (n - 1 - i) (k.headD 0 + k.getLastD 0 - t)

/-- C01. The turned patch is the same surface with turned parameters. -/
theorem C01_same_surface (B : List ℚ → ℕ → ℚ → ℚ) (N : Net ℚ)
    (hu : Mirrors B N.ku N.nu) (hv : Mirrors B N.kv N.nv) (s t : ℚ) :
    geo B (swapNet N) s t = geo B N t s ∧
    geo B (acNet N) s t = geo B N (N.ku.headD 0 + N.ku.getLastD 0 - t) s ∧
    geo B (cwNet N) s t = geo B N t (N.kv.headD 0 + N.kv.getLastD 0 - s) ∧
    geo B (twNet N) s t =
      geo B N (N.ku.headD 0 + N.ku.getLastD 0 - s) (N.kv.headD 0 + N.kv.getLastD 0 - t) := by
  refine ⟨?_, ?_, ?_, ?_⟩
  · unfold geo
    rw [Finset.sum_comm]
    refine Finset.sum_congr rfl fun i hi => Finset.sum_congr rfl fun j hj => ?_
    rw [swap_at N (Finset.mem_range.1 hj) (Finset.mem_range.1 hi)]
    change B N.kv j s * B N.ku i t * _ = _
    ring
  · unfold geo
    rw [Finset.sum_comm]
    change ∑ j ∈ Finset.range N.nu, ∑ i ∈ Finset.range N.nv, B N.kv i s * B (revK N.ku) j t * _ = _
    rw [← Finset.sum_range_reflect]
    refine Finset.sum_congr rfl fun j hj => Finset.sum_congr rfl fun i hi => ?_
    have hj := Finset.mem_range.1 hj
    rw [ac_at N (Finset.mem_range.1 hi) (by omega), hu _ (by omega),
      show N.nu - 1 - (N.nu - 1 - j) = j by omega]
    ring
  · unfold geo
    rw [Finset.sum_comm]
    change ∑ j ∈ Finset.range N.nu, ∑ i ∈ Finset.range N.nv, B (revK N.kv) i s * B N.ku j t * _ = _
    refine Finset.sum_congr rfl fun j hj => ?_
    rw [← Finset.sum_range_reflect]
    refine Finset.sum_congr rfl fun i hi => ?_
    have hi := Finset.mem_range.1 hi
    rw [cw_at N (by omega) (Finset.mem_range.1 hj), hv _ (by omega),
      show N.nv - 1 - (N.nv - 1 - i) = i by omega]
    ring
  · unfold geo
    change ∑ j ∈ Finset.range N.nu, ∑ i ∈ Finset.range N.nv, B (revK N.ku) j s * B (revK N.kv) i t * _ = _
    rw [← Finset.sum_range_reflect]
    refine Finset.sum_congr rfl fun j hj => ?_
    rw [← Finset.sum_range_reflect]
    refine Finset.sum_congr rfl fun i hi => ?_
    have hi := Finset.mem_range.1 hi
    have hj := Finset.mem_range.1 hj
    rw [tw_at N (by omega) (by omega), hu _ (by omega), hv _ (by omega),
      show N.nv - 1 - (N.nv - 1 - i) = i by omega, show N.nu - 1 - (N.nu - 1 - j) = j by omega]

/-! concrete case -/
/-- A 2×3 net with distinct control points 0,…,5. -/
def exNet : Net ℕ :=
  { nu := 2, nv := 3, ku := [0, 0, 1, 1], kv := [0, 0, 1/2, 1, 1], c := fun k => if k < 6 then some k else none }
theorem exNet_wf : exNet.WF := by
  intro k; simp only [exNet]; by_cases h : k < 6 <;> simp [h]
example : rows (acNet exNet) = [some 1, some 3, some 5, some 0, some 2, some 4] := by decide
example : (rows (runNet [.ac, .swap, .cw] exNet)).Perm (rows exNet) :=
  (C01_no_control_point_lost _ _ exNet_wf).1
/-- linear hat functions on an interval, which satisfy `Mirrors` -/
def hat (k : List ℚ) (i : ℕ) (t : ℚ) : ℚ := if i = 0 then k.getLastD 0 - t else t - k.headD 0
theorem hat_mirrors (k : List ℚ) : Mirrors hat k 2 := by
  intro i hi t
  unfold hat
  rw [revK_head, revK_last]
  have : i = 0 ∨ i = 1 := by omega
  rcases this with rfl | rfl <;> norm_num <;> ring
example : ∃ N : Net ℚ, Mirrors hat N.ku N.nu ∧ Mirrors hat N.kv N.nv ∧ geo hat N 0 1 ≠ geo hat N 1 0 :=
  ⟨{ nu := 2, nv := 2, ku := [0, 0, 1, 1], kv := [0, 0, 1, 1], c := fun k => some k }, hat_mirrors _, hat_mirrors _,
    by norm_num [geo, hat, Net.at', Finset.sum_range_succ]⟩

/-! ## C02 -/

/-- C02 fails as stated for arbitrary histories: two clockwise turns are not undone. -/
theorem C02_not_all_histories :
    ¬ ∀ (h : List Op) (N : Net ℕ), N.WF → N.Sym → back (Book.run h) (runNet h N) = N := by
  intro H
  have := H [.cw, .cw] { nu := 2, nv := 1, ku := [0, 1], kv := [0, 1], c := fun k => if k < 2 then some k else none }
    (by intro k; by_cases h : k < 2 <;> simp [h]) (by constructor <;> norm_num [revK])
  have := congrArg (fun N => N.at' 0 0) this
  revert this
  decide

/-- C02 also fails for two axis swaps (the flag is set, not toggled). -/
theorem C02_not_double_swap :
    ¬ ∀ N : Net ℕ, N.WF → N.Sym → back (Book.run [.swap, .swap]) (runNet [.swap, .swap] N) = N := by
  intro H
  have := H { nu := 2, nv := 1, ku := [0, 1], kv := [0, 1], c := fun k => if k < 2 then some k else none }
    (by intro k; by_cases h : k < 2 <;> simp [h]) (by constructor <;> norm_num [revK])
  have := congrArg (fun N => N.nu) this
  revert this
  decide

/-- C02 also fails for knot vectors that are not mirror symmetric, after a single quarter turn: the undo permutes the
coefficients but does not mirror the knots. -/
theorem C02_not_asymmetric_knots :
    ¬ ∀ N : Net ℕ, N.WF → back (Book.run [.ac]) (runNet [.ac] N) = N := by
  intro H
  have := H { nu := 1, nv := 1, ku := [0, 1, 3], kv := [0, 1, 3], c := fun k => if k < 1 then some k else none }
    (by intro k; by_cases h : k < 1 <;> simp [h])
  have := congrArg (fun N => N.ku) this
  revert this
  norm_num [back, Book.run, runNet, Book.step, Book.init, Op.net, cwBasis, acNet, revK]

/-- The condition under which the undo is right: the rotation counter is one the undo knows, or a full turn. -/
def Undoable (rs : List Op) (sw : Bool) : Prop :=
  (Book.run (fixOrient sw ++ rs)).rot ∈ [-1, 0, 1, 2] ∨ (Book.run (fixOrient sw ++ rs)).rot % 4 = 0

theorem back_core (sw : Bool) (rs : List Op) (hr : ∀ o ∈ rs, o ≠ .swap) (N : Net α) (hN : N.WF) (hs : N.Sym)
    (hok : Undoable rs sw) : back (Book.run (fixOrient sw ++ rs)) (runNet (fixOrient sw ++ rs) N) = N := by
  cases sw
  · have hb := book_rot rs hr Book.init
    have hax : (Book.run (fixOrient false ++ rs)).axis = false := hb.1
    have hro : (Book.run (fixOrient false ++ rs)).rot % 4 = (((rs.map Op.turns).sum : ℕ) : ℤ) % 4 := by
      have := hb.2; simpa [Book.init, Book.run, fixOrient] using this
    have e : runNet (fixOrient false ++ rs) N = acPow ((rs.map Op.turns).sum) N := run_rot rs hr hN
    rw [e]; unfold back; simp only [hax]
    exact back_rot hN hs _ _ hro hok
  · have hb := book_rot rs hr (Book.init.step .swap)
    have hax : (Book.run (fixOrient true ++ rs)).axis = true := hb.1
    have hro : (Book.run (fixOrient true ++ rs)).rot % 4 = (((rs.map Op.turns).sum : ℕ) : ℤ) % 4 := by
      have := hb.2; simpa [Book.init, Book.run, fixOrient, Book.step] using this
    have e : runNet (fixOrient true ++ rs) N = acPow ((rs.map Op.turns).sum) (swapNet N) :=
      run_rot rs hr (swap_wf hN)
    rw [e]; unfold back; simp only [hax, if_true]
    rw [back_rot (swap_wf hN) ⟨hs.2, hs.1⟩ _ _ hro hok]
    exact swap_swap hN

/-- C02 (partial: needs the swap, if any, to come first, mirror-symmetric knots, and a rotation counter the undo
handles). For every such history the undo restores the original sizes, knots and control points. -/
theorem C02_undo_partial (sw : Bool) (rs : List Op) (hr : ∀ o ∈ rs, o ≠ .swap) (hok : Undoable rs sw)
    (N : Net α) (hN : N.WF) (hs : N.Sym) :
    back (Book.run (fixOrient sw ++ rs)) (runNet (fixOrient sw ++ rs) N) = N :=
  back_core sw rs hr N hN hs hok

theorem table_undoable (sw : Bool) (rs : List Op) (h : rs ∈ [[], [Op.cw], [Op.ac], [Op.tw]]) :
    (∀ o ∈ rs, o ≠ .swap) ∧ Undoable rs sw := by
  simp only [List.mem_cons, List.not_mem_nil, or_false] at h
  rcases h with rfl | rfl | rfl | rfl <;> cases sw <;>
    exact ⟨by decide, Or.inl (by decide)⟩

/-- C02. Every history the library itself produces is undone (for mirror-symmetric knots). -/
theorem C02_library_histories_partial (neg : Bool) (s : Side) (c : Corner) (N : Net α) (hN : N.WF) (hs : N.Sym) :
    ∀ h ∈ [ifaceHist0 neg s, ifaceHist1 neg s, singleHist neg s, vertexHist neg c, surfVertexHist neg c],
      back (Book.run h) (runNet h N) = N := by
  have key : ∀ rs ∈ [[], [Op.cw], [Op.ac], [Op.tw]],
      back (Book.run (fixOrient neg ++ rs)) (runNet (fixOrient neg ++ rs) N) = N := fun rs hrs =>
    back_core neg rs (table_undoable neg rs hrs).1 N hN hs (table_undoable neg rs hrs).2
  intro h hh
  simp only [List.mem_cons, List.not_mem_nil, or_false] at hh
  rcases hh with rfl | rfl | rfl | rfl | rfl
  · exact key _ (by cases s <;> decide)
  · exact key _ (by cases s <;> decide)
  · exact key _ (by cases s <;> cases neg <;> decide)
  · exact key _ (by cases c <;> cases neg <;> decide)
  · exact key _ (by cases c <;> cases neg <;> decide)

/-- a 2×1 net on which no proper rotation is the identity -/
def tiny : Net ℕ :=
  { nu := 2, nv := 1, ku := [0, 1], kv := [0, 1], c := fun k => if k < 2 then some k else none }
theorem tiny_wf : tiny.WF := by intro k; simp only [tiny]; by_cases h : k < 2 <;> simp [h]
theorem tiny_sym : tiny.Sym := by constructor <;> norm_num [revK, tiny]
theorem tiny_rot (t : ℕ) (ht : t % 4 ≠ 0) : acPow t tiny ≠ tiny := by
  rw [acPow_mod t tiny_wf]
  have : t % 4 = 1 ∨ t % 4 = 2 ∨ t % 4 = 3 := by omega
  rcases this with h | h | h <;> rw [h] <;> intro e
  · have := congrArg Net.nu e; revert this; decide
  · have := congrArg (fun N => N.at' 0 0) e; revert this; decide
  · have := congrArg Net.nu e; revert this; decide

/-- C02. The counter condition is exact: for rotations after an optional swap, the undo is right for all symmetric nets
if and only if the counter is −1, 0, 1, 2 or a multiple of four. -/
theorem C02_undo_exact (sw : Bool) (rs : List Op) (hr : ∀ o ∈ rs, o ≠ .swap) :
    (∀ N : Net ℕ, N.WF → N.Sym → back (Book.run (fixOrient sw ++ rs)) (runNet (fixOrient sw ++ rs) N) = N) ↔
      Undoable rs sw := by
  constructor
  · intro H
    by_contra hno
    unfold Undoable at hno
    have key : ∀ r : ℤ, (Book.run (fixOrient sw ++ rs)).rot = r → r ≠ 2 ∧ r ≠ -1 ∧ r ≠ 1 ∧ r % 4 ≠ 0 := by
      intro r hr'; rw [hr'] at hno
      simp only [List.mem_cons, List.not_mem_nil, or_false, not_or] at hno
      tauto
    obtain ⟨k1, k2, k3, k4⟩ := key _ rfl
    cases sw
    · have hb := book_rot rs hr Book.init
      have hax : (Book.run (fixOrient false ++ rs)).axis = false := hb.1
      have hro : (Book.run (fixOrient false ++ rs)).rot % 4 = (((rs.map Op.turns).sum : ℕ) : ℤ) % 4 := by
        have := hb.2; simpa [Book.init, Book.run, fixOrient] using this
      have e : runNet (fixOrient false ++ rs) tiny = acPow ((rs.map Op.turns).sum) tiny := run_rot rs hr tiny_wf
      have := H tiny tiny_wf tiny_sym
      rw [e] at this
      unfold back at this
      simp only [hax, k1, k2, k3, if_false] at this
      exact tiny_rot _ (by omega) this
    · have hb := book_rot rs hr (Book.init.step .swap)
      have hax : (Book.run (fixOrient true ++ rs)).axis = true := hb.1
      have hro : (Book.run (fixOrient true ++ rs)).rot % 4 = (((rs.map Op.turns).sum : ℕ) : ℤ) % 4 := by
        have := hb.2; simpa [Book.init, Book.run, fixOrient, Book.step] using this
      have e : runNet (fixOrient true ++ rs) (swapNet tiny) = acPow ((rs.map Op.turns).sum) (swapNet (swapNet tiny)) :=
        run_rot rs hr (swap_wf (swap_wf tiny_wf))
      have := H (swapNet tiny) (swap_wf tiny_wf) ⟨tiny_sym.2, tiny_sym.1⟩
      rw [e, swap_swap tiny_wf] at this
      unfold back at this
      simp only [hax, k1, k2, k3, if_false, if_true] at this
      have := congrArg swapNet this
      change swapNet (swapNet _) = _ at this
      rw [swap_swap (acPow_wf _ tiny_wf), swap_swap tiny_wf] at this
      exact tiny_rot _ (by omega) this
  · intro hok N hN hs
    exact back_core sw rs hr N hN hs hok

/-- C02 for the C1-surface variant (`gsG1AuxiliaryPatch`, whose turns never mirror the knots): the same histories are
undone for every net, without symmetry of the knots. -/
theorem C02_aux_undo_partial (sw : Bool) (rs : List Op) (hr : ∀ o ∈ rs, o ≠ .swap) (hok : Undoable rs sw)
    (N : Net α) (hN : N.WF) :
    back (Book.run (fixOrient sw ++ rs)) (runAux (fixOrient sw ++ rs) N) = N := by
  have e : ({back (Book.run (fixOrient sw ++ rs)) (runAux (fixOrient sw ++ rs) N) with ku := [], kv := []} : Net α)
      = {N with ku := [], kv := []} := by
    rw [back_erase, runAux_erase]
    exact back_core sw rs hr _ hN ⟨rfl, rfl⟩ hok
  have hk : kk (back (Book.run (fixOrient sw ++ rs)) (runAux (fixOrient sw ++ rs) N)) = kk N := by
    have par : ∀ r : ℤ, ∀ M : Net α, ∀ t : ℕ, r % 4 = (t : ℤ) % 4 → (r ∈ [-1, 0, 1, 2] ∨ r % 4 = 0) →
        kk (if r = 2 then twBasis M else if r = -1 then acBasis M else if r = 1 then cwBasis M else M)
          = if t % 2 = 0 then kk M else (kk M).swap := by
      intro r M t hrt hok
      simp only [List.mem_cons, List.not_mem_nil, or_false] at hok
      by_cases h1 : r = 2
      · rw [if_pos h1, if_pos (by omega)]; rfl
      · by_cases h2 : r = -1
        · rw [if_neg h1, if_pos h2, if_neg (by omega)]; rfl
        · by_cases h3 : r = 1
          · rw [if_neg h1, if_neg h2, if_pos h3, if_neg (by omega)]; rfl
          · rw [if_neg h1, if_neg h2, if_neg h3, if_pos (by omega)]
    cases sw
    · have hb := book_rot rs hr Book.init
      have hax : (Book.run (fixOrient false ++ rs)).axis = false := hb.1
      have hro : (Book.run (fixOrient false ++ rs)).rot % 4 = (((rs.map Op.turns).sum : ℕ) : ℤ) % 4 := by
        have := hb.2; simpa [Book.init, Book.run, fixOrient] using this
      have hkk := aux_kk_rot rs hr N
      have e : runAux (fixOrient false ++ rs) N = runAux rs N := rfl
      rw [e]; unfold back; simp only [hax]
      rw [if_neg (by decide)]
      rw [par _ _ _ hro hok, hkk]
      by_cases ht : (rs.map Op.turns).sum % 2 = 0
      · rw [if_pos ht, if_pos ht]
      · rw [if_neg ht, if_neg ht, Prod.swap_swap]
    · have hb := book_rot rs hr (Book.init.step .swap)
      have hax : (Book.run (fixOrient true ++ rs)).axis = true := hb.1
      have hro : (Book.run (fixOrient true ++ rs)).rot % 4 = (((rs.map Op.turns).sum : ℕ) : ℤ) % 4 := by
        have := hb.2; simpa [Book.init, Book.run, fixOrient, Book.step] using this
      have hkk := aux_kk_rot rs hr (swapNet N)
      have e : runAux (fixOrient true ++ rs) N = runAux rs (swapNet N) := rfl
      rw [e]; unfold back; simp only [hax, if_true]
      have es : ∀ M : Net α, kk (swapBasis M) = (kk M).swap := fun _ => rfl
      rw [es, par _ _ _ hro hok, hkk]
      by_cases ht : (rs.map Op.turns).sum % 2 = 0
      · rw [if_pos ht, if_pos ht]; rfl
      · rw [if_neg ht, if_neg ht, Prod.swap_swap]; rfl
  generalize back (Book.run (fixOrient sw ++ rs)) (runAux (fixOrient sw ++ rs) N) = M at *
  cases M; cases N
  simp only [Net.mk.injEq, true_and, kk, Prod.mk.injEq] at e hk ⊢
  exact ⟨e.1, e.2.1, hk.1, hk.2, e.2.2⟩

example : Undoable [.ac, .tw, .cw] true := Or.inl (by decide)
example : back (Book.run [.swap, .cw]) (runNet [.swap, .cw] exNet) = exNet :=
  C02_undo_partial true [.cw] (by decide) (Or.inl (by decide)) exNet exNet_wf
    (by constructor <;> norm_num [revK, exNet])

/-! ## C03 -/

/-- C03 fails for longer histories: after two anticlockwise quarter turns the recorded side is wrong. -/
theorem C03_not_all_histories :
    ¬ ∀ (h : List Op) (N : Net ℕ) (s : Side), N.WF → 0 < N.nu → 0 < N.nv →
      sidePts ((Book.run h).map s) (runNet h N) = sidePts s N ∨
      sidePts ((Book.run h).map s) (runNet h N) = (sidePts s N).reverse := by
  intro H
  have := H [.ac, .ac] exNet .west exNet_wf (by decide) (by decide)
  revert this
  decide

/-- C03 (partial: at most one turn after an optional swap — the histories the library produces). The recorded side of the
turned patch carries exactly the control points of the original side; the direction is kept unless the axes were
swapped. -/
theorem C03_side_bookkeeping_partial (neg : Bool) (rs : List Op) (h : rs ∈ [[], [Op.cw], [Op.ac], [Op.tw]])
    (s : Side) (N : Net α) (hN : N.WF) (hu : 0 < N.nu) (hv : 0 < N.nv) :
    sidePts ((Book.run (fixOrient neg ++ rs)).map s) (runNet (fixOrient neg ++ rs) N) =
      if neg then (sidePts s N).reverse else sidePts s N := by
  simp only [List.mem_cons, List.not_mem_nil, or_false] at h
  cases neg
  · rcases h with rfl | rfl | rfl | rfl
    · rfl
    · change sidePts (mapCw false s) (cwNet N) = sidePts s N
      rw [sidePts_cw _ hN hu hv]; cases s <;> rfl
    · change sidePts (mapAc false s) (acNet N) = sidePts s N
      rw [← sidePts_ac s N hu hv]; cases s <;> rfl
    · change sidePts (mapTw false s) (twNet N) = sidePts s N
      rw [← sidePts_tw s hN hu hv]; cases s <;> rfl
  · have hs := sidePts_swap s N hu hv
    have hw := swap_wf hN
    rcases h with rfl | rfl | rfl | rfl
    · exact hs
    · change sidePts (mapCw true s) (cwNet (swapNet N)) = (sidePts s N).reverse
      rw [sidePts_cw _ hw hv hu, ← hs]; cases s <;> rfl
    · change sidePts (mapAc true s) (acNet (swapNet N)) = (sidePts s N).reverse
      rw [← hs, ← sidePts_ac _ (swapNet N) hv hu]; cases s <;> rfl
    · change sidePts (mapTw true s) (twNet (swapNet N)) = (sidePts s N).reverse
      rw [← hs, ← sidePts_tw _ hw hv hu]; cases s <;> rfl

example : sidePts ((Book.run [.swap, .ac]).map .north) (runNet [.swap, .ac] exNet) = [some 4, some 5] := by decide

/-! ## C04 -/

/-- C04 fails for patches whose orientation is −1: the interface tables ignore the axis swap, and the wrong side becomes
the west side. -/
theorem C04_interface_fails_for_negative_orientation :
    ¬ ∀ (s : Side) (N : Net ℕ), N.WF → 0 < N.nu → 0 < N.nv →
      sidePts .west (runNet (ifaceHist0 true s) N) = sidePts s N ∨
      sidePts .west (runNet (ifaceHist0 true s) N) = (sidePts s N).reverse := by
  intro H
  have := H .west exNet exNet_wf (by decide) (by decide)
  revert this
  decide

/-- C04 (partial: both patches have orientation +1). The interface becomes the west side of the first patch and the south
side of the second one, for every combination of sides. -/
theorem C04_interface_partial (s0 s1 : Side) (N0 N1 : Net α) (h0 : N0.WF) (h1 : N1.WF)
    (hu0 : 0 < N0.nu) (hv0 : 0 < N0.nv) (hu1 : 0 < N1.nu) (hv1 : 0 < N1.nv) :
    sidePts .west (runNet (ifaceHist0 false s0) N0) = sidePts s0 N0 ∧
    sidePts .south (runNet (ifaceHist1 false s1) N1) = sidePts s1 N1 := by
  constructor
  · cases s0
    · rfl
    · exact sidePts_tw .east h0 hu0 hv0
    · exact sidePts_ac .south N0 hu0 hv0
    · exact sidePts_cw .west h0 hu0 hv0
  · cases s1
    · exact sidePts_cw .south h1 hu1 hv1
    · exact sidePts_ac .east N1 hu1 hv1
    · rfl
    · exact sidePts_tw .north h1 hu1 hv1

/-- C04. Two positively oriented patches that share the control points of an interface (which they traverse in opposite
directions) agree point by point after the reparametrisation: west point `k` of the first = south point `k` of the
second. -/
theorem C04_interface_matches_partial (s0 s1 : Side) (N0 N1 : Net α) (h0 : N0.WF) (h1 : N1.WF)
    (hu0 : 0 < N0.nu) (hv0 : 0 < N0.nv) (hu1 : 0 < N1.nu) (hv1 : 0 < N1.nv)
    (hglue : sidePts s0 N0 = (sidePts s1 N1).reverse) :
    let M0 := runNet (ifaceHist0 false s0) N0
    let M1 := runNet (ifaceHist1 false s1) N1
    M0.nv = M1.nu ∧ ∀ k < M0.nv, M0.at' 0 k = M1.at' k 0 := by
  intro M0 M1
  obtain ⟨e0, e1⟩ := C04_interface_partial s0 s1 N0 N1 h0 h1 hu0 hv0 hu1 hv1
  rw [← e0, ← e1] at hglue
  have hg : (List.range M0.nv).map (fun j => M0.at' 0 (M0.nv - 1 - j)) =
    ((List.range M1.nu).map fun i => M1.at' i 0).reverse := hglue
  rw [← range_map_reverse M0.nv (fun j => M0.at' 0 j), List.reverse_inj] at hg
  have hl : M0.nv = M1.nu := by simpa using congrArg List.length hg
  refine ⟨hl, fun k hk => ?_⟩
  have := congrArg (fun l => l[k]?) hg
  simpa [hk, ← hl] using this

/-- C04. A boundary side becomes the west side, in both orientations. -/
theorem C04_single_side (neg : Bool) (s : Side) (N : Net α) (h : N.WF) (hu : 0 < N.nu) (hv : 0 < N.nv) :
    sidePts .west (runNet (singleHist neg s) N) = if neg then (sidePts s N).reverse else sidePts s N := by
  cases neg
  · cases s
    · rfl
    · exact sidePts_tw .east h hu hv
    · exact sidePts_ac .south N hu hv
    · exact sidePts_cw .west h hu hv
  · have hs := sidePts_swap s N hu hv
    have hw := swap_wf h
    cases s
    · simp only [if_true]; rw [← hs]; exact sidePts_ac .south (swapNet N) hv hu
    · simp only [if_true]; rw [← hs]; exact sidePts_cw .west hw hv hu
    · simp only [if_true]; rw [← hs]; rfl
    · simp only [if_true]; rw [← hs]; exact sidePts_tw .east hw hv hu

/-- C04. A vertex goes to the south-west corner, for every corner and both orientations (Approx-C1 and C1-surface). -/
theorem C04_vertex (neg : Bool) (c : Corner) (N : Net α) (hu : 0 < N.nu) (hv : 0 < N.nv) :
    cornerPt .sw (runNet (vertexHist neg c) N) = cornerPt c N ∧
    cornerPt .sw (runNet (surfVertexHist neg c) N) = cornerPt c N := by
  have hs := fun c => corner_swap c N hu hv
  cases neg <;> cases c <;> constructor
  · rfl
  · rfl
  · exact corner_ac N hu hv
  · exact corner_ac N hu hv
  · exact corner_cw N hu hv
  · exact corner_cw N hu hv
  · exact corner_tw N hu hv
  · exact corner_tw N hu hv
  · exact hs .sw
  · exact hs .sw
  · rw [← hs]; exact corner_cw (swapNet N) hv hu
  · rw [← hs]; exact corner_cw (swapNet N) hv hu
  · rw [← hs]; exact corner_ac (swapNet N) hv hu
  · rw [← hs]; exact corner_ac (swapNet N) hv hu
  · rw [← hs]; exact corner_tw (swapNet N) hv hu
  · rw [← hs]; exact corner_tw (swapNet N) hv hu

/-- C04. The two sides `gsC1SurfVertex` records for a corner (first: next to the new u-axis, second: next to the new
v-axis) are the sides that become south and west. -/
theorem C04_vertex_sides (neg : Bool) (c : Corner) (N : Net α) (h : N.WF) (hu : 0 < N.nu) (hv : 0 < N.nv) :
    sidePts .south (runNet (surfVertexHist neg c) N) =
      (if neg then (sidePts (surfSidesAfter neg c).1 N).reverse else sidePts (surfSidesAfter neg c).1 N) ∧
    sidePts .west (runNet (surfVertexHist neg c) N) =
      (if neg then (sidePts (surfSidesAfter neg c).2 N).reverse else sidePts (surfSidesAfter neg c).2 N) := by
  have hs := fun s => sidePts_swap s N hu hv
  have hw := swap_wf h
  cases neg
  · cases c
    · exact ⟨rfl, rfl⟩
    · exact ⟨sidePts_ac .east N hu hv, sidePts_ac .south N hu hv⟩
    · exact ⟨sidePts_cw .south h hu hv, sidePts_cw .west h hu hv⟩
    · exact ⟨sidePts_tw .north h hu hv, sidePts_tw .east h hu hv⟩
  · simp only [if_true]
    rw [← hs, ← hs]
    cases c
    · exact ⟨rfl, rfl⟩
    · exact ⟨sidePts_cw .south hw hv hu, sidePts_cw .west hw hv hu⟩
    · exact ⟨sidePts_ac .east (swapNet N) hv hu, sidePts_ac .south (swapNet N) hv hu⟩
    · exact ⟨sidePts_tw .north hw hv hu, sidePts_tw .east hw hv hu⟩

example : sidePts .west (runNet (ifaceHist0 false .south) exNet) = [some 0, some 1] := by decide
example : cornerPt .sw (runNet (vertexHist true .se) exNet) = some 1 := by decide

end Verif.Reparam
