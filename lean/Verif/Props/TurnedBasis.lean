import Verif.Model.TurnedBasis
import Verif.Props.ReparamSurface
import Verif.Proofs.BSpline
/-!
# C57: functions that were computed on a turned patch

The functions of an edge or a vertex are computed on the turned patch, as splines over the turned basis, and are put back by `parametrizeBasisBack`. They should be the same functions on the surface.
-/
set_option autoImplicit false
namespace Verif.Reparam
open Verif Polynomial
open _root_.Verif.BSpline (bs N Open N_jet N_order jet_X_pow bs_zero_of_gt)
variable {α β : Type}

/-- A parameter in an element that is not empty. -/
def InElem (k : List ℚ) (p n l : ℕ) (x : ℝ) : Prop := p ≤ l ∧ l < n ∧ seq k l < seq k (l + 1) ∧ seq k l ≤ x ∧ x ≤ seq k (l + 1)

/-- A function on a surface: all points of the NURBS patch `N` with the value of the spline `F` at the same parameter. Patch and function may have different degrees and knots. -/
def graph {κ : Type} (g : κ → Option α → ℝ) (w : Option α → ℝ) (d : ℕ × ℕ) (N : Net α) (f : Option β → ℝ) (e : ℕ × ℕ) (F : Net β) : Set ((κ → ℝ) × ℝ) :=
  {P | ∃ (x y : ℝ) (l m l' m' : ℕ), InElem N.ku d.1 N.nu l x ∧ InElem N.kv d.2 N.nv m y ∧ InElem F.ku e.1 F.nu l' x ∧ InElem F.kv e.2 F.nv m' y ∧
    P = (fun k => rational (g k) w d.1 d.2 N l m x y, piece f e.1 e.2 F l' m' x y)}

/-- The parameters of both run from the same number to the same number. -/
def SameEnds (N : Net α) (F : Net β) : Prop := ends N.ku = ends F.ku ∧ ends N.kv = ends F.kv

theorem ends_rev (k : List ℚ) : ends (revK k) = ends k := by unfold ends; rw [revK_head, revK_last]

theorem sameEnds_op {N : Net α} {F : Net β} (h : SameEnds N F) (o : Op) : SameEnds (o.net N) (o.net F) := by
  obtain ⟨h1, h2⟩ := h
  cases o
  · exact ⟨h2, h1⟩
  · exact ⟨h2, by change ends (revK _) = ends (revK _); rw [ends_rev, ends_rev, h1]⟩
  · exact ⟨by change ends (revK _) = ends (revK _); rw [ends_rev, ends_rev, h2], h1⟩
  · exact ⟨by change ends (revK _) = ends (revK _); rw [ends_rev, ends_rev, h1], by change ends (revK _) = ends (revK _); rw [ends_rev, ends_rev, h2]⟩

theorem graph_op_sub {κ : Type} (g : κ → Option α → ℝ) (w : Option α → ℝ) (f : Option β → ℝ) {d e : ℕ × ℕ} {N : Net α} {F : Net β} (hN : Fits N d) (hF : Fits F e) (he : SameEnds N F) (o : Op) :
    graph g w (o.deg d) (o.net N) f (o.deg e) (o.net F) ⊆ graph g w d N f e F := by
  obtain ⟨hu, hv⟩ := hN
  obtain ⟨fu, fv⟩ := hF
  rintro P ⟨x, y, l, m, l', m', hx, hy, hx', hy', rfl⟩
  cases o with
  | swap =>
    have b1 : m < N.nu := hy.2.1
    have b2 : l < N.nv := hx.2.1
    have b3 : m' < F.nu := hy'.2.1
    have b4 : l' < F.nv := hx'.2.1
    refine ⟨y, x, m, l, m', l', hy, hx, hy', hx', Prod.ext (funext fun k => ?_) ?_⟩
    · exact (C56_nurbs_surface (g k) w hu hv (l := m) (l' := N.nu + d.1 - 1 - m) (by omega) (m := l) (m' := N.nv + d.2 - 1 - l) (by omega) x y).1
    · exact (C56_bspline_surface f fu fv (l := m') (l' := F.nu + e.1 - 1 - m') (by omega) (m := l') (m' := F.nv + e.2 - 1 - l') (by omega) x y).1
  | ac =>
    have b1 : m < N.nu := hy.2.1
    have b2 : l < N.nv := hx.2.1
    have b3 : m' < F.nu := hy'.2.1
    have b4 : l' < F.nv := hx'.2.1
    refine ⟨ends N.ku - y, x, N.nu + d.1 - 1 - m, l, F.nu + e.1 - 1 - m', l', elem_rev N.ku hu (by omega) hy, hx, he.1 ▸ elem_rev F.ku fu (by omega) hy', hx', Prod.ext (funext fun k => ?_) ?_⟩
    · exact (C56_nurbs_surface (g k) w hu hv (l := N.nu + d.1 - 1 - m) (l' := m) (by omega) (m := l) (m' := N.nv + d.2 - 1 - l) (by omega) x y).2.1
    · have := (C56_bspline_surface f fu fv (l := F.nu + e.1 - 1 - m') (l' := m') (by omega) (m := l') (m' := F.nv + e.2 - 1 - l') (by omega) x y).2.1
      rwa [← he.1] at this
  | cw =>
    have b1 : m < N.nu := hy.2.1
    have b2 : l < N.nv := hx.2.1
    have b3 : m' < F.nu := hy'.2.1
    have b4 : l' < F.nv := hx'.2.1
    refine ⟨y, ends N.kv - x, m, N.nv + d.2 - 1 - l, m', F.nv + e.2 - 1 - l', hy, elem_rev N.kv hv (by omega) hx, hy', he.2 ▸ elem_rev F.kv fv (by omega) hx', Prod.ext (funext fun k => ?_) ?_⟩
    · exact (C56_nurbs_surface (g k) w hu hv (l := m) (l' := N.nu + d.1 - 1 - m) (by omega) (m := N.nv + d.2 - 1 - l) (m' := l) (by omega) x y).2.2.1
    · have := (C56_bspline_surface f fu fv (l := m') (l' := F.nu + e.1 - 1 - m') (by omega) (m := F.nv + e.2 - 1 - l') (m' := l') (by omega) x y).2.2.1
      rwa [← he.2] at this
  | tw =>
    have b1 : l < N.nu := hx.2.1
    have b2 : m < N.nv := hy.2.1
    have b3 : l' < F.nu := hx'.2.1
    have b4 : m' < F.nv := hy'.2.1
    refine ⟨ends N.ku - x, ends N.kv - y, N.nu + d.1 - 1 - l, N.nv + d.2 - 1 - m, F.nu + e.1 - 1 - l', F.nv + e.2 - 1 - m', elem_rev N.ku hu (by omega) hx, elem_rev N.kv hv (by omega) hy,
      he.1 ▸ elem_rev F.ku fu (by omega) hx', he.2 ▸ elem_rev F.kv fv (by omega) hy', Prod.ext (funext fun k => ?_) ?_⟩
    · exact (C56_nurbs_surface (g k) w hu hv (l := N.nu + d.1 - 1 - l) (l' := l) (by omega) (m := N.nv + d.2 - 1 - m) (m' := m) (by omega) x y).2.2.2
    · have := (C56_bspline_surface f fu fv (l := F.nu + e.1 - 1 - l') (l' := l') (by omega) (m := F.nv + e.2 - 1 - m') (m' := m') (by omega) x y).2.2.2
      rwa [← he.1, ← he.2] at this

/-- The call that undoes a call. -/
def Op.inv : Op → Op
  | .ac => .cw
  | .cw => .ac
  | o => o

theorem inv_net {N : Net α} (h : N.WF) (o : Op) : o.inv.net (o.net N) = N ∧ o.net (o.inv.net N) = N := by
  obtain ⟨g1, g2, -, g4, g5, -⟩ := C01_group_laws N h
  cases o
  exacts [⟨g5, g5⟩, ⟨g1, g2⟩, ⟨g2, g1⟩, ⟨g4, g4⟩]

theorem inv_deg (o : Op) (d : ℕ × ℕ) : o.inv.deg (o.deg d) = d := by cases o <;> rfl

theorem graph_op {κ : Type} (g : κ → Option α → ℝ) (w : Option α → ℝ) (f : Option β → ℝ) {d e : ℕ × ℕ} {N : Net α} {F : Net β} (wN : N.WF) (wF : F.WF) (hN : Fits N d) (hF : Fits F e) (he : SameEnds N F) (o : Op) :
    graph g w (o.deg d) (o.net N) f (o.deg e) (o.net F) = graph g w d N f e F := by
  refine Set.Subset.antisymm (graph_op_sub g w f hN hF he o) ?_
  have := graph_op_sub g w f (fits_op hN o) (fits_op hF o) (sameEnds_op he o) o.inv
  rwa [(inv_net wN o).1, (inv_net wF o).1, inv_deg, inv_deg] at this

/-- Degrees after a history of calls. -/
def runDeg (h : List Op) (d : ℕ × ℕ) : ℕ × ℕ := h.foldl (fun e o => o.deg e) d

/-- C57. If a function is turned with the patch, knots reversed, then it is the same function on the surface, for all patches, functions and histories. -/
theorem C57_turned_together {κ : Type} (g : κ → Option α → ℝ) (w : Option α → ℝ) (f : Option β → ℝ) (h : List Op) {d e : ℕ × ℕ} {N : Net α} {F : Net β} (wN : N.WF) (wF : F.WF) (hN : Fits N d) (hF : Fits F e) (he : SameEnds N F) :
    graph g w (runDeg h d) (runNet h N) f (runDeg h e) (runNet h F) = graph g w d N f e F := by
  induction h generalizing d e N F with
  | nil => rfl
  | cons o h ih => exact (ih (op_wf o wN) (op_wf o wF) (fits_op hN o) (fits_op hF o) (sameEnds_op he o)).trans (graph_op g w f wN wF hN hF he o)

theorem op_sym {F : Net α} (h : F.Sym) (o : Op) : (o.net F).Sym := by
  obtain ⟨h1, h2⟩ := h
  have e : ∀ k : List ℚ, revK k = k → revK (revK k) = revK k := fun k hk => by rw [hk, hk]
  cases o
  exacts [⟨h2, h1⟩, ⟨h2, e _ h1⟩, ⟨e _ h2, h1⟩, ⟨e _ h1, e _ h2⟩]

theorem sym_pre (h : List Op) {F : Net α} (wF : F.WF) (hs : F.Sym) : ∃ G : Net α, G.WF ∧ G.Sym ∧ runNet h G = F := by
  induction h generalizing F with
  | nil => exact ⟨F, wF, hs, rfl⟩
  | cons o h ih =>
    obtain ⟨G, w, s, e⟩ := ih wF hs
    exact ⟨o.inv.net G, op_wf _ w, op_sym s _, by change runNet h (o.net (o.inv.net G)) = F; rw [(inv_net w o).2, e]⟩

theorem run_back (sw : Bool) (rs : List Op) (hr : ∀ o ∈ rs, o ≠ .swap) (hok : Undoable rs sw) {F : Net α} (wF : F.WF) (hs : F.Sym) :
    runNet (fixOrient sw ++ rs) (back (Book.run (fixOrient sw ++ rs)) F) = F ∧ (back (Book.run (fixOrient sw ++ rs)) F).WF := by
  obtain ⟨G, w, s, e⟩ := sym_pre (fixOrient sw ++ rs) wF hs
  have hb := C02_undo_partial sw rs hr hok G w s
  rw [e] at hb
  rw [hb]
  exact ⟨e, w⟩

/-- C57 (partial: the knots of the function are symmetric, and the history is one that can be undone, as those of the library are, `C02_library_histories_partial`). A function `F` that was computed on the turned patch and put back is the same function on the surface.
Missing: knots that are not symmetric, where it is false (`C57_graph_violated`, `C57_normal_iff`). -/
theorem C57_put_back_partial {κ : Type} (g : κ → Option α → ℝ) (w : Option α → ℝ) (f : Option β → ℝ) (sw : Bool) (rs : List Op) (hr : ∀ o ∈ rs, o ≠ .swap) (hok : Undoable rs sw)
    {d e : ℕ × ℕ} {N : Net α} {F : Net β} (wN : N.WF) (wF : F.WF) (hs : F.Sym) (hN : Fits N d) (hF : Fits (back (Book.run (fixOrient sw ++ rs)) F) e) (he : SameEnds N (back (Book.run (fixOrient sw ++ rs)) F)) :
    graph g w d N f e (back (Book.run (fixOrient sw ++ rs)) F) = graph g w (runDeg (fixOrient sw ++ rs) d) (runNet (fixOrient sw ++ rs) N) f (runDeg (fixOrient sw ++ rs) e) F := by
  obtain ⟨h1, h2⟩ := run_back sw rs hr hok wF hs
  have := C57_turned_together g w f (fixOrient sw ++ rs) wN h2 hN hF he
  rw [h1] at this
  exact this.symm

theorem knots_rot (rs : List Op) (hr : ∀ o ∈ rs, o ≠ .swap) (k : List ℚ × List ℚ) : runKnots rs k = if (rs.map Op.turns).sum % 2 = 1 then (k.2, k.1) else k := by
  unfold runKnots
  induction rs generalizing k with
  | nil => rfl
  | cons o rs ih =>
    rw [List.foldl_cons, ih (fun o h => hr o (List.mem_cons_of_mem _ h)), List.map_cons, List.sum_cons]
    have ho := hr o (List.mem_cons_self ..)
    generalize (rs.map Op.turns).sum = n
    cases o
    · exact absurd rfl ho
    · rw [show Op.ac.turns = 1 from rfl, show Op.ac.knots k = (k.2, k.1) from rfl]
      split_ifs <;> first | rfl | omega
    · rw [show Op.cw.turns = 3 from rfl, show Op.cw.knots k = (k.2, k.1) from rfl]
      split_ifs <;> first | rfl | omega
    · rw [show Op.tw.turns = 2 from rfl, show Op.tw.knots k = k from rfl]
      split_ifs <;> first | rfl | omega

/-- C57. For all knots: the function that is put back is a spline over the knots of the basis of the patch, if it was computed over the turned knots. -/
theorem C57_knots (sw : Bool) (rs : List Op) (hr : ∀ o ∈ rs, o ≠ .swap) (hok : Undoable rs sw) (k : List ℚ × List ℚ) {F : Net α} (hF : (F.ku, F.kv) = runKnots (fixOrient sw ++ rs) k) :
    ((back (Book.run (fixOrient sw ++ rs)) F).ku, (back (Book.run (fixOrient sw ++ rs)) F).kv) = k := by
  have hb := book_rot rs hr (Book.run (fixOrient sw))
  have e : rs.foldl Book.step (Book.run (fixOrient sw)) = Book.run (fixOrient sw ++ rs) := by unfold Book.run; rw [List.foldl_append]
  rw [e] at hb
  have e1 : runKnots (fixOrient sw ++ rs) k = runKnots rs (runKnots (fixOrient sw) k) := by unfold runKnots; rw [List.foldl_append]
  rw [e1, knots_rot rs hr] at hF
  have h0 : (Book.run (fixOrient sw)).rot = 0 ∧ (Book.run (fixOrient sw)).axis = sw ∧ runKnots (fixOrient sw) k = if sw then (k.2, k.1) else k := by
    cases sw <;> exact ⟨rfl, rfl, rfl⟩
  rw [h0.2.2] at hF
  rw [h0.1, h0.2.1] at hb
  unfold Undoable at hok
  generalize Book.run (fixOrient sw ++ rs) = b at hb hok
  generalize (rs.map Op.turns).sum = n at hb hF
  obtain ⟨hb1, hb2⟩ := hb
  simp only [List.mem_cons, List.not_mem_nil, or_false] at hok
  have hF1 := congrArg Prod.fst hF
  have hF2 := congrArg Prod.snd hF
  unfold back
  rw [hb1]
  by_cases c2 : b.rot = 2
  · have : n % 2 = 0 := by omega
    cases sw <;> simp_all [twBasis, swapBasis, swapNet]
  · by_cases c3 : b.rot = -1
    · have : n % 2 = 1 := by omega
      cases sw <;> simp_all [acBasis, swapBasis, swapNet]
    · by_cases c4 : b.rot = 1
      · have : n % 2 = 1 := by omega
        cases sw <;> simp_all [cwBasis, swapBasis, swapNet]
      · have : n % 2 = 0 := by omega
        cases sw <;> simp_all [swapBasis, swapNet]

/-- C57. For all knots, at the interface: let `c 0`, `c 1`, … be the coefficients across the edge of the function on the turned patch, where the edge is at the parameter zero, and let the edge be at the last parameter `T` in the patch, so that the order of the coefficients is reversed
when the function is put back. `u` are the reversed knots. The derivative of the computed function has the first element in the denominator, the derivative of the one that is put back the last element. -/
theorem C57_normal {t u : ℕ → ℝ} {p n : ℕ} {T : ℝ} (hp : 1 ≤ p) (hn : 2 ≤ n) (ht : Open t p) (hu : Open u p) (hm : ∀ j j', j + j' = n + p → u j = T - t j') (c : ℕ → ℝ) :
    (derivative (∑ i ∈ Finset.range n, C (c i) * bs t p p i)).eval 0 = p * (c 1 - c 0) / t (p + 1) ∧
    (derivative (∑ i ∈ Finset.range n, C (c (n - 1 - i)) * bs t (n - 1) p i)).eval T = -(p * (c 1 - c 0) / (T - t (n - 1))) := by
  have key : ∀ {s : ℕ → ℝ}, Open s p → (derivative (∑ i ∈ Finset.range n, C (c i) * bs s p p i)).eval 0 = p * (c 1 - c 0) / s (p + 1) := by
    intro s hs
    obtain ⟨-, -, d0, d1⟩ := N_jet hs hp
    obtain ⟨n, rfl⟩ : ∃ k, n = k + 1 + 1 := ⟨n - 2, by omega⟩
    rw [Finset.sum_range_succ', Finset.sum_range_succ', derivative_add, derivative_add, derivative_sum, eval_add, eval_add, eval_finsetSum, Finset.sum_eq_zero]
    · simp only [Nat.zero_add, derivative_C_mul, eval_mul, eval_C]
      change 0 + c 1 * (derivative (N s p 1)).eval 0 + c 0 * (derivative (N s p 0)).eval 0 = _
      rw [d0, d1]; ring
    · intro i _
      rw [derivative_C_mul, eval_mul, eval_C]
      by_cases hi : i + 1 + 1 ≤ p
      · obtain ⟨Q, e, _⟩ := N_order hs (i + 1 + 1) hi
        change _ * (derivative (N s p (i + 1 + 1))).eval 0 = 0
        rw [e, (jet_X_pow Q i).2.1, mul_zero]
      · rw [bs_zero_of_gt (by omega)]; simp
  refine ⟨key ht, ?_⟩
  have hk := key hu
  have e : ∑ i ∈ Finset.range n, C (c (n - 1 - i)) * bs t (n - 1) p i = (∑ i ∈ Finset.range n, C (c i) * bs u p p i).comp (C T - X) := by
    rw [← Finset.sum_range_reflect, ← coe_compRingHom_apply, map_sum]
    refine Finset.sum_congr rfl fun i hi => ?_
    have hi := Finset.mem_range.1 hi
    have h := Boehm.bs_mirror (t := t) (u := u) (α := 1) (β := T) one_ne_zero (M := n + p) (ℓ := p) (ℓ' := n - 1) (q := p) (i := i) (i' := n - 1 - i)
      (fun j j' e => by rw [one_mul]; exact hm j j' e) (by omega) (by omega)
    rw [coe_compRingHom_apply, mul_comp, C_comp, ← h, C_1, one_mul, show n - 1 - (n - 1 - i) = i by omega]
  rw [e, derivative_comp, eval_mul, eval_comp]
  rw [show u (p + 1) = T - t (n - 1) from hm (p + 1) (n - 1) (by omega)] at hk
  rw [eval_sub, eval_C, eval_X, sub_self, hk]
  simp

/-- C57. So the derivative across the interface of the function in the patch is the computed one exactly if the first and the last element have the same length (or it is zero). -/
theorem C57_normal_iff {t u : ℕ → ℝ} {p n : ℕ} {T : ℝ} (hp : 1 ≤ p) (hn : 2 ≤ n) (ht : Open t p) (hu : Open u p) (hm : ∀ j j', j + j' = n + p → u j = T - t j') (c : ℕ → ℝ) (hc : c 1 ≠ c 0) :
    -(derivative (∑ i ∈ Finset.range n, C (c (n - 1 - i)) * bs t (n - 1) p i)).eval T = (derivative (∑ i ∈ Finset.range n, C (c i) * bs t p p i)).eval 0 ↔ t (p + 1) = T - t (n - 1) := by
  obtain ⟨h1, h2⟩ := C57_normal hp hn ht hu hm c
  rw [h1, h2, neg_neg]
  have a := ht.pos
  have b : 0 < T - t (n - 1) := by rw [← hm (p + 1) (n - 1) (by omega)]; exact hu.pos
  have hc' : (p : ℝ) * (c 1 - c 0) ≠ 0 := mul_ne_zero (by positivity) (sub_ne_zero.2 hc)
  constructor
  · intro h
    rw [div_eq_div_iff b.ne' a.ne'] at h
    exact mul_left_cancel₀ hc' h
  · intro h; rw [h]

/-- The knots along a side: those of the second direction on the sides west and east. -/
def along (s : Side) (k : List ℚ × List ℚ) : List ℚ := if s = .west ∨ s = .east then k.2 else k.1

/-- C57. The knots along the edge are taken for the edge: the code takes component 1 of the turned basis on the first patch of an interface, component 0 on the second one (`gsApproxC1Edge.hpp:31-57`), component 1 at a boundary edge, and at a vertex the component given by the map of sides (`gsApproxC1Vertex.h:216-222`, `:236`). -/
theorem C57_along (neg : Bool) (s : Side) (c : Corner) (k : List ℚ × List ℚ) :
    (runKnots (ifaceHist0 false s) k).2 = along s k ∧ (runKnots (ifaceHist1 false s) k).1 = along s k ∧ (runKnots (singleHist neg s) k).2 = along s k ∧
    (s = (surfSides c).1 ∨ s = (surfSides c).2 → along ((Book.run (vertexHist neg c)).map s) (runKnots (vertexHist neg c) k) = along s k) := by
  refine ⟨by cases s <;> rfl, by cases s <;> rfl, by cases neg <;> cases s <;> rfl, ?_⟩
  intro h
  cases neg <;> cases c <;> rcases h with rfl | rfl <;> rfl

/-- The unit square: the first coordinate is the first parameter. -/
def square : Net ℚ := { nu := 2, nv := 2, ku := [0, 0, 1, 1], kv := [0, 0, 1, 1], c := fun k => if k < 4 then some (k % 2 : ℕ) else none }

/-- A hat function with its top at the parameter 1/4. -/
def bump : Net ℚ := { nu := 3, nv := 2, ku := [0, 0, 1/4, 1, 1], kv := [0, 0, 1, 1], c := fun k => if k < 6 then some (if k % 3 = 1 then 1 else 0) else none }

/-- The number of an entry. -/
noncomputable def num (a : Option ℚ) : ℝ := ((a.getD 0 : ℚ) : ℝ)

/-- C57 is false for knots that are not symmetric. On the unit square after a half turn, the hat function with its top at the parameter 1/4 has the value one at the points with first coordinate 3/4. Put back, it has not. The knots of the function are those of the basis. -/
theorem C57_graph_violated : Undoable [.tw] false ∧ (bump.ku, bump.kv) = runKnots [.tw] (bump.ku, bump.kv) ∧ SameEnds square (back (Book.run [.tw]) bump) ∧
    ((fun _ : Unit => 3 / 4), 1) ∈ graph (fun _ => num) (fun _ => 1) (1, 1) (runNet [.tw] square) num (1, 1) bump ∧
    ((fun _ : Unit => 3 / 4), 1) ∉ graph (fun _ => num) (fun _ => 1) (1, 1) square num (1, 1) (back (Book.run [.tw]) bump) := by
  refine ⟨by left; decide, rfl, ⟨rfl, rfl⟩, ?_, ?_⟩
  · have a0 : (twNet square).at' 0 0 = some 1 := by decide +kernel
    have a1 : (twNet square).at' 1 0 = some 0 := by decide +kernel
    have k2 : revK [0, 0, 1, 1] = [0, 0, 1, 1] := by decide +kernel
    refine ⟨1 / 4, 0, 1, 1, 1, 1, ?_, ?_, ?_, ?_, ?_⟩
    · change InElem (revK [0, 0, 1, 1]) 1 2 1 _
      rw [k2]; unfold InElem seq; norm_num
    · change InElem (revK [0, 0, 1, 1]) 1 2 1 _
      rw [k2]; unfold InElem seq; norm_num
    · unfold InElem seq bump; norm_num
    · unfold InElem seq bump; norm_num
    · refine Prod.ext (funext fun _ => ?_) ?_
      · change _ = rational num (fun _ => 1) 1 1 (twNet square) 1 1 (1 / 4) 0
        unfold rational piece
        change _ = (∑ i ∈ Finset.range 2, ∑ j ∈ Finset.range 2, _ * ((bs (seq (revK [0, 0, 1, 1])) 1 1 i).eval _ * (bs (seq (revK [0, 0, 1, 1])) 1 1 j).eval _)) /
          (∑ i ∈ Finset.range 2, ∑ j ∈ Finset.range 2, _ * ((bs (seq (revK [0, 0, 1, 1])) 1 1 i).eval _ * (bs (seq (revK [0, 0, 1, 1])) 1 1 j).eval _))
        rw [k2]
        simp [a0, a1, num, seq, bs, Finset.sum_range_succ]
        try norm_num
      · simp [piece, bump, Net.at', num, seq, bs, Finset.sum_range_succ]
        try norm_num
  · rintro ⟨x, y, l, m, l', m', hx, hy, hx', hy', e⟩
    have hl : l = 1 := by have := hx.1; have : l < 2 := hx.2.1; omega
    have hm : m = 1 := by have := hy.1; have : m < 2 := hy.2.1; omega
    have hm' : m' = 1 := by have := hy'.1; have : m' < 2 := hy'.2.1; omega
    have hl' : l' = 1 ∨ l' = 2 := by have := hx'.1; have : l' < 3 := hx'.2.1; omega
    subst hl hm hm'
    obtain ⟨e1, e2⟩ := Prod.ext_iff.1 e
    have e1 := congrFun e1 ()
    have r : rational num (fun _ => 1) 1 1 square 1 1 x y = x := by
      simp [rational, piece, square, Net.at', num, seq, bs, Finset.sum_range_succ]
      rw [show (1 - x) * (1 - y) + (1 - x) * y + (x * (1 - y) + x * y) = 1 by ring]
      ring
    have hx3 : x = 3 / 4 := by rw [← r]; exact e1.symm
    subst hx3
    have b0 : (twBasis bump).at' 0 0 = some 0 := by decide +kernel
    have b1 : (twBasis bump).at' 1 0 = some 1 := by decide +kernel
    have b2 : (twBasis bump).at' 2 0 = some 0 := by decide +kernel
    have b3 : (twBasis bump).at' 0 1 = some 0 := by decide +kernel
    have b4 : (twBasis bump).at' 1 1 = some 1 := by decide +kernel
    have b5 : (twBasis bump).at' 2 1 = some 0 := by decide +kernel
    rcases hl' with rfl | rfl
    · have := hx'.2.2.2.2
      change (3 / 4 : ℝ) ≤ seq [0, 0, 1/4, 1, 1] 2 at this
      norm_num [seq] at this
    · change 1 = piece num 1 1 (twBasis bump) 2 1 (3 / 4) y at e2
      unfold piece at e2
      change 1 = (∑ i ∈ Finset.range 3, ∑ j ∈ Finset.range 2, _ * ((bs (seq [0, 0, 1/4, 1, 1]) 2 1 i).eval _ * (bs (seq [0, 0, 1, 1]) 1 1 j).eval _)) at e2
      simp [b0, b1, b2, b3, b4, b5, num, seq, bs, Finset.sum_range_succ] at e2
      norm_num at e2
      try linarith

/-- A case of `C57_put_back_partial`: a quarter turn, knots with an inner knot in the middle. -/
example : ∃ F : Net ℚ, F.WF ∧ F.Sym ∧ F.nu ≠ F.nv ∧ Undoable [.ac] false ∧ Fits square (1, 1) ∧ square.WF ∧ Fits (back (Book.run (fixOrient false ++ [.ac])) F) (1, 1) ∧ SameEnds square (back (Book.run (fixOrient false ++ [.ac])) F) := by
  refine ⟨{ nu := 3, nv := 2, ku := [0, 0, 1/2, 1, 1], kv := [0, 0, 1, 1], c := fun k => if k < 6 then some k else none }, ?_, ?_, by decide, by left; decide, ?_, ?_, ?_, ?_⟩
  · intro k; by_cases h : k < 6 <;> simp [h]
  · constructor <;> decide +kernel
  · unfold Fits; decide +kernel
  · intro k; unfold square; by_cases h : k < 4 <;> simp [h]
  · unfold Fits; decide +kernel
  · unfold SameEnds ends
    constructor
    · exact congrArg _ (show _ = _ by decide +kernel)
    · exact congrArg _ (show _ = _ by decide +kernel)

/-- A case of `C57_normal_iff` in which the function is not C1 after it is put back: degree three, one inner knot at 1/4. -/
example : ∃ t u : ℕ → ℝ, Open t 3 ∧ Open u 3 ∧ (∀ j j', j + j' = 5 + 3 → u j = 1 - t j') ∧ t (3 + 1) ≠ 1 - t (5 - 1) := by
  refine ⟨fun i => if i ≤ 3 then 0 else if i ≤ 4 then 1 / 4 else 1, fun i => if i ≤ 3 then 0 else if i ≤ 4 then 3 / 4 else 1, ⟨fun i hi => if_pos hi, by norm_num, ?_⟩, ⟨fun i hi => if_pos hi, by norm_num, ?_⟩, ?_, by norm_num⟩
  · intro a b h; dsimp only; split_ifs <;> first | omega | norm_num
  · intro a b h; dsimp only; split_ifs <;> first | omega | norm_num
  · intro j j' h; dsimp only; split_ifs <;> first | omega | norm_num

end Verif.Reparam
