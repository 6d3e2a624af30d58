import Verif.Props.Reparam
import Verif.Proofs.Boehm
import Mathlib.Data.List.GetD
/-!
# C56: a turned B-spline or NURBS patch is the same surface

`C01_same_surface` is about any basis functions that mirror with their knots. Here the basis functions are B-splines (`Model/BSpline.lean`).
-/
set_option autoImplicit false
namespace Verif.Reparam
open Verif Polynomial
open _root_.Verif.BSpline (bs)
variable {α : Type}

/-- A knot vector as a sequence. -/
noncomputable def seq (k : List ℚ) : ℕ → ℝ := fun i => ((k.getD i 0 : ℚ) : ℝ)

/-- The polynomials that a tensor-product spline of degrees `p`, `q` is on the element between the knots `l`, `l+1` and `m`, `m+1`, at `(x,y)`. `f` gives the coordinate of a control point (for NURBS: the weight, or a coordinate times the weight). -/
noncomputable def piece (f : Option α → ℝ) (p q : ℕ) (N : Net α) (l m : ℕ) (x y : ℝ) : ℝ :=
  ∑ i ∈ Finset.range N.nu, ∑ j ∈ Finset.range N.nv, f (N.at' i j) * ((bs (seq N.ku) l p i).eval x * (bs (seq N.kv) m q j).eval y)

/-- First and last knot. -/
noncomputable def ends (k : List ℚ) : ℝ := ((k.headD 0 + k.getLastD 0 : ℚ) : ℝ)

theorem seq_rev (k : List ℚ) {j j' : ℕ} (h : j + j' + 1 = k.length) : seq (revK k) j = ends k - seq k j' := by
  unfold seq ends revK
  have h1 : j < (k.map (fun x => k.headD 0 + k.getLastD 0 - x)).reverse.length := by simp; omega
  have h2 : j' < k.length := by omega
  rw [List.getD_eq_getElem _ _ h1, List.getD_eq_getElem _ _ h2, List.getElem_reverse, List.getElem_map]
  have e : (List.map (fun x => k.headD 0 + k.getLastD 0 - x) k).length - 1 - j = j' := by simp; omega
  simp only [e]
  push_cast; ring

theorem bs_rev (k : List ℚ) {n p : ℕ} (hk : k.length = n + p + 1) {l l' : ℕ} (hl : l + l' + 1 = n + p) {i i' : ℕ} (hi : i + i' + 1 = n) (x : ℝ) :
    (bs (seq (revK k)) l p i).eval x = (bs (seq k) l' p i').eval (ends k - x) := by
  have h := Boehm.bs_mirror (t := seq k) (u := seq (revK k)) (α := 1) (β := ends k) one_ne_zero (M := n + p) (ℓ := l) (ℓ' := l') (q := p) (i := i) (i' := i')
    (fun j j' e => by rw [one_mul]; exact seq_rev k (by omega)) hl (by omega)
  rw [← h, eval_comp]
  simp

/-- C56. The turned patch is the same surface with turned parameters, for tensor-product B-splines of any degrees over any knots: on every element, the spline is the same polynomial as on the turned element. -/
theorem C56_bspline_surface (f : Option α → ℝ) {p q : ℕ} {N : Net α} (hu : N.ku.length = N.nu + p + 1) (hv : N.kv.length = N.nv + q + 1) {l l' m m' : ℕ} (hl : l + l' + 1 = N.nu + p) (hm : m + m' + 1 = N.nv + q) (s t : ℝ) :
    piece f q p (swapNet N) m l s t = piece f p q N l m t s ∧
    piece f q p (acNet N) m l' s t = piece f p q N l m (ends N.ku - t) s ∧
    piece f q p (cwNet N) m' l s t = piece f p q N l m t (ends N.kv - s) ∧
    piece f p q (twNet N) l' m' s t = piece f p q N l m (ends N.ku - s) (ends N.kv - t) := by
  refine ⟨?_, ?_, ?_, ?_⟩
  · unfold piece
    rw [Finset.sum_comm]
    refine Finset.sum_congr rfl fun i hi => Finset.sum_congr rfl fun j hj => ?_
    rw [swap_at N (Finset.mem_range.1 hj) (Finset.mem_range.1 hi)]
    change _ * ((bs (seq N.kv) m q j).eval s * (bs (seq N.ku) l p i).eval t) = _
    ring
  · unfold piece
    rw [Finset.sum_comm]
    change ∑ j ∈ Finset.range N.nu, ∑ i ∈ Finset.range N.nv, _ * ((bs (seq N.kv) m q i).eval s * (bs (seq (revK N.ku)) l' p j).eval t) = _
    rw [← Finset.sum_range_reflect]
    refine Finset.sum_congr rfl fun j hj => Finset.sum_congr rfl fun i hi => ?_
    have hj := Finset.mem_range.1 hj
    rw [ac_at N (Finset.mem_range.1 hi) (by omega), bs_rev N.ku hu (by omega : l' + l + 1 = _) (by omega : N.nu - 1 - j + j + 1 = N.nu),
      show N.nu - 1 - (N.nu - 1 - j) = j by omega]
    ring
  · unfold piece
    rw [Finset.sum_comm]
    change ∑ j ∈ Finset.range N.nu, ∑ i ∈ Finset.range N.nv, _ * ((bs (seq (revK N.kv)) m' q i).eval s * (bs (seq N.ku) l p j).eval t) = _
    refine Finset.sum_congr rfl fun j hj => ?_
    rw [← Finset.sum_range_reflect]
    refine Finset.sum_congr rfl fun i hi => ?_
    have hi := Finset.mem_range.1 hi
    rw [cw_at N (by omega) (Finset.mem_range.1 hj), bs_rev N.kv hv (by omega : m' + m + 1 = _) (by omega : N.nv - 1 - i + i + 1 = N.nv),
      show N.nv - 1 - (N.nv - 1 - i) = i by omega]
    ring
  · unfold piece
    change ∑ j ∈ Finset.range N.nu, ∑ i ∈ Finset.range N.nv, _ * ((bs (seq (revK N.ku)) l' p j).eval s * (bs (seq (revK N.kv)) m' q i).eval t) = _
    rw [← Finset.sum_range_reflect]
    refine Finset.sum_congr rfl fun j hj => ?_
    rw [← Finset.sum_range_reflect]
    refine Finset.sum_congr rfl fun i hi => ?_
    have hi := Finset.mem_range.1 hi
    have hj := Finset.mem_range.1 hj
    rw [tw_at N (by omega) (by omega), bs_rev N.ku hu (by omega : l' + l + 1 = _) (by omega : N.nu - 1 - j + j + 1 = N.nu), bs_rev N.kv hv (by omega : m' + m + 1 = _) (by omega : N.nv - 1 - i + i + 1 = N.nv),
      show N.nv - 1 - (N.nv - 1 - i) = i by omega, show N.nu - 1 - (N.nu - 1 - j) = j by omega]

/-- A NURBS patch: control points with weights. -/
noncomputable def rational (g : Option α → ℝ) (w : Option α → ℝ) (p q : ℕ) (N : Net α) (l m : ℕ) (x y : ℝ) : ℝ :=
  piece (fun a => w a * g a) p q N l m x y / piece w p q N l m x y

/-- C56. The same for NURBS patches. -/
theorem C56_nurbs_surface (g w : Option α → ℝ) {p q : ℕ} {N : Net α} (hu : N.ku.length = N.nu + p + 1) (hv : N.kv.length = N.nv + q + 1) {l l' m m' : ℕ} (hl : l + l' + 1 = N.nu + p) (hm : m + m' + 1 = N.nv + q) (s t : ℝ) :
    rational g w q p (swapNet N) m l s t = rational g w p q N l m t s ∧
    rational g w q p (acNet N) m l' s t = rational g w p q N l m (ends N.ku - t) s ∧
    rational g w q p (cwNet N) m' l s t = rational g w p q N l m t (ends N.kv - s) ∧
    rational g w p q (twNet N) l' m' s t = rational g w p q N l m (ends N.ku - s) (ends N.kv - t) := by
  obtain ⟨a1, a2, a3, a4⟩ := C56_bspline_surface (fun a => w a * g a) hu hv hl hm s t
  obtain ⟨b1, b2, b3, b4⟩ := C56_bspline_surface w hu hv hl hm s t
  unfold rational
  exact ⟨by rw [a1, b1], by rw [a2, b2], by rw [a3, b3], by rw [a4, b4]⟩

/-- Turned knot vectors have the right length again, so that the theorems apply to any sequence of turns. -/
theorem C56_lengths {p q : ℕ} {N : Net α} (hu : N.ku.length = N.nu + p + 1) (hv : N.kv.length = N.nv + q + 1) :
    ((swapNet N).ku.length = (swapNet N).nu + q + 1 ∧ (swapNet N).kv.length = (swapNet N).nv + p + 1) ∧ ((acNet N).ku.length = (acNet N).nu + q + 1 ∧ (acNet N).kv.length = (acNet N).nv + p + 1) ∧
    ((cwNet N).ku.length = (cwNet N).nu + q + 1 ∧ (cwNet N).kv.length = (cwNet N).nv + p + 1) ∧ ((twNet N).ku.length = (twNet N).nu + p + 1 ∧ (twNet N).kv.length = (twNet N).nv + q + 1) := by
  simp [swapNet, acNet, cwNet, twNet, revK, hu, hv]

/-- The points of a NURBS patch with coordinates `g`, from all elements that are not empty. -/
def surf {κ : Type} (g : κ → Option α → ℝ) (w : Option α → ℝ) (p q : ℕ) (N : Net α) : Set (κ → ℝ) :=
  {P | ∃ l m : ℕ, ∃ x y : ℝ, (p ≤ l ∧ l < N.nu ∧ seq N.ku l < seq N.ku (l + 1) ∧ seq N.ku l ≤ x ∧ x ≤ seq N.ku (l + 1)) ∧
    (q ≤ m ∧ m < N.nv ∧ seq N.kv m < seq N.kv (m + 1) ∧ seq N.kv m ≤ y ∧ y ≤ seq N.kv (m + 1)) ∧ P = fun k => rational (g k) w p q N l m x y}

/-- Degrees after a turn. -/
def Op.deg : Op → ℕ × ℕ → ℕ × ℕ
  | .tw, d => d
  | _, d => (d.2, d.1)

/-- Knot vectors of the right lengths. -/
def Fits (N : Net α) (d : ℕ × ℕ) : Prop := N.ku.length = N.nu + d.1 + 1 ∧ N.kv.length = N.nv + d.2 + 1

theorem fits_op {N : Net α} {d : ℕ × ℕ} (h : Fits N d) (o : Op) : Fits (o.net N) (o.deg d) := by
  obtain ⟨h1, h2, h3, h4⟩ := C56_lengths h.1 h.2
  cases o
  exacts [h1, h2, h3, h4]

theorem elem_rev (k : List ℚ) {n p l l' : ℕ} (hk : k.length = n + p + 1) (hl : l + l' + 1 = n + p) {x : ℝ}
    (h : p ≤ l ∧ l < n ∧ seq (revK k) l < seq (revK k) (l + 1) ∧ seq (revK k) l ≤ x ∧ x ≤ seq (revK k) (l + 1)) :
    p ≤ l' ∧ l' < n ∧ seq k l' < seq k (l' + 1) ∧ seq k l' ≤ ends k - x ∧ ends k - x ≤ seq k (l' + 1) := by
  obtain ⟨h1, h2, h3, h4, h5⟩ := h
  rw [seq_rev k (j := l) (j' := l' + 1) (by omega)] at h3 h4
  rw [seq_rev k (j := l + 1) (j' := l') (by omega)] at h3 h5
  exact ⟨by omega, by omega, by linarith, by linarith, by linarith⟩

theorem surf_op {κ : Type} (g : κ → Option α → ℝ) (w : Option α → ℝ) {d : ℕ × ℕ} {N : Net α} (h : Fits N d) (o : Op) :
    surf g w (o.deg d).1 (o.deg d).2 (o.net N) ⊆ surf g w d.1 d.2 N := by
  obtain ⟨hu, hv⟩ := h
  rintro P ⟨l, m, x, y, hx, hy, rfl⟩
  cases o with
  | swap =>
    refine ⟨m, l, y, x, hy, hx, funext fun k => ?_⟩
    have b1 : m < N.nu := hy.2.1
    have b2 : l < N.nv := hx.2.1
    exact (C56_nurbs_surface (g k) w hu hv (l := m) (l' := N.nu + d.1 - 1 - m) (by omega) (m := l) (m' := N.nv + d.2 - 1 - l) (by omega) x y).1
  | ac =>
    have b1 : m < N.nu := hy.2.1
    have b2 : l < N.nv := hx.2.1
    refine ⟨N.nu + d.1 - 1 - m, l, ends N.ku - y, x, elem_rev N.ku hu (by omega) hy, hx, funext fun k => ?_⟩
    exact (C56_nurbs_surface (g k) w hu hv (l := N.nu + d.1 - 1 - m) (l' := m) (by omega) (m := l) (m' := N.nv + d.2 - 1 - l) (by omega) x y).2.1
  | cw =>
    have b1 : m < N.nu := hy.2.1
    have b2 : l < N.nv := hx.2.1
    refine ⟨m, N.nv + d.2 - 1 - l, y, ends N.kv - x, hy, elem_rev N.kv hv (by omega) hx, funext fun k => ?_⟩
    exact (C56_nurbs_surface (g k) w hu hv (l := m) (l' := N.nu + d.1 - 1 - m) (by omega) (m := N.nv + d.2 - 1 - l) (m' := l) (by omega) x y).2.2.1
  | tw =>
    have b1 : l < N.nu := hx.2.1
    have b2 : m < N.nv := hy.2.1
    refine ⟨N.nu + d.1 - 1 - l, N.nv + d.2 - 1 - m, ends N.ku - x, ends N.kv - y, elem_rev N.ku hu (by omega) hx, elem_rev N.kv hv (by omega) hy, funext fun k => ?_⟩
    exact (C56_nurbs_surface (g k) w hu hv (l := N.nu + d.1 - 1 - l) (l' := l) (by omega) (m := N.nv + d.2 - 1 - m) (m' := m) (by omega) x y).2.2.2

/-- C56. After any sequence of turns and exchanges, a NURBS patch is the same set of points in space, for all degrees, knots, weights and dimensions. -/
theorem C56_same_points {κ : Type} (g : κ → Option α → ℝ) (w : Option α → ℝ) (h : List Op) (d : ℕ × ℕ) (N : Net α) (hN : N.WF) (hd : Fits N d) :
    surf g w (h.foldl (fun e o => o.deg e) d).1 (h.foldl (fun e o => o.deg e) d).2 (runNet h N) = surf g w d.1 d.2 N := by
  induction h generalizing d N with
  | nil => rfl
  | cons o h ih =>
    have hf := fits_op hd o
    have hw : (o.net N).WF := run_wf [o] hN
    refine (ih (o.deg d) (o.net N) hw hf).trans (Set.Subset.antisymm (surf_op g w hd o) ?_)
    obtain ⟨g1, g2, -, g4, g5, -⟩ := C01_group_laws N hN
    cases o
    · have e := surf_op g w hf .swap
      rwa [show Op.swap.net (Op.swap.net N) = N from g5] at e
    · have e := surf_op g w hf .cw
      rwa [show Op.cw.net (Op.ac.net N) = N from g1] at e
    · have e := surf_op g w hf .ac
      rwa [show Op.ac.net (Op.cw.net N) = N from g2] at e
    · have e := surf_op g w hf .tw
      rwa [show Op.tw.net (Op.tw.net N) = N from g4] at e

/-- Degree one, knots 0, 1/4, 1 in one direction, 0, 1 in the other one; the surface is the first parameter. -/
def skew : Net ℚ := { nu := 3, nv := 2, ku := [0, 0, 1/4, 1, 1], kv := [0, 0, 1, 1], c := fun k => if k < 6 then some ([0, 1/4, 1].getD (k % 3) 0) else none }

/-- C56 for `gsG1AuxiliaryPatch` is false: its turns do not reverse the knots. On a patch with one inner knot at 1/4 the half turn gives another surface (at the parameter 1/8, where the turned patch should be at 7/8, it is at 5/8). -/
theorem C56_aux_surface_violated : piece (fun a => ((a.getD 0 : ℚ) : ℝ)) 1 1 (twBasis skew) 1 1 (1 / 8) 0 = 5 / 8 ∧
    piece (fun a => ((a.getD 0 : ℚ) : ℝ)) 1 1 skew 2 1 (7 / 8) 1 = 7 / 8 ∧ piece (fun a => ((a.getD 0 : ℚ) : ℝ)) 1 1 (twNet skew) 1 1 (1 / 8) 0 = 7 / 8 := by
  refine ⟨?_, ?_, ?_⟩
  · have h0 : (twBasis skew).at' 0 0 = some 1 := by decide +kernel
    have h1 : (twBasis skew).at' 1 0 = some (1 / 4) := by decide +kernel
    unfold piece
    change ∑ i ∈ Finset.range 3, ∑ j ∈ Finset.range 2, _ * ((bs (seq [0, 0, 1/4, 1, 1]) 1 1 i).eval _ * (bs (seq [0, 0, 1, 1]) 1 1 j).eval _) = _
    simp [h0, h1, seq, bs, Finset.sum_range_succ]
    norm_num
  · simp [piece, skew, Net.at', seq, bs, Finset.sum_range_succ]
    norm_num
  · have h0 : (twNet skew).at' 0 0 = some 1 := by decide +kernel
    have h1 : (twNet skew).at' 1 0 = some (1 / 4) := by decide +kernel
    have h2 : revK [0, 0, 1/4, 1, 1] = [0, 0, 3/4, 1, 1] := by decide +kernel
    have h3 : revK [0, 0, 1, 1] = [0, 0, 1, 1] := by decide +kernel
    unfold piece
    change ∑ i ∈ Finset.range 3, ∑ j ∈ Finset.range 2, _ * ((bs (seq (revK [0, 0, 1/4, 1, 1])) 1 1 i).eval _ * (bs (seq (revK [0, 0, 1, 1])) 1 1 j).eval _) = _
    rw [h2, h3]
    simp [h0, h1, seq, bs, Finset.sum_range_succ]
    norm_num

/-- With knots that are symmetric, `gsG1AuxiliaryPatch` turns like `gsPatchReparameterized`. -/
theorem C56_aux_symmetric {N : Net α} (h : N.Sym) : acBasis N = acNet N ∧ cwBasis N = cwNet N ∧ twBasis N = twNet N := by
  unfold acBasis acNet cwBasis cwNet twBasis twNet
  rw [h.1, h.2]
  exact ⟨rfl, rfl, rfl⟩

/-- A case of `C56_bspline_surface`: three elements of different length. -/
example : skew.ku.length = skew.nu + 1 + 1 ∧ skew.kv.length = skew.nv + 1 + 1 ∧ 2 + 1 + 1 = skew.nu + 1 ∧ 1 + 1 + 1 = skew.nv + 1 ∧ revK skew.ku ≠ skew.ku := by decide +kernel

/-- A case of `C56_same_points`. -/
example : Fits skew (1, 1) ∧ skew.WF := ⟨by unfold Fits; decide +kernel, by intro k; unfold skew; by_cases h : k < 6 <;> simp [h]⟩

end Verif.Reparam
