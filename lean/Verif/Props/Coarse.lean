import Verif.Model.Coarse
import Verif.Props.Spaces
import Mathlib.Data.List.Nodup
import Mathlib.Data.List.Perm.Basic
/-!
# C67: both patches of an interface build their functions from the same spaces

Functions of an interface or a vertex are made on two patches from traces, normal derivatives and gluing data. They fit together only if both patches take these from the same spaces (`C07`, `C46`), and the projections keep them only if the space of each patch
contains them (`C51`). Both patches choose the coarser basis, each for itself and at several places in the code.
-/
set_option autoImplicit false
namespace Verif.Coarse
open Spaces Polynomial

/-- Mirrored knots have the same number of elements. -/
theorem elements_mirror (n : ℕ) (k : Kv) : elements n (mirror n k) = elements n k := by
  have hp : ((inner n).map fun i => n - i).Perm (inner n) := by
    unfold inner
    rw [List.perm_ext_iff_of_nodup]
    · intro x
      rw [List.mem_map]
      simp only [List.mem_range'_1]
      constructor
      · rintro ⟨y, h, rfl⟩; omega
      · intro h; exact ⟨n - x, by omega, by omega⟩
    · refine List.Nodup.map_on ?_ List.nodup_range'
      intro x hx y hy h
      rw [List.mem_range'_1] at hx hy
      omega
    · exact List.nodup_range'
  unfold elements mirror
  have := (hp.filter fun i => decide (0 < k.mult i)).length_eq
  rw [← this, List.filter_map, List.length_map]
  rfl

/-- What is asked of the meshes: equal bases if the numbers of elements are equal. -/
def Fits (n : ℕ) (I : Iface) (c : Kv) : Prop :=
  (c = I.a.basis ∧ elements n I.a.basis < elements n I.b.basis) ∨ (c = I.b.basis ∧ elements n I.b.basis < elements n I.a.basis) ∨ (c = I.a.basis ∧ c = I.b.basis)

private theorem choice {n : ℕ} {I : Iface} {c : Kv} (h : Fits n I c) : coarser n I.a.basis I.b.basis = c ∧ coarser n I.b.basis I.a.basis = c := by
  unfold coarser
  rcases h with ⟨rfl, hl⟩ | ⟨rfl, hl⟩ | ⟨h1, h2⟩
  · refine ⟨if_neg (by omega), if_pos hl⟩
  · refine ⟨if_pos hl, if_neg (by omega)⟩
  · rw [← h1, ← h2]
    simp

private theorem noGeo_stored {n : ℕ} {s : Side} (h : NoGeo n s.geo) : NoGeo n (s.stored n) := by
  unfold Side.stored
  split
  · intro i h1 h2
    exact h (n - i) (by omega) (by omega)
  · exact h

/-- C67: both patches take the traces, the normal derivatives and the gluing data from the same spaces, for the functions of the edge and for the functions of its two vertices, and all spaces that these are projected to contain them. This holds for any
numbers of elements on the two sides. Full statement: for any two bases; missing are bases with the same number of elements that are not equal (`C67_tie_violated`, `C67_mirror_violated`) and geometries with inner knots (see C51). -/
theorem C67_same_partial (z : ℕ → ℝ) {n : ℕ} {I : Iface} {c : Kv} (h : Fits n I c) (ha : NoGeo n I.a.geo) (hb : NoGeo n I.b.geo) {pt rt : ℤ} {p r : ℕ} (ho : Options c pt rt p r) (hd : 2 ≤ c.deg)
    {m : ℕ} (hm : m ≤ c.deg - 1) (hu : ∀ i, c.mult i = 0 ∨ c.mult i = m) :
    ∃ kp km kg, edgeFunctions n I = some (kp, km) ∧ gluingSpace n I.a I.b pt rt = some kg ∧ gluingSpace n I.b I.a pt rt = some kg ∧
      vertexFunctions n I.a I.b pt rt = some (kp, km, kg) ∧ vertexFunctions n I.b I.a pt rt = some (kp, km, kg) ∧
      (∃ e0 e1, edgeSpaces n I pt rt = some (e0, e1) ∧ Contains z n kp km kg e0 ∧ Contains z n kp km kg e1) ∧
      ∃ v0 v1, vertexSpace n I.a I.b pt rt = some v0 ∧ vertexSpace n I.b I.a pt rt = some v1 ∧ Contains z n kp km kg v0 ∧ Contains z n kp km kg v1 ∧
        (∀ f, Sp z n c f → Sp z n v0 f) ∧ ∀ f, Sp z n c f → Sp z n v1 f := by
  obtain ⟨c1, c2⟩ := choice h
  have hs : ∃ s : Side, NoGeo n s.geo ∧ s.basis = c ∧ (if elements n I.a.basis > elements n I.b.basis then I.b else I.a) = s := by
    unfold coarser at c1
    split at c1
    · rename_i hl
      rw [if_pos hl]
      exact ⟨I.b, hb, c1, rfl⟩
    · rename_i hl
      rw [if_neg hl]
      exact ⟨I.a, ha, c1, rfl⟩
  obtain ⟨s, hg, ec, es⟩ := hs
  have hg' := noGeo_stored hg
  have ha' := noGeo_stored ha
  have hb' := noGeo_stored hb
  obtain ⟨kp, km, kg, ke, hi, hc⟩ := C51_edge z ha ho hd hm hu
  rw [iface_eq ha] at hi
  simp only [Option.some.injEq, Prod.mk.injEq] at hi
  obtain ⟨rfl, rfl, rfl, hke⟩ := hi
  obtain ⟨kp', km', kg', v0, q1, q2, q3, q4, q5, q6, _⟩ := C51_vertex_iface z ha' ho hd hm hu
  obtain ⟨kp2, km2, kg2, v1, p1, p2, p3, p4, p5, p6, _⟩ := C51_vertex_iface z hb' ho hd hm hu
  rw [(C51_plus_minus ha').1] at q1
  rw [(C51_plus_minus ha').2] at q2
  rw [gluing_nil ha'] at q3
  rw [(C51_plus_minus hb').1] at p1
  rw [(C51_plus_minus hb').2] at p2
  rw [gluing_nil hb'] at p3
  cases q1
  cases q2
  cases q3
  cases p1
  cases p2
  cases p3
  refine ⟨_, _, _, ?_, ?_, ?_, ?_, ?_, ⟨ke, ke, ?_, hc, hc⟩, v0, v1, ?_, ?_, q5, p5, q6, p6⟩
  · unfold edgeFunctions
    simp only [es, ec, (C51_plus_minus hg).1, (C51_plus_minus hg).2, Option.bind_eq_bind, Option.bind_some, Option.pure_def]
  · rw [gluingSpace, c1, gluing_nil ha]
  · rw [gluingSpace, c2, gluing_nil hb]
  · unfold vertexFunctions
    simp only [c1, gluing_nil ha, (C51_plus_minus ha).1, (C51_plus_minus ha).2, Option.bind_eq_bind, Option.bind_some, Option.pure_def]
  · unfold vertexFunctions
    simp only [c2, gluing_nil hb, (C51_plus_minus hb).1, (C51_plus_minus hb).2, Option.bind_eq_bind, Option.bind_some, Option.pure_def]
  · unfold edgeSpaces
    simp only [es, ec, (C51_plus_minus hg').1, (C51_plus_minus hg').2, gluing_nil hg', edge, fix_nil ha', fix_nil hb', Option.bind_eq_bind, Option.bind_some, Option.pure_def, hke]
  · rw [vertexSpace, c1, q4]
  · rw [vertexSpace, c2, p4]

/-- A spline of `k` that has a knot at `i`, but is no spline of `k'`. -/
private theorem apart (z : ℕ → ℝ) {n : ℕ} {k k' : Kv} {i : ℕ} (h1 : 1 ≤ i) (h2 : i < n) (hk : 0 < k.mult i) (hk' : k'.mult i = 0) (hd : k.deg ≤ k'.deg) : ∃ f, Sp z n k f ∧ ¬ Sp z n k' f := by
  refine ⟨_, sp_trunc z n k i h1 hk, fun h => ?_⟩
  have := h.jump i h1 h2
  rw [trunc_jump i h1 _ i h1, if_pos rfl, hk'] at this
  have := pow_le_of_dvd_one this
  omega

/-- C67 fails for bases with the same number of elements and different knots: at the vertices every patch keeps its own spaces. For all simple knots with a knot of the first basis that the second one does not have, the first patch has traces
that the second one does not have. -/
theorem C67_tie_violated (z : ℕ → ℝ) {n : ℕ} {I : Iface} (he : elements n I.a.basis = elements n I.b.basis) (ha : NoGeo n I.a.geo) (hb : NoGeo n I.b.geo) (hd : I.a.basis.deg = I.b.basis.deg)
    (hs : ∀ i, I.a.basis.mult i ≤ 1) {i : ℕ} (h1 : 1 ≤ i) (h2 : i < n) (hi : 0 < I.a.basis.mult i) (hi' : I.b.basis.mult i = 0) (pt rt : ℤ) :
    ∃ kp km kg kp' km' kg', vertexFunctions n I.a I.b pt rt = some (kp, km, kg) ∧ vertexFunctions n I.b I.a pt rt = some (kp', km', kg') ∧ ∃ f, Sp z n kp f ∧ ¬ Sp z n kp' f := by
  have c1 : coarser n I.a.basis I.b.basis = I.a.basis := if_neg (by omega)
  have c2 : coarser n I.b.basis I.a.basis = I.b.basis := if_neg (by omega)
  refine ⟨⟨I.a.basis.deg, fun i => I.a.basis.mult i - raise n I.a.basis⟩, ⟨I.a.basis.deg - 1, fun i => I.a.basis.mult i - raise n I.a.basis⟩, gluing0 I.a.basis pt rt,
    ⟨I.b.basis.deg, fun i => I.b.basis.mult i - raise n I.b.basis⟩, ⟨I.b.basis.deg - 1, fun i => I.b.basis.mult i - raise n I.b.basis⟩, gluing0 I.b.basis pt rt, ?_, ?_, apart z h1 h2 ?_ ?_ ?_⟩
  · unfold vertexFunctions
    simp only [c1, gluing_nil ha, (C51_plus_minus ha).1, (C51_plus_minus ha).2, Option.bind_eq_bind, Option.bind_some, Option.pure_def]
  · unfold vertexFunctions
    simp only [c2, gluing_nil hb, (C51_plus_minus hb).1, (C51_plus_minus hb).2, Option.bind_eq_bind, Option.bind_some, Option.pure_def]
  · have : raise n I.a.basis = 0 := by
      rcases first_or n I.a.basis with h0 | ⟨i0, h0⟩
      · rw [h0 i h1 h2] at hi; omega
      · unfold raise
        rw [firstMult_some h0, if_pos]
        have := h0.2.2.1
        have := hs i0
        omega
    simp only [this]
    omega
  · simp only [hi']
    omega
  · exact hd.le

/-- C67 fails on meshes that fit together: if the stored knots of the second patch run in the other direction, they are the mirror image of the first ones, the numbers of elements are equal, and so the two patches have different traces for the functions of
vertices, for all simple knots and every knot `i` without mirror image. -/
theorem C67_mirror_violated (z : ℕ → ℝ) {n : ℕ} {I : Iface} (hI : I.b.basis = mirror n I.a.basis) (ha : NoGeo n I.a.geo) (hb : NoGeo n I.b.geo) (hs : ∀ i, I.a.basis.mult i ≤ 1) {i : ℕ} (h1 : 1 ≤ i) (h2 : i < n)
    (hi : 0 < I.a.basis.mult i) (hi' : I.a.basis.mult (n - i) = 0) (pt rt : ℤ) :
    ∃ kp km kg kp' km' kg', vertexFunctions n I.a I.b pt rt = some (kp, km, kg) ∧ vertexFunctions n I.b I.a pt rt = some (kp', km', kg') ∧ ∃ f, Sp z n kp f ∧ ¬ Sp z n kp' f :=
  C67_tie_violated z (by rw [hI, elements_mirror]) ha hb (by rw [hI]; rfl) hs h1 h2 hi (by rw [hI]; exact hi') pt rt

/-! ### Cases -/

/-- Degree 3, six elements against two, geometry of one element. -/
example : Fits 6 ⟨⟨⟨3, fun i => if 0 < i ∧ i < 6 then 1 else 0⟩, ⟨1, fun _ => 0⟩, false⟩, ⟨⟨3, fun i => if i = 2 then 1 else 0⟩, ⟨1, fun _ => 0⟩, true⟩⟩ ⟨3, fun i => if i = 2 then 1 else 0⟩ ∧
    NoGeo 6 ⟨1, fun _ => 0⟩ ∧ Options ⟨3, fun i => if i = 2 then 1 else 0⟩ (-1) (-1) 2 1 :=
  ⟨Or.inr (Or.inl ⟨rfl, by decide⟩), fun _ _ _ => rfl, by unfold Options gdSmooth gdDegree; decide⟩

/-- A tie: three elements with knots at 1 and 2 of 4 against three elements with knots at 2 and 3. -/
example : elements 4 ⟨3, fun i => if i = 1 ∨ i = 2 then 1 else 0⟩ = elements 4 ⟨3, fun i => if i = 2 ∨ i = 3 then 1 else 0⟩ ∧ (if 1 = 2 ∨ 1 = 3 then 1 else 0) = 0 := by decide

/-- These are mirror images of each other. -/
example : (⟨3, fun i => if i = 2 ∨ i = 3 then 1 else 0⟩ : Kv).mult 3 = (mirror 4 ⟨3, fun i => if i = 1 ∨ i = 2 then 1 else 0⟩).mult 3 ∧ (mirror 4 ⟨3, fun i => if i = 1 ∨ i = 2 then 1 else 0⟩).mult 1 = 0 := by decide

end Verif.Coarse
