import Verif.Model.C1Corner
import Verif.Props.VertexFun
import Verif.Proofs.LocalIndep
import Mathlib.Topology.Algebra.Polynomial
import Mathlib.Algebra.Polynomial.Roots
import Mathlib.Order.Interval.Set.Infinite
/-!
# Property C68: near a corner the functions of the approximate C1 basis are independent
-/
set_option autoImplicit false
set_option linter.unusedSimpArgs false
namespace Verif.C1Corner
open Verif.BSpline Verif.EdgeFun Verif.VertexFun Polynomial Boehm

/-! ## Polynomials -/

theorem poly_zero {f : ℝ[X]} {ε : ℝ} (hε : 0 < ε) (h : ∀ x, 0 ≤ x → x < ε → f.eval x = 0) : f = 0 :=
  Polynomial.eq_zero_of_infinite_isRoot f ((Set.Ioo_infinite hε).mono fun _ hx => h _ hx.1.le hx.2)

/-- A combination of the functions of a basis that vanishes near the first knot has zero coefficients. -/
theorem N_indep {b : Comp} (h : Open b.t b.p) (c : ℕ → ℝ) (hc : ∑ i ∈ Finset.range (b.p + 1), C (c i) * Bf b i = 0) : ∀ i ≤ b.p, c i = 0 := by
  refine elt_indep h.mono (by rw [h.first _ le_rfl]; exact h.pos) b.p 0 (by omega) c ?_
  simpa [Bf, N] using hc

theorem sum3 {b : Comp} (hp : 2 ≤ b.p) (x0 x1 x2 : ℝ) (a : ℕ → ℝ) :
    ∑ i ∈ Finset.range (b.p + 1), C (if i = 0 then x0 else if i = 1 then x1 else if i = 2 then x2 else a i) * Bf b i =
      C x0 * Bf b 0 + C x1 * Bf b 1 + C x2 * Bf b 2 + ∑ i ∈ Finset.Ico 3 (b.p + 1), C (a i) * Bf b i := by
  rw [Finset.range_eq_Ico, ← Finset.sum_Ico_consecutive _ (Nat.zero_le 3) (by omega : 3 ≤ b.p + 1)]
  congr 1
  · simp [Finset.sum_Ico_eq_sum_range, Finset.sum_range_succ]
  · refine Finset.sum_congr rfl fun i hi => ?_
    have := (Finset.mem_Ico.mp hi).1
    rw [if_neg (by omega), if_neg (by omega), if_neg (by omega)]

theorem sum2 {b : Comp} (hp : 1 ≤ b.p) (x0 x1 : ℝ) (a : ℕ → ℝ) :
    ∑ i ∈ Finset.range (b.p + 1), C (if i = 0 then x0 else if i = 1 then x1 else a i) * Bf b i =
      C x0 * Bf b 0 + C x1 * Bf b 1 + ∑ i ∈ Finset.Ico 2 (b.p + 1), C (a i) * Bf b i := by
  rw [Finset.range_eq_Ico, ← Finset.sum_Ico_consecutive _ (Nat.zero_le 2) (by omega : 2 ≤ b.p + 1)]
  congr 1
  · simp [Finset.sum_Ico_eq_sum_range, Finset.sum_range_succ]
  · refine Finset.sum_congr rfl fun i hi => ?_
    have := (Finset.mem_Ico.mp hi).1
    rw [if_neg (by omega), if_neg (by omega)]

/-- The part of the vertex and the part of the edge in the plus space are independent. -/
theorem plus_zero {b : Comp} (h : Open b.t b.p) (hp : 2 ≤ b.p) (d : Fin 5 → ℝ) (a : ℕ → ℝ)
    (hz : tr b d + ∑ i ∈ Finset.Ico 3 (b.p + 1), C (a i) * Bf b i = 0) : (d 0 = 0 ∧ d 1 = 0 ∧ d 2 = 0) ∧ ∀ i ∈ Finset.Ico 3 (b.p + 1), a i = 0 := by
  have h1 := b1_ne h (by omega : 1 ≤ b.p)
  have h2 := b2_ne h hp
  have key := N_indep h (fun i => if i = 0 then d 0 else if i = 1 then d 0 + d 1 * (1 / d0 (Bf b 1)) else
    if i = 2 then d 0 + d 1 * (-dd0 (Bf b 1) / (d0 (Bf b 1) * dd0 (Bf b 2))) + d 2 * (1 / dd0 (Bf b 2)) else a i) (by
      rw [sum3 hp, ← hz, tr, c_0_plus, c_1_plus, c_2_plus]
      simp only [C_add, C_mul]; ring)
  have e0 := key 0 (by omega)
  have e1 := key 1 (by omega)
  have e2 := key 2 (by omega)
  simp only [if_true, one_ne_zero, if_false, OfNat.ofNat_ne_zero, OfNat.ofNat_ne_one] at e0 e1 e2
  rw [e0, zero_add] at e1 e2
  have e1' : d 1 = 0 := by simpa [h1] using e1
  rw [e1', zero_mul, zero_add] at e2
  refine ⟨⟨e0, e1', by simpa [h2] using e2⟩, fun i hi => ?_⟩
  obtain ⟨q1, q2⟩ := Finset.mem_Ico.mp hi
  have := key i (by omega)
  simpa only [if_neg (by omega : ¬i = 0), if_neg (by omega : ¬i = 1), if_neg (by omega : ¬i = 2)] using this

theorem minus_zero {b : Comp} (h : Open b.t b.p) (hp : 1 ≤ b.p) (d : Fin 5 → ℝ) (a : ℕ → ℝ)
    (hz : nd b d + ∑ i ∈ Finset.Ico 2 (b.p + 1), C (a i) * Bf b i = 0) : (d 3 = 0 ∧ d 4 = 0) ∧ ∀ i ∈ Finset.Ico 2 (b.p + 1), a i = 0 := by
  have h1 := b1_ne h hp
  have key := N_indep h (fun i => if i = 0 then d 3 else if i = 1 then d 3 + d 4 * (1 / d0 (Bf b 1)) else a i) (by
      rw [sum2 hp, ← hz, nd, c_0, c_1]
      simp only [C_add, C_mul]; ring)
  have e0 := key 0 (by omega)
  have e1 := key 1 (by omega)
  simp only [if_true, one_ne_zero, if_false] at e0 e1
  rw [e0, zero_add] at e1
  refine ⟨⟨e0, by simpa [h1] using e1⟩, fun i hi => ?_⟩
  obtain ⟨q1, q2⟩ := Finset.mem_Ico.mp hi
  have := key i (by omega)
  simpa only [if_neg (by omega : ¬i = 0), if_neg (by omega : ¬i = 1)] using this

/-! ## Functions without value and derivative on an edge -/

/-- Functions with index at least two have no value and no derivative at the first knot, those with index at least three no second derivative. -/
theorem high {b : Comp} (h : Open b.t b.p) {i : ℕ} (hi : 2 ≤ i) (hp : i ≤ b.p) : (Bf b i).eval 0 = 0 ∧ (derivative (Bf b i)).eval 0 = 0 := by
  obtain ⟨Q, e, -⟩ := N_order h i hp
  obtain ⟨r, rfl⟩ := Nat.exists_eq_add_of_le' hi
  rw [Bf, e]
  exact ⟨(jet_X_pow Q (r + 1)).1, (jet_X_pow Q r).2.1⟩

theorem high2 {b : Comp} (h : Open b.t b.p) {i : ℕ} (hi : 3 ≤ i) (hp : i ≤ b.p) : (derivative (derivative (Bf b i))).eval 0 = 0 := by
  obtain ⟨Q, e, -⟩ := N_order h i hp
  obtain ⟨r, rfl⟩ := Nat.exists_eq_add_of_le' hi
  rw [Bf, e, show r + 3 = 3 + r by omega, pow_add]
  simp [derivative_mul, derivative_X_pow]

/-- The value and the derivative across the edge `y = 0` vanish. -/
def Flat (R : ℝ → ℝ → ℝ) (ε : ℝ) : Prop := ∀ x, 0 ≤ x → x < ε → R x 0 = 0 ∧ HasDerivAt (fun y => R x y) 0 0

theorem Flat.add {R S : ℝ → ℝ → ℝ} {ε : ℝ} (h : Flat R ε) (k : Flat S ε) : Flat (fun x y => R x y + S x y) ε := fun x h0 h1 => by
  refine ⟨by simp [(h x h0 h1).1, (k x h0 h1).1], ?_⟩
  simpa using (h x h0 h1).2.fun_add (k x h0 h1).2

theorem Flat.sum {ι : Type} (s : Finset ι) {R : ι → ℝ → ℝ → ℝ} {ε : ℝ} (c : ι → ℝ) (h : ∀ i ∈ s, Flat (R i) ε) : Flat (fun x y => ∑ i ∈ s, c i * R i x y) ε := fun x h0 h1 => by
  refine ⟨Finset.sum_eq_zero fun i hi => by simp [(h i hi x h0 h1).1], ?_⟩
  have := HasDerivAt.fun_sum (u := s) (fun i hi => (h i hi x h0 h1).2.const_mul (c i))
  simpa using this

/-- A product with a factor that vanishes up to first order. -/
theorem Flat.mul {f g : ℝ → ℝ} {ε : ℝ} (h0 : f 0 = 0) (h1 : HasDerivAt f 0 0) : Flat (fun x y => f y * g x) ε := fun x _ _ => by
  refine ⟨by simp [h0], ?_⟩
  simpa using h1.mul_const (g x)

theorem tracePoly_eq (uv : ℕ) (inter : Bool) (n : ℝ[X]) (c : Comp) (g : Glue) (x y : ℝ) :
    tracePoly uv inter n c g x y = n.eval x * (c.eval 0 y + c.eval 1 y) - ((edgeGlue inter g).beta x * (derivative n).eval x) * (c.eval 1 y * c.t (c.p + 1) / c.p) := by
  have := line_trace uv (!inter) c g.beta (fun x => n.eval x) (fun x => (derivative n).eval x) x y
  rw [tracePoly, show onEdge = line from rfl, this]
  cases inter
  · simp [edgeGlue]
  · simp [edgeGlue]; ring

theorem normalPoly_eq (uv : ℕ) (inter : Bool) (m : ℝ[X]) (c : Comp) (g : Glue) (x y : ℝ) :
    normalPoly uv inter m c g x y = m.eval x * ((if uv = 0 then -1 else 1) * ((edgeGlue inter g).alpha x * (c.eval 1 y * (if inter then c.t (c.p + 1) / c.p else 1)))) := by
  have := line_normal uv (!inter) c g.alpha (fun x => m.eval x) x y
  rw [normalPoly, show onEdge = line from rfl, this]
  cases inter
  · simp [edgeGlue]
  · simp [edgeGlue]; ring_nf

theorem trace_eq (uv : ℕ) (inter : Bool) (b : Bases) (c : Comp) (g : Glue) (i : ℕ) (x y : ℝ) :
    traceFun uv inter b c g i x y = (Bf b.plus i).eval x * (c.eval 0 y + c.eval 1 y) -
      ((edgeGlue inter g).beta x * (derivative (Bf b.plus i)).eval x) * (c.eval 1 y * c.t (c.p + 1) / c.p) := tracePoly_eq ..

theorem normal_eq (uv : ℕ) (inter : Bool) (b : Bases) (c : Comp) (g : Glue) (j : ℕ) (x y : ℝ) :
    normalFun uv inter b c g j x y = (Bf b.minus j).eval x * ((if uv = 0 then -1 else 1) * ((edgeGlue inter g).alpha x * (c.eval 1 y * (if inter then c.t (c.p + 1) / c.p else 1)))) :=
  normalPoly_eq ..

/-- The functions of one edge have no value and no derivative on the other edge at the corner. -/
theorem trace_flat {b : Bases} (hb : b.Ok) {c : Comp} {g : Glue} (uv : ℕ) (inter : Bool) (hg : (edgeGlue inter g).Ok) {i : ℕ} (hi : 3 ≤ i) (hp : i ≤ b.plus.p) (ε : ℝ) :
    Flat (fun x y => traceFun uv inter b c g i y x) ε := by
  obtain ⟨h0, h1⟩ := high hb.plus (by omega : 2 ≤ i) hp
  have h2 := high2 hb.plus hi hp
  have e1 : HasDerivAt (fun y => (Bf b.plus i).eval y) 0 0 := poly_hasDerivAt h1
  have e2 : HasDerivAt (fun y => (derivative (Bf b.plus i)).eval y) 0 0 := poly_hasDerivAt h2
  have e3 := hg.db.fun_mul e2
  rw [h1] at e3
  have f1 := Flat.mul (g := fun x => c.eval 0 x + c.eval 1 x) (ε := ε) h0 e1
  have f2 := Flat.mul (f := fun y => (edgeGlue inter g).beta y * (derivative (Bf b.plus i)).eval y) (g := fun x => -(c.eval 1 x * c.t (c.p + 1) / c.p)) (ε := ε) (by simp [h1])
    (by simpa using e3)
  have := f1.add f2
  refine fun x k0 k1 => ?_
  obtain ⟨q1, q2⟩ := this x k0 k1
  simp only [trace_eq]
  refine ⟨Eq.trans (by simp only; ring) q1, q2.congr_of_eventuallyEq (Filter.Eventually.of_forall fun y => ?_)⟩
  simp only; ring

theorem normal_flat {b : Bases} (hb : b.Ok) {c : Comp} {g : Glue} (uv : ℕ) (inter : Bool) (hg : (edgeGlue inter g).Ok) {j : ℕ} (hj : 2 ≤ j) (hp : j ≤ b.minus.p) (ε : ℝ) :
    Flat (fun x y => normalFun uv inter b c g j y x) ε := by
  obtain ⟨h0, h1⟩ := high hb.minus hj hp
  have e1 : HasDerivAt (fun y => (Bf b.minus j).eval y) 0 0 := poly_hasDerivAt h1
  have e3 := hg.da.fun_mul e1
  rw [h0] at e3
  have f2 := Flat.mul (f := fun y => (edgeGlue inter g).alpha y * (Bf b.minus j).eval y)
    (g := fun x => (if uv = 0 then -1 else 1) * (c.eval 1 x * (if inter then c.t (c.p + 1) / c.p else 1))) (ε := ε) (by simp [h0]) (by simpa using e3)
  refine fun x k0 k1 => ?_
  obtain ⟨q1, q2⟩ := f2 x k0 k1
  simp only [normal_eq]
  refine ⟨Eq.trans (by simp only; ring) q1, q2.congr_of_eventuallyEq (Filter.Eventually.of_forall fun y => ?_)⟩
  simp only; ring

/-! ## One edge -/

/-- A function that vanishes for `0 ≤ y < ε` has derivative zero at `0`. -/
theorem deriv_zero {f : ℝ → ℝ} {d ε : ℝ} (hε : 0 < ε) (h : ∀ y, 0 ≤ y → y < ε → f y = 0) (hd : HasDerivAt f d 0) : d = 0 := by
  have h1 : HasDerivWithinAt f d (Set.Ici 0) 0 := hd.hasDerivWithinAt
  have h2 : HasDerivWithinAt f 0 (Set.Ici 0) 0 := by
    refine (hasDerivWithinAt_const (0 : ℝ) (Set.Ici 0) (0 : ℝ)).congr_of_eventuallyEq ?_ (h 0 le_rfl hε)
    filter_upwards [self_mem_nhdsWithin, nhdsWithin_le_nhds (Iio_mem_nhds hε)] with y hy hy'
    exact h y hy hy'
  exact (uniqueDiffWithinAt_Ici (0 : ℝ)).eq_deriv _ h1 h2

theorem edge_indep {b : Bases} (hb : b.Ok) {c : Comp} (hc : Open c.t c.p) (hcp : 1 ≤ c.p) {g : Glue} (uv : ℕ) (inter : Bool) {ε : ℝ} (hε : 0 < ε)
    (hα : ∀ x, 0 ≤ x → x < ε → (edgeGlue inter g).alpha x ≠ 0) {s : ℝ} (hs : s ≠ 0)
    (x : Fin 6 → ℝ) (d : Fin 6 → Fin 5 → ℝ) (V : Fin 6 → ℝ → ℝ → ℝ)
    (hV : ∀ bf t, V bf t 0 = (tr b.plus (d bf)).eval t ∧
      HasDerivAt (fun y => V bf t y) (-((edgeGlue inter g).beta t * (derivative (tr b.plus (d bf))).eval t) + s * ((edgeGlue inter g).alpha t * (nd b.minus (d bf)).eval t)) 0)
    (a e : ℕ → ℝ) (R : ℝ → ℝ → ℝ) (hR : Flat R ε)
    (hz : ∀ t y, 0 ≤ t → t < ε → 0 ≤ y → y < ε → ∑ bf, x bf * V bf t y
      + (∑ i ∈ Finset.Ico 3 (b.plus.p + 1), a i * traceFun uv inter b c g i t y + ∑ j ∈ Finset.Ico 2 (b.minus.p + 1), e j * normalFun uv inter b c g j t y) + R t y = 0) :
    (∀ m, ∑ bf, x bf * d bf m = 0) ∧ (∀ i ∈ Finset.Ico 3 (b.plus.p + 1), a i = 0) ∧ ∀ j ∈ Finset.Ico 2 (b.minus.p + 1), e j = 0 := by
  have hne := p_ne hcp
  have htp := hc.pos.ne'
  -- sums of the data of the vertex
  set δ : Fin 5 → ℝ := fun m => ∑ bf, x bf * d bf m with hδ
  have htr : tr b.plus δ = ∑ bf, C (x bf) * tr b.plus (d bf) := by
    simp only [hδ, tr, C_add, C_mul, Fin.sum_univ_six]; ring
  have hnd : nd b.minus δ = ∑ bf, C (x bf) * nd b.minus (d bf) := by
    simp only [hδ, nd, C_add, C_mul, Fin.sum_univ_six]; ring
  -- the trace
  have hP : tr b.plus δ + ∑ i ∈ Finset.Ico 3 (b.plus.p + 1), C (a i) * Bf b.plus i = 0 := by
    refine poly_zero hε fun t h0 h1 => ?_
    have := hz t 0 h0 h1 le_rfl hε
    simp only [(hV _ t).1, (hR t h0 h1).1, trace_eq, normal_eq, eval_zero0 hc hcp, eval_one0 hc hcp] at this
    rw [htr]
    simp only [eval_add, eval_finsetSum, eval_mul, eval_C]
    rw [← this]; simp
  obtain ⟨⟨z0, z1, z2⟩, za⟩ := plus_zero hb.plus hb.pp δ a hP
  have htr0 : tr b.plus δ = 0 := by rw [tr, z0, z1, z2]; simp
  -- the derivative across the edge
  set κ : ℝ := (if uv = 0 then -1 else 1) * (if inter then 1 else c.p / c.t (c.p + 1)) with hκ
  have hκ0 : κ ≠ 0 := by
    rw [hκ]
    refine mul_ne_zero (by split_ifs <;> norm_num) ?_
    split_ifs
    · exact one_ne_zero
    · exact div_ne_zero hne htp
  have hQ : nd b.minus δ + ∑ j ∈ Finset.Ico 2 (b.minus.p + 1), C (s⁻¹ * κ * e j) * Bf b.minus j = 0 := by
    refine poly_zero hε fun t h0 h1 => ?_
    have dN : ∀ j, HasDerivAt (fun y => normalFun uv inter b c g j t y) (κ * ((edgeGlue inter g).alpha t * (Bf b.minus j).eval t)) 0 := fun j => by
      have := (deriv_one0 hc hcp).const_mul ((Bf b.minus j).eval t * (if uv = 0 then -1 else 1) * (edgeGlue inter g).alpha t * (if inter then c.t (c.p + 1) / c.p else 1))
      refine (this.congr_deriv ?_).congr_of_eventuallyEq (Filter.Eventually.of_forall fun y => ?_)
      · rw [hκ]; cases inter <;> simp <;> field_simp
      · simp only [normal_eq]; ring
    have dsum := ((HasDerivAt.fun_sum (u := Finset.univ) (fun bf _ => ((hV bf t).2).const_mul (x bf))).fun_add
      (HasDerivAt.fun_sum (u := Finset.Ico 2 (b.minus.p + 1)) (fun j _ => (dN j).const_mul (e j)))).fun_add (hR t h0 h1).2
    have hzero := deriv_zero hε (fun y k0 k1 => ?_) dsum
    · have hd : derivative (tr b.plus δ) = ∑ bf, C (x bf) * derivative (tr b.plus (d bf)) := by
        rw [htr, derivative_sum]; simp [derivative_mul]
      rw [htr0, derivative_zero] at hd
      have hd' : ∑ bf, x bf * (derivative (tr b.plus (d bf))).eval t = 0 := by
        have := congrArg (fun f => f.eval t) hd
        simp only [eval_zero, eval_finsetSum, eval_mul, eval_C] at this
        exact this.symm
      have e1 : s * (edgeGlue inter g).alpha t * ((nd b.minus δ).eval t + ∑ j ∈ Finset.Ico 2 (b.minus.p + 1), s⁻¹ * κ * e j * (Bf b.minus j).eval t) = 0 := by
        rw [← hzero, hnd]
        simp only [eval_finsetSum, eval_mul, eval_C, mul_add, Finset.mul_sum, add_zero, Finset.sum_add_distrib]
        have e2 : ∑ bf, x bf * -((edgeGlue inter g).beta t * (derivative (tr b.plus (d bf))).eval t) = 0 := by
          have : ∑ bf, x bf * -((edgeGlue inter g).beta t * (derivative (tr b.plus (d bf))).eval t)
              = -(edgeGlue inter g).beta t * ∑ bf, x bf * (derivative (tr b.plus (d bf))).eval t := by
            rw [Finset.mul_sum]; exact Finset.sum_congr rfl fun bf _ => by ring
          rw [this, hd', mul_zero]
        rw [e2, zero_add]
        congr 1
        · exact Finset.sum_congr rfl fun bf _ => by ring
        · exact Finset.sum_congr rfl fun j _ => by field_simp
      have e3 := (mul_eq_zero.mp e1).resolve_left (mul_ne_zero hs (hα t h0 h1))
      simpa only [eval_add, eval_finsetSum, eval_mul, eval_C] using e3
    · have := hz t y h0 h1 k0 k1
      have hs0 : ∑ i ∈ Finset.Ico 3 (b.plus.p + 1), a i * traceFun uv inter b c g i t y = 0 := Finset.sum_eq_zero fun i hi => by rw [za i hi, zero_mul]
      rwa [hs0, zero_add] at this
  obtain ⟨⟨z3, z4⟩, ze⟩ := minus_zero hb.minus hb.pm δ _ hQ
  refine ⟨fun m => ?_, za, fun j hj => ?_⟩
  · fin_cases m
    exacts [z0, z1, z2, z3, z4]
  · have := ze j hj
    simpa [hs, hκ0] using this

/-! ## The corner -/

/-- A combination of the six sets of data at the vertex is zero if its data on both edges are zero. -/
theorem six_planar {gu gv : Glue} (hu : gu.alpha 0 ≠ 0) {geo : Geo 2} {sigma : ℝ} (hs : sigma ≠ 0) (hdet : geo.jac 0 0 * geo.jac 1 1 - geo.jac 0 1 * geo.jac 1 0 ≠ 0) (c : Fin 6 → ℝ)
    (hm : ∀ m, ∑ bf : Fin 6, c bf * dMinus geo gu (dataPlanar (phiPlanar sigma) bf) m = 0) (hp : ∀ m, ∑ bf : Fin 6, c bf * dPlus geo gv (dataPlanar (phiPlanar sigma) bf) m = 0) :
    c = 0 := by
  have e0 := hm 0
  have e1 := hm 1
  have e2 := hp 1
  have e3 := hm 2
  have e4 := hm 4
  have e5 := hp 2
  simp [Fin.sum_univ_six, dMinus, dPlus, dataPlanar, phiPlanar, ddMinus, ddMinusDeriv, Geo.u, Geo.v, Geo.uu, Geo.uv, Geo.vv] at e0 e1 e2 e3 e4 e5
  generalize geo.jac 0 0 = a at *
  generalize geo.jac 0 1 = b at *
  generalize geo.jac 1 0 = d at *
  generalize geo.jac 1 1 = e at *
  have z1 : c 1 = 0 := by
    have : (a * e - b * d) * sigma * c 1 = 0 := by linear_combination e * e1 - d * e2
    simpa [hdet, hs] using this
  have z2 : c 2 = 0 := by
    have : (a * e - b * d) * sigma * c 2 = 0 := by linear_combination a * e2 - b * e1
    simpa [hdet, hs] using this
  rw [z1, z2] at e3 e4 e5
  generalize gu.alpha 0 = al at *
  generalize gu.beta 0 = be at *
  have hk : -1 / al ≠ 0 := div_ne_zero (by norm_num) hu
  generalize -1 / al = k at *
  have e4' : c 3 * (a * (sigma * sigma) * b) + c 4 * (d * (sigma * sigma) * b + a * (sigma * sigma) * e) + c 5 * (d * (sigma * sigma) * e) = 0 := by
    have : k * (c 3 * (a * (sigma * sigma) * b) + c 4 * (d * (sigma * sigma) * b + a * (sigma * sigma) * e) + c 5 * (d * (sigma * sigma) * e)) = 0 := by
      linear_combination e4 - k * be * e3
    exact (mul_eq_zero.mp this).resolve_left hk
  have z3 : c 3 = 0 := by
    have : (a * e - b * d) ^ 2 * (sigma * sigma) * c 3 = 0 := by linear_combination e * e * e3 - 2 * (d * e) * e4' + d * d * e5
    simpa [hdet, hs] using this
  have z4 : c 4 = 0 := by
    have : (a * e - b * d) ^ 2 * (sigma * sigma) * c 4 = 0 := by linear_combination (-(b * e)) * e3 + (a * e + b * d) * e4' - a * d * e5
    simpa [hdet, hs] using this
  have z5 : c 5 = 0 := by
    have : (a * e - b * d) ^ 2 * (sigma * sigma) * c 5 = 0 := by linear_combination b * b * e3 - 2 * (a * b) * e4' + a * a * e5
    simpa [hdet, hs] using this
  funext i
  fin_cases i
  exacts [e0, z1, z2, z3, z4, z5]

/-- The same on surfaces, in the tangent plane. -/
theorem six_surface {gu gv : Glue} (hu : gu.alpha 0 ≠ 0) {geo : Geo 3} {sigma : ℝ} (hs : sigma ≠ 0) (hdet : geo.jac 0 0 * geo.jac 1 1 - geo.jac 0 1 * geo.jac 1 0 ≠ 0) (c : Fin 6 → ℝ)
    (hm : ∀ m, ∑ bf : Fin 6, c bf * dMinus geo gu (dataSurface (phiSurface sigma) bf) m = 0) (hp : ∀ m, ∑ bf : Fin 6, c bf * dPlus geo gv (dataSurface (phiSurface sigma) bf) m = 0) :
    c = 0 := by
  have e0 := hm 0
  have e1 := hm 1
  have e2 := hp 1
  have e3 := hm 2
  have e4 := hm 4
  have e5 := hp 2
  simp [Fin.sum_univ_six, Fin.sum_univ_three, dMinus, dPlus, dataSurface, phiSurface, ddMinus, ddMinusDeriv, Geo.u, Geo.v, Geo.uu, Geo.uv, Geo.vv] at e0 e1 e2 e3 e4 e5
  generalize geo.jac 0 0 = a at *
  generalize geo.jac 0 1 = b at *
  generalize geo.jac 1 0 = d at *
  generalize geo.jac 1 1 = e at *
  have z1 : c 1 = 0 := by
    have : (a * e - b * d) * sigma * c 1 = 0 := by linear_combination e * e1 - d * e2
    simpa [hdet, hs] using this
  have z2 : c 2 = 0 := by
    have : (a * e - b * d) * sigma * c 2 = 0 := by linear_combination a * e2 - b * e1
    simpa [hdet, hs] using this
  rw [z1, z2] at e3 e4 e5
  generalize gu.alpha 0 = al at *
  generalize gu.beta 0 = be at *
  have hk : -1 / al ≠ 0 := div_ne_zero (by norm_num) hu
  generalize -1 / al = k at *
  have e4' : c 3 * (a * (sigma * sigma) * b) + c 4 * (d * (sigma * sigma) * b + a * (sigma * sigma) * e) + c 5 * (d * (sigma * sigma) * e) = 0 := by
    have : k * (c 3 * (a * (sigma * sigma) * b) + c 4 * (d * (sigma * sigma) * b + a * (sigma * sigma) * e) + c 5 * (d * (sigma * sigma) * e)) = 0 := by
      linear_combination e4 - k * be * e3
    exact (mul_eq_zero.mp this).resolve_left hk
  have z3 : c 3 = 0 := by
    have : (a * e - b * d) ^ 2 * (sigma * sigma) * c 3 = 0 := by linear_combination e * e * e3 - 2 * (d * e) * e4' + d * d * e5
    simpa [hdet, hs] using this
  have z4 : c 4 = 0 := by
    have : (a * e - b * d) ^ 2 * (sigma * sigma) * c 4 = 0 := by linear_combination (-(b * e)) * e3 + (a * e + b * d) * e4' - a * d * e5
    simpa [hdet, hs] using this
  have z5 : c 5 = 0 := by
    have : (a * e - b * d) ^ 2 * (sigma * sigma) * c 5 = 0 := by linear_combination b * b * e3 - 2 * (a * b) * e4' + a * a * e5
    simpa [hdet, hs] using this
  funext i
  fin_cases i
  exacts [e0, z1, z2, z3, z4, z5]

/-- The bases and gluing data of a corner; on an interface `alpha` has no zero near the corner. -/
structure Corner.Ok (c : Corner) (ε : ℝ) : Prop where
  bu : c.bu.Ok
  bv : c.bv.Ok
  gu : (edgeGlue c.ku c.gu).Ok
  gv : (edgeGlue c.kv c.gv).Ok
  au : ∀ x, 0 ≤ x → x < ε → (edgeGlue c.ku c.gu).alpha x ≠ 0
  av : ∀ x, 0 ≤ x → x < ε → (edgeGlue c.kv c.gv).alpha x ≠ 0

/-- The coefficients of all functions that reach the element at the corner are zero. -/
structure Coefs.Zero (c : Corner) (x : Coefs) : Prop where
  vertex : x.vertex = 0
  traceU : ∀ i, 3 ≤ i → i ≤ c.bu.plus.p → x.traceU i = 0
  normalU : ∀ j, 2 ≤ j → j ≤ c.bu.minus.p → x.normalU j = 0
  traceV : ∀ i, 3 ≤ i → i ≤ c.bv.plus.p → x.traceV i = 0
  normalV : ∀ j, 2 ≤ j → j ≤ c.bv.minus.p → x.normalV j = 0
  inner : ∀ i j, 2 ≤ i → i ≤ c.bu.geo.p → 2 ≤ j → j ≤ c.bv.geo.p → x.inner i j = 0

theorem inner_zero {b c : Comp} (hb : Open b.t b.p) (hc : Open c.t c.p) {ε : ℝ} (hε : 0 < ε) (x : ℕ → ℕ → ℝ)
    (h : ∀ u v, 0 ≤ u → u < ε → 0 ≤ v → v < ε → ∑ i ∈ Finset.Ico 2 (b.p + 1), ∑ j ∈ Finset.Ico 2 (c.p + 1), x i j * (b.eval i u * c.eval j v) = 0) :
    ∀ i j, 2 ≤ i → i ≤ b.p → 2 ≤ j → j ≤ c.p → x i j = 0 := by
  have ext : ∀ {b : Comp} (f : ℕ → ℝ), Open b.t b.p → (∀ u, 0 ≤ u → u < ε → ∑ i ∈ Finset.Ico 2 (b.p + 1), f i * b.eval i u = 0) → ∀ i, 2 ≤ i → i ≤ b.p → f i = 0 := by
    intro b f hb h i h1 h2
    have := N_indep hb (fun i => if i = 0 then 0 else if i = 1 then 0 else f i) (by
      rw [sum2 (by omega)]
      refine poly_zero hε fun u k0 k1 => ?_
      have := h u k0 k1
      simpa [eval_finsetSum, Comp.eval, Bf] using this) i h2
    simpa only [if_neg (by omega : ¬i = 0), if_neg (by omega : ¬i = 1)] using this
  intro i j h1 h2 h3 h4
  refine ext (b := c) (fun j => x i j) hc (fun v k0 k1 => ?_) j h3 h4
  refine ext (b := b) (fun i => ∑ j ∈ Finset.Ico 2 (c.p + 1), x i j * c.eval j v) hb (fun u l0 l1 => ?_) i h1 h2
  rw [← h u v l0 l1 k0 k1]
  refine Finset.sum_congr rfl fun i _ => ?_
  rw [Finset.sum_mul]
  exact Finset.sum_congr rfl fun j _ => by ring

/-- Everything except the step from the data at the vertex to the six coefficients. -/
theorem corner_zero {k : ℕ} {c : Corner} {ε : ℝ} (hε : 0 < ε) (h : c.Ok ε) {geo : Geo k} {D : Fin 6 → Data k} {J : Fin 6 → Jet k} (hD : ∀ bf, Rep (D bf) (J bf)) (x : Coefs)
    (hx : (∀ m, ∑ bf, x.vertex bf * dMinus geo (edgeGlue c.ku c.gu) (D bf) m = 0) → (∀ m, ∑ bf, x.vertex bf * dPlus geo (edgeGlue c.kv c.gv) (D bf) m = 0) → x.vertex = 0)
    (hz : ∀ u v, 0 ≤ u → u < ε → 0 ≤ v → v < ε → c.comb geo D x u v = 0) : x.Zero c := by
  have fin : Flat (fun u v => ∑ i ∈ Finset.Ico 2 (c.bu.geo.p + 1), ∑ j ∈ Finset.Ico 2 (c.bv.geo.p + 1), x.inner i j * c.innerF i j u v) ε := by
    have : ∀ i ∈ Finset.Ico 2 (c.bu.geo.p + 1), Flat (fun u v => ∑ j ∈ Finset.Ico 2 (c.bv.geo.p + 1), x.inner i j * c.innerF i j u v) ε := fun i _ =>
      Flat.sum _ _ fun j hj => by
        obtain ⟨q1, q2⟩ := Finset.mem_Ico.mp hj
        obtain ⟨r0, r1⟩ := high h.bv.geo q1 (by omega)
        have := Flat.mul (f := fun y => (Bf c.bv.geo j).eval y) (g := fun x => c.bu.geo.eval i x) (ε := ε) r0 (poly_hasDerivAt r1)
        have e : c.innerF i j = fun x y => (Bf c.bv.geo j).eval y * c.bu.geo.eval i x := by
          funext x y; simp only [Corner.innerF, Comp.eval, Bf, mul_comm]
        rw [e]; exact this
    simpa using Flat.sum _ (fun _ => 1) this
  have fin' : Flat (fun v u => ∑ i ∈ Finset.Ico 2 (c.bu.geo.p + 1), ∑ j ∈ Finset.Ico 2 (c.bv.geo.p + 1), x.inner i j * c.innerF i j u v) ε := by
    have : ∀ i ∈ Finset.Ico 2 (c.bu.geo.p + 1), Flat (fun v u => ∑ j ∈ Finset.Ico 2 (c.bv.geo.p + 1), x.inner i j * c.innerF i j u v) ε := fun i hi =>
      Flat.sum _ _ fun j _ => by
        obtain ⟨q1, q2⟩ := Finset.mem_Ico.mp hi
        obtain ⟨r0, r1⟩ := high h.bu.geo q1 (by omega)
        exact Flat.mul (f := fun y => (Bf c.bu.geo i).eval y) (g := fun x => c.bv.geo.eval j x) (ε := ε) r0 (poly_hasDerivAt r1)
    simpa using Flat.sum _ (fun _ => 1) this
  have fV := (Flat.sum _ x.traceV fun i hi => trace_flat (c := c.bu.geo) h.bv c.sv c.kv h.gv (Finset.mem_Ico.mp hi).1 (Nat.lt_succ_iff.mp (Finset.mem_Ico.mp hi).2) ε).add
    (Flat.sum _ x.normalV fun j hj => normal_flat (c := c.bu.geo) h.bv c.sv c.kv h.gv (Finset.mem_Ico.mp hj).1 (Nat.lt_succ_iff.mp (Finset.mem_Ico.mp hj).2) ε)
  have fU := (Flat.sum _ x.traceU fun i hi => trace_flat (c := c.bv.geo) h.bu c.su c.ku h.gu (Finset.mem_Ico.mp hi).1 (Nat.lt_succ_iff.mp (Finset.mem_Ico.mp hi).2) ε).add
    (Flat.sum _ x.normalU fun j hj => normal_flat (c := c.bv.geo) h.bu c.su c.ku h.gu (Finset.mem_Ico.mp hj).1 (Nat.lt_succ_iff.mp (Finset.mem_Ico.mp hj).2) ε)
  obtain ⟨mU, tU, nU⟩ := edge_indep h.bu h.bv.geo h.bv.pg c.su c.ku hε h.au (s := -1) (by norm_num) x.vertex (fun bf => dMinus geo (edgeGlue c.ku c.gu) (D bf))
    (fun bf u v => c.vertexF geo (D bf) u v) (fun bf t => by
      obtain ⟨q1, q2⟩ := edge_u (gu := edgeGlue c.ku c.gu) (geo := geo) h.bu h.bv h.gv (hD bf) t
      exact ⟨q1, q2.congr_deriv (by rw [bm]; ring)⟩) x.traceU x.normalU _ (fV.add fin) (fun t y h0 h1 k0 k1 => by
      rw [← hz t y h0 h1 k0 k1, Corner.comb]; simp only [firstPlus, firstMinus, firstInner]; ring)
  obtain ⟨mV, tV, nV⟩ := edge_indep h.bv h.bu.geo h.bu.pg c.sv c.kv hε h.av (s := 1) (by norm_num) x.vertex (fun bf => dPlus geo (edgeGlue c.kv c.gv) (D bf))
    (fun bf v u => c.vertexF geo (D bf) u v) (fun bf t => by
      obtain ⟨q1, q2⟩ := edge_v (gv := edgeGlue c.kv c.gv) (geo := geo) h.bu h.bv h.gu (hD bf) t
      exact ⟨q1, q2.congr_deriv (by rw [bp]; ring)⟩) x.traceV x.normalV _ (fU.add fin') (fun t y h0 h1 k0 k1 => by
      rw [← hz y t k0 k1 h0 h1, Corner.comb]; simp only [firstPlus, firstMinus, firstInner]; ring)
  have hv := hx mU mV
  refine ⟨hv, fun i h1 h2 => tU i (Finset.mem_Ico.mpr ⟨h1, by omega⟩), fun i h1 h2 => nU i (Finset.mem_Ico.mpr ⟨h1, by omega⟩),
    fun i h1 h2 => tV i (Finset.mem_Ico.mpr ⟨h1, by omega⟩), fun i h1 h2 => nV i (Finset.mem_Ico.mpr ⟨h1, by omega⟩), ?_⟩
  refine inner_zero h.bu.geo h.bv.geo hε x.inner fun u v h0 h1 k0 k1 => ?_
  have := hz u v h0 h1 k0 k1
  rw [Corner.comb, hv] at this
  simp only [firstPlus, firstMinus, firstInner, Corner.innerF] at this
  have s1 : ∑ i ∈ Finset.Ico 3 (c.bu.plus.p + 1), x.traceU i * traceFun c.su c.ku c.bu c.bv.geo c.gu i u v = 0 := Finset.sum_eq_zero fun i hi => by rw [tU i hi, zero_mul]
  have s2 : ∑ j ∈ Finset.Ico 2 (c.bu.minus.p + 1), x.normalU j * normalFun c.su c.ku c.bu c.bv.geo c.gu j u v = 0 := Finset.sum_eq_zero fun i hi => by rw [nU i hi, zero_mul]
  have s3 : ∑ i ∈ Finset.Ico 3 (c.bv.plus.p + 1), x.traceV i * traceFun c.sv c.kv c.bv c.bu.geo c.gv i v u = 0 := Finset.sum_eq_zero fun i hi => by rw [tV i hi, zero_mul]
  have s4 : ∑ j ∈ Finset.Ico 2 (c.bv.minus.p + 1), x.normalV j * normalFun c.sv c.kv c.bv c.bu.geo c.gv j v u = 0 := Finset.sum_eq_zero fun i hi => by rw [nV i hi, zero_mul]
  rw [s1, s2, s3, s4] at this
  simpa using this

/-! ## C68 -/

/-- Planar patches with an invertible Jacobian matrix at the corner: if a combination of all functions near the corner vanishes on an arbitrarily small piece of the patch at the corner, all
coefficients are zero. -/
theorem C68_planar {c : Corner} {ε : ℝ} (hε : 0 < ε) (h : c.Ok ε) {geo : Geo 2} {sigma : ℝ} (hs : sigma ≠ 0)
    (hdet : geo.jac 0 0 * geo.jac 1 1 - geo.jac 0 1 * geo.jac 1 0 ≠ 0) (x : Coefs)
    (hz : ∀ u v, 0 ≤ u → u < ε → 0 ≤ v → v < ε → c.comb geo (fun bf => dataPlanar (phiPlanar sigma) bf) x u v = 0) : x.Zero c :=
  corner_zero hε h (rep_planar sigma) x (six_planar h.gu.ne hs hdet x.vertex) hz

/-- Surfaces, with coordinates such that the first two directions at the corner are independent. -/
theorem C68_surface {c : Corner} {ε : ℝ} (hε : 0 < ε) (h : c.Ok ε) {geo : Geo 3} {sigma : ℝ} (hs : sigma ≠ 0)
    (hdet : geo.jac 0 0 * geo.jac 1 1 - geo.jac 0 1 * geo.jac 1 0 ≠ 0) (x : Coefs)
    (hz : ∀ u v, 0 ≤ u → u < ε → 0 ≤ v → v < ε → c.comb geo (fun bf => dataSurface (phiSurface sigma) bf) x u v = 0) : x.Zero c :=
  corner_zero hε h (rep_surface sigma) x (six_surface h.gu.ne hs hdet x.vertex) hz

/-- B-splines on an arbitrary element: a combination that vanishes on an interval has zero coefficients. -/
theorem icc_indep {b : Comp} (hm : Monotone b.t) {ℓ : ℕ} (hp : b.p ≤ ℓ) (hl : b.t ℓ < b.t (ℓ + 1)) {lo hi : ℝ} (hlt : lo < hi) (c : ℕ → ℝ)
    (h : ∀ x, lo < x → x < hi → ∑ i ∈ Finset.Icc (ℓ - b.p) ℓ, c i * (bs b.t ℓ b.p i).eval x = 0) : ∀ i ∈ Finset.Icc (ℓ - b.p) ℓ, c i = 0 := by
  have hsum : ∀ f : ℕ → ℝ[X], ∑ k ∈ Finset.range (b.p + 1), f (ℓ - b.p + k) = ∑ i ∈ Finset.Icc (ℓ - b.p) ℓ, f i := fun f => by
    rw [← Finset.Ico_add_one_right_eq_Icc, Finset.sum_Ico_eq_sum_range, show ℓ + 1 - (ℓ - b.p) = b.p + 1 by omega]
  have key := elt_indep hm hl b.p (ℓ - b.p) (by omega) (fun k => c (ℓ - b.p + k)) (by
    rw [hsum fun i => C (c i) * bs b.t ℓ b.p i]
    refine Polynomial.eq_zero_of_infinite_isRoot _ ((Set.Ioo_infinite hlt).mono fun x hx => ?_)
    have := h x hx.1 hx.2
    simpa [IsRoot, eval_finsetSum] using this)
  intro i hi
  obtain ⟨q1, q2⟩ := Finset.mem_Icc.mp hi
  have := key (i - (ℓ - b.p)) (by omega)
  simpa only [show ℓ - b.p + (i - (ℓ - b.p)) = i by omega] using this

/-- Every element at an edge: if the functions of the edge and any functions without value and derivative on the edge (other edges, interior) have a combination that vanishes on a piece of
the element at the edge, the coefficients of the functions of the edge are zero. -/
theorem C68_edge {pl mi c : Comp} (hpl : Monotone pl.t) (hmi : Monotone mi.t) {ℓp ℓm : ℕ} (hp : pl.p ≤ ℓp) (hm : mi.p ≤ ℓm) (hlp : pl.t ℓp < pl.t (ℓp + 1))
    (hlm : mi.t ℓm < mi.t (ℓm + 1)) (hc : Open c.t c.p) (hcp : 1 ≤ c.p) (uv : ℕ) (inter : Bool) {g : Glue} {lo hi ε : ℝ} (hlt : lo < hi) (hε : 0 < ε)
    (hα : inter = true → ∀ x, lo < x → x < hi → g.alpha x ≠ 0) (a e : ℕ → ℝ) (R : ℝ → ℝ → ℝ) (hR : ∀ x, lo < x → x < hi → R x 0 = 0 ∧ HasDerivAt (fun y => R x y) 0 0)
    (hz : ∀ x y, lo < x → x < hi → 0 ≤ y → y < ε → edgeComb uv inter pl mi ℓp ℓm c g a e x y + R x y = 0) :
    (∀ i ∈ Finset.Icc (ℓp - pl.p) ℓp, a i = 0) ∧ ∀ j ∈ Finset.Icc (ℓm - mi.p) ℓm, e j = 0 := by
  have hne := p_ne hcp
  have htp := hc.pos.ne'
  have ha : ∀ i ∈ Finset.Icc (ℓp - pl.p) ℓp, a i = 0 := by
    refine icc_indep hpl hp hlp hlt a fun x h0 h1 => ?_
    have := hz x 0 h0 h1 le_rfl hε
    simpa only [edgeComb, (hR x h0 h1).1, tracePoly_eq, normalPoly_eq, eval_zero0 hc hcp, eval_one0 hc hcp, add_zero, mul_one, zero_mul, mul_zero, zero_div, sub_zero,
      Finset.sum_const_zero] using this
  refine ⟨ha, icc_indep hmi hm hlm hlt e fun x h0 h1 => ?_⟩
  have hal : (edgeGlue inter g).alpha x ≠ 0 := by
    cases inter
    · simp [edgeGlue]
    · simpa [edgeGlue] using hα rfl x h0 h1
  have dN : ∀ j, HasDerivAt (fun y => normalPoly uv inter (bs mi.t ℓm mi.p j) c g x y)
      ((bs mi.t ℓm mi.p j).eval x * ((if uv = 0 then -1 else 1) * (edgeGlue inter g).alpha x * (if inter then 1 else c.p / c.t (c.p + 1)))) 0 := fun j => by
    have := (deriv_one0 hc hcp).const_mul ((bs mi.t ℓm mi.p j).eval x * (if uv = 0 then -1 else 1) * (edgeGlue inter g).alpha x * (if inter then c.t (c.p + 1) / c.p else 1))
    refine (this.congr_deriv ?_).congr_of_eventuallyEq (Filter.Eventually.of_forall fun y => ?_)
    · cases inter
      · simp; ring_nf
      · simp; field_simp
    · simp only [normalPoly_eq]; ring
  have dsum := (HasDerivAt.fun_sum (u := Finset.Icc (ℓm - mi.p) ℓm) (fun j _ => (dN j).const_mul (e j))).fun_add (hR x h0 h1).2
  have hzero := deriv_zero hε (fun y k0 k1 => ?_) dsum
  · rw [add_zero] at hzero
    have hk : (if uv = 0 then -1 else 1) * (edgeGlue inter g).alpha x * (if inter then 1 else c.p / c.t (c.p + 1)) ≠ 0 := by
      refine mul_ne_zero (mul_ne_zero (by split_ifs <;> norm_num) hal) ?_
      split_ifs
      · exact one_ne_zero
      · exact div_ne_zero hne htp
    have : (∑ j ∈ Finset.Icc (ℓm - mi.p) ℓm, e j * (bs mi.t ℓm mi.p j).eval x) *
        ((if uv = 0 then -1 else 1) * (edgeGlue inter g).alpha x * (if inter then 1 else c.p / c.t (c.p + 1))) = 0 := by
      rw [← hzero, Finset.sum_mul]
      exact Finset.sum_congr rfl fun j _ => by ring
    exact (mul_eq_zero.mp this).resolve_right hk
  · have := hz x y h0 h1 k0 k1
    have hs0 : ∑ i ∈ Finset.Icc (ℓp - pl.p) ℓp, a i * tracePoly uv inter (bs pl.t ℓp pl.p i) c g x y = 0 := Finset.sum_eq_zero fun i hi => by rw [ha i hi, zero_mul]
    rwa [edgeComb, hs0, zero_add] at this

/-- Every element of the patch: if a combination of the functions of the interior vanishes on a piece of the element, all coefficients are zero. -/
theorem C68_inner {bu bv : Comp} (hu : Monotone bu.t) (hv : Monotone bv.t) {ℓu ℓv : ℕ} (hpu : bu.p ≤ ℓu) (hpv : bv.p ≤ ℓv) (hlu : bu.t ℓu < bu.t (ℓu + 1)) (hlv : bv.t ℓv < bv.t (ℓv + 1))
    {lo hi lo' hi' : ℝ} (hlt : lo < hi) (hlt' : lo' < hi') (x : ℕ → ℕ → ℝ) (hz : ∀ u v, lo < u → u < hi → lo' < v → v < hi' → innerComb bu bv ℓu ℓv x u v = 0) :
    ∀ i ∈ Finset.Icc (ℓu - bu.p) ℓu, ∀ j ∈ Finset.Icc (ℓv - bv.p) ℓv, x i j = 0 := by
  intro i hi' j hj
  refine icc_indep hv hpv hlv hlt' (fun j => x i j) (fun v k0 k1 => ?_) j hj
  refine icc_indep hu hpu hlu hlt (fun i => ∑ j ∈ Finset.Icc (ℓv - bv.p) ℓv, x i j * (bs bv.t ℓv bv.p j).eval v) (fun u l0 l1 => ?_) i hi'
  rw [← hz u v l0 l1 k0 k1, innerComb]
  refine Finset.sum_congr rfl fun i _ => ?_
  rw [Finset.sum_mul]
  exact Finset.sum_congr rfl fun j _ => by ring

/-! ## Concrete cases -/

/-- Cubic patch with the bases of `Props/VertexFun.lean`; the edge `v = 0` is an interface with `alpha = 2 + u`, `beta = 5 u + 1`, the other edge is on the boundary. -/
noncomputable def exCorner : Corner := ⟨exBases, exBases, true, false, ⟨fun u => 2 + u, fun u => 5 * u + 1, 1, 5⟩, ⟨fun _ => 0, fun _ => 0, 0, 0⟩, 1, 0⟩

theorem exCorner_ok : exCorner.Ok (1 / 4) where
  bu := exBases_ok
  bv := exBases_ok
  gu := ⟨by norm_num [edgeGlue, exCorner], by simpa [edgeGlue, exCorner] using (hasDerivAt_id (0 : ℝ)).const_add 2,
    by simpa [edgeGlue, exCorner] using ((hasDerivAt_id (0 : ℝ)).const_mul 5).add_const 1⟩
  gv := glue_boundary _
  au := fun x h0 _ => by simp only [edgeGlue, exCorner]; simp; linarith
  av := fun x _ _ => by simp [edgeGlue, exCorner]

/-- On the curved patch of `Props/VertexFun.lean` no nonzero combination of the second function of the vertex, the first trace function of the interface and the first function of the interior
vanishes near the corner. -/
example (a b c : ℝ) (h : ∀ u v, 0 ≤ u → u < 1 / 4 → 0 ≤ v → v < 1 / 4 →
    exCorner.comb exGeo (fun bf => dataPlanar (phiPlanar 3) bf) ⟨fun bf => if bf = 1 then a else 0, fun i => if i = 3 then b else 0, fun _ => 0, fun _ => 0, fun _ => 0,
      fun i j => if i = 2 ∧ j = 2 then c else 0⟩ u v = 0) : a = 0 ∧ b = 0 ∧ c = 0 := by
  have := C68_planar (by norm_num) exCorner_ok (geo := exGeo) (sigma := 3) (by norm_num) (by simp [exGeo]) _ h
  refine ⟨by simpa using congrFun this.vertex 1, by simpa using this.traceU 3 le_rfl (by simp [exCorner, exBases, cubic2]), ?_⟩
  simpa using this.inner 2 2 le_rfl (by simp [exCorner, exBases, cubic2]) le_rfl (by simp [exCorner, exBases, cubic2])

/-- The second element of the interface: `alpha = 2 + x` has no zero there. -/
example (a e : ℕ → ℝ) (h : ∀ x y, 1 / 2 < x → x < 1 → 0 ≤ y → y < 1 / 4 →
    edgeComb 1 true cubic2 quad2 4 3 cubic2 ⟨fun u => 2 + u, fun u => 5 * u + 1, 1, 5⟩ a e x y + x * (7 * y * y) = 0) : a 3 = 0 ∧ e 2 = 0 := by
  have key := C68_edge (pl := cubic2) (mi := quad2) (c := cubic2) (ℓp := 4) (ℓm := 3) cubic2_open.mono quad2_open.mono (by norm_num [cubic2]) (by norm_num [quad2])
    (by norm_num [cubic2]) (by norm_num [quad2]) cubic2_open (by norm_num [cubic2]) 1 true (g := ⟨fun u => 2 + u, fun u => 5 * u + 1, 1, 5⟩) (lo := 1 / 2) (hi := 1) (ε := 1 / 4)
    (by norm_num) (by norm_num) (fun _ x h0 _ => by simp only; linarith) a e (fun x y => x * (7 * y * y)) (fun x _ _ => ⟨by simp, by
      have := (((hasDerivAt_id (0 : ℝ)).const_mul 7).fun_mul (hasDerivAt_id (0 : ℝ))).const_mul x
      simpa using this⟩) h
  exact ⟨key.1 3 (by simp [cubic2]), key.2 2 (by simp [quad2])⟩

/-- Functions of the interior on the element `(1/2,1) × (0,1/2)` of a cubic patch. -/
example (x : ℕ → ℕ → ℝ) (h : ∀ u v, 1 / 2 < u → u < 1 → 0 < v → v < 1 / 2 → innerComb cubic2 cubic2 4 3 x u v = 0) : x 2 2 = 0 :=
  C68_inner cubic2_open.mono cubic2_open.mono (by norm_num [cubic2]) (by norm_num [cubic2]) (by norm_num [cubic2]) (by norm_num [cubic2]) (by norm_num) (by norm_num) x h
    2 (by simp [cubic2]) 2 (by simp [cubic2])

end Verif.C1Corner
