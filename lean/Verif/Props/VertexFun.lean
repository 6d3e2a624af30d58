import Verif.Proofs.VertexFun
import Verif.Props.EdgeFun
import Mathlib.Analysis.Calculus.Deriv.Inv
/-!
# Properties C24 and C39: the functions at a vertex
-/
set_option autoImplicit false
set_option linter.unusedSimpArgs false
namespace Verif.VertexFun
open Verif.BSpline Verif.EdgeFun Polynomial

/-! ## Derivatives up to order two at the vertex -/

/-- `g` has at `(0,0)` the value `w`, first derivatives `a`, `b` and second derivatives `aa`, `ab`, `bb`; the mixed one in both orders. -/
structure Jet2 (g : ℝ → ℝ → ℝ) (w a b aa ab bb : ℝ) : Prop where
  val : g 0 0 = w
  u : ∃ gu : ℝ → ℝ, (∀ u, HasDerivAt (fun x => g x 0) (gu u) u) ∧ gu 0 = a ∧ HasDerivAt gu aa 0
  v : ∃ gv : ℝ → ℝ, (∀ v, HasDerivAt (fun x => g 0 x) (gv v) v) ∧ gv 0 = b ∧ HasDerivAt gv bb 0
  uv : ∃ gv : ℝ → ℝ, (∀ u, HasDerivAt (fun x => g u x) (gv u) 0) ∧ HasDerivAt gv ab 0
  vu : ∃ gu : ℝ → ℝ, (∀ v, HasDerivAt (fun x => g x v) (gu v) 0) ∧ HasDerivAt gu ab 0

/-- The six numbers are determined by the function. -/
theorem Jet2.unique {g : ℝ → ℝ → ℝ} {w a b aa ab bb w' a' b' aa' ab' bb' : ℝ} (h : Jet2 g w a b aa ab bb) (h' : Jet2 g w' a' b' aa' ab' bb') :
    w = w' ∧ a = a' ∧ b = b' ∧ aa = aa' ∧ ab = ab' ∧ bb = bb' := by
  obtain ⟨gu, h1, h2, h3⟩ := h.u
  obtain ⟨gu', h1', h2', h3'⟩ := h'.u
  obtain ⟨gv, k1, k2, k3⟩ := h.v
  obtain ⟨gv', k1', k2', k3'⟩ := h'.v
  obtain ⟨m, l1, l2⟩ := h.uv
  obtain ⟨m', l1', l2'⟩ := h'.uv
  have e1 : gu = gu' := funext fun u => (h1 u).unique (h1' u)
  have e2 : gv = gv' := funext fun u => (k1 u).unique (k1' u)
  have e3 : m = m' := funext fun u => (l1 u).unique (l1' u)
  subst e1 e2 e3
  exact ⟨h.val.symm.trans h'.val, h2.symm.trans h2', k2.symm.trans k2', h3.unique h3', l2.unique l2', k3.unique k3'⟩

theorem Jet2.const (c : ℝ) : Jet2 (fun _ _ => c) c 0 0 0 0 0 :=
  ⟨rfl, ⟨fun _ => 0, fun _ => hasDerivAt_const _ _, rfl, hasDerivAt_const _ _⟩, ⟨fun _ => 0, fun _ => hasDerivAt_const _ _, rfl, hasDerivAt_const _ _⟩,
    ⟨fun _ => 0, fun _ => hasDerivAt_const _ _, hasDerivAt_const _ _⟩, ⟨fun _ => 0, fun _ => hasDerivAt_const _ _, hasDerivAt_const _ _⟩⟩

theorem Jet2.add {f g : ℝ → ℝ → ℝ} {w a b aa ab bb w' a' b' aa' ab' bb' : ℝ} (h : Jet2 f w a b aa ab bb) (h' : Jet2 g w' a' b' aa' ab' bb') :
    Jet2 (fun u v => f u v + g u v) (w + w') (a + a') (b + b') (aa + aa') (ab + ab') (bb + bb') := by
  obtain ⟨gu, h1, h2, h3⟩ := h.u
  obtain ⟨gu', h1', h2', h3'⟩ := h'.u
  obtain ⟨gv, k1, k2, k3⟩ := h.v
  obtain ⟨gv', k1', k2', k3'⟩ := h'.v
  obtain ⟨m, l1, l2⟩ := h.uv
  obtain ⟨m', l1', l2'⟩ := h'.uv
  obtain ⟨n, o1, o2⟩ := h.vu
  obtain ⟨n', o1', o2'⟩ := h'.vu
  exact ⟨by rw [h.val, h'.val], ⟨_, fun u => (h1 u).fun_add (h1' u), by rw [h2, h2'], h3.fun_add h3'⟩, ⟨_, fun u => (k1 u).fun_add (k1' u), by rw [k2, k2'], k3.fun_add k3'⟩,
    ⟨_, fun u => (l1 u).fun_add (l1' u), l2.fun_add l2'⟩, ⟨_, fun u => (o1 u).fun_add (o1' u), o2.fun_add o2'⟩⟩

theorem Jet2.mul {f g : ℝ → ℝ → ℝ} {w a b aa ab bb w' a' b' aa' ab' bb' : ℝ} (h : Jet2 f w a b aa ab bb) (h' : Jet2 g w' a' b' aa' ab' bb') :
    Jet2 (fun u v => f u v * g u v) (w * w') (a * w' + w * a') (b * w' + w * b') (aa * w' + 2 * (a * a') + w * aa') (ab * w' + a * b' + b * a' + w * ab')
      (bb * w' + 2 * (b * b') + w * bb') := by
  obtain ⟨gu, h1, h2, h3⟩ := h.u
  obtain ⟨gu', h1', h2', h3'⟩ := h'.u
  obtain ⟨gv, k1, k2, k3⟩ := h.v
  obtain ⟨gv', k1', k2', k3'⟩ := h'.v
  obtain ⟨m, l1, l2⟩ := h.uv
  obtain ⟨m', l1', l2'⟩ := h'.uv
  obtain ⟨n, o1, o2⟩ := h.vu
  obtain ⟨n', o1', o2'⟩ := h'.vu
  have v1 := h.val
  have v2 := h'.val
  have em : m 0 = b := ((l1 0).unique (k1 0)).trans k2
  have em' : m' 0 = b' := ((l1' 0).unique (k1' 0)).trans k2'
  have en : n 0 = a := ((o1 0).unique (h1 0)).trans h2
  have en' : n' 0 = a' := ((o1' 0).unique (h1' 0)).trans h2'
  refine ⟨by rw [v1, v2], ⟨_, fun u => (h1 u).fun_mul (h1' u), by rw [h2, h2', v1, v2], ?_⟩, ⟨_, fun u => (k1 u).fun_mul (k1' u), by rw [k2, k2', v1, v2], ?_⟩,
    ⟨_, fun u => (l1 u).fun_mul (l1' u), ?_⟩, ⟨_, fun u => (o1 u).fun_mul (o1' u), ?_⟩⟩
  · refine ((h3.fun_mul (h1' 0)).fun_add ((h1 0).fun_mul h3')).congr_deriv ?_
    rw [h2, h2', v1, v2]; ring
  · refine ((k3.fun_mul (k1' 0)).fun_add ((k1 0).fun_mul k3')).congr_deriv ?_
    rw [k2, k2', v1, v2]; ring
  · refine ((l2.fun_mul (h1' 0)).fun_add ((h1 0).fun_mul l2')).congr_deriv ?_
    rw [h2, h2', v1, v2, em, em']; ring
  · refine ((o2.fun_mul (k1' 0)).fun_add ((k1 0).fun_mul o2')).congr_deriv ?_
    rw [k2, k2', v1, v2, en, en']; ring

theorem Jet2.congr {g : ℝ → ℝ → ℝ} {w a b aa ab bb w' a' b' aa' ab' bb' : ℝ} (h : Jet2 g w a b aa ab bb) (hw : w = w') (ha : a = a') (hb : b = b') (haa : aa = aa')
    (hab : ab = ab') (hbb : bb = bb') : Jet2 g w' a' b' aa' ab' bb' := by subst hw ha hb haa hab hbb; exact h

theorem Jet2.sum {ι : Type} (s : Finset ι) {f : ι → ℝ → ℝ → ℝ} {w a b aa ab bb : ι → ℝ} (h : ∀ i, Jet2 (f i) (w i) (a i) (b i) (aa i) (ab i) (bb i)) :
    Jet2 (fun u v => ∑ i ∈ s, f i u v) (∑ i ∈ s, w i) (∑ i ∈ s, a i) (∑ i ∈ s, b i) (∑ i ∈ s, aa i) (∑ i ∈ s, ab i) (∑ i ∈ s, bb i) := by
  classical
  induction s using Finset.induction_on with
  | empty => simpa using Jet2.const 0
  | insert i s hi ih =>
    simp only [Finset.sum_insert hi]
    exact (h i).add ih

/-! ## The prescribed data -/

/-- Value, gradient and Hessian in the physical domain. -/
structure Jet (k : ℕ) where
  value : ℝ
  grad : Fin k → ℝ
  hess : Fin k → Fin k → ℝ

/-- The quadratic polynomial with these data at `x0`. -/
noncomputable def Jet.poly {k : ℕ} (J : Jet k) (x0 x : Fin k → ℝ) : ℝ :=
  J.value + ∑ i, J.grad i * (x i - x0 i) + 1 / 2 * ∑ i, ∑ j, J.hess i j * ((x i - x0 i) * (x j - x0 j))

/-- Data of function `bf`: value one, derivatives `sigma` by `x`, by `y`, second derivatives `sigma²` by `xx`, `xy`, `yy`. -/
noncomputable def jetPlanar (sigma : ℝ) (bf : Fin 6) : Jet 2 where
  value := if bf = 0 then 1 else 0
  grad := if bf = 1 then ![sigma, 0] else if bf = 2 then ![0, sigma] else 0
  hess := if bf = 3 then ![![sigma ^ 2, 0], ![0, 0]] else if bf = 4 then ![![0, sigma ^ 2], ![sigma ^ 2, 0]] else if bf = 5 then ![![0, 0], ![0, sigma ^ 2]] else 0

/-- The same in the tangent plane (the first two coordinates after the rotation), constant in the direction of the normal. -/
noncomputable def jetSurface (sigma : ℝ) (bf : Fin 6) : Jet 3 where
  value := if bf = 0 then 1 else 0
  grad := if bf = 1 then ![sigma, 0, 0] else if bf = 2 then ![0, sigma, 0] else 0
  hess := if bf = 3 then ![![sigma ^ 2, 0, 0], ![0, 0, 0], ![0, 0, 0]] else if bf = 4 then ![![0, sigma ^ 2, 0], ![sigma ^ 2, 0, 0], ![0, 0, 0]]
    else if bf = 5 then ![![0, 0, 0], ![0, sigma ^ 2, 0], ![0, 0, 0]] else 0

/-- `m_Phi` holds the data `J`. -/
structure Rep {k : ℕ} (D : Data k) (J : Jet k) : Prop where
  value : D.value = J.value
  first : ∀ z, D.first z = ∑ i, J.grad i * z i
  second : ∀ x y w, D.second x y w = ∑ i, ∑ j, J.hess i j * (x i * y j) + ∑ i, J.grad i * w i
  symm : ∀ i j, J.hess i j = J.hess j i

theorem rep_planar (sigma : ℝ) (bf : Fin 6) : Rep (dataPlanar (phiPlanar sigma) bf) (jetPlanar sigma bf) := by
  refine ⟨?_, ?_, ?_, ?_⟩ <;> fin_cases bf
  all_goals simp [dataPlanar, jetPlanar, phiPlanar, Fin.sum_univ_two]
  all_goals intros
  all_goals first | ring | skip
  all_goals (rename_i i j; fin_cases i <;> fin_cases j <;> rfl)

theorem rep_surface (sigma : ℝ) (bf : Fin 6) : Rep (dataSurface (phiSurface sigma) bf) (jetSurface sigma bf) := by
  refine ⟨?_, ?_, ?_, ?_⟩ <;> fin_cases bf
  all_goals simp [dataSurface, jetSurface, phiSurface, Fin.sum_univ_three]
  all_goals intros
  all_goals first | ring | skip
  all_goals (rename_i i j; fin_cases i <;> fin_cases j <;> rfl)

theorem rep_planar' (sigma : ℝ) (bf : Fin 6) : Rep (dataPlanar' (phiPlanar sigma) bf) (jetPlanar sigma bf) := by
  have h := rep_planar sigma bf
  refine ⟨?_, h.first, h.second, h.symm⟩
  fin_cases bf <;> simp [dataPlanar', jetPlanar, phiPlanar]

theorem rep_surface' (sigma : ℝ) (bf : Fin 6) : Rep (dataSurface' (phiSurface sigma) bf) (jetSurface sigma bf) := by
  have h := rep_surface sigma bf
  refine ⟨?_, h.first, h.second, h.symm⟩
  fin_cases bf <;> simp [dataSurface', jetSurface, phiSurface]

/-! ## Hypotheses -/

/-- The derivatives of the patch at the vertex, in the order of `jacobian` and `deriv2` of G+Smo. -/
def IsGeo {k : ℕ} (geo : Geo k) (F : ℝ → ℝ → Fin k → ℝ) : Prop :=
  ∀ i : Fin k, Jet2 (fun u v => F u v i) (F 0 0 i) (geo.jac i 0) (geo.jac i 1) (geo.der2 (3 * i)) (geo.der2 (3 * i + 2)) (geo.der2 (3 * i + 1))

/-- Open knot vectors; degree at least two in the plus space. -/
structure Bases.Ok (b : Bases) : Prop where
  geo : Open b.geo.t b.geo.p
  plus : Open b.plus.t b.plus.p
  minus : Open b.minus.t b.minus.p
  pg : 1 ≤ b.geo.p
  pp : 2 ≤ b.plus.p
  pm : 1 ≤ b.minus.p

/-- Gluing data that are differentiable at the vertex, with `alpha ≠ 0` there. -/
structure Glue.Ok (g : Glue) : Prop where
  ne : g.alpha 0 ≠ 0
  da : HasDerivAt g.alpha g.dalpha 0
  db : HasDerivAt g.beta g.dbeta 0

theorem glue_boundary (g : Glue) : (edgeGlue false g).Ok := ⟨by simp [edgeGlue], hasDerivAt_const _ _, hasDerivAt_const _ _⟩
theorem glue_surf (gd : ℕ → ℕ → ℝ) (dir : ℕ) (h : gd 0 dir ≠ 0) : (surfGlue gd dir).Ok := by
  refine ⟨by simpa [surfGlue] using h, ?_, ?_⟩
  · refine ((((hasDerivAt_id (0 : ℝ)).const_sub 1).const_mul (gd 0 dir)).fun_add ((hasDerivAt_id (0 : ℝ)).const_mul (gd 1 dir))).congr_deriv ?_
    simp [surfGlue]; ring
  · refine ((((hasDerivAt_id (0 : ℝ)).const_sub 1).const_mul (gd 2 dir)).fun_add ((hasDerivAt_id (0 : ℝ)).const_mul (gd 3 dir))).congr_deriv ?_
    simp [surfGlue]; ring

/-! ## Values and derivatives on the edges -/

section
variable {k : ℕ} {bu bv : Bases} {gu gv : Glue} {geo : Geo k} {D : Data k} {J : Jet k}

theorem bp_jet (hv : bv.Ok) (hgv : gv.Ok) (h : Rep D J) :
    bp bv gv (dPlus geo gv D) 0 = dIk geo D 1 ∧ HasDerivAt (bp bv gv (dPlus geo gv D)) (dIk geo D 3) 0 := by
  obtain ⟨t0, t1, t2⟩ := tr_jet hv.plus hv.pp (dPlus geo gv D)
  obtain ⟨n0, n1⟩ := nd_jet hv.minus hv.pm (dPlus geo gv D)
  have hne := hgv.ne
  have e3 : dPlus geo gv D 3 = 1 / gv.alpha 0 * (D.first geo.u + gv.beta 0 * D.first geo.v) := by
    simp only [dPlus, ddPlus, h.first, Matrix.cons_val]
    rw [Finset.mul_sum, ← Finset.sum_add_distrib, Finset.mul_sum]
    exact Finset.sum_congr rfl fun i _ => by ring
  have e4 : dPlus geo gv D 4 = 1 / (gv.alpha 0 * gv.alpha 0) * ((D.second geo.u geo.v geo.uv + gv.dbeta * D.first geo.v + gv.beta 0 * D.second geo.v geo.v geo.vv) * gv.alpha 0
      - (D.first geo.u + gv.beta 0 * D.first geo.v) * gv.dalpha) := by
    simp only [dPlus, ddPlus, ddPlusDeriv, h.first, h.second, Matrix.cons_val]
    have s1 : ∑ i, ∑ j, J.hess i j * (geo.v i * (1 / gv.alpha 0 * (geo.u j + gv.beta 0 * geo.v j)))
        = 1 / gv.alpha 0 * (∑ i, ∑ j, J.hess i j * (geo.u i * geo.v j) + gv.beta 0 * ∑ i, ∑ j, J.hess i j * (geo.v i * geo.v j)) := by
      rw [Finset.sum_comm (f := fun i j => J.hess i j * (geo.u i * geo.v j)), Finset.mul_sum, ← Finset.sum_add_distrib, Finset.mul_sum]
      refine Finset.sum_congr rfl fun i _ => ?_
      rw [Finset.mul_sum, ← Finset.sum_add_distrib, Finset.mul_sum]
      exact Finset.sum_congr rfl fun j _ => by rw [h.symm j i]; ring
    have s2 : ∑ i, J.grad i * (1 / (gv.alpha 0 * gv.alpha 0) * ((geo.uv i + (gv.dbeta * geo.v i + gv.beta 0 * geo.vv i)) * gv.alpha 0 - (geo.u i + gv.beta 0 * geo.v i) * gv.dalpha))
        = 1 / (gv.alpha 0 * gv.alpha 0) * ((∑ i, J.grad i * geo.uv i + gv.dbeta * ∑ i, J.grad i * geo.v i + gv.beta 0 * ∑ i, J.grad i * geo.vv i) * gv.alpha 0
          - (∑ i, J.grad i * geo.u i + gv.beta 0 * ∑ i, J.grad i * geo.v i) * gv.dalpha) := by
      simp only [Finset.mul_sum, ← Finset.sum_add_distrib, Finset.sum_mul, ← Finset.sum_sub_distrib]
      exact Finset.sum_congr rfl fun i _ => by ring
    rw [s1, s2]
    generalize ∑ i, ∑ j, J.hess i j * (geo.u i * geo.v j) = X
    generalize ∑ i, ∑ j, J.hess i j * (geo.v i * geo.v j) = Y
    generalize ∑ i, J.grad i * geo.u i = a1
    generalize ∑ i, J.grad i * geo.v i = a2
    generalize ∑ i, J.grad i * geo.uv i = a3
    generalize ∑ i, J.grad i * geo.vv i = a4
    field_simp
    ring
  have f1 : dPlus geo gv D 1 = D.first geo.v := rfl
  have f2 : dPlus geo gv D 2 = D.second geo.v geo.v geo.vv := rfl
  have g1 : dIk geo D 1 = D.first geo.u := rfl
  have g3 : dIk geo D 3 = D.second geo.u geo.v geo.uv := rfl
  constructor
  · rw [bp, t1, n0, f1, e3, g1]; field_simp; ring
  · have key := (hgv.db.fun_mul ((derivative (tr bv.plus (dPlus geo gv D))).hasDerivAt 0)).fun_neg.fun_add (hgv.da.fun_mul ((nd bv.minus (dPlus geo gv D)).hasDerivAt 0))
    refine key.congr_deriv ?_
    rw [t1, t2, n0, n1, f1, f2, e3, e4, g3]
    field_simp
    ring

theorem bm_jet (hu : bu.Ok) (hgu : gu.Ok) (h : Rep D J) :
    bm bu gu (dMinus geo gu D) 0 = dIk geo D 2 ∧ HasDerivAt (bm bu gu (dMinus geo gu D)) (dIk geo D 3) 0 := by
  obtain ⟨t0, t1, t2⟩ := tr_jet hu.plus hu.pp (dMinus geo gu D)
  obtain ⟨n0, n1⟩ := nd_jet hu.minus hu.pm (dMinus geo gu D)
  have hne := hgu.ne
  have e3 : dMinus geo gu D 3 = -1 / gu.alpha 0 * (D.first geo.v + gu.beta 0 * D.first geo.u) := by
    simp only [dMinus, ddMinus, h.first, Matrix.cons_val]
    rw [Finset.mul_sum, ← Finset.sum_add_distrib, Finset.mul_sum]
    exact Finset.sum_congr rfl fun i _ => by ring
  have e4 : dMinus geo gu D 4 = -1 / (gu.alpha 0 * gu.alpha 0) * ((D.second geo.u geo.v geo.uv + gu.dbeta * D.first geo.u + gu.beta 0 * D.second geo.u geo.u geo.uu) * gu.alpha 0
      - (D.first geo.v + gu.beta 0 * D.first geo.u) * gu.dalpha) := by
    simp only [dMinus, ddMinus, ddMinusDeriv, h.first, h.second, Matrix.cons_val]
    have s1 : ∑ i, ∑ j, J.hess i j * (geo.u i * (-1 / gu.alpha 0 * (geo.v j + gu.beta 0 * geo.u j)))
        = -1 / gu.alpha 0 * (∑ i, ∑ j, J.hess i j * (geo.u i * geo.v j) + gu.beta 0 * ∑ i, ∑ j, J.hess i j * (geo.u i * geo.u j)) := by
      rw [Finset.mul_sum, ← Finset.sum_add_distrib, Finset.mul_sum]
      refine Finset.sum_congr rfl fun i _ => ?_
      rw [Finset.mul_sum, ← Finset.sum_add_distrib, Finset.mul_sum]
      exact Finset.sum_congr rfl fun j _ => by ring
    have s2 : ∑ i, J.grad i * (-1 / (gu.alpha 0 * gu.alpha 0) * ((geo.uv i + (gu.dbeta * geo.u i + gu.beta 0 * geo.uu i)) * gu.alpha 0 - (geo.v i + gu.beta 0 * geo.u i) * gu.dalpha))
        = -1 / (gu.alpha 0 * gu.alpha 0) * ((∑ i, J.grad i * geo.uv i + gu.dbeta * ∑ i, J.grad i * geo.u i + gu.beta 0 * ∑ i, J.grad i * geo.uu i) * gu.alpha 0
          - (∑ i, J.grad i * geo.v i + gu.beta 0 * ∑ i, J.grad i * geo.u i) * gu.dalpha) := by
      simp only [Finset.mul_sum, ← Finset.sum_add_distrib, Finset.sum_mul, ← Finset.sum_sub_distrib]
      exact Finset.sum_congr rfl fun i _ => by ring
    rw [s1, s2]
    generalize ∑ i, ∑ j, J.hess i j * (geo.u i * geo.v j) = X
    generalize ∑ i, ∑ j, J.hess i j * (geo.u i * geo.u j) = Y
    generalize ∑ i, J.grad i * geo.u i = a1
    generalize ∑ i, J.grad i * geo.v i = a2
    generalize ∑ i, J.grad i * geo.uv i = a3
    generalize ∑ i, J.grad i * geo.uu i = a4
    field_simp
    ring
  have f1 : dMinus geo gu D 1 = D.first geo.u := rfl
  have f2 : dMinus geo gu D 2 = D.second geo.u geo.u geo.uu := rfl
  have g1 : dIk geo D 2 = D.first geo.v := rfl
  have g3 : dIk geo D 3 = D.second geo.u geo.v geo.uv := rfl
  constructor
  · rw [bm, t1, n0, f1, e3, g1]; field_simp; ring
  · have key := (hgu.db.fun_mul ((derivative (tr bu.plus (dMinus geo gu D))).hasDerivAt 0)).fun_neg.fun_sub (hgu.da.fun_mul ((nd bu.minus (dMinus geo gu D)).hasDerivAt 0))
    refine key.congr_deriv ?_
    rw [t1, t2, n0, n1, f1, f2, e3, e4, g3]
    field_simp
    ring

theorem poly_hasDerivAt {f : ℝ[X]} {x y : ℝ} (h : (derivative f).eval x = y) : HasDerivAt (fun s => f.eval s) y x := h ▸ f.hasDerivAt x

/-- On the edge `v = 0` the vertex function is the interface function with trace `tr` and transversal derivative `nd`: the other two summands cancel there up to first order. -/
theorem edge_u (hu : bu.Ok) (hv : bv.Ok) (hgv : gv.Ok) (h : Rep D J) (u : ℝ) :
    vertexFun bu bv gu gv geo D u 0 = (tr bu.plus (dMinus geo gu D)).eval u ∧
    HasDerivAt (fun v => vertexFun bu bv gu gv geo D u v) (bm bu gu (dMinus geo gu D) u) 0 := by
  obtain ⟨t0, t1, _⟩ := tr_jet hv.plus hv.pp (dPlus geo gv D)
  exact coons (n := fun u => (tr bu.plus (dMinus geo gu D)).eval u) (B := bm bu gu (dMinus geo gu D)) (np := fun v => (tr bv.plus (dPlus geo gv D)).eval v)
    (Bp := bp bv gv (dPlus geo gv D)) (c0u := fun u => (c_0 bu.geo).eval u) (c1u := fun u => (c_1 bu.geo).eval u) (c0v := fun u => (c_0 bv.geo).eval u)
    (c1v := fun u => (c_1 bv.geo).eval u) (w0 := dIk geo D 0) (w1 := dIk geo D 1) (w2 := dIk geo D 2) (w3 := dIk geo D 3)
    (fun u v => vertexFun_eq bu bv gu gv geo D u v) (c_0_jet hv.geo hv.pg).1 (poly_hasDerivAt (c_0_jet hv.geo hv.pg).2) (c_1_jet hv.geo hv.pg).1
    (poly_hasDerivAt (c_1_jet hv.geo hv.pg).2) t0 (poly_hasDerivAt t1) (bp_jet hv hgv h).1 (bp_jet hv hgv h).2 u

theorem edge_v (hu : bu.Ok) (hv : bv.Ok) (hgu : gu.Ok) (h : Rep D J) (v : ℝ) :
    vertexFun bu bv gu gv geo D 0 v = (tr bv.plus (dPlus geo gv D)).eval v ∧
    HasDerivAt (fun u => vertexFun bu bv gu gv geo D u v) (bp bv gv (dPlus geo gv D) v) 0 := by
  obtain ⟨t0, t1, _⟩ := tr_jet hu.plus hu.pp (dMinus geo gu D)
  exact coons (g := fun v u => vertexFun bu bv gu gv geo D u v) (n := fun v => (tr bv.plus (dPlus geo gv D)).eval v) (B := bp bv gv (dPlus geo gv D))
    (np := fun u => (tr bu.plus (dMinus geo gu D)).eval u)
    (Bp := bm bu gu (dMinus geo gu D)) (c0u := fun u => (c_0 bv.geo).eval u) (c1u := fun u => (c_1 bv.geo).eval u) (c0v := fun u => (c_0 bu.geo).eval u)
    (c1v := fun u => (c_1 bu.geo).eval u) (w0 := dIk geo D 0) (w1 := dIk geo D 2) (w2 := dIk geo D 1) (w3 := dIk geo D 3)
    (fun v u => by rw [vertexFun_eq]; ring) (c_0_jet hu.geo hu.pg).1 (poly_hasDerivAt (c_0_jet hu.geo hu.pg).2) (c_1_jet hu.geo hu.pg).1
    (poly_hasDerivAt (c_1_jet hu.geo hu.pg).2) t0 (poly_hasDerivAt t1) (bm_jet hu hgu h).1 (bm_jet hu hgu h).2 v

/-! ## C24 -/

/-- The derivatives of a vertex function in the parameter domain. -/
theorem vertex_jet (hu : bu.Ok) (hv : bv.Ok) (hgu : gu.Ok) (hgv : gv.Ok) (h : Rep D J) :
    Jet2 (vertexFun bu bv gu gv geo D) D.value (D.first geo.u) (D.first geo.v) (D.second geo.u geo.u geo.uu) (D.second geo.u geo.v geo.uv) (D.second geo.v geo.v geo.vv) := by
  have eu := fun u => edge_u (gu := gu) (geo := geo) hu hv hgv h u
  have ev := fun v => edge_v (gv := gv) (geo := geo) hu hv hgu h v
  obtain ⟨t0, t1, t2⟩ := tr_jet hu.plus hu.pp (dMinus geo gu D)
  obtain ⟨s0, s1, s2⟩ := tr_jet hv.plus hv.pp (dPlus geo gv D)
  refine ⟨((eu 0).1.trans t0), ⟨fun u => (derivative (tr bu.plus (dMinus geo gu D))).eval u, fun u => ?_, t1, poly_hasDerivAt t2⟩,
    ⟨fun u => (derivative (tr bv.plus (dPlus geo gv D))).eval u, fun u => ?_, s1, poly_hasDerivAt s2⟩,
    ⟨_, fun u => (eu u).2, (bm_jet hu hgu h).2⟩, ⟨_, fun u => (ev u).2, (bp_jet hv hgv h).2⟩⟩
  · exact ((tr bu.plus (dMinus geo gu D)).hasDerivAt u).congr_of_eventuallyEq (Filter.Eventually.of_forall fun x => (eu x).1)
  · exact ((tr bv.plus (dPlus geo gv D)).hasDerivAt u).congr_of_eventuallyEq (Filter.Eventually.of_forall fun x => (ev x).1)

/-- The derivatives of the prescribed polynomial, moved to the parameter domain by the patch. -/
theorem poly_jet {F : ℝ → ℝ → Fin k → ℝ} (hF : IsGeo geo F) (h : Rep D J) :
    Jet2 (fun u v => J.poly (F 0 0) (F u v)) D.value (D.first geo.u) (D.first geo.v) (D.second geo.u geo.u geo.uu) (D.second geo.u geo.v geo.uv) (D.second geo.v geo.v geo.vv) := by
  have hd : ∀ i : Fin k, Jet2 (fun u v => F u v i - F 0 0 i) 0 (geo.u i) (geo.v i) (geo.uu i) (geo.uv i) (geo.vv i) := fun i =>
    ((hF i).add (Jet2.const (-F 0 0 i))).congr (by ring) (by rw [add_zero]; rfl) (by rw [add_zero]; rfl) (by rw [add_zero]; rfl) (by rw [add_zero]; rfl) (by rw [add_zero]; rfl)
  have h1 := Jet2.sum Finset.univ fun i => (Jet2.const (J.grad i)).mul (hd i)
  have h2 := Jet2.sum Finset.univ fun i => Jet2.sum Finset.univ fun j => (Jet2.const (J.hess i j)).mul ((hd i).mul (hd j))
  have key := ((Jet2.const J.value).add h1).add ((Jet2.const (1 / 2)).mul h2)
  have sw : ∀ x y : Fin k → ℝ, ∑ i, ∑ j, J.hess i j * (x i * y j) = ∑ i, ∑ j, J.hess i j * (y i * x j) := by
    intro x y
    rw [Finset.sum_comm]
    exact Finset.sum_congr rfl fun i _ => Finset.sum_congr rfl fun j _ => by rw [h.symm j i]; ring
  refine key.congr ?_ ?_ ?_ ?_ ?_ ?_
  · simp [h.value]
  · simp [h.first]
  · simp [h.first]
  · simp only [h.second, zero_mul, mul_zero, add_zero, zero_add, ← Finset.mul_sum]
    simp only [mul_left_comm (_ : ℝ) (2 : ℝ), ← Finset.mul_sum]
    simp; ring
  · simp only [h.second, zero_mul, mul_zero, add_zero, zero_add, mul_add, Finset.sum_add_distrib]
    rw [sw geo.v geo.u]
    simp; ring
  · simp only [h.second, zero_mul, mul_zero, add_zero, zero_add, ← Finset.mul_sum]
    simp only [mul_left_comm (_ : ℝ) (2 : ℝ), ← Finset.mul_sum]
    simp; ring

/-- **C24.** Up to second order a vertex function agrees at the vertex with the polynomial of the prescribed data, on every patch. The polynomial does not depend on the patch. -/
theorem C24_jet {F : ℝ → ℝ → Fin k → ℝ} (hF : IsGeo geo F) (hu : bu.Ok) (hv : bv.Ok) (hgu : gu.Ok) (hgv : gv.Ok) (h : Rep D J) :
    ∃ w a b aa ab bb, Jet2 (vertexFun bu bv gu gv geo D) w a b aa ab bb ∧ Jet2 (fun u v => J.poly (F 0 0) (F u v)) w a b aa ab bb :=
  ⟨_, _, _, _, _, _, vertex_jet hu hv hgu hgv h, poly_jet hF h⟩
end

/-- C24 for planar patches and the six functions of `gsApproxC1Vertex`; edges may be interfaces or boundary. -/
theorem C24_planar {bu bv : Bases} {gu gv : Glue} {geo : Geo 2} {F : ℝ → ℝ → Fin 2 → ℝ} (hF : IsGeo geo F) (hu : bu.Ok) (hv : bv.Ok) (ku kv : Bool)
    (hgu : ku = true → gu.Ok) (hgv : kv = true → gv.Ok) (sigma : ℝ) (bf : Fin 6) :
    ∃ w a b aa ab bb, Jet2 (vertexFun bu bv (edgeGlue ku gu) (edgeGlue kv gv) geo (dataPlanar (phiPlanar sigma) bf)) w a b aa ab bb ∧
      Jet2 (fun u v => (jetPlanar sigma bf).poly (F 0 0) (F u v)) w a b aa ab bb := by
  refine C24_jet hF hu hv ?_ ?_ (rep_planar sigma bf)
  · cases ku
    · exact glue_boundary gu
    · exact hgu rfl
  · cases kv
    · exact glue_boundary gv
    · exact hgv rfl

/-- C24 for surface patches (after the rotation that makes the tangent plane horizontal). -/
theorem C24_surface {bu bv : Bases} {gu gv : Glue} {geo : Geo 3} {F : ℝ → ℝ → Fin 3 → ℝ} (hF : IsGeo geo F) (hu : bu.Ok) (hv : bv.Ok) (ku kv : Bool)
    (hgu : ku = true → gu.Ok) (hgv : kv = true → gv.Ok) (sigma : ℝ) (bf : Fin 6) :
    ∃ w a b aa ab bb, Jet2 (vertexFun bu bv (edgeGlue ku gu) (edgeGlue kv gv) geo (dataSurface (phiSurface sigma) bf)) w a b aa ab bb ∧
      Jet2 (fun u v => (jetSurface sigma bf).poly (F 0 0) (F u v)) w a b aa ab bb := by
  refine C24_jet hF hu hv ?_ ?_ (rep_surface sigma bf)
  · cases ku
    · exact glue_boundary gu
    · exact hgu rfl
  · cases kv
    · exact glue_boundary gv
    · exact hgv rfl

/-- C24 for `gsC1SurfVisitorBasisVertex`, planar and surface patches, with the linear gluing data. -/
theorem C24_surf_planar {bu bv : Bases} {geo : Geo 2} {F : ℝ → ℝ → Fin 2 → ℝ} (hF : IsGeo geo F) (hu : bu.Ok) (hv : bv.Ok) (gd : ℕ → ℕ → ℝ)
    (h0 : gd 0 0 ≠ 0) (h1 : gd 0 1 ≠ 0) (sigma : ℝ) (bf : Fin 6) :
    ∃ w a b aa ab bb, Jet2 (vertexFun bu bv (surfGlue gd 0) (surfGlue gd 1) geo (dataPlanar' (phiPlanar sigma) bf)) w a b aa ab bb ∧
      Jet2 (fun u v => (jetPlanar sigma bf).poly (F 0 0) (F u v)) w a b aa ab bb :=
  C24_jet hF hu hv (glue_surf gd 0 h0) (glue_surf gd 1 h1) (rep_planar' sigma bf)

theorem C24_surf_surface {bu bv : Bases} {geo : Geo 3} {F : ℝ → ℝ → Fin 3 → ℝ} (hF : IsGeo geo F) (hu : bu.Ok) (hv : bv.Ok) (gd : ℕ → ℕ → ℝ)
    (h0 : gd 0 0 ≠ 0) (h1 : gd 0 1 ≠ 0) (sigma : ℝ) (bf : Fin 6) :
    ∃ w a b aa ab bb, Jet2 (vertexFun bu bv (surfGlue gd 0) (surfGlue gd 1) geo (dataSurface' (phiSurface sigma) bf)) w a b aa ab bb ∧
      Jet2 (fun u v => (jetSurface sigma bf).poly (F 0 0) (F u v)) w a b aa ab bb :=
  C24_jet hF hu hv (glue_surf gd 0 h0) (glue_surf gd 1 h1) (rep_surface' sigma bf)

/-! ## The six functions are independent -/

/-- If the Jacobian matrix is invertible and `sigma ≠ 0`, a combination of the six functions that vanishes has zero coefficients. -/
theorem C24_independent {bu bv : Bases} {gu gv : Glue} {geo : Geo 2} (hu : bu.Ok) (hv : bv.Ok) (hgu : gu.Ok) (hgv : gv.Ok) {sigma : ℝ} (hs : sigma ≠ 0)
    (hdet : geo.jac 0 0 * geo.jac 1 1 - geo.jac 0 1 * geo.jac 1 0 ≠ 0) (c : Fin 6 → ℝ)
    (hc : ∀ u v, ∑ bf : Fin 6, c bf * vertexFun bu bv gu gv geo (dataPlanar (phiPlanar sigma) bf) u v = 0) : c = 0 := by
  have h1 := Jet2.sum Finset.univ fun bf : Fin 6 => (Jet2.const (c bf)).mul (vertex_jet (geo := geo) hu hv hgu hgv (rep_planar sigma bf))
  have h2 : Jet2 (fun u v => ∑ bf : Fin 6, c bf * vertexFun bu bv gu gv geo (dataPlanar (phiPlanar sigma) bf) u v) 0 0 0 0 0 0 := by
    have : (fun u v => ∑ bf : Fin 6, c bf * vertexFun bu bv gu gv geo (dataPlanar (phiPlanar sigma) bf) u v) = fun _ _ => (0 : ℝ) := by
      funext u v; exact hc u v
    rw [this]; exact Jet2.const 0
  obtain ⟨e0, e1, e2, e3, e4, e5⟩ := h1.unique h2
  simp [Fin.sum_univ_six, dataPlanar, phiPlanar, Geo.u, Geo.v, Geo.uu, Geo.uv, Geo.vv] at e0 e1 e2 e3 e4 e5
  generalize geo.jac 0 0 = a at *
  generalize geo.jac 0 1 = b at *
  generalize geo.jac 1 0 = d at *
  generalize geo.jac 1 1 = e at *
  have z1 : c 1 = 0 := by
    have : (a * e - b * d) * sigma * c 1 = 0 := by linear_combination e * e1 - d * e2
    simpa [hdet, hs] using this
  have z2 : c 2 = 0 := by
    have : (a * e - b * d) * sigma * c 2 = 0 := by linear_combination a * e2 - b * e1
    simpa [hdet, hs] using this
  rw [z1, z2] at e3 e4 e5
  have z3 : c 3 = 0 := by
    have : (a * e - b * d) ^ 2 * (sigma * sigma) * c 3 = 0 := by linear_combination e * e * e3 - 2 * (d * e) * e4 + d * d * e5
    simpa [hdet, hs] using this
  have z4 : c 4 = 0 := by
    have : (a * e - b * d) ^ 2 * (sigma * sigma) * c 4 = 0 := by linear_combination (-(b * e)) * e3 + (a * e + b * d) * e4 - a * d * e5
    simpa [hdet, hs] using this
  have z5 : c 5 = 0 := by
    have : (a * e - b * d) ^ 2 * (sigma * sigma) * c 5 = 0 := by linear_combination b * b * e3 - 2 * (a * b) * e4 + a * a * e5
    simpa [hdet, hs] using this
  funext i
  fin_cases i
  exacts [e0, z1, z2, z3, z4, z5]

/-! ## C39: continuity across the interfaces

Patch 0 has the interface on its edge `v = 0`, patch 1 on its edge `u = 0`. `T`, `A0`, `A1` are the derivatives along and across the interface, as functions of the point. -/

/-- The transversal vector of both patches, as a function of the point of the interface. -/
noncomputable def dirMinus {k : ℕ} (g : Glue) (T A : ℝ → Fin k → ℝ) (t : ℝ) : Fin k → ℝ := (-1 / g.alpha t) • (A t + g.beta t • T t)
noncomputable def dirPlus {k : ℕ} (g : Glue) (T A : ℝ → Fin k → ℝ) (t : ℝ) : Fin k → ℝ := (1 / g.alpha t) • (A t + g.beta t • T t)

section
variable {k : ℕ} {bu0 bv0 bu1 bv1 : Bases} {gu0 gv0 gu1 gv1 : Glue} {geo0 geo1 : Geo k} {D : Data k} {J : Jet k} {T A0 A1 : ℝ → Fin k → ℝ}

/-- The derivatives of the patches at the vertex are those of `T`, `A0`, `A1`. -/
structure Along0 (geo : Geo k) (T A : ℝ → Fin k → ℝ) : Prop where
  t : ∀ i, T 0 i = geo.jac i 0
  a : ∀ i, A 0 i = geo.jac i 1
  dt : ∀ i : Fin k, HasDerivAt (fun s => T s i) (geo.der2 (3 * i)) 0
  da : ∀ i : Fin k, HasDerivAt (fun s => A s i) (geo.der2 (3 * i + 2)) 0
structure Along1 (geo : Geo k) (T A : ℝ → Fin k → ℝ) : Prop where
  t : ∀ i, T 0 i = geo.jac i 1
  a : ∀ i, A 0 i = geo.jac i 0
  dt : ∀ i : Fin k, HasDerivAt (fun s => T s i) (geo.der2 (3 * i + 1)) 0
  da : ∀ i : Fin k, HasDerivAt (fun s => A s i) (geo.der2 (3 * i + 2)) 0

theorem ddMinus_deriv (h : Along0 geo0 T A0) (hg : gu0.Ok) (i : Fin k) :
    dirMinus gu0 T A0 0 i = ddMinus geo0 gu0 i ∧ HasDerivAt (fun s => dirMinus gu0 T A0 s i) (ddMinusDeriv geo0 gu0 i) 0 := by
  constructor
  · simp [dirMinus, ddMinus, Geo.u, Geo.v, h.t, h.a]
  · have hne := hg.ne
    have key := (HasDerivAt.fun_div (hasDerivAt_const (0 : ℝ) (-1 : ℝ)) hg.da hne).fun_mul ((h.da i).fun_add (hg.db.fun_mul (h.dt i)))
    refine key.congr_deriv ?_
    simp only [ddMinusDeriv, Geo.u, Geo.v, Geo.uu, Geo.uv, h.t, h.a]
    field_simp
    ring

theorem ddPlus_deriv (h : Along1 geo1 T A1) (hg : gv1.Ok) (i : Fin k) :
    dirPlus gv1 T A1 0 i = ddPlus geo1 gv1 i ∧ HasDerivAt (fun s => dirPlus gv1 T A1 s i) (ddPlusDeriv geo1 gv1 i) 0 := by
  constructor
  · simp [dirPlus, ddPlus, Geo.u, Geo.v, h.t, h.a]
  · have hne := hg.ne
    have key := (HasDerivAt.fun_div (hasDerivAt_const (0 : ℝ) (1 : ℝ)) hg.da hne).fun_mul ((h.da i).fun_add (hg.db.fun_mul (h.dt i)))
    refine key.congr_deriv ?_
    simp only [ddPlusDeriv, Geo.u, Geo.v, Geo.vv, Geo.uv, h.t, h.a]
    field_simp
    ring

/-- The coefficients of both patches on their common edge are equal. -/
theorem C39_data (h0 : Along0 geo0 T A0) (h1 : Along1 geo1 T A1) (hg0 : gu0.Ok) (hg1 : gv1.Ok) (hdir : ∀ t, dirMinus gu0 T A0 t = dirPlus gv1 T A1 t) :
    dMinus geo0 gu0 D = dPlus geo1 gv1 D := by
  have e1 : geo0.u = geo1.v := funext fun i => (h0.t i).symm.trans (h1.t i)
  have e2 : geo0.uu = geo1.vv := funext fun i => (h0.dt i).unique (h1.dt i)
  have e3 : ddMinus geo0 gu0 = ddPlus geo1 gv1 := funext fun i => by
    rw [← (ddMinus_deriv h0 hg0 i).1, ← (ddPlus_deriv h1 hg1 i).1, hdir]
  have e4 : ddMinusDeriv geo0 gu0 = ddPlusDeriv geo1 gv1 := funext fun i => by
    have := (ddMinus_deriv h0 hg0 i).2
    simp only [hdir] at this
    exact this.unique (ddPlus_deriv h1 hg1 i).2
  simp only [dMinus, dPlus, e1, e2, e3, e4]

/-- **C39**, in every dimension: on the whole interface the vertex functions of both patches have the same value, the same derivative along the interface and the same derivative in the direction of the
transversal vector. -/
theorem C39_interface {F0 F1 : ℝ → ℝ → Fin k → ℝ} (hT0 : ∀ t, At 0 F0 t (T t) (A0 t)) (hT1 : ∀ t, At 1 F1 t (T t) (A1 t))
    (h0 : Along0 geo0 T A0) (h1 : Along1 geo1 T A1) (hu0 : bu0.Ok) (hv0 : bv0.Ok) (hu1 : bu1.Ok) (hv1 : bv1.Ok)
    (hgu0 : gu0.Ok) (hgv0 : gv0.Ok) (hgu1 : gu1.Ok) (hgv1 : gv1.Ok) (hplus : bu0.plus = bv1.plus) (hminus : bu0.minus = bv1.minus) (h : Rep D J)
    (hdir : ∀ t, dirMinus gu0 T A0 t = dirPlus gv1 T A1 t) {t : ℝ} (ha0 : gu0.alpha t ≠ 0) (ha1 : gv1.alpha t ≠ 0)
    {φ0 φ1 : (Fin k → ℝ) → ℝ} {L0 L1 : (Fin k → ℝ) →L[ℝ] ℝ}
    (hφ0 : Phys 0 F0 (vertexFun bu0 bv0 gu0 gv0 geo0 D) t φ0 L0) (hφ1 : Phys 1 F1 (vertexFun bu1 bv1 gu1 gv1 geo1 D) t φ1 L1) :
    φ0 (F0 t 0) = φ1 (F1 0 t) ∧ L0 (T t) = L1 (T t) ∧ L0 (dirPlus gv1 T A1 t) = L1 (dirPlus gv1 T A1 t) := by
  have hd := C39_data (D := D) h0 h1 hgu0 hgv1 hdir
  have E0 := fun s => edge_u (gu := gu0) (geo := geo0) hu0 hv0 hgv0 h s
  have E1 := fun s => edge_v (gv := gv1) (geo := geo1) hu1 hv1 hgu1 h s
  have t0 : L0 (T t) = (derivative (tr bu0.plus (dMinus geo0 gu0 D))).eval t :=
    phys_along hφ0 (hT0 t) ((tr bu0.plus (dMinus geo0 gu0 D)).hasDerivAt t) fun r => (E0 r).1
  have t1 : L1 (T t) = (derivative (tr bv1.plus (dPlus geo1 gv1 D))).eval t :=
    phys_along hφ1 (hT1 t) ((tr bv1.plus (dPlus geo1 gv1 D)).hasDerivAt t) fun r => (E1 r).1
  have a0 : L0 (A0 t) = bm bu0 gu0 (dMinus geo0 gu0 D) t := phys_across hφ0 (hT0 t) (E0 t).2
  have a1 : L1 (A1 t) = bp bv1 gv1 (dPlus geo1 gv1 D) t := phys_across hφ1 (hT1 t) (E1 t).2
  refine ⟨?_, ?_, ?_⟩
  · rw [show φ0 (F0 t 0) = _ from (phys_at hφ0).trans (E0 t).1, show φ1 (F1 0 t) = _ from (phys_at hφ1).trans (E1 t).1, hd, hplus]
  · rw [t0, t1, hd, hplus]
  · have l0 : L0 (dirPlus gv1 T A1 t) = (nd bu0.minus (dMinus geo0 gu0 D)).eval t := by
      rw [← hdir, dirMinus, map_smul, map_add, map_smul, a0, t0, bm]
      simp only [smul_eq_mul]; field_simp; ring
    have l1 : L1 (dirPlus gv1 T A1 t) = (nd bv1.minus (dPlus geo1 gv1 D)).eval t := by
      rw [dirPlus, map_smul, map_add, map_smul, a1, t1, bp]
      simp only [smul_eq_mul]; field_simp; ring
    rw [l0, l1, hd, hminus]

theorem dir_planar0 {T A : Fin 2 → ℝ} (hd : alphaPlanar T A ≠ 0) : (1 / alphaPlanar T A) • (A + (-(T ⬝ᵥ A / (T ⬝ᵥ T))) • T) = (1 / (T ⬝ᵥ T)) • ![-T 1, T 0] := by
  have hT : T ≠ 0 := by rintro rfl; exact hd (by rw [det_two]; simp)
  have hTT : T ⬝ᵥ T ≠ 0 := fun h => hT (dotProduct_self_eq_zero.1 h)
  rw [det_two] at hd ⊢
  simp only [dotProduct, Fin.sum_univ_two] at hTT ⊢
  generalize hq : T 0 * T 0 + T 1 * T 1 = q at hTT ⊢
  generalize he : T 0 * A 1 - A 0 * T 1 = d at hd ⊢
  ext i
  fin_cases i <;> simp <;> field_simp
  · rw [← hq, ← he]; ring
  · rw [← hq, ← he]; ring

/-- The transversal vectors of both patches agree for planar patches and exact gluing data. -/
theorem dir_planar {T A0 A1 : Fin 2 → ℝ} (hd0 : alphaPlanar T A0 ≠ 0) (hd1 : alphaPlanar A1 T ≠ 0) :
    (-1 / alphaPlanar T A0) • (A0 + betaGeo 0 T A0 • T) = (1 / alphaPlanar A1 T) • (A1 + betaGeo 1 A1 T • T) := by
  have e : alphaPlanar A1 T = -alphaPlanar T A1 := by rw [det_two, det_two]; ring
  have hd1' : alphaPlanar T A1 ≠ 0 := fun h => hd1 (by rw [e, h, neg_zero])
  rw [betaGeo_eq 0 T A0 T A0 (Or.inl ⟨rfl, rfl, rfl⟩), betaGeo_eq 1 A1 T T A1 (Or.inr ⟨rfl, rfl, rfl⟩), e, neg_div, neg_smul, dir_planar0 hd0, div_neg, neg_smul, dir_planar0 hd1']

/-- The transversal vector is the unit conormal for surfaces with a common tangent plane and exact gluing data. -/
theorem dir_surface {T A0 A1 eta : Fin 3 → ℝ} (hT : T ≠ 0) (heta : eta ⬝ᵥ eta = 1) (hperp : eta ⬝ᵥ T = 0) {a0 a1 c0 c1 : ℝ} (ha0 : 0 < a0) (ha1 : 0 < a1)
    (hA0 : A0 = (-a0) • eta + c0 • T) (hA1 : A1 = a1 • eta + c1 • T) :
    (-1 / alphaSurface 0 T A0) • (A0 + betaGeo 0 T A0 • T) = eta ∧ (1 / alphaSurface 1 A1 T) • (A1 + betaGeo 1 A1 T • T) = eta := by
  have v0 := alphaSurface_conormal (uv := 0) (by omega) hT heta hperp hA0
  have v1 := alphaSurface_conormal (uv := 1) (by omega) hT heta hperp hA1
  simp only [colU, colV, if_pos, if_neg one_ne_zero] at v0 v1
  rw [abs_neg, abs_of_pos ha0] at v0
  rw [abs_of_pos ha1] at v1
  have hTT : T ⬝ᵥ T ≠ 0 := fun h => hT (dotProduct_self_eq_zero.1 h)
  have hperp' : T ⬝ᵥ eta = 0 := by rw [dotProduct_comm]; exact hperp
  rw [v0, v1, betaGeo_eq 0 T A0 T A0 (Or.inl ⟨rfl, rfl, rfl⟩), betaGeo_eq 1 A1 T T A1 (Or.inr ⟨rfl, rfl, rfl⟩), hA0, hA1]
  simp only [dotProduct_add, dotProduct_smul, smul_eq_mul, hperp', mul_zero, zero_add]
  constructor
  · ext i; simp; field_simp; ring
  · ext i; simp; field_simp; ring

/-- The transversal vectors of both patches agree for the gluing data of `gsC1SurfSpline` if they satisfy the gluing equation. -/
theorem dir_glue {k : ℕ} {T A0 A1 : Fin k → ℝ} {aL aR bL bR : ℝ} (hL : aL ≠ 0) (hR : aR ≠ 0) (h : aR • A0 + aL • A1 + (aL * bR + aR * bL) • T = 0) :
    (-1 / aL) • (A0 + bL • T) = (1 / aR) • (A1 + bR • T) := by
  ext i
  have := congrFun h i
  simp at this ⊢
  field_simp
  linear_combination -this

/-- **C39**, planar patches with exact gluing data: vertex functions are C1 across the whole interface. -/
theorem C39_planar {bu0 bv0 bu1 bv1 : Bases} {gu0 gv0 gu1 gv1 : Glue} {geo0 geo1 : Geo 2} {D : Data 2} {J : Jet 2} {T A0 A1 : ℝ → Fin 2 → ℝ}
    {F0 F1 : ℝ → ℝ → Fin 2 → ℝ} (hT0 : ∀ t, At 0 F0 t (T t) (A0 t)) (hT1 : ∀ t, At 1 F1 t (T t) (A1 t))
    (h0 : Along0 geo0 T A0) (h1 : Along1 geo1 T A1) (hu0 : bu0.Ok) (hv0 : bv0.Ok) (hu1 : bu1.Ok) (hv1 : bv1.Ok)
    (hgu0 : gu0.Ok) (hgv0 : gv0.Ok) (hgu1 : gu1.Ok) (hgv1 : gv1.Ok) (hplus : bu0.plus = bv1.plus) (hminus : bu0.minus = bv1.minus) (h : Rep D J)
    (hd0 : ∀ t, alphaPlanar (T t) (A0 t) ≠ 0) (hd1 : ∀ t, alphaPlanar (A1 t) (T t) ≠ 0)
    (ha0 : ∀ t, gu0.alpha t = alphaPlanar (T t) (A0 t)) (hb0 : ∀ t, gu0.beta t = betaGeo 0 (T t) (A0 t))
    (ha1 : ∀ t, gv1.alpha t = alphaPlanar (A1 t) (T t)) (hb1 : ∀ t, gv1.beta t = betaGeo 1 (A1 t) (T t)) {t : ℝ}
    {φ0 φ1 : (Fin 2 → ℝ) → ℝ} {L0 L1 : (Fin 2 → ℝ) →L[ℝ] ℝ}
    (hφ0 : Phys 0 F0 (vertexFun bu0 bv0 gu0 gv0 geo0 D) t φ0 L0) (hφ1 : Phys 1 F1 (vertexFun bu1 bv1 gu1 gv1 geo1 D) t φ1 L1) :
    φ0 (F0 t 0) = φ1 (F1 0 t) ∧ L0 = L1 := by
  have hdir : ∀ t, dirMinus gu0 T A0 t = dirPlus gv1 T A1 t := fun s => by
    rw [dirMinus, dirPlus, ha0, hb0, ha1, hb1]; exact dir_planar (hd0 s) (hd1 s)
  obtain ⟨e0, e1, e2⟩ := C39_interface hT0 hT1 h0 h1 hu0 hv0 hu1 hv1 hgu0 hgv0 hgu1 hgv1 hplus hminus h hdir (by rw [ha0]; exact hd0 t) (by rw [ha1]; exact hd1 t) hφ0 hφ1
  refine ⟨e0, ?_⟩
  have hA : L0 (A1 t) = L1 (A1 t) := by
    simp only [dirPlus, map_smul, map_add, e1, smul_eq_mul] at e2
    have hne : 1 / gv1.alpha t ≠ 0 := one_div_ne_zero (by rw [ha1]; exact hd1 t)
    linarith [mul_left_cancel₀ hne e2]
  ext w
  obtain ⟨x, y, rfl⟩ := span_two (hd1 t) w
  simp only [map_add, map_smul, hA, e1]

/-- **C39** for surfaces with a common tangent plane: the derivatives in all tangential directions agree. -/
theorem C39_surface {bu0 bv0 bu1 bv1 : Bases} {gu0 gv0 gu1 gv1 : Glue} {geo0 geo1 : Geo 3} {D : Data 3} {J : Jet 3} {T A0 A1 eta : ℝ → Fin 3 → ℝ}
    {F0 F1 : ℝ → ℝ → Fin 3 → ℝ} (hT0 : ∀ t, At 0 F0 t (T t) (A0 t)) (hT1 : ∀ t, At 1 F1 t (T t) (A1 t))
    (h0 : Along0 geo0 T A0) (h1 : Along1 geo1 T A1) (hu0 : bu0.Ok) (hv0 : bv0.Ok) (hu1 : bu1.Ok) (hv1 : bv1.Ok)
    (hgu0 : gu0.Ok) (hgv0 : gv0.Ok) (hgu1 : gu1.Ok) (hgv1 : gv1.Ok) (hplus : bu0.plus = bv1.plus) (hminus : bu0.minus = bv1.minus) (h : Rep D J)
    (hT : ∀ t, T t ≠ 0) (heta : ∀ t, eta t ⬝ᵥ eta t = 1) (hperp : ∀ t, eta t ⬝ᵥ T t = 0) {a0 a1 c0 c1 : ℝ → ℝ} (ha0 : ∀ t, 0 < a0 t) (ha1 : ∀ t, 0 < a1 t)
    (hA0 : ∀ t, A0 t = (-a0 t) • eta t + c0 t • T t) (hA1 : ∀ t, A1 t = a1 t • eta t + c1 t • T t)
    (hal0 : ∀ t, gu0.alpha t = alphaSurface 0 (T t) (A0 t)) (hb0 : ∀ t, gu0.beta t = betaGeo 0 (T t) (A0 t))
    (hal1 : ∀ t, gv1.alpha t = alphaSurface 1 (A1 t) (T t)) (hb1 : ∀ t, gv1.beta t = betaGeo 1 (A1 t) (T t)) {t : ℝ}
    {φ0 φ1 : (Fin 3 → ℝ) → ℝ} {L0 L1 : (Fin 3 → ℝ) →L[ℝ] ℝ}
    (hφ0 : Phys 0 F0 (vertexFun bu0 bv0 gu0 gv0 geo0 D) t φ0 L0) (hφ1 : Phys 1 F1 (vertexFun bu1 bv1 gu1 gv1 geo1 D) t φ1 L1) :
    φ0 (F0 t 0) = φ1 (F1 0 t) ∧ L0 (T t) = L1 (T t) ∧ L0 (eta t) = L1 (eta t) := by
  have d := fun s => dir_surface (hT s) (heta s) (hperp s) (ha0 s) (ha1 s) (hA0 s) (hA1 s)
  have hdir0 : ∀ t, dirMinus gu0 T A0 t = eta t := fun s => by rw [dirMinus, hal0, hb0]; exact (d s).1
  have hdir1 : ∀ t, dirPlus gv1 T A1 t = eta t := fun s => by rw [dirPlus, hal1, hb1]; exact (d s).2
  have pos : ∀ {uv : ℕ} (huv : uv ≤ 1) {A : Fin 3 → ℝ} {a c : ℝ}, a ≠ 0 → A = a • eta t + c • T t → alphaSurface uv (colU uv (T t) A) (colV uv (T t) A) ≠ 0 := by
    intro uv huv A a c ha hA
    rw [alphaSurface_conormal huv (hT t) (heta t) (hperp t) hA]
    exact abs_ne_zero.2 ha
  have p0 := pos (uv := 0) (by omega) (neg_ne_zero.2 (ha0 t).ne') (hA0 t)
  have p1 := pos (uv := 1) (by omega) (ha1 t).ne' (hA1 t)
  simp only [colU, colV, if_pos, if_neg one_ne_zero] at p0 p1
  have := C39_interface hT0 hT1 h0 h1 hu0 hv0 hu1 hv1 hgu0 hgv0 hgu1 hgv1 hplus hminus h (fun s => (hdir0 s).trans (hdir1 s).symm)
    (by rw [hal0]; exact p0) (by rw [hal1]; exact p1) hφ0 hφ1
  rwa [hdir1] at this

/-- **C39** for `gsC1SurfVisitorBasisVertex` in every dimension: linear gluing data that satisfy the gluing equation on the whole interface. -/
theorem C39_surf {k : ℕ} {bu0 bv0 bu1 bv1 : Bases} {gd0 gd1 : ℕ → ℕ → ℝ} {geo0 geo1 : Geo k} {D : Data k} {J : Jet k} {T A0 A1 : ℝ → Fin k → ℝ}
    {F0 F1 : ℝ → ℝ → Fin k → ℝ} (hT0 : ∀ t, At 0 F0 t (T t) (A0 t)) (hT1 : ∀ t, At 1 F1 t (T t) (A1 t))
    (h0 : Along0 geo0 T A0) (h1 : Along1 geo1 T A1) (hu0 : bu0.Ok) (hv0 : bv0.Ok) (hu1 : bu1.Ok) (hv1 : bv1.Ok)
    (n00 : gd0 0 0 ≠ 0) (n01 : gd0 0 1 ≠ 0) (n10 : gd1 0 0 ≠ 0) (n11 : gd1 0 1 ≠ 0) (hplus : bu0.plus = bv1.plus) (hminus : bu0.minus = bv1.minus) (h : Rep D J)
    (ha0 : ∀ t, (surfGlue gd0 0).alpha t ≠ 0) (ha1 : ∀ t, (surfGlue gd1 1).alpha t ≠ 0)
    (hglue : ∀ t, (surfGlue gd1 1).alpha t • A0 t + (surfGlue gd0 0).alpha t • A1 t
      + ((surfGlue gd0 0).alpha t * (surfGlue gd1 1).beta t + (surfGlue gd1 1).alpha t * (surfGlue gd0 0).beta t) • T t = 0) {t : ℝ}
    {φ0 φ1 : (Fin k → ℝ) → ℝ} {L0 L1 : (Fin k → ℝ) →L[ℝ] ℝ}
    (hφ0 : Phys 0 F0 (vertexFun bu0 bv0 (surfGlue gd0 0) (surfGlue gd0 1) geo0 D) t φ0 L0)
    (hφ1 : Phys 1 F1 (vertexFun bu1 bv1 (surfGlue gd1 0) (surfGlue gd1 1) geo1 D) t φ1 L1) :
    φ0 (F0 t 0) = φ1 (F1 0 t) ∧ ∀ x y : ℝ, L0 (x • A1 t + y • T t) = L1 (x • A1 t + y • T t) := by
  have hdir : ∀ t, dirMinus (surfGlue gd0 0) T A0 t = dirPlus (surfGlue gd1 1) T A1 t := fun s => dir_glue (ha0 s) (ha1 s) (hglue s)
  obtain ⟨e0, e1, e2⟩ := C39_interface hT0 hT1 h0 h1 hu0 hv0 hu1 hv1 (glue_surf gd0 0 n00) (glue_surf gd0 1 n01) (glue_surf gd1 0 n10) (glue_surf gd1 1 n11)
    hplus hminus h hdir (ha0 t) (ha1 t) hφ0 hφ1
  have hA : L0 (A1 t) = L1 (A1 t) := by
    simp only [dirPlus, map_smul, map_add, e1, smul_eq_mul] at e2
    linarith [mul_left_cancel₀ (one_div_ne_zero (ha1 t)) e2]
  refine ⟨e0, fun x y => ?_⟩
  simp only [map_add, map_smul, hA, e1]

/-! ## Concrete cases -/

/-- Degree two, knots `0,0,0,1/2,1,1,1`. -/
noncomputable def quad2 : Comp := ⟨fun i => if i ≤ 2 then 0 else if i = 3 then 1 / 2 else 1, 2⟩
theorem quad2_open : Open quad2.t quad2.p :=
  ⟨fun i hi => by simp only [quad2] at hi ⊢; rw [if_pos hi], by simp [quad2], fun i j hij => by
    simp only [quad2]; split_ifs <;> first | omega | norm_num⟩

/-- Cubic patch, cubic plus space, quadratic minus space. -/
noncomputable def exBases : Bases := ⟨cubic2, cubic2, quad2⟩
theorem exBases_ok : exBases.Ok := ⟨cubic2_open, cubic2_open, quad2_open, by simp [exBases, cubic2], by simp [exBases, cubic2], by simp [exBases, quad2]⟩

/-- A curved patch `(u + v², v + 3 u v)` with its derivatives at the vertex. -/
def exGeo : Geo 2 := ⟨![![1, 0], ![0, 1]], fun r => if r = 1 then 2 else if r = 5 then 3 else 0⟩
theorem jet_u : Jet2 (fun u _ => u) 0 1 0 0 0 0 :=
  ⟨rfl, ⟨fun _ => 1, fun u => hasDerivAt_id u, rfl, hasDerivAt_const _ _⟩, ⟨fun _ => 0, fun _ => hasDerivAt_const _ _, rfl, hasDerivAt_const _ _⟩,
    ⟨fun _ => 0, fun _ => hasDerivAt_const _ _, hasDerivAt_const _ _⟩, ⟨fun _ => 1, fun _ => hasDerivAt_id _, hasDerivAt_const _ _⟩⟩
theorem jet_v : Jet2 (fun _ v => v) 0 0 1 0 0 0 :=
  ⟨rfl, ⟨fun _ => 0, fun _ => hasDerivAt_const _ _, rfl, hasDerivAt_const _ _⟩, ⟨fun _ => 1, fun u => hasDerivAt_id u, rfl, hasDerivAt_const _ _⟩,
    ⟨fun _ => 1, fun _ => hasDerivAt_id _, hasDerivAt_const _ _⟩, ⟨fun _ => 0, fun _ => hasDerivAt_const _ _, hasDerivAt_const _ _⟩⟩
theorem exGeo_is : IsGeo exGeo fun u v => ![u + v * v, v + 3 * (u * v)] := by
  intro i
  fin_cases i
  · exact (jet_u.add (jet_v.mul jet_v)).congr (by norm_num) (by norm_num [exGeo]) (by norm_num [exGeo]) (by norm_num [exGeo]) (by norm_num [exGeo]) (by norm_num [exGeo])
  · exact (jet_v.add ((Jet2.const 3).mul (jet_u.mul jet_v))).congr (by norm_num) (by norm_num [exGeo]) (by norm_num [exGeo]) (by norm_num [exGeo]) (by norm_num [exGeo])
      (by norm_num [exGeo])

/-- C24 on the curved patch: the function for the `x`-derivative (`sigma = 1`) is `x = u + v²` up to second order, with one interface with `alpha = 2 + u`, `beta = 5 u + 1` and one boundary edge. -/
example : Jet2 (vertexFun exBases exBases (edgeGlue true ⟨fun u => 2 + u, fun u => 5 * u + 1, 1, 5⟩) (edgeGlue false ⟨fun _ => 0, fun _ => 0, 0, 0⟩) exGeo
    (dataPlanar (phiPlanar 1) (1 : Fin 6))) 0 1 0 0 0 2 := by
  have hg : (⟨fun u => 2 + u, fun u => 5 * u + 1, 1, 5⟩ : Glue).Ok :=
    ⟨by norm_num, (hasDerivAt_id (0 : ℝ)).const_add 2, by simpa using ((hasDerivAt_id (0 : ℝ)).const_mul 5).add_const 1⟩
  obtain ⟨w, a, b, aa, ab, bb, h1, h2⟩ := C24_planar exGeo_is exBases_ok exBases_ok true false (fun _ => hg) (fun h => by simp at h) 1 1
  have h3 : Jet2 (fun u v => (jetPlanar 1 1).poly (![0 + 0 * 0, 0 + 3 * (0 * 0)]) ![u + v * v, v + 3 * (u * v)]) 0 1 0 0 0 2 := by
    have : (fun u v : ℝ => (jetPlanar 1 1).poly (![0 + 0 * 0, 0 + 3 * (0 * 0)]) ![u + v * v, v + 3 * (u * v)]) = fun u v => u + v * v := by
      funext u v; simp [Jet.poly, jetPlanar]
    rw [this]
    exact (jet_u.add (jet_v.mul jet_v)).congr (by norm_num) (by norm_num) (by norm_num) (by norm_num) (by norm_num) (by norm_num)
  obtain ⟨rfl, rfl, rfl, rfl, rfl, rfl⟩ := h2.unique h3
  exact h1

@[fun_prop] theorem poly_diff (f : ℝ[X]) : Differentiable ℝ fun x => f.eval x := f.differentiable

/-- C39 on the kinked interface of `Props/EdgeFun.lean`: all hypotheses hold, for each of the six functions. -/
example (bf : Fin 6) (t : ℝ) : ∃ (gu0 gv1 : Glue) (geo0 geo1 : Geo 2) (φ0 φ1 : (Fin 2 → ℝ) → ℝ) (L0 L1 : (Fin 2 → ℝ) →L[ℝ] ℝ),
    Phys 0 (exF0 5) (vertexFun exBases exBases gu0 (edgeGlue false gu0) geo0 (dataPlanar (phiPlanar 1) bf)) t φ0 L0 ∧
    Phys 1 exF1 (vertexFun exBases exBases (edgeGlue false gv1) gv1 geo1 (dataPlanar (phiPlanar 1) bf)) t φ1 L1 ∧ φ0 (exF0 5 t 0) = φ1 (exF1 0 t) ∧ L0 = L1 := by
  let gu0 : Glue := ⟨fun _ => alphaPlanar ![0, 1] ![-1, 5], fun _ => betaGeo 0 ![0, 1] ![-1, 5], 0, 0⟩
  let gv1 : Glue := ⟨fun _ => alphaPlanar ![1, 0] ![0, 1], fun _ => betaGeo 1 ![1, 0] ![0, 1], 0, 0⟩
  let geo0 : Geo 2 := ⟨![![0, -1], ![1, 5]], fun _ => 0⟩
  let geo1 : Geo 2 := ⟨![![1, 0], ![0, 1]], fun _ => 0⟩
  have d0 : alphaPlanar ![0, 1] ![-1, 5] ≠ 0 := by rw [det_two]; simp
  have d1 : alphaPlanar ![1, 0] ![0, 1] ≠ 0 := by rw [det_two]; simp
  obtain ⟨φ0, L0, h0⟩ := exPhys0 5 (f := vertexFun exBases exBases gu0 (edgeGlue false gu0) geo0 (dataPlanar (phiPlanar 1) bf))
    (by simp only [vertexFun, gu0, edgeGlue]; simp; fun_prop) t
  obtain ⟨φ1, L1, h1⟩ := exPhys1 (f := vertexFun exBases exBases (edgeGlue false gv1) gv1 geo1 (dataPlanar (phiPlanar 1) bf))
    (by simp only [vertexFun, gv1, edgeGlue]; simp; fun_prop) t
  have g0 : gu0.Ok := ⟨d0, hasDerivAt_const _ _, hasDerivAt_const _ _⟩
  have g1 : gv1.Ok := ⟨d1, hasDerivAt_const _ _, hasDerivAt_const _ _⟩
  have key := C39_planar (exF0_at 5) exF1_at (geo0 := geo0) (geo1 := geo1) (T := fun _ => ![0, 1]) (A0 := fun _ => ![-1, 5]) (A1 := fun _ => ![1, 0])
    ⟨fun i => by fin_cases i <;> rfl, fun i => by fin_cases i <;> rfl, fun i => hasDerivAt_const _ _, fun i => hasDerivAt_const _ _⟩
    ⟨fun i => by fin_cases i <;> rfl, fun i => by fin_cases i <;> rfl, fun i => hasDerivAt_const _ _, fun i => hasDerivAt_const _ _⟩
    exBases_ok exBases_ok exBases_ok exBases_ok g0 (glue_boundary gu0) (glue_boundary gv1) g1 rfl rfl (rep_planar 1 bf) (fun _ => d0) (fun _ => d1)
    (fun _ => rfl) (fun _ => rfl) (fun _ => rfl) (fun _ => rfl) h0 h1
  exact ⟨gu0, gv1, geo0, geo1, φ0, φ1, L0, L1, h0, h1, key.1, key.2⟩

end
end Verif.VertexFun
