import Verif.Model.VertexTurn
import Verif.Props.VertexScale
import Verif.Props.Geom
import Verif.Props.C1Corner
/-!
# C52 for surfaces in space and C68 for the rotation of the code

The six functions at a vertex of a surface, as functions on all patches around the vertex, span a space that depends on the first two coordinates of the rotated patches only up to an invertible
matrix (`span_lin`). So a turn of the surface in space does not change the space, if the matrix of the code is a rotation (C20). If it is not, the space changes for surfaces whose patches have
different curvature, and for some normals a function at the vertex is zero.
-/
set_option autoImplicit false
namespace Verif.VertexTurn
open _root_.Verif.VertexFun _root_.Verif.EdgeFun _root_.Verif.Geom Matrix

/-! ## The first two coordinates -/

/-- The first two coordinates of `x'` are those of `x` times the matrix `(p q; r s)`. -/
def Lin (p q r s : ℝ) (x' x : Fin 3 → ℝ) : Prop := x' 0 = p * x 0 + q * x 1 ∧ x' 1 = r * x 0 + s * x 1

/-- The same for all derivatives of a patch at the vertex. -/
structure LinGeo (p q r s : ℝ) (g' g : Geo 3) : Prop where
  u : Lin p q r s g'.u g.u
  v : Lin p q r s g'.v g.v
  uu : Lin p q r s g'.uu g.uu
  uv : Lin p q r s g'.uv g.uv
  vv : Lin p q r s g'.vv g.vv

theorem Lin.symm {p q r s : ℝ} (hd : p * s - q * r ≠ 0) {x' x : Fin 3 → ℝ} (h : Lin p q r s x' x) :
    Lin (s / (p * s - q * r)) (-q / (p * s - q * r)) (-r / (p * s - q * r)) (p / (p * s - q * r)) x x' := by
  obtain ⟨h0, h1⟩ := h
  constructor
  · rw [h0, h1, div_mul_eq_mul_div, div_mul_eq_mul_div, ← add_div, eq_div_iff hd]; ring
  · rw [h0, h1, div_mul_eq_mul_div, div_mul_eq_mul_div, ← add_div, eq_div_iff hd]; ring

theorem LinGeo.symm {p q r s : ℝ} (hd : p * s - q * r ≠ 0) {g' g : Geo 3} (h : LinGeo p q r s g' g) :
    LinGeo (s / (p * s - q * r)) (-q / (p * s - q * r)) (-r / (p * s - q * r)) (p / (p * s - q * r)) g g' :=
  ⟨h.u.symm hd, h.v.symm hd, h.uu.symm hd, h.uv.symm hd, h.vv.symm hd⟩

/-- The coefficients with which the functions of one geometry are combinations of those of the other. -/
def coef (p q r s tau : ℝ) : Fin 6 → Fin 6 → ℝ :=
  ![![1, 0, 0, 0, 0, 0], ![0, tau * p, tau * q, 0, 0, 0], ![0, tau * r, tau * s, 0, 0, 0], ![0, 0, 0, tau ^ 2 * p ^ 2, tau ^ 2 * (p * q), tau ^ 2 * q ^ 2],
    ![0, 0, 0, 2 * tau ^ 2 * (p * r), tau ^ 2 * (p * s + q * r), 2 * tau ^ 2 * (q * s)], ![0, 0, 0, tau ^ 2 * r ^ 2, tau ^ 2 * (r * s), tau ^ 2 * s ^ 2]]

theorem lin_value (p q r s tau sg : ℝ) (i : Fin 6) : (dataSurface (phiSurface (tau * sg)) i).value = ∑ j : Fin 6, coef p q r s tau i j * (dataSurface (phiSurface sg) j).value := by
  fin_cases i <;> simp [dataSurface, phiSurface, coef]

theorem lin_first {p q r s : ℝ} (tau sg : ℝ) {x' x : Fin 3 → ℝ} (h : Lin p q r s x' x) (i : Fin 6) :
    (dataSurface (phiSurface (tau * sg)) i).first x' = ∑ j : Fin 6, coef p q r s tau i j * (dataSurface (phiSurface sg) j).first x := by
  obtain ⟨h0, h1⟩ := h
  fin_cases i <;> simp [dataSurface, phiSurface, coef, Fin.sum_univ_six, Fin.sum_univ_three, h0, h1] <;> ring

theorem lin_second {p q r s : ℝ} (tau sg : ℝ) {x' x y' y w' w : Fin 3 → ℝ} (h : Lin p q r s x' x) (k : Lin p q r s y' y) (l : Lin p q r s w' w) (i : Fin 6) :
    (dataSurface (phiSurface (tau * sg)) i).second x' y' w' = ∑ j : Fin 6, coef p q r s tau i j * (dataSurface (phiSurface sg) j).second x y w := by
  obtain ⟨h0, h1⟩ := h
  obtain ⟨k0, k1⟩ := k
  obtain ⟨l0, l1⟩ := l
  fin_cases i <;> simp [dataSurface, phiSurface, coef, Fin.sum_univ_six, h0, h1, k0, k1, l0, l1] <;> ring

theorem lin_fun {p q r s : ℝ} (tau sg : ℝ) {g' g : Geo 3} (h : LinGeo p q r s g' g) (bu bv : Bases) (gu gv : Glue) (i : Fin 6) (u v : ℝ) :
    vertexFun bu bv gu gv g' (dataSurface (phiSurface (tau * sg)) i) u v = ∑ j : Fin 6, coef p q r s tau i j * vertexFun bu bv gu gv g (dataSurface (phiSurface sg) j) u v := by
  obtain ⟨⟨hu0, hu1⟩, ⟨hv0, hv1⟩, ⟨huu0, huu1⟩, ⟨huv0, huv1⟩, ⟨hvv0, hvv1⟩⟩ := h
  have e1 : Lin p q r s (ddMinus g' gu) (ddMinus g gu) := by
    constructor <;> simp only [ddMinus, hu0, hu1, hv0, hv1] <;> ring
  have e2 : Lin p q r s (ddPlus g' gv) (ddPlus g gv) := by
    constructor <;> simp only [ddPlus, hu0, hu1, hv0, hv1] <;> ring
  have e3 : Lin p q r s (ddMinusDeriv g' gu) (ddMinusDeriv g gu) := by
    constructor <;> simp only [ddMinusDeriv, hu0, hu1, hv0, hv1, huu0, huu1, huv0, huv1] <;> ring
  have e4 : Lin p q r s (ddPlusDeriv g' gv) (ddPlusDeriv g gv) := by
    constructor <;> simp only [ddPlusDeriv, hu0, hu1, hv0, hv1, hvv0, hvv1, huv0, huv1] <;> ring
  have ku : Lin p q r s g'.u g.u := ⟨hu0, hu1⟩
  have kv : Lin p q r s g'.v g.v := ⟨hv0, hv1⟩
  have kuu : Lin p q r s g'.uu g.uu := ⟨huu0, huu1⟩
  have kuv : Lin p q r s g'.uv g.uv := ⟨huv0, huv1⟩
  have kvv : Lin p q r s g'.vv g.vv := ⟨hvv0, hvv1⟩
  simp only [vertexFun, dMinus, dPlus, dIk, lin_value p q r s tau sg i, lin_first tau sg ku, lin_first tau sg kv, lin_first tau sg e1, lin_first tau sg e2, lin_second tau sg ku ku kuu,
    lin_second tau sg ku e1 e3, lin_second tau sg kv kv kvv, lin_second tau sg kv e2 e4, lin_second tau sg ku kv kuv, Matrix.cons_val]
  generalize coef p q r s tau i = a
  simp only [Fin.sum_univ_six]
  ring

variable {ι : Type}

theorem lin_mem {p q r s : ℝ} {sg sg' : ℝ} (h0 : sg ≠ 0) {geo' geo : ι → Geo 3} (h : ∀ x, LinGeo p q r s (geo' x) (geo x)) (bu bv : ι → Bases) (gu gv : ι → Glue) (i : Fin 6) :
    vertexTuple bu bv gu gv geo' (dataSurface (phiSurface sg') i) ∈
      Submodule.span ℝ (Set.range fun j : Fin 6 => vertexTuple bu bv gu gv geo (dataSurface (phiSurface sg) j)) := by
  have hf : vertexTuple bu bv gu gv geo' (dataSurface (phiSurface sg') i) =
      ∑ j : Fin 6, coef p q r s (sg' / sg) i j • vertexTuple bu bv gu gv geo (dataSurface (phiSurface sg) j) := by
    funext x u v
    have := lin_fun (sg' / sg) sg (h x) (bu x) (bv x) (gu x) (gv x) i u v
    rw [div_mul_cancel₀ _ h0] at this
    rw [vertexTuple, this]
    simp only [Finset.sum_apply, Pi.smul_apply, smul_eq_mul, vertexTuple]
  rw [hf]
  exact Submodule.sum_mem _ fun j _ => Submodule.smul_mem _ _ (Submodule.subset_span ⟨j, rfl⟩)

/-- The space of the six functions on all patches does not change if the first two coordinates of all patches are mapped by one invertible matrix. -/
theorem span_lin {p q r s : ℝ} (hd : p * s - q * r ≠ 0) {sg sg' : ℝ} (h0 : sg ≠ 0) (h0' : sg' ≠ 0) {geo' geo : ι → Geo 3} (h : ∀ x, LinGeo p q r s (geo' x) (geo x))
    (bu bv : ι → Bases) (gu gv : ι → Glue) :
    Submodule.span ℝ (Set.range fun j : Fin 6 => vertexTuple bu bv gu gv geo' (dataSurface (phiSurface sg') j)) =
      Submodule.span ℝ (Set.range fun j : Fin 6 => vertexTuple bu bv gu gv geo (dataSurface (phiSurface sg) j)) := by
  apply le_antisymm <;> rw [Submodule.span_le]
  · rintro _ ⟨i, rfl⟩
    exact lin_mem h0 h bu bv gu gv i
  · rintro _ ⟨i, rfl⟩
    exact lin_mem h0' (fun x => (h x).symm hd) bu bv gu gv i

/-! ## Mapped patches -/

theorem map_u (L : M3) (g : Geo 3) : (mapGeo L g).u = L *ᵥ g.u := by funext i; simp [mapGeo, Geo.u, mulVec, dotProduct]
theorem map_v (L : M3) (g : Geo 3) : (mapGeo L g).v = L *ᵥ g.v := by funext i; simp [mapGeo, Geo.v, mulVec, dotProduct]
theorem map_uu (L : M3) (g : Geo 3) : (mapGeo L g).uu = L *ᵥ g.uu := by
  funext i; fin_cases i <;> simp [mapGeo, Geo.uu, mulVec, dotProduct]
theorem map_uv (L : M3) (g : Geo 3) : (mapGeo L g).uv = L *ᵥ g.uv := by
  funext i; fin_cases i <;> simp [mapGeo, Geo.uv, mulVec, dotProduct]
theorem map_vv (L : M3) (g : Geo 3) : (mapGeo L g).vv = L *ᵥ g.vv := by
  funext i; fin_cases i <;> simp [mapGeo, Geo.vv, mulVec, dotProduct]

theorem normal_eq (g : Geo 3) : normal g = g.u ⨯₃ g.v := by
  apply ext3 <;> simp [normal, Geo.u, Geo.v, crossProduct]

/-- Orthogonal matrices map normals to normals, up to the sign of the determinant. -/
theorem normal_map {T : M3} (hT : Tᵀ * T = 1) (g : Geo 3) : normal (mapGeo T g) = T.det • (T *ᵥ normal g) := by
  have h1 : T.adjugate = T.det • Tᵀ := by
    have h2 := congrArg (fun M => M * Tᵀ) (Matrix.adjugate_mul T)
    simp only [Matrix.mul_assoc, orth_comm hT, Matrix.mul_one, Matrix.smul_mul, Matrix.one_mul] at h2
    exact h2
  have h3 : T.adjugateᵀ = T.det • T := by rw [h1]; simp
  rw [← Matrix.smul_mulVec, ← h3, normal_eq, normal_eq, map_u, map_v]
  generalize g.u = x, g.v = y
  apply ext3 <;> simp [crossProduct, mulVec, dotProduct, Fin.sum_univ_three, Matrix.adjugate_fin_three] <;> ring

/-- Two matrices with the same third direction: the first two coordinates after the second matrix are a function of those after the first. -/
theorem lin_of {R R' : M3} (hR : Rᵀ * R = 1) (h2 : ∀ i : Fin 3, i ≠ 2 → (R' * Rᵀ) i 2 = 0) (x : V3) :
    Lin ((R' * Rᵀ) 0 0) ((R' * Rᵀ) 0 1) ((R' * Rᵀ) 1 0) ((R' * Rᵀ) 1 1) (R' *ᵥ x) (R *ᵥ x) := by
  have e : R' *ᵥ x = (R' * Rᵀ) *ᵥ (R *ᵥ x) := by rw [Matrix.mulVec_mulVec, Matrix.mul_assoc, hR, Matrix.mul_one]
  rw [e]
  have a := h2 0 (by decide)
  have b := h2 1 (by decide)
  generalize R' * Rᵀ = M at *
  generalize R *ᵥ x = y
  constructor <;> simp [mulVec, dotProduct, Fin.sum_univ_three, a, b]

theorem geo_lin {p q r s : ℝ} {R' T R : M3} {g : Geo 3} (u : Lin p q r s ((R' * T) *ᵥ g.u) (R *ᵥ g.u)) (v : Lin p q r s ((R' * T) *ᵥ g.v) (R *ᵥ g.v))
    (uu : Lin p q r s ((R' * T) *ᵥ g.uu) (R *ᵥ g.uu)) (uv : Lin p q r s ((R' * T) *ᵥ g.uv) (R *ᵥ g.uv)) (vv : Lin p q r s ((R' * T) *ᵥ g.vv) (R *ᵥ g.vv)) :
    LinGeo p q r s (mapGeo R' (mapGeo T g)) (mapGeo R g) := by
  constructor
  · rw [map_u, map_u, map_u, Matrix.mulVec_mulVec]; exact u
  · rw [map_v, map_v, map_v, Matrix.mulVec_mulVec]; exact v
  · rw [map_uu, map_uu, map_uu, Matrix.mulVec_mulVec]; exact uu
  · rw [map_uv, map_uv, map_uv, Matrix.mulVec_mulVec]; exact uv
  · rw [map_vv, map_vv, map_vv, Matrix.mulVec_mulVec]; exact vv

/-! ## C52 -/

/-- The normals for which the matrix of the code is a rotation (`C20_orthogonal_iff`). -/
def Upright (n : V3) : Prop := (n 0 = 0 ∧ n 1 = 0) ∨ n 0 ^ 2 + n 1 ^ 2 = 1

/-- Gluing data of surfaces do not change under a turn in space. -/
theorem C52_gluing_turn_surface {T : M3} (hT : Tᵀ * T = 1) (a b : V3) (uv : ℕ) (huv : uv ≤ 1) :
    alphaSurface uv (T *ᵥ a) (T *ᵥ b) = alphaSurface uv a b ∧ betaGeo uv (T *ᵥ a) (T *ᵥ b) = betaGeo uv a b := by
  rcases Nat.le_one_iff_eq_zero_or_eq_one.1 huv with rfl | rfl
  · rw [alphaSurface_eq 0 _ _ (T *ᵥ a) (T *ᵥ b) (Or.inl ⟨rfl, rfl, rfl⟩), alphaSurface_eq 0 _ _ a b (Or.inl ⟨rfl, rfl, rfl⟩), betaGeo_eq 0 _ _ (T *ᵥ a) (T *ᵥ b) (Or.inl ⟨rfl, rfl, rfl⟩),
      betaGeo_eq 0 _ _ a b (Or.inl ⟨rfl, rfl, rfl⟩)]
    simp only [orth_dot hT, and_self]
  · rw [alphaSurface_eq 1 _ _ (T *ᵥ b) (T *ᵥ a) (Or.inr ⟨rfl, rfl, rfl⟩), alphaSurface_eq 1 _ _ b a (Or.inr ⟨rfl, rfl, rfl⟩), betaGeo_eq 1 _ _ (T *ᵥ b) (T *ᵥ a) (Or.inr ⟨rfl, rfl, rfl⟩),
      betaGeo_eq 1 _ _ b a (Or.inr ⟨rfl, rfl, rfl⟩)]
    simp only [orth_dot hT, and_self]

theorem orth_det {T : M3} (hT : Tᵀ * T = 1) : T.det ≠ 0 := by
  intro h
  have := congrArg Matrix.det hT
  rw [Matrix.det_mul, h, mul_zero, Matrix.det_one] at this
  exact zero_ne_one this

/-- C52 for surfaces, partial. The six functions on all patches around a vertex span the same space however the surface lies in space, if the matrix of the code is a rotation before and after the
turn (or reflection). Missing: other normals, where it is false (`C52_turn_surface_violated`) unless all patches lie in one plane (`C52_turn_plane`). -/
theorem C52_turn_surface_partial (o : ι) {T : M3} (hT : Tᵀ * T = 1) {geo : ι → Geo 3} (hn : normal (geo o) ≠ 0) (h : Upright (normal (geo o))) (h' : Upright (normal (mapGeo T (geo o))))
    {sg sg' : ℝ} (h0 : sg ≠ 0) (h0' : sg' ≠ 0) (bu bv : ι → Bases) (gu gv : ι → Glue) :
    Submodule.span ℝ (Set.range (surfaceFuns o bu bv gu gv (fun x => mapGeo T (geo x)) sg')) = Submodule.span ℝ (Set.range (surfaceFuns o bu bv gu gv geo sg)) := by
  have hdT := orth_det hT
  have en := normal_map hT (geo o)
  set n := normal (geo o) with hnd
  set n' := normal (mapGeo T (geo o)) with hnd'
  have hTn : T *ᵥ n ≠ 0 := by
    intro e
    apply hn
    have := orth_nrm hT n
    rw [e, nrm_eq_zero.2 rfl] at this
    exact nrm_eq_zero.1 this.symm
  have hn' : n' ≠ 0 := by rw [en]; exact smul_ne_zero hdT hTn
  obtain ⟨hR, hRn⟩ := C20_partial n hn h
  obtain ⟨hR', hRn'⟩ := C20_partial n' hn' h'
  have hL : nrm n ≠ 0 := fun e => hn (nrm_eq_zero.1 e)
  set R := surfRot n with hRd
  set R' := surfRot n' with hRd'
  have hez : Rᵀ *ᵥ ez = (nrm n)⁻¹ • n := by
    have : Rᵀ *ᵥ (R *ᵥ n) = n := by rw [Matrix.mulVec_mulVec, hR, Matrix.one_mulVec]
    rw [hRn, Matrix.mulVec_smul] at this
    have e := congrArg (fun z => (nrm n)⁻¹ • z) this
    simpa only [smul_smul, inv_mul_cancel₀ hL, one_smul] using e
  have hM : (R' * T * Rᵀ) *ᵥ ez = ((nrm n)⁻¹ * (T.det⁻¹ * nrm n')) • ez := by
    rw [← Matrix.mulVec_mulVec, hez, Matrix.mulVec_smul, ← Matrix.mulVec_mulVec]
    have : T *ᵥ n = T.det⁻¹ • n' := by rw [en, smul_smul, inv_mul_cancel₀ hdT, one_smul]
    rw [this, Matrix.mulVec_smul, hRn', smul_smul, smul_smul, mul_assoc]
  have hcol : ∀ i : Fin 3, i ≠ 2 → (R' * T * Rᵀ) i 2 = 0 := by
    intro i hi
    have e : (R' * T * Rᵀ) i 2 = ((R' * T * Rᵀ) *ᵥ ez) i := by
      generalize R' * T * Rᵀ = M
      simp [mulVec, dotProduct, Fin.sum_univ_three, ez]
    rw [e, hM]
    fin_cases i
    · simp [ez]
    · simp [ez]
    · exact absurd rfl hi
  have hdet : (R' * T * Rᵀ).det ≠ 0 := by
    rw [Matrix.det_mul, Matrix.det_mul, Matrix.det_transpose]
    exact mul_ne_zero (mul_ne_zero (orth_det hR') hdT) (orth_det hR)
  have hd : (R' * T * Rᵀ) 0 0 * (R' * T * Rᵀ) 1 1 - (R' * T * Rᵀ) 0 1 * (R' * T * Rᵀ) 1 0 ≠ 0 := by
    intro e
    apply hdet
    rw [Matrix.det_fin_three, hcol 0 (by decide), hcol 1 (by decide)]
    linear_combination (R' * T * Rᵀ) 2 2 * e
  have key := lin_of (R' := R' * T) hR hcol
  exact span_lin hd h0 h0' (fun x => geo_lin (key _) (key _) (key _) (key _) (key _)) bu bv gu gv

/-- A planar patch as a patch in space. -/
def embed (g : Geo 2) : Geo 3 := ⟨fun i j => if h : i.1 < 2 then g.jac ⟨i.1, h⟩ j else 0, fun n => if n < 6 then g.der2 n else 0⟩

theorem embed_fun (bu bv : Bases) (gu gv : Glue) (g : Geo 2) (sg : ℝ) (i : Fin 6) (u v : ℝ) :
    vertexFun bu bv gu gv g (dataPlanar (phiPlanar sg) i) u v = vertexFun bu bv gu gv (embed g) (dataSurface (phiSurface sg) i) u v := by
  have val : (dataPlanar (phiPlanar sg) i).value = (dataSurface (phiSurface sg) i).value := by
    fin_cases i <;> simp [dataPlanar, dataSurface, phiPlanar, phiSurface]
  have first : ∀ (x : Fin 2 → ℝ) (x' : Fin 3 → ℝ), x' 0 = x 0 → x' 1 = x 1 → (dataPlanar (phiPlanar sg) i).first x = (dataSurface (phiSurface sg) i).first x' := by
    intro x x' h0 h1
    fin_cases i <;> simp [dataPlanar, dataSurface, phiPlanar, phiSurface, Fin.sum_univ_three, h0, h1]
  have second : ∀ (x y w : Fin 2 → ℝ) (x' y' w' : Fin 3 → ℝ), x' 0 = x 0 → x' 1 = x 1 → y' 0 = y 0 → y' 1 = y 1 → w' 0 = w 0 → w' 1 = w 1 →
      (dataPlanar (phiPlanar sg) i).second x y w = (dataSurface (phiSurface sg) i).second x' y' w' := by
    intro x y w x' y' w' a0 a1 b0 b1 c0 c1
    fin_cases i <;> simp [dataPlanar, dataSurface, phiPlanar, phiSurface, a0, a1, b0, b1, c0, c1]
  have m0 : ddMinus (embed g) gu 0 = ddMinus g gu 0 := by simp [ddMinus, embed, Geo.u, Geo.v]
  have m1 : ddMinus (embed g) gu 1 = ddMinus g gu 1 := by simp [ddMinus, embed, Geo.u, Geo.v]
  have p0 : ddPlus (embed g) gv 0 = ddPlus g gv 0 := by simp [ddPlus, embed, Geo.u, Geo.v]
  have p1 : ddPlus (embed g) gv 1 = ddPlus g gv 1 := by simp [ddPlus, embed, Geo.u, Geo.v]
  have n0 : ddMinusDeriv (embed g) gu 0 = ddMinusDeriv g gu 0 := by simp [ddMinusDeriv, embed, Geo.u, Geo.v, Geo.uu, Geo.uv]
  have n1 : ddMinusDeriv (embed g) gu 1 = ddMinusDeriv g gu 1 := by simp [ddMinusDeriv, embed, Geo.u, Geo.v, Geo.uu, Geo.uv]
  have q0 : ddPlusDeriv (embed g) gv 0 = ddPlusDeriv g gv 0 := by simp [ddPlusDeriv, embed, Geo.u, Geo.v, Geo.vv, Geo.uv]
  have q1 : ddPlusDeriv (embed g) gv 1 = ddPlusDeriv g gv 1 := by simp [ddPlusDeriv, embed, Geo.u, Geo.v, Geo.vv, Geo.uv]
  have u0 : (embed g).u 0 = g.u 0 := by simp [embed, Geo.u]
  have u1 : (embed g).u 1 = g.u 1 := by simp [embed, Geo.u]
  have v0 : (embed g).v 0 = g.v 0 := by simp [embed, Geo.v]
  have v1 : (embed g).v 1 = g.v 1 := by simp [embed, Geo.v]
  have a0 : (embed g).uu 0 = g.uu 0 := by simp [embed, Geo.uu]
  have a1 : (embed g).uu 1 = g.uu 1 := by simp [embed, Geo.uu]
  have b0 : (embed g).uv 0 = g.uv 0 := by simp [embed, Geo.uv]
  have b1 : (embed g).uv 1 = g.uv 1 := by simp [embed, Geo.uv]
  have c0 : (embed g).vv 0 = g.vv 0 := by simp [embed, Geo.vv]
  have c1 : (embed g).vv 1 = g.vv 1 := by simp [embed, Geo.vv]
  have em : dMinus g gu (dataPlanar (phiPlanar sg) i) = dMinus (embed g) gu (dataSurface (phiSurface sg) i) := by
    simp only [dMinus, val, first _ _ u0 u1, first _ _ m0 m1, second _ _ _ _ _ _ u0 u1 u0 u1 a0 a1, second _ _ _ _ _ _ u0 u1 m0 m1 n0 n1]
  have ep : dPlus g gv (dataPlanar (phiPlanar sg) i) = dPlus (embed g) gv (dataSurface (phiSurface sg) i) := by
    simp only [dPlus, val, first _ _ v0 v1, first _ _ p0 p1, second _ _ _ _ _ _ v0 v1 v0 v1 c0 c1, second _ _ _ _ _ _ v0 v1 p0 p1 q0 q1]
  have ei : dIk g (dataPlanar (phiPlanar sg) i) = dIk (embed g) (dataSurface (phiSurface sg) i) := by
    simp only [dIk, val, first _ _ u0 u1, first _ _ v0 v1, second _ _ _ _ _ _ u0 u1 v0 v1 b0 b1]
  unfold vertexFun
  rw [em, ep, ei]

theorem embed_lin (L : Matrix (Fin 2) (Fin 2) ℝ) (g : Geo 2) : LinGeo (L 0 0) (L 0 1) (L 1 0) (L 1 1) (embed (mapGeo L g)) (embed g) := by
  constructor <;> constructor <;> simp [embed, mapGeo, Geo.u, Geo.v, Geo.uu, Geo.uv, Geo.vv]

/-- C52 for all patches around a vertex of a planar geometry: the six functions on all patches together span the same space whatever the axes. -/
theorem C52_turn_planar {L : Matrix (Fin 2) (Fin 2) ℝ} (hL : L.det ≠ 0) {sg sg' : ℝ} (h0 : sg ≠ 0) (h0' : sg' ≠ 0) (bu bv : ι → Bases) (gu gv : ι → Glue) (geo : ι → Geo 2) :
    Submodule.span ℝ (Set.range fun j : Fin 6 => vertexTuple bu bv gu gv (fun x => mapGeo L (geo x)) (dataPlanar (phiPlanar sg') j)) =
      Submodule.span ℝ (Set.range fun j : Fin 6 => vertexTuple bu bv gu gv geo (dataPlanar (phiPlanar sg) j)) := by
  have e : ∀ (s : ℝ) (geo : ι → Geo 2), (fun j : Fin 6 => vertexTuple bu bv gu gv geo (dataPlanar (phiPlanar s) j)) =
      fun j : Fin 6 => vertexTuple bu bv gu gv (fun x => embed (geo x)) (dataSurface (phiSurface s) j) := by
    intro s geo
    funext j x u v
    exact embed_fun _ _ _ _ _ _ _ _ _
  rw [e, e]
  rw [Matrix.det_fin_two] at hL
  exact span_lin hL h0 h0' (fun x => embed_lin L (geo x)) bu bv gu gv

/-! ## What the matrix of the code does to the tangent plane -/

/-- The factor by which the matrix of the code stretches the axis of the turn. -/
noncomputable def axisFactor (n : V3) : ℝ := n 2 / nrm n + (1 - n 2 / nrm n) * (n 0 ^ 2 + n 1 ^ 2)

theorem rot_det (n x y : V3) (hn : n ≠ 0) {mu : ℝ} (hmu : x ⨯₃ y = mu • n) :
    (surfRot n *ᵥ x) 0 * (surfRot n *ᵥ y) 1 - (surfRot n *ᵥ y) 0 * (surfRot n *ᵥ x) 1 = mu * (axisFactor n * ((nrm (n ⨯₃ ez) ^ 3 + n 2 ^ 2) / nrm n)) := by
  have hL : nrm n ≠ 0 := fun e => hn (nrm_eq_zero.1 e)
  have e0 := congrFun hmu 0
  have e1 := congrFun hmu 1
  have e2 := congrFun hmu 2
  rw [cross0] at e0
  rw [cross1] at e1
  rw [cross2] at e2
  simp only [Pi.smul_apply, smul_eq_mul] at e0 e1 e2
  have ht : nrm (n ⨯₃ ez) ^ 2 = n 0 ^ 2 + n 1 ^ 2 := by
    rw [nrm_sq, Geom.dot3, cross0, cross1, cross2]; simp [ez]; ring
  have r0 : (n ⨯₃ ez) 0 = n 1 := by rw [cross0]; simp [ez]
  have r1 : (n ⨯₃ ez) 1 = -n 0 := by rw [cross1]; simp [ez]
  have r2 : (n ⨯₃ ez) 2 = 0 := by rw [cross2]; simp [ez]
  simp only [surfRot, nrm_ez, dot_ez, mul_one, r0, r1, r2, axisFactor]
  generalize nrm (n ⨯₃ ez) = t at *
  have hs : (t ^ 3 + n 2 ^ 2) / nrm n = t / nrm n * (n 0 ^ 2 + n 1 ^ 2) + n 2 / nrm n * n 2 := by rw [← ht]; ring
  rw [hs]
  generalize t / nrm n = s
  generalize n 2 / nrm n = c
  simp [mulVec, dotProduct, Fin.sum_univ_three]
  linear_combination (s * n 0 * (c + (1 - c) * (n 0 ^ 2 + n 1 ^ 2))) * e0 + (s * n 1 * (c + (1 - c) * (n 0 ^ 2 + n 1 ^ 2))) * e1 + c * (c + (1 - c) * (n 0 ^ 2 + n 1 ^ 2)) * e2

/-- The first two coordinates of the rotated patch are coordinates of the tangent plane exactly if the factor of the axis is not zero. -/
theorem rot_det_iff (n x y : V3) (hn : n ≠ 0) {mu : ℝ} (h0 : mu ≠ 0) (hmu : x ⨯₃ y = mu • n) :
    (surfRot n *ᵥ x) 0 * (surfRot n *ᵥ y) 1 - (surfRot n *ᵥ y) 0 * (surfRot n *ᵥ x) 1 ≠ 0 ↔ axisFactor n ≠ 0 := by
  have hL : nrm n ≠ 0 := fun e => hn (nrm_eq_zero.1 e)
  have hp : nrm (n ⨯₃ ez) ^ 3 + n 2 ^ 2 ≠ 0 := by
    have ht := nrm_nonneg (n ⨯₃ ez)
    have hq := nrm_cross_ez n
    intro e
    have h3 : 0 ≤ nrm (n ⨯₃ ez) ^ 3 := by positivity
    have h4 : n 2 ^ 2 = 0 := by nlinarith [sq_nonneg (n 2)]
    have h5 : nrm (n ⨯₃ ez) = 0 := by
      have : nrm (n ⨯₃ ez) ^ 3 = 0 := by linarith
      exact pow_eq_zero_iff (by norm_num) |>.1 this
    rw [h5, h4] at hq
    apply hL
    have : nrm n ^ 2 = 0 := by linarith
    exact pow_eq_zero_iff (by norm_num) |>.1 this
  rw [rot_det n x y hn hmu]
  constructor
  · intro h e; rw [e] at h; simp at h
  · intro h; exact mul_ne_zero h0 (mul_ne_zero h (div_ne_zero hp hL))

/-- The factor is not zero if the normal does not point downwards. -/
theorem axisFactor_pos {n : V3} (hn : n ≠ 0) (h : 0 ≤ n 2) : 0 < axisFactor n := by
  have hL : 0 < nrm n := lt_of_le_of_ne (nrm_nonneg n) fun e => hn (nrm_eq_zero.1 e.symm)
  have hq : nrm n ^ 2 = n 0 ^ 2 + n 1 ^ 2 + n 2 ^ 2 := by rw [nrm_sq, Geom.dot3]; ring
  have hle : n 2 ≤ nrm n := by nlinarith [sq_nonneg (n 0), sq_nonneg (n 1)]
  have hc1 : n 2 / nrm n ≤ 1 := (div_le_one hL).2 hle
  have hc0 : 0 ≤ n 2 / nrm n := div_nonneg h hL.le
  have ht : 0 ≤ n 0 ^ 2 + n 1 ^ 2 := by positivity
  unfold axisFactor
  rcases h.eq_or_lt with h2 | h2
  · rw [← h2] at hq ⊢
    have : 0 < n 0 ^ 2 + n 1 ^ 2 := by nlinarith
    simpa using this
  · have : 0 < n 2 / nrm n := div_pos h2 hL
    have := mul_nonneg (sub_nonneg.2 hc1) ht
    linarith

/-- All derivatives of the patch are orthogonal to `n`. -/
structure InPlane (n : V3) (g : Geo 3) : Prop where
  u : g.u ⬝ᵥ n = 0
  v : g.v ⬝ᵥ n = 0
  uu : g.uu ⬝ᵥ n = 0
  uv : g.uv ⬝ᵥ n = 0
  vv : g.vv ⬝ᵥ n = 0

theorem plane_comb {x y z : V3} (hn : x ⨯₃ y ≠ 0) (h : z ⬝ᵥ (x ⨯₃ y) = 0) : ∃ a b : ℝ, z = a • x + b • y := by
  have hd : (x ⨯₃ y) ⬝ᵥ (x ⨯₃ y) ≠ 0 := by
    intro e; apply hn; apply nrm_eq_zero.1; rw [nrm, e, Real.sqrt_zero]
  refine ⟨((z ⨯₃ y) ⬝ᵥ (x ⨯₃ y)) / ((x ⨯₃ y) ⬝ᵥ (x ⨯₃ y)), ((x ⨯₃ z) ⬝ᵥ (x ⨯₃ y)) / ((x ⨯₃ y) ⬝ᵥ (x ⨯₃ y)), ?_⟩
  have key : ((x ⨯₃ y) ⬝ᵥ (x ⨯₃ y)) • z = ((z ⨯₃ y) ⬝ᵥ (x ⨯₃ y)) • x + ((x ⨯₃ z) ⬝ᵥ (x ⨯₃ y)) • y := by
    simp only [Geom.dot3, cross0, cross1, cross2] at h ⊢
    apply ext3 <;> simp only [Pi.add_apply, Pi.smul_apply, smul_eq_mul]
    · linear_combination (x 1 * y 2 - x 2 * y 1) * h
    · linear_combination (x 2 * y 0 - x 0 * y 2) * h
    · linear_combination (x 0 * y 1 - x 1 * y 0) * h
  have e := congrArg (fun w => ((x ⨯₃ y) ⬝ᵥ (x ⨯₃ y))⁻¹ • w) key
  simp only [smul_smul, inv_mul_cancel₀ hd, one_smul, smul_add] at e
  rw [div_eq_inv_mul, div_eq_inv_mul]
  exact e

/-- In the plane spanned by `x` and `y` the first two coordinates after `M'` are a function of those after `M`. -/
theorem lin_plane {M M' : M3} {x y : V3} (hn : x ⨯₃ y ≠ 0) {D : ℝ} (hD : D = (M *ᵥ x) 0 * (M *ᵥ y) 1 - (M *ᵥ y) 0 * (M *ᵥ x) 1) (h0 : D ≠ 0) {z : V3} (h : z ⬝ᵥ (x ⨯₃ y) = 0) :
    Lin (((M' *ᵥ x) 0 * (M *ᵥ y) 1 - (M' *ᵥ y) 0 * (M *ᵥ x) 1) / D) (((M' *ᵥ y) 0 * (M *ᵥ x) 0 - (M' *ᵥ x) 0 * (M *ᵥ y) 0) / D)
      (((M' *ᵥ x) 1 * (M *ᵥ y) 1 - (M' *ᵥ y) 1 * (M *ᵥ x) 1) / D) (((M' *ᵥ y) 1 * (M *ᵥ x) 0 - (M' *ᵥ x) 1 * (M *ᵥ y) 0) / D) (M' *ᵥ z) (M *ᵥ z) := by
  obtain ⟨a, b, rfl⟩ := plane_comb hn h
  simp only [Lin, Matrix.mulVec_add, Matrix.mulVec_smul, Pi.add_apply, Pi.smul_apply, smul_eq_mul]
  constructor <;> rw [div_mul_eq_mul_div, div_mul_eq_mul_div, ← add_div, eq_div_iff h0, hD] <;> ring

/-- C52 for surfaces in a plane: whatever the matrix does, the space is the same after a turn, unless one of the two matrices flattens the plane to a line. -/
theorem C52_turn_plane (o : ι) {T : M3} (hT : Tᵀ * T = 1) {geo : ι → Geo 3} (hn : normal (geo o) ≠ 0) (hp : ∀ x, InPlane (normal (geo o)) (geo x)) (h : axisFactor (normal (geo o)) ≠ 0)
    (h' : axisFactor (normal (mapGeo T (geo o))) ≠ 0) {sg sg' : ℝ} (h0 : sg ≠ 0) (h0' : sg' ≠ 0) (bu bv : ι → Bases) (gu gv : ι → Glue) :
    Submodule.span ℝ (Set.range (surfaceFuns o bu bv gu gv (fun x => mapGeo T (geo x)) sg')) = Submodule.span ℝ (Set.range (surfaceFuns o bu bv gu gv geo sg)) := by
  have en := normal_map hT (geo o)
  have e1 : (geo o).u ⨯₃ (geo o).v = (1 : ℝ) • normal (geo o) := by rw [one_smul, normal_eq]
  have e2 : (T *ᵥ (geo o).u) ⨯₃ (T *ᵥ (geo o).v) = (1 : ℝ) • normal (mapGeo T (geo o)) := by rw [one_smul, normal_eq (mapGeo T (geo o)), map_u, map_v]
  have hn' : normal (mapGeo T (geo o)) ≠ 0 := by
    rw [en]
    refine smul_ne_zero (orth_det hT) fun e => hn ?_
    have := orth_nrm hT (normal (geo o))
    rw [e, nrm_eq_zero.2 rfl] at this
    exact nrm_eq_zero.1 this.symm
  have d1 := (rot_det_iff _ _ _ hn one_ne_zero e1).2 h
  have d2 := (rot_det_iff _ _ _ hn' one_ne_zero e2).2 h'
  have hxy : (geo o).u ⨯₃ (geo o).v ≠ 0 := by rw [← normal_eq]; exact hn
  set R := surfRot (normal (geo o)) with hR
  set R' := surfRot (normal (mapGeo T (geo o))) with hR'
  rw [Matrix.mulVec_mulVec, Matrix.mulVec_mulVec] at d2
  obtain ⟨D, hD⟩ : ∃ D, D = (R *ᵥ (geo o).u) 0 * (R *ᵥ (geo o).v) 1 - (R *ᵥ (geo o).v) 0 * (R *ᵥ (geo o).u) 1 := ⟨_, rfl⟩
  have hD0 : D ≠ 0 := by rw [hD]; exact d1
  have key := fun z (hz : z ⬝ᵥ normal (geo o) = 0) => lin_plane (M := R) (M' := R' * T) hxy hD hD0 (z := z) (by rw [← normal_eq]; exact hz)
  have hg := fun x => geo_lin (key _ (hp x).u) (key _ (hp x).v) (key _ (hp x).uu) (key _ (hp x).uv) (key _ (hp x).vv)
  refine span_lin ?_ h0 h0' hg bu bv gu gv
  generalize (R' * T) *ᵥ (geo o).u = a at *
  generalize (R' * T) *ᵥ (geo o).v = b at *
  generalize R *ᵥ (geo o).u = c at *
  generalize R *ᵥ (geo o).v = d at *
  intro e
  have e' : (a 0 * b 1 - b 0 * a 1) * D = 0 := by
    have := congrArg (fun t => t * (D * D)) e
    simp only [zero_mul] at this
    rw [← this]
    field_simp
    rw [hD]; ring
  exact mul_ne_zero d2 hD0 e'

/-! ## C68 -/

/-- All functions near the corner are independent on a patch of a surface, if the normal of the first patch at the vertex is not one of those for which the axis is mapped to zero. -/
theorem C68_rotated {c : C1Corner.Corner} {ε : ℝ} (hε : 0 < ε) (h : c.Ok ε) {first geo : Geo 3} (hn : normal first ≠ 0) {mu : ℝ} (hmu : mu ≠ 0) (hg : normal geo = mu • normal first)
    (hf : axisFactor (normal first) ≠ 0) {sigma : ℝ} (hs : sigma ≠ 0) (x : C1Corner.Coefs)
    (hz : ∀ u v, 0 ≤ u → u < ε → 0 ≤ v → v < ε → c.comb (rotGeo first geo) (fun bf => dataSurface (phiSurface sigma) bf) x u v = 0) : x.Zero c := by
  refine C1Corner.C68_surface hε h hs ?_ x hz
  have := (rot_det_iff (normal first) geo.u geo.v hn hmu (by rw [← normal_eq, hg])).2 hf
  rw [← map_u, ← map_v] at this
  exact this

/-- In particular this holds for all normals that do not point downwards. -/
theorem C68_rotated_up {c : C1Corner.Corner} {ε : ℝ} (hε : 0 < ε) (h : c.Ok ε) {first geo : Geo 3} (hn : normal first ≠ 0) (hup : 0 ≤ normal first 2) {mu : ℝ} (hmu : mu ≠ 0)
    (hg : normal geo = mu • normal first) {sigma : ℝ} (hs : sigma ≠ 0) (x : C1Corner.Coefs)
    (hz : ∀ u v, 0 ≤ u → u < ε → 0 ≤ v → v < ε → c.comb (rotGeo first geo) (fun bf => dataSurface (phiSurface sigma) bf) x u v = 0) : x.Zero c :=
  C68_rotated hε h hn hmu hg (axisFactor_pos hn hup).ne' hs x hz

theorem zero_geo (bu bv : Bases) (gu gv : Glue) (sigma u v : ℝ) : vertexFun bu bv gu gv (⟨fun _ _ => 0, fun _ => 0⟩ : Geo 3) (dataSurface (phiSurface sigma) 1) u v = 0 := by
  simp [vertexFun, dMinus, dPlus, dIk, dataSurface, phiSurface, Geo.u, Geo.v, Geo.uu, Geo.uv, Geo.vv, ddMinus, ddPlus, ddMinusDeriv, ddPlusDeriv]

/-- For the other normals a combination of the second and the third function at the vertex is zero on all patches, whatever the patches. -/
theorem C68_rotated_dependent (o : ι) {geo : ι → Geo 3} (hn : normal (geo o) ≠ 0) (hf : axisFactor (normal (geo o)) = 0) (bu bv : ι → Bases) (gu gv : ι → Glue) (sigma : ℝ) :
    (normal (geo o) 1 ≠ 0 ∨ normal (geo o) 0 ≠ 0) ∧
      ∀ p u v, normal (geo o) 1 * surfaceFuns o bu bv gu gv geo sigma 1 p u v - normal (geo o) 0 * surfaceFuns o bu bv gu gv geo sigma 2 p u v = 0 := by
  set n := normal (geo o) with hnd
  have hL : nrm n ≠ 0 := fun e => hn (nrm_eq_zero.1 e)
  refine ⟨?_, ?_⟩
  · by_contra hc
    push Not at hc
    have h0 : n 0 = 0 := hc.2
    rw [axisFactor, h0, hc.1] at hf
    have h2 : n 2 = 0 := by simpa [hL] using hf
    exact hn (ext3 h0 hc.1 h2)
  · intro p u v
    have r0 : (n ⨯₃ ez) 0 = n 1 := by rw [cross0]; simp [ez]
    have r1 : (n ⨯₃ ez) 1 = -n 0 := by rw [cross1]; simp [ez]
    have r2 : (n ⨯₃ ez) 2 = 0 := by rw [cross2]; simp [ez]
    have row : ∀ z : V3, n 1 * (surfRot n *ᵥ z) 0 + -n 0 * (surfRot n *ᵥ z) 1 = 0 := by
      intro z
      rw [axisFactor] at hf
      simp only [surfRot, nrm_ez, dot_ez, mul_one, r0, r1, r2]
      generalize nrm (n ⨯₃ ez) / nrm n = s
      generalize n 2 / nrm n = c at *
      simp [mulVec, dotProduct, Fin.sum_univ_three]
      linear_combination (n 1 * z 0 - n 0 * z 1) * hf
    have lin : LinGeo (n 1) (-n 0) 0 0 (⟨fun _ _ => 0, fun _ => 0⟩ : Geo 3) (rotGeo (geo o) (geo p)) := by
      constructor
      · rw [rotGeo, map_u]; exact ⟨(row _).symm, by simp [Geo.u]⟩
      · rw [rotGeo, map_v]; exact ⟨(row _).symm, by simp [Geo.v]⟩
      · rw [rotGeo, map_uu]; exact ⟨(row _).symm, by simp [Geo.uu]⟩
      · rw [rotGeo, map_uv]; exact ⟨(row _).symm, by simp [Geo.uv]⟩
      · rw [rotGeo, map_vv]; exact ⟨(row _).symm, by simp [Geo.vv]⟩
    have key := lin_fun 1 sigma lin (bu p) (bv p) (gu p) (gv p) 1 u v
    rw [one_mul] at key
    have hz := zero_geo (bu p) (bv p) (gu p) (gv p) sigma u v
    rw [show ((1 : Fin 6) : ℕ) = 1 from rfl, hz] at key
    simp [coef, Fin.sum_univ_six] at key
    simp only [surfaceFuns, vertexTuple]
    simp only [show ((1 : Fin 6) : ℕ) = 1 from rfl, show ((2 : Fin 6) : ℕ) = 2 from rfl]
    linarith

/-- Derivatives of a quadratic function. -/
theorem jet_quad {f : ℝ → ℝ → ℝ} (a b c : ℝ) (h : ∀ u v, f u v = a * u + b * v + c * (u * u)) : Jet2 f 0 a b (2 * c) 0 0 := by
  have hf : f = fun u v => a * u + b * v + c * (u * u) := by funext u v; exact h u v
  have d1 : ∀ v u : ℝ, HasDerivAt (fun x => a * x + b * v + c * (x * x)) (a + c * (2 * u)) u := by
    intro v u
    refine ((((hasDerivAt_id u).const_mul a).fun_add (hasDerivAt_const u (b * v))).fun_add (((hasDerivAt_id u).fun_mul (hasDerivAt_id u)).const_mul c)).congr_deriv ?_
    simp only [id, one_mul, mul_one, add_zero]; ring
  have d2 : ∀ u v : ℝ, HasDerivAt (fun x => a * u + b * x + c * (u * u)) b v := by
    intro u v
    refine (((hasDerivAt_const v (a * u)).fun_add ((hasDerivAt_id v).const_mul b)).fun_add (hasDerivAt_const v (c * (u * u)))).congr_deriv ?_
    simp
  rw [hf]
  refine ⟨by simp, ⟨fun u => a + c * (2 * u), d1 0, by simp, ?_⟩, ⟨fun _ => b, d2 0, rfl, hasDerivAt_const _ _⟩, ⟨fun _ => b, fun u => d2 u 0, hasDerivAt_const _ _⟩,
    ⟨fun _ => a, fun v => (d1 v 0).congr_deriv (by simp), hasDerivAt_const _ _⟩⟩
  refine ((((hasDerivAt_id (0 : ℝ)).const_mul 2).const_mul c).const_add a).congr_deriv ?_
  ring

/-- C68 is false for the code: a plane patch whose normal is `(2/3, 0, -8/9)`. The third function at the vertex is zero. -/
theorem C68_rotated_violated : ∃ geo : Geo 3, IsGeo geo (fun u v => ![8 / 9 * v, u, 2 / 3 * v]) ∧ normal geo ≠ 0 ∧
    ∀ (bu bv : Bases) (gu gv : Glue) (sigma u v : ℝ), vertexFun bu bv gu gv (rotGeo geo geo) (dataSurface (phiSurface sigma) 2) u v = 0 := by
  let geo : Geo 3 := ⟨![![0, 8 / 9], ![1, 0], ![0, 2 / 3]], fun _ => 0⟩
  have hnorm : normal geo = ![2 / 3, 0, -8 / 9] := by
    apply ext3 <;> simp [normal, geo]
    norm_num
  have hn : normal geo ≠ 0 := by rw [hnorm]; intro h; have := congrFun h 0; simp at this
  have hL : nrm (normal geo) = 10 / 9 := by
    rw [nrm, show normal geo ⬝ᵥ normal geo = (10 / 9) ^ 2 by rw [hnorm, Geom.dot3]; simp; norm_num]
    exact Real.sqrt_sq (by norm_num)
  have hf : axisFactor (normal geo) = 0 := by
    rw [axisFactor, hL, hnorm]; simp; norm_num
  refine ⟨geo, ?_, hn, fun bu bv gu gv sigma u v => ?_⟩
  · intro i
    fin_cases i
    · simpa [geo] using jet_quad (f := fun _ v => 8 / 9 * v) 0 (8 / 9) 0 (by intro u v; ring)
    · simpa [geo] using jet_quad (f := fun u _ => u) 1 0 0 (by intro u v; ring)
    · simpa [geo] using jet_quad (f := fun _ v => 2 / 3 * v) 0 (2 / 3) 0 (by intro u v; ring)
  · have := (C68_rotated_dependent (ι := Unit) () (geo := fun _ => geo) hn hf (fun _ => bu) (fun _ => bv) (fun _ => gu) (fun _ => gv) sigma).2 () u v
    rw [hnorm] at this
    simpa [surfaceFuns, vertexTuple] using this

/-! ## C52 is false for curved surfaces -/

/-- The surfaces `(u, v, u²/2)` and `(-u, v, 0)`: they have a common edge and common tangent planes along it. -/
noncomputable def bent : Bool → Geo 3
  | true => ⟨![![1, 0], ![0, 1], ![0, 0]], fun n => if n = 6 then 1 else 0⟩
  | false => ⟨![![-1, 0], ![0, 1], ![0, 0]], fun _ => 0⟩

noncomputable def bentMap : Bool → ℝ → ℝ → V3
  | true => fun u v => ![u, v, 1 / 2 * (u * u)]
  | false => fun u v => ![-u, v, 0]

theorem bent_geo (x : Bool) : IsGeo (bent x) (bentMap x) := by
  intro i
  cases x
  · fin_cases i
    · simpa [bent, bentMap] using jet_quad (f := fun u _ => -u) (-1) 0 0 (by intro u v; ring)
    · simpa [bent, bentMap] using jet_quad (f := fun _ v => v) 0 1 0 (by intro u v; ring)
    · simpa [bent, bentMap] using jet_quad (f := fun _ _ => 0) 0 0 0 (by intro u v; ring)
  · fin_cases i
    · simpa [bent, bentMap] using jet_quad (f := fun u _ => u) 1 0 0 (by intro u v; ring)
    · simpa [bent, bentMap] using jet_quad (f := fun _ v => v) 0 1 0 (by intro u v; ring)
    · simpa [bent, bentMap] using jet_quad (f := fun u _ => 1 / 2 * (u * u)) 0 0 (1 / 2) (by intro u v; ring)

/-- A turn about the first axis. -/
noncomputable def tilt : M3 := !![1, 0, 0; 0, 4 / 5, -(3 / 5); 0, 3 / 5, 4 / 5]

theorem tilt_orth : tiltᵀ * tilt = 1 := by
  ext i j
  fin_cases i <;> fin_cases j <;> simp [tilt, Matrix.mul_apply, Fin.sum_univ_three] <;> norm_num

theorem bent_normal : normal (bent true) = ez := by apply ext3 <;> simp [normal, bent, ez]

theorem rot_ez : surfRot ez = 1 := by
  have h : ez ⨯₃ ez = 0 := by simp
  rw [surfRot_eq, h, nrm_ez, dot_ez]
  simp [skew, nrm, ez]

theorem tilt_normal : normal (mapGeo tilt (bent true)) = ![0, -(3 / 5), 4 / 5] := by
  rw [normal_eq, map_u, map_v]
  apply ext3 <;> simp [crossProduct, tilt, bent, Geo.u, Geo.v, dotProduct, Fin.sum_univ_three]

theorem rot_tilt : surfRot (![0, -(3 / 5), 4 / 5] : V3) = !![109 / 125, 0, 0; 0, 4 / 5, 9 / 25; 0, -(9 / 25), 4 / 5] := by
  have hc : (![0, -(3 / 5), 4 / 5] : V3) ⨯₃ ez = ![-(3 / 5), 0, 0] := by
    apply ext3
    · rw [cross0]; simp [ez]
    · rw [cross1]; simp [ez]
    · rw [cross2]; simp [ez]
  have h1 : nrm (![0, -(3 / 5), 4 / 5] : V3) = 1 := by
    rw [nrm_eq_one, Geom.dot3]; simp; norm_num
  have h2 : nrm (![-(3 / 5), 0, 0] : V3) = 3 / 5 := by
    rw [nrm, show (![-(3 / 5), 0, 0] : V3) ⬝ᵥ (![-(3 / 5), 0, 0] : V3) = (3 / 5) ^ 2 by rw [Geom.dot3]; simp; norm_num]
    exact Real.sqrt_sq (by norm_num)
  simp only [surfRot, hc, h1, h2, nrm_ez, dot_ez]
  ext i j
  fin_cases i <;> fin_cases j <;> simp <;> norm_num

/-- C52 is false for the code: the surface that consists of `(u, v, u²/2)` and `(-u, v, 0)`, turned about the first axis, has another space of functions at the vertex. -/
theorem C52_turn_surface_violated (bu bv : Bool → Bases) (gu gv : Bool → Glue) (hu : ∀ x, (bu x).Ok) (hv : ∀ x, (bv x).Ok) (hgu : ∀ x, (gu x).Ok) (hgv : ∀ x, (gv x).Ok)
    {sg sg' : ℝ} (h0' : sg' ≠ 0) :
    Submodule.span ℝ (Set.range (surfaceFuns true bu bv gu gv (fun x => mapGeo tilt (bent x)) sg')) ≠ Submodule.span ℝ (Set.range (surfaceFuns true bu bv gu gv bent sg)) := by
  intro e
  have hm : surfaceFuns true bu bv gu gv (fun x => mapGeo tilt (bent x)) sg' 2 ∈ Submodule.span ℝ (Set.range (surfaceFuns true bu bv gu gv bent sg)) := by
    rw [← e]; exact Submodule.subset_span ⟨2, rfl⟩
  obtain ⟨c, hc⟩ := (Submodule.mem_span_range_iff_exists_fun ℝ).1 hm
  have before : ∀ x, Jet2 (surfaceFuns true bu bv gu gv (fun x => mapGeo tilt (bent x)) sg' 2 x) _ _ _ _ _ _ := fun x =>
    vertex_jet (geo := rotGeo (mapGeo tilt (bent true)) (mapGeo tilt (bent x))) (hu x) (hv x) (hgu x) (hgv x) (rep_surface sg' 2)
  have after : ∀ x, Jet2 (surfaceFuns true bu bv gu gv (fun x => mapGeo tilt (bent x)) sg' 2 x) _ _ _ _ _ _ := fun x => by
    rw [show surfaceFuns true bu bv gu gv (fun x => mapGeo tilt (bent x)) sg' 2 x = fun u v => ∑ j, c j * surfaceFuns true bu bv gu gv bent sg j x u v by
      rw [← hc]; funext u v; simp]
    exact Jet2.sum Finset.univ fun j => (Jet2.const (c j)).mul (vertex_jet (geo := rotGeo (bent true) (bent x)) (hu x) (hv x) (hgu x) (hgv x) (rep_surface sg j))
  have key := fun x => ((before x).unique (after x)).2.2.2.1
  have k1 := key true
  have k0 := key false
  have s1 : ∀ j : Fin 6, (dataSurface (phiSurface sg) j).second (rotGeo (bent true) (bent true)).u (rotGeo (bent true) (bent true)).u (rotGeo (bent true) (bent true)).uu =
      (dataSurface (phiSurface sg) j).second (rotGeo (bent true) (bent false)).u (rotGeo (bent true) (bent false)).u (rotGeo (bent true) (bent false)).uu := by
    intro j
    simp only [rotGeo, map_u, map_uu, bent_normal, rot_ez, Matrix.one_mulVec]
    fin_cases j <;> simp [dataSurface, phiSurface, bent, Geo.u, Geo.uu]
  have lhs := k1.trans ((Finset.sum_congr rfl fun j _ => by rw [s1 j]; ring).trans k0.symm)
  simp only [rotGeo, map_u, map_uu, tilt_normal, rot_tilt] at lhs
  simp [dataSurface, phiSurface, bent, Geo.u, Geo.uu, tilt, dotProduct, Fin.sum_univ_three] at lhs
  rcases lhs with h | h
  · exact h0' h
  · norm_num at h

/-! ## Concrete cases -/

/-- A quarter turn about the first axis. -/
def quarter : M3 := !![1, 0, 0; 0, 0, -1; 0, 1, 0]

theorem quarter_orth : quarterᵀ * quarter = 1 := by
  ext i j
  fin_cases i <;> fin_cases j <;> simp [quarter, Matrix.mul_apply, Fin.sum_univ_three]

/-- The bent surface after a quarter turn: here the matrix of the code is a rotation. -/
example (bu bv : Bool → Bases) (gu gv : Bool → Glue) : Submodule.span ℝ (Set.range (surfaceFuns true bu bv gu gv (fun x => mapGeo quarter (bent x)) 3)) =
    Submodule.span ℝ (Set.range (surfaceFuns true bu bv gu gv bent 5)) := by
  refine C52_turn_surface_partial true quarter_orth ?_ ?_ ?_ (by norm_num) (by norm_num) bu bv gu gv
  · rw [bent_normal]; intro h; have := congrFun h 2; simp [ez] at this
  · rw [bent_normal]; exact Or.inl ⟨by simp [ez], by simp [ez]⟩
  · rw [normal_map quarter_orth, bent_normal]
    refine Or.inr ?_
    simp [quarter, Matrix.det_fin_three, ez]

/-- A turn by an angle for which the matrix of the code is no rotation, but all patches lie in one plane. -/
example (bu bv : Fin 4 → Bases) (gu gv : Fin 4 → Glue) : Submodule.span ℝ (Set.range (surfaceFuns 0 bu bv gu gv (fun _ => mapGeo tilt (bent false)) 3)) =
    Submodule.span ℝ (Set.range (surfaceFuns 0 bu bv gu gv (fun _ => bent false) 5)) := by
  have hb : normal (bent false) = -ez := by apply ext3 <;> simp [normal, bent, ez]
  have h1 : nrm (-ez) = 1 := by rw [nrm_eq_one, Geom.dot3]; simp [ez]
  have ht : normal (mapGeo tilt (bent false)) = ![0, 3 / 5, -(4 / 5)] := by
    rw [normal_eq, map_u, map_v]
    apply ext3 <;> simp [crossProduct, tilt, bent, Geo.u, Geo.v, dotProduct, Fin.sum_univ_three]
  have h2 : nrm (![0, 3 / 5, -(4 / 5)] : V3) = 1 := by rw [nrm_eq_one, Geom.dot3]; simp; norm_num
  refine C52_turn_plane 0 tilt_orth (geo := fun _ => bent false) ?_ (fun _ => ?_) ?_ ?_ (by norm_num) (by norm_num) bu bv gu gv
  · rw [hb]; intro h; have := congrFun h 2; simp [ez] at this
  · rw [hb]; constructor <;> rw [Geom.dot3] <;> simp [bent, Geo.u, Geo.v, Geo.uu, Geo.uv, Geo.vv, ez]
  · rw [hb, axisFactor, h1]; simp [ez]
  · rw [ht, axisFactor, h2]; simp; norm_num

/-- Functions near a corner of the tilted bent surface, with the normal `(0, -3/5, 4/5)`. -/
example (x : C1Corner.Coefs) (h : ∀ u v, 0 ≤ u → u < 1 / 4 → 0 ≤ v → v < 1 / 4 →
    C1Corner.exCorner.comb (rotGeo (mapGeo tilt (bent true)) (mapGeo tilt (bent false))) (fun bf => dataSurface (phiSurface 2) bf) x u v = 0) : x.vertex 4 = 0 := by
  have hn : normal (mapGeo tilt (bent false)) = (-1 : ℝ) • normal (mapGeo tilt (bent true)) := by
    rw [tilt_normal, normal_eq, map_u, map_v]
    apply ext3 <;> simp [crossProduct, tilt, bent, Geo.u, Geo.v, dotProduct, Fin.sum_univ_three]
  have := C68_rotated_up (by norm_num) C1Corner.exCorner_ok (by rw [tilt_normal]; intro h; have := congrFun h 2; simp at this) (by rw [tilt_normal]; simp; norm_num) (by norm_num) hn (by norm_num) x h
  simpa using congrFun this.vertex 4

/-- Three planar patches, turned by the angle with cosine `3/5`. -/
example (bu bv : Fin 3 → Bases) (gu gv : Fin 3 → Glue) (geo : Fin 3 → Geo 2) :
    Submodule.span ℝ (Set.range fun j : Fin 6 => vertexTuple bu bv gu gv (fun x => mapGeo !![3 / 5, -(4 / 5); 4 / 5, 3 / 5] (geo x)) (dataPlanar (phiPlanar 1) j)) =
      Submodule.span ℝ (Set.range fun j : Fin 6 => vertexTuple bu bv gu gv geo (dataPlanar (phiPlanar 1) j)) :=
  C52_turn_planar (by rw [Matrix.det_fin_two]; simp; norm_num) one_ne_zero one_ne_zero bu bv gu gv geo

end Verif.VertexTurn
