import Verif.Model.VertexScale
import Verif.Props.VertexFun
import Mathlib.Tactic.IntervalCases
import Mathlib.LinearAlgebra.Span.Basic
/-!
# Property C52: units of length and axes play no role for the functions at a vertex

The factor `sigma` is positive and of the right size; the functions in the parameter domain do not depend on the unit of length; their span does not depend on the axes of the plane.
-/
set_option autoImplicit false
namespace Verif.VertexScale
open _root_.Verif.VertexFun _root_.Verif.EdgeFun

/-! ## Change of the unit -/

variable {k : ℕ}

/-- The patch in another unit of length: all coordinates times `l`. -/
def scaleGeo (l : ℝ) (g : Geo k) : Geo k := ⟨fun i j => l * g.jac i j, fun i => l * g.der2 i⟩

/-- `alpha` times `m`, `beta` as it was. -/
def scaleGlue (m : ℝ) (g : Glue) : Glue := ⟨fun t => m * g.alpha t, g.beta, m * g.dalpha, g.dbeta⟩

/-- What happens to gluing data when the unit changes: `alpha` is multiplied by `l²` for planar patches and by `l` for surfaces, `beta` stays. -/
theorem C52_gluing_scale {l : ℝ} (hl : 0 < l) (a b : Fin 2 → ℝ) (c d : Fin 3 → ℝ) (uv : ℕ) (huv : uv ≤ 1) :
    alphaPlanar (l • a) (l • b) = l ^ 2 * alphaPlanar a b ∧ alphaSurface uv (l • c) (l • d) = l * alphaSurface uv c d ∧
    (∀ {n : ℕ} (x y : Fin n → ℝ), betaGeo uv (l • x) (l • y) = betaGeo uv x y) := by
  have key : ∀ (T A : Fin 3 → ℝ), 1 / Real.sqrt ((l • T) ⬝ᵥ (l • T)) * Real.sqrt ((l • A) ⬝ᵥ (l • A) * ((l • T) ⬝ᵥ (l • T)) - ((l • A) ⬝ᵥ (l • T)) ^ 2) =
      l * (1 / Real.sqrt (T ⬝ᵥ T) * Real.sqrt (A ⬝ᵥ A * (T ⬝ᵥ T) - (A ⬝ᵥ T) ^ 2)) := by
    intro T A
    have h1 : (l • A) ⬝ᵥ (l • A) * ((l • T) ⬝ᵥ (l • T)) - ((l • A) ⬝ᵥ (l • T)) ^ 2 = (l ^ 2) ^ 2 * (A ⬝ᵥ A * (T ⬝ᵥ T) - (A ⬝ᵥ T) ^ 2) := by
      simp only [smul_dotProduct, dotProduct_smul, smul_eq_mul]; ring
    have h2 : (l • T) ⬝ᵥ (l • T) = l ^ 2 * (T ⬝ᵥ T) := by simp only [smul_dotProduct, dotProduct_smul, smul_eq_mul]; ring
    rw [h1, h2, Real.sqrt_mul (by positivity), Real.sqrt_mul (by positivity), Real.sqrt_sq hl.le, Real.sqrt_sq (by positivity)]
    have := hl.ne'
    field_simp
  refine ⟨by rw [det_two, det_two]; simp; ring, ?_, ?_⟩
  · rcases Nat.le_one_iff_eq_zero_or_eq_one.1 huv with rfl | rfl
    · rw [alphaSurface_eq 0 _ _ (l • c) (l • d) (Or.inl ⟨rfl, rfl, rfl⟩), alphaSurface_eq 0 _ _ c d (Or.inl ⟨rfl, rfl, rfl⟩), key]
    · rw [alphaSurface_eq 1 _ _ (l • d) (l • c) (Or.inr ⟨rfl, rfl, rfl⟩), alphaSurface_eq 1 _ _ d c (Or.inr ⟨rfl, rfl, rfl⟩), key]
  · intro n x y
    have : ∀ T A : Fin n → ℝ, ((l • T) ⬝ᵥ (l • A)) / ((l • T) ⬝ᵥ (l • T)) = (T ⬝ᵥ A) / (T ⬝ᵥ T) := by
      intro T A
      simp only [smul_dotProduct, dotProduct_smul, smul_eq_mul]
      have := hl.ne'
      rw [mul_div_mul_left _ _ this, mul_div_mul_left _ _ this]
    rcases Nat.le_one_iff_eq_zero_or_eq_one.1 huv with rfl | rfl
    · rw [betaGeo_eq 0 _ _ (l • x) (l • y) (Or.inl ⟨rfl, rfl, rfl⟩), betaGeo_eq 0 _ _ x y (Or.inl ⟨rfl, rfl, rfl⟩), this]
    · rw [betaGeo_eq 1 _ _ (l • y) (l • x) (Or.inr ⟨rfl, rfl, rfl⟩), betaGeo_eq 1 _ _ y x (Or.inr ⟨rfl, rfl, rfl⟩), this]

/-- What the data have to do under a change of the unit. -/
structure DataScale (l : ℝ) (D' D : Data k) : Prop where
  value : D'.value = D.value
  first : ∀ c z, D'.first (fun i => l * (c * z i)) = c * D.first z
  second : ∀ c x y w, D'.second (fun i => l * x i) (fun i => l * (c * y i)) (fun i => l * (c * w i)) = c * D.second x y w

theorem scale_planar (l s : ℝ) {i : ℕ} (hi : i < 6) : DataScale l (dataPlanar (phiPlanar s) i) (dataPlanar (phiPlanar (l * s)) i) := by
  constructor
  · interval_cases i <;> simp [dataPlanar, phiPlanar]
  · intro c z
    interval_cases i <;> simp [dataPlanar, Fin.sum_univ_two, phiPlanar] <;> ring
  · intro c x y w
    interval_cases i <;> simp [dataPlanar, phiPlanar] <;> ring

theorem scale_surface (l s : ℝ) {i : ℕ} (hi : i < 6) : DataScale l (dataSurface (phiSurface s) i) (dataSurface (phiSurface (l * s)) i) := by
  constructor
  · interval_cases i <;> simp [dataSurface, phiSurface]
  · intro c z
    interval_cases i <;> simp [dataSurface, Fin.sum_univ_three, phiSurface] <;> ring
  · intro c x y w
    interval_cases i <;> simp [dataSurface, phiSurface] <;> ring

/-- C52. The function at the vertex is the same in every unit of length, if the data change as they have to. The two edges may have different factors (the gluing data of a boundary edge are not scaled). -/
theorem scale_fun {l mu mv : ℝ} (hl : l ≠ 0) (hu : mu ≠ 0) (hv : mv ≠ 0) {D' D : Data k} (h : DataScale l D' D) (bu bv : Bases) (gu gv : Glue) (geo : Geo k) (u v : ℝ) :
    vertexFun bu bv (scaleGlue mu gu) (scaleGlue mv gv) (scaleGeo l geo) D' u v = vertexFun bu bv gu gv geo D u v := by
  have f1 : ∀ z, D'.first (fun i => l * z i) = D.first z := fun z => by simpa using h.first 1 z
  have s1 : ∀ x y w, D'.second (fun i => l * x i) (fun i => l * y i) (fun i => l * w i) = D.second x y w := fun x y w => by simpa using h.second 1 x y w
  have e1 : ddMinus (scaleGeo l geo) (scaleGlue mu gu) = fun i => l * (mu⁻¹ * ddMinus geo gu i) := by
    funext i; simp only [ddMinus, scaleGlue, scaleGeo, Geo.u, Geo.v, neg_div, one_div, mul_inv]; ring
  have e2 : ddPlus (scaleGeo l geo) (scaleGlue mv gv) = fun i => l * (mv⁻¹ * ddPlus geo gv i) := by
    funext i; simp only [ddPlus, scaleGlue, scaleGeo, Geo.u, Geo.v, one_div, mul_inv]; ring
  have e3 : ddMinusDeriv (scaleGeo l geo) (scaleGlue mu gu) = fun i => l * (mu⁻¹ * ddMinusDeriv geo gu i) := by
    funext i
    simp only [ddMinusDeriv, scaleGlue, scaleGeo, Geo.u, Geo.v, Geo.uu, Geo.uv]
    by_cases h0 : gu.alpha 0 = 0
    · simp [h0]
    · field_simp
  have e4 : ddPlusDeriv (scaleGeo l geo) (scaleGlue mv gv) = fun i => l * (mv⁻¹ * ddPlusDeriv geo gv i) := by
    funext i
    simp only [ddPlusDeriv, scaleGlue, scaleGeo, Geo.u, Geo.v, Geo.vv, Geo.uv]
    by_cases h0 : gv.alpha 0 = 0
    · simp [h0]
    · field_simp
  have em : dMinus (scaleGeo l geo) (scaleGlue mu gu) D' = ![dMinus geo gu D 0, dMinus geo gu D 1, dMinus geo gu D 2, mu⁻¹ * dMinus geo gu D 3, mu⁻¹ * dMinus geo gu D 4] := by
    unfold dMinus
    rw [e1, e3, h.first, show (scaleGeo l geo).u = fun i => l * geo.u i from rfl, show (scaleGeo l geo).uu = fun i => l * geo.uu i from rfl, h.second, f1, s1, h.value]
    rfl
  have ep : dPlus (scaleGeo l geo) (scaleGlue mv gv) D' = ![dPlus geo gv D 0, dPlus geo gv D 1, dPlus geo gv D 2, mv⁻¹ * dPlus geo gv D 3, mv⁻¹ * dPlus geo gv D 4] := by
    unfold dPlus
    rw [e2, e4, h.first, show (scaleGeo l geo).v = fun i => l * geo.v i from rfl, show (scaleGeo l geo).vv = fun i => l * geo.vv i from rfl, h.second, f1, s1, h.value]
    rfl
  have ei : dIk (scaleGeo l geo) D' = dIk geo D := by
    unfold dIk
    rw [show (scaleGeo l geo).u = fun i => l * geo.u i from rfl, show (scaleGeo l geo).v = fun i => l * geo.v i from rfl, show (scaleGeo l geo).uv = fun i => l * geo.uv i from rfl, f1, f1, s1, h.value]
  unfold vertexFun
  rw [em, ep, ei]
  simp only [scaleGlue]
  generalize dMinus geo gu D = m, dPlus geo gv D = p
  have c1 : ∀ a b : ℝ, mu⁻¹ * a * (mu * b) = a * b := fun a b => by field_simp
  have c2 : ∀ a b : ℝ, mv⁻¹ * a * (mv * b) = a * b := fun a b => by field_simp
  simp only [mul_assoc mu, mul_assoc mv, Matrix.cons_val, c1, c2]

/-! ## Rotation of the axes -/

/-- The planar patch with coordinates turned by the angle with cosine `c` and sine `s`. -/
def turn (c s : ℝ) (x : Fin 2 → ℝ) : Fin 2 → ℝ := ![c * x 0 - s * x 1, s * x 0 + c * x 1]

def turnGeo (c s : ℝ) (g : Geo 2) : Geo 2 :=
  ⟨fun i j => turn c s (fun i => g.jac i j) i, fun n => if n < 3 then c * g.der2 n - s * g.der2 (n + 3) else s * g.der2 (n - 3) + c * g.der2 n⟩

/-- Gluing data do not change. -/
theorem C52_gluing_turn {c s : ℝ} (h : c ^ 2 + s ^ 2 = 1) (a b : Fin 2 → ℝ) (uv : ℕ) (huv : uv ≤ 1) :
    alphaPlanar (turn c s a) (turn c s b) = alphaPlanar a b ∧ betaGeo uv (turn c s a) (turn c s b) = betaGeo uv a b := by
  have hd : ∀ x y : Fin 2 → ℝ, turn c s x ⬝ᵥ turn c s y = x ⬝ᵥ y := by
    intro x y
    simp only [dotProduct, Fin.sum_univ_two, turn, Matrix.cons_val_zero, Matrix.cons_val_one]
    linear_combination (x 0 * y 0 + x 1 * y 1) * h
  refine ⟨?_, ?_⟩
  · rw [det_two, det_two]
    simp only [turn, Matrix.cons_val_zero, Matrix.cons_val_one]
    linear_combination (a 0 * b 1 - b 0 * a 1) * h
  · rcases Nat.le_one_iff_eq_zero_or_eq_one.1 huv with rfl | rfl
    · rw [betaGeo_eq 0 _ _ _ _ (Or.inl ⟨rfl, rfl, rfl⟩), betaGeo_eq 0 _ _ a b (Or.inl ⟨rfl, rfl, rfl⟩), hd, hd]
    · rw [betaGeo_eq 1 _ _ _ _ (Or.inr ⟨rfl, rfl, rfl⟩), betaGeo_eq 1 _ _ b a (Or.inr ⟨rfl, rfl, rfl⟩), hd, hd]

/-- Data after the turn are the combination with coefficients `a` of the data before it. -/
structure DataTurn (c s : ℝ) (a : Fin 6 → ℝ) (D' : Data 2) (D : Fin 6 → Data 2) : Prop where
  value : D'.value = ∑ j, a j * (D j).value
  first : ∀ z, D'.first (turn c s z) = ∑ j, a j * (D j).first z
  second : ∀ x y w, D'.second (turn c s x) (turn c s y) (turn c s w) = ∑ j, a j * (D j).second x y w

private theorem turn_fun {c s : ℝ} {a : Fin 6 → ℝ} {D' : Data 2} {D : Fin 6 → Data 2} (h : DataTurn c s a D' D) (bu bv : Bases) (gu gv : Glue) (geo : Geo 2) (u v : ℝ) :
    vertexFun bu bv gu gv (turnGeo c s geo) D' u v = ∑ j, a j * vertexFun bu bv gu gv geo (D j) u v := by
  have gu' : (turnGeo c s geo).u = turn c s geo.u := by funext i; fin_cases i <;> simp [turnGeo, Geo.u, turn]
  have gv' : (turnGeo c s geo).v = turn c s geo.v := by funext i; fin_cases i <;> simp [turnGeo, Geo.v, turn]
  have guu : (turnGeo c s geo).uu = turn c s geo.uu := by funext i; fin_cases i <;> simp [turnGeo, Geo.uu, turn]
  have guv : (turnGeo c s geo).uv = turn c s geo.uv := by funext i; fin_cases i <;> simp [turnGeo, Geo.uv, turn]
  have gvv : (turnGeo c s geo).vv = turn c s geo.vv := by funext i; fin_cases i <;> simp [turnGeo, Geo.vv, turn]
  have e1 : ddMinus (turnGeo c s geo) gu = turn c s (ddMinus geo gu) := by
    funext i; simp only [ddMinus, gu', gv']; fin_cases i <;> simp [turn, ddMinus] <;> ring
  have e2 : ddPlus (turnGeo c s geo) gv = turn c s (ddPlus geo gv) := by
    funext i; simp only [ddPlus, gu', gv']; fin_cases i <;> simp [turn, ddPlus] <;> ring
  have e3 : ddMinusDeriv (turnGeo c s geo) gu = turn c s (ddMinusDeriv geo gu) := by
    funext i; simp only [ddMinusDeriv, gu', gv', guu, guv]; fin_cases i <;> simp [turn, ddMinusDeriv] <;> ring
  have e4 : ddPlusDeriv (turnGeo c s geo) gv = turn c s (ddPlusDeriv geo gv) := by
    funext i; simp only [ddPlusDeriv, gu', gv', gvv, guv]; fin_cases i <;> simp [turn, ddPlusDeriv] <;> ring
  simp only [vertexFun, dMinus, dPlus, dIk, e1, e2, e3, e4, gu', gv', guu, guv, gvv, h.value, h.first, h.second, Matrix.cons_val, Fin.sum_univ_six]
  ring

private theorem turn_data (c s sg tau : ℝ) (i : Fin 6) :
    DataTurn c s ((![![1, 0, 0, 0, 0, 0], ![0, tau * c, -(tau * s), 0, 0, 0], ![0, tau * s, tau * c, 0, 0, 0], ![0, 0, 0, tau ^ 2 * c ^ 2, -(tau ^ 2 * (c * s)), tau ^ 2 * s ^ 2],
      ![0, 0, 0, 2 * tau ^ 2 * (c * s), tau ^ 2 * (c ^ 2 - s ^ 2), -(2 * tau ^ 2 * (c * s))], ![0, 0, 0, tau ^ 2 * s ^ 2, tau ^ 2 * (c * s), tau ^ 2 * c ^ 2]] : Fin 6 → Fin 6 → ℝ) i)
      (dataPlanar (phiPlanar (tau * sg)) i) (fun j => dataPlanar (phiPlanar sg) j) := by
  constructor
  · fin_cases i <;> simp [dataPlanar, phiPlanar]
  · intro z
    fin_cases i <;> simp [dataPlanar, phiPlanar, Fin.sum_univ_six, turn] <;> ring
  · intro x y w
    fin_cases i <;> simp [dataPlanar, phiPlanar, Fin.sum_univ_six, turn] <;> ring

private theorem turn_mem (c s : ℝ) {sg sg' : ℝ} (h : sg ≠ 0) (bu bv : Bases) (gu gv : Glue) (geo : Geo 2) (i : Fin 6) :
    vertexFun bu bv gu gv (turnGeo c s geo) (dataPlanar (phiPlanar sg') i) ∈
      Submodule.span ℝ (Set.range fun j : Fin 6 => vertexFun bu bv gu gv geo (dataPlanar (phiPlanar sg) j)) := by
  have hd := turn_data c s sg (sg' / sg) i
  rw [div_mul_cancel₀ _ h] at hd
  obtain ⟨a, ha⟩ : ∃ a, DataTurn c s a (dataPlanar (phiPlanar sg') i) (fun j => dataPlanar (phiPlanar sg) j) := ⟨_, hd⟩
  have hf : vertexFun bu bv gu gv (turnGeo c s geo) (dataPlanar (phiPlanar sg') i) = ∑ j : Fin 6, a j • vertexFun bu bv gu gv geo (dataPlanar (phiPlanar sg) j) := by
    funext u v
    rw [turn_fun ha]
    simp only [Finset.sum_apply, Pi.smul_apply, smul_eq_mul]
  rw [hf]
  exact Submodule.sum_mem _ fun j _ => Submodule.smul_mem _ _ (Submodule.subset_span ⟨j, rfl⟩)

/-- C52. The six functions span the same space whatever the axes of the plane and whatever the two (nonzero) factors, though the functions themselves change. -/
theorem C52_turn {c s : ℝ} (h : c ^ 2 + s ^ 2 = 1) {sg sg' : ℝ} (h0 : sg ≠ 0) (h0' : sg' ≠ 0) (bu bv : Bases) (gu gv : Glue) (geo : Geo 2) :
    Submodule.span ℝ (Set.range fun j : Fin 6 => vertexFun bu bv gu gv (turnGeo c s geo) (dataPlanar (phiPlanar sg') j)) =
      Submodule.span ℝ (Set.range fun j : Fin 6 => vertexFun bu bv gu gv geo (dataPlanar (phiPlanar sg) j)) := by
  apply le_antisymm <;> rw [Submodule.span_le]
  · rintro _ ⟨i, rfl⟩
    exact turn_mem c s h0 bu bv gu gv geo i
  · rintro _ ⟨i, rfl⟩
    have e : ∀ D u v, vertexFun bu bv gu gv (turnGeo c (-s) (turnGeo c s geo)) D u v = vertexFun bu bv gu gv geo D u v := by
      intro D u v
      have gu' : (turnGeo c (-s) (turnGeo c s geo)).u = geo.u := by
        funext i; fin_cases i <;> simp [turnGeo, Geo.u, turn]
        · linear_combination geo.jac 0 0 * h
        · linear_combination geo.jac 1 0 * h
      have gv' : (turnGeo c (-s) (turnGeo c s geo)).v = geo.v := by
        funext i; fin_cases i <;> simp [turnGeo, Geo.v, turn]
        · linear_combination geo.jac 0 1 * h
        · linear_combination geo.jac 1 1 * h
      have guu : (turnGeo c (-s) (turnGeo c s geo)).uu = geo.uu := by
        funext i; fin_cases i <;> simp [turnGeo, Geo.uu]
        · linear_combination geo.der2 0 * h
        · linear_combination geo.der2 3 * h
      have guv : (turnGeo c (-s) (turnGeo c s geo)).uv = geo.uv := by
        funext i; fin_cases i <;> simp [turnGeo, Geo.uv]
        · linear_combination geo.der2 2 * h
        · linear_combination geo.der2 5 * h
      have gvv : (turnGeo c (-s) (turnGeo c s geo)).vv = geo.vv := by
        funext i; fin_cases i <;> simp [turnGeo, Geo.vv]
        · linear_combination geo.der2 1 * h
        · linear_combination geo.der2 4 * h
      have e1 : ddMinus (turnGeo c (-s) (turnGeo c s geo)) gu = ddMinus geo gu := by funext i; simp only [ddMinus, gu', gv']
      have e2 : ddPlus (turnGeo c (-s) (turnGeo c s geo)) gv = ddPlus geo gv := by funext i; simp only [ddPlus, gu', gv']
      have e3 : ddMinusDeriv (turnGeo c (-s) (turnGeo c s geo)) gu = ddMinusDeriv geo gu := by funext i; simp only [ddMinusDeriv, gu', gv', guu, guv]
      have e4 : ddPlusDeriv (turnGeo c (-s) (turnGeo c s geo)) gv = ddPlusDeriv geo gv := by funext i; simp only [ddPlusDeriv, gu', gv', gvv, guv]
      simp only [vertexFun, dMinus, dPlus, dIk, e1, e2, e3, e4, gu', gv', guu, guv, gvv]
    have hm := turn_mem c (-s) (sg := sg') (sg' := sg) h0' bu bv gu gv (turnGeo c s geo) i
    rwa [show vertexFun bu bv gu gv (turnGeo c (-s) (turnGeo c s geo)) (dataPlanar (phiPlanar sg) i) = vertexFun bu bv gu gv geo (dataPlanar (phiPlanar sg) i) from
      funext fun u => funext fun v => e _ u v] at hm

/-! ## The factor -/

/-- The entries of `deriv` at the corner. -/
def derivs (g : Geo k) : List ℝ := (List.finRange k).flatMap fun i => [g.jac i 0, g.jac i 1]

private theorem supNorm_scale {l : ℝ} (hl : 0 ≤ l) (x : List ℝ) : supNorm (x.map (l * ·)) = l * supNorm x := by
  induction x with
  | nil => simp [supNorm]
  | cons a x ih =>
    simp only [supNorm, List.map_cons, List.foldr_cons] at ih ⊢
    rw [ih, mul_max_of_nonneg _ _ hl, abs_mul, abs_of_nonneg hl]

private theorem derivs_scale (l : ℝ) (g : Geo k) : derivs (scaleGeo l g) = (derivs g).map (l * ·) := by
  simp [derivs, scaleGeo, List.map_flatMap]

private theorem finish_scale {l : ℝ} (hl : 0 < l) (g : List (Geo k)) (p : ℕ) (h : ℝ) :
    finish (g.map fun x => derivs (scaleGeo l x)) p h = (finish (g.map derivs) p h).map (· / l) := by
  have hs : ((g.map fun x => derivs (scaleGeo l x)).map supNorm).sum = l * ((g.map derivs).map supNorm).sum := by
    induction g with
    | nil => simp
    | cons a g ih =>
      simp only [List.map_cons, List.sum_cons, mul_add] at ih ⊢
      rw [ih, derivs_scale, supNorm_scale hl.le]
  simp only [finish, hs, List.length_map]
  by_cases h0 : ((g.map derivs).map supNorm).sum * (h / ((g.length : ℝ) * p)) = 0
  · rw [if_pos h0, mul_assoc, h0, mul_zero, if_pos rfl]; rfl
  · rw [if_neg h0, mul_assoc, if_neg (mul_ne_zero hl.ne' h0)]
    simp only [Option.map_some, Option.some.injEq]
    field_simp

/-- C52. In another unit of length the factor is divided by the ratio of the units. -/
theorem C52_sigma_scale {l : ℝ} (hl : 0 < l) (g : List (Geo k)) (pieces : ℕ → TB) (vi : List ℕ) (bases : List TB) :
    sigmaApprox pieces vi (g.map fun x => derivs (scaleGeo l x)) = (sigmaApprox pieces vi (g.map derivs)).map (· / l) ∧
      sigmaSurf bases (g.map fun x => derivs (scaleGeo l x)) = (sigmaSurf bases (g.map derivs)).map (· / l) := by
  constructor
  · unfold sigmaApprox
    cases loopH 1 (fun h x => if h > x then x else h) (vi.map pieces) 0 1 with
    | none => rfl
    | some ph => exact finish_scale hl g ph.1 ph.2
  · unfold sigmaSurf
    cases loopH 2 (fun h x => if h < x then x else h) bases 0 0 with
    | none => rfl
    | some ph => exact finish_scale hl g ph.1 ph.2

private theorem loop_min {p : ℕ} : ∀ (l : List TB) (p0 : ℕ) (h : ℝ), p0 ≤ p → (∀ b ∈ l, b.maxDeg = p ∧ ∀ j, p + 1 < (b.knots j).length) →
    ∃ h', loopH 1 (fun h x => if h > x then x else h) l p0 h = some (if l = [] then p0 else p, h') ∧ h' ≤ h ∧ (∀ b ∈ l, ∀ j x, (b.knots j)[p + 1]? = some x → h' ≤ x) ∧
      (h' = h ∨ ∃ b ∈ l, ∃ j, (b.knots j)[p + 1]? = some h')
  | [], p0, h, _, _ => ⟨h, rfl, le_rfl, by simp, Or.inl rfl⟩
  | b :: l, p0, h, hp, hl => by
    have hb := hl b (List.mem_cons_self ..)
    have e0 : (b.knots 0)[p + 1]? = some ((b.knots 0)[p + 1]'(hb.2 0)) := List.getElem?_eq_getElem _
    have e1 : (b.knots 1)[p + 1]? = some ((b.knots 1)[p + 1]'(hb.2 1)) := List.getElem?_eq_getElem _
    set x0 := (b.knots 0)[p + 1]'(hb.2 0)
    set x1 := (b.knots 1)[p + 1]'(hb.2 1)
    have m : ∀ a c : ℝ, (if a > c then c else a) = min a c := fun a c => by
      by_cases h : a > c
      · rw [if_pos h, min_eq_right h.le]
      · rw [if_neg h, min_eq_left (not_lt.1 h)]
    obtain ⟨h', q1, q2, q3, q4⟩ := loop_min l p (min (min h x0) x1) le_rfl fun b hb => hl b (List.mem_cons_of_mem _ hb)
    refine ⟨h', ?_, ?_, ?_, ?_⟩
    · rw [loopH, hb.1, max_eq_right hp]
      simp only [turnH, e0, e1, m, Option.bind_eq_bind, Option.bind_some, Option.pure_def] at q1 ⊢
      rw [q1]; simp
    · exact q2.trans ((min_le_left _ _).trans (min_le_left _ _))
    · intro c hc j x hx
      rcases List.mem_cons.1 hc with rfl | hc
      · rcases Fin.exists_fin_two.1 ⟨j, rfl⟩ with rfl | rfl
        · rw [e0] at hx; rw [← Option.some.inj hx]; exact q2.trans ((min_le_left _ _).trans (min_le_right _ _))
        · rw [e1] at hx; rw [← Option.some.inj hx]; exact q2.trans (min_le_right _ _)
      · exact q3 c hc j x hx
    · rcases q4 with q4 | ⟨c, hc, j, q4⟩
      · rcases min_choice (min h x0) x1 with hm | hm
        · rcases min_choice h x0 with hm' | hm'
          · exact Or.inl (by rw [q4, hm, hm'])
          · exact Or.inr ⟨b, List.mem_cons_self .., 0, by rw [q4, hm, hm', e0]⟩
        · exact Or.inr ⟨b, List.mem_cons_self .., 1, by rw [q4, hm, e1]⟩
      · exact Or.inr ⟨c, List.mem_cons_of_mem _ hc, j, q4⟩

private theorem supNorm_nonneg (x : List ℝ) : 0 ≤ supNorm x := by
  induction x with
  | nil => simp [supNorm]
  | cons a x ih => exact le_max_of_le_right ih

private theorem supNorm_pos {x : List ℝ} {a : ℝ} (h : a ∈ x) (h0 : a ≠ 0) : 0 < supNorm x := by
  induction x with
  | nil => cases h
  | cons b x ih =>
    rcases List.mem_cons.1 h with rfl | h
    · exact lt_max_of_lt_left (abs_pos.2 h0)
    · exact lt_max_of_lt_right (ih h)

private theorem sum_pos {d : List (List ℝ)} {x : List ℝ} (hx : x ∈ d) {a : ℝ} (h : a ∈ x) (h0 : a ≠ 0) : 0 < (d.map supNorm).sum := by
  have hle : supNorm x ≤ (d.map supNorm).sum := List.single_le_sum (by
    intro y hy
    obtain ⟨z, _, rfl⟩ := List.mem_map.1 hy
    exact supNorm_nonneg z) _ (List.mem_map_of_mem hx)
  exact lt_of_lt_of_le (supNorm_pos h h0) hle

/-- C52. The factor of the approximate C1 construction, when the bases that are read all have degree `p` (the larger one of the two directions): it exists and is positive, and it makes the product of factor, mean of the largest derivatives and
the smallest first inner knot `h` equal to `p`. -/
theorem C52_sigma_value {p : ℕ} (hp : 0 < p) (pieces : ℕ → TB) (vi : List ℕ) (hv : vi ≠ []) (hk : ∀ i ∈ vi, ((∀ j, (pieces i).deg j ≤ p) ∧ ∃ j, (pieces i).deg j = p) ∧ ∀ j, ∃ x, ((pieces i).knots j)[p + 1]? = some x ∧ 0 < x)
    (d : List (List ℝ)) {x : List ℝ} (hx : x ∈ d) {a : ℝ} (ha : a ∈ x) (h0 : a ≠ 0) :
    ∃ sg h, sigmaApprox pieces vi d = some sg ∧ 0 < sg ∧ sg * ((d.map supNorm).sum / d.length) * h = p ∧ 0 < h ∧ h ≤ 1 ∧ (∀ i ∈ vi, ∀ j x, ((pieces i).knots j)[p + 1]? = some x → h ≤ x) ∧
      (h = 1 ∨ ∃ i ∈ vi, ∃ j, ((pieces i).knots j)[p + 1]? = some h) := by
  obtain ⟨h, q1, q2, q3, q4⟩ := loop_min (p := p) (vi.map pieces) 0 1 (Nat.zero_le _) (by
    intro b hb
    obtain ⟨i, hi, rfl⟩ := List.mem_map.1 hb
    refine ⟨?_, fun j => ?_⟩
    · obtain ⟨⟨h1, j, h2⟩, _⟩ := hk i hi
      have := h1 0
      have := h1 1
      unfold TB.maxDeg
      rcases Fin.exists_fin_two.1 ⟨j, rfl⟩ with rfl | rfl <;> omega
    obtain ⟨x, hx, _⟩ := (hk i hi).2 j
    exact (List.getElem?_eq_some_iff.1 hx).1)
  rw [if_neg (by simpa using hv)] at q1
  have hh : 0 < h := by
    rcases q4 with rfl | ⟨b, hb, j, hj⟩
    · exact one_pos
    · obtain ⟨i, hi, rfl⟩ := List.mem_map.1 hb
      obtain ⟨x, hx, h0⟩ := (hk i hi).2 j
      rw [hj] at hx; cases hx; exact h0
  have hs := sum_pos hx ha h0
  have hn : (0 : ℝ) < d.length := by exact_mod_cast List.length_pos_of_mem hx
  have hp' : (0 : ℝ) < p := by exact_mod_cast hp
  have ht : 0 < (d.map supNorm).sum * (h / (d.length * p)) := by positivity
  refine ⟨1 / ((d.map supNorm).sum * (h / (d.length * p))), h, ?_, by positivity, ?_, hh, q2, ?_, ?_⟩
  · unfold sigmaApprox
    rw [q1]
    simp only [Option.bind_eq_bind, Option.bind_some, finish, if_neg ht.ne']
  · field_simp
  · intro i hi j x hx
    exact q3 _ (List.mem_map_of_mem hi) j x hx
  · rcases q4 with q4 | ⟨b, hb, j, hj⟩
    · exact Or.inl q4
    · obtain ⟨i, hi, rfl⟩ := List.mem_map.1 hb
      exact Or.inr ⟨i, hi, j, hj⟩

/-- C52. If all patches are degenerate at the vertex there is no factor: the code divides by zero. -/
theorem C52_sigma_degenerate (pieces : ℕ → TB) (vi : List ℕ) (bases : List TB) {d : List (List ℝ)} (h : ∀ x ∈ d, ∀ a ∈ x, a = 0) :
    sigmaApprox pieces vi d = none ∧ sigmaSurf bases d = none := by
  have hs : (d.map supNorm).sum = 0 := by
    apply List.sum_eq_zero
    intro y hy
    obtain ⟨x, hx, rfl⟩ := List.mem_map.1 hy
    have := h x hx
    clear hx hy h
    induction x with
    | nil => rfl
    | cons a x ih =>
      have ih := ih fun b hb => this b (List.mem_cons_of_mem _ hb)
      simp only [supNorm, List.map_cons, List.foldr_cons] at ih ⊢
      rw [ih, this a (List.mem_cons_self ..)]; simp
  constructor
  · unfold sigmaApprox
    cases loopH 1 (fun h x => if h > x then x else h) (vi.map pieces) 0 1 with
    | none => rfl
    | some ph => simp [finish, hs]
  · unfold sigmaSurf
    cases loopH 2 (fun h x => if h < x then x else h) bases 0 0 with
    | none => rfl
    | some ph => simp [finish, hs]

/-- C52. Functions at a vertex of planar patches: computed in another unit of length, with the factor and the gluing data of that unit, they are the same functions of the parameters. -/
theorem C52_unit_planar {l : ℝ} (hl : 0 < l) (g : List (Geo 2)) (pieces : ℕ → TB) (vi : List ℕ) {sg : ℝ} (hs : sigmaApprox pieces vi (g.map derivs) = some sg) :
    ∃ sg', sigmaApprox pieces vi (g.map fun x => derivs (scaleGeo l x)) = some sg' ∧
      ∀ geo ∈ g, ∀ mu mv, mu ≠ 0 → mv ≠ 0 → ∀ bu bv gu gv i, i < 6 → ∀ u v,
        vertexFun bu bv (scaleGlue mu gu) (scaleGlue mv gv) (scaleGeo l geo) (dataPlanar (phiPlanar sg') i) u v = vertexFun bu bv gu gv geo (dataPlanar (phiPlanar sg) i) u v := by
  refine ⟨sg / l, ?_, ?_⟩
  · rw [(C52_sigma_scale hl g pieces vi []).1, hs]; rfl
  · intro geo _ mu mv hu hv bu bv gu gv i hi u v
    have hd := scale_planar l (sg / l) hi
    rw [mul_div_cancel₀ _ hl.ne'] at hd
    exact scale_fun hl.ne' hu hv hd bu bv gu gv geo u v

/-- C52. The same for surfaces. -/
theorem C52_unit_surface {l : ℝ} (hl : 0 < l) (g : List (Geo 3)) (bases : List TB) {sg : ℝ} (hs : sigmaSurf bases (g.map derivs) = some sg) :
    ∃ sg', sigmaSurf bases (g.map fun x => derivs (scaleGeo l x)) = some sg' ∧
      ∀ geo ∈ g, ∀ mu mv, mu ≠ 0 → mv ≠ 0 → ∀ bu bv gu gv i, i < 6 → ∀ u v,
        vertexFun bu bv (scaleGlue mu gu) (scaleGlue mv gv) (scaleGeo l geo) (dataSurface (phiSurface sg') i) u v = vertexFun bu bv gu gv geo (dataSurface (phiSurface sg) i) u v := by
  refine ⟨sg / l, ?_, ?_⟩
  · rw [(C52_sigma_scale hl g (fun _ => ⟨fun _ => 0, fun _ => []⟩) [] bases).2, hs]; rfl
  · intro geo _ mu mv hu hv bu bv gu gv i hi u v
    have hd := scale_surface l (sg / l) hi
    rw [mul_div_cancel₀ _ hl.ne'] at hd
    exact scale_fun hl.ne' hu hv hd bu bv gu gv geo u v

/-! ## What the code does not do -/

/-- Degree 1, `n` elements of equal size. -/
noncomputable def uni (n : ℕ) : TB := ⟨fun _ => 1, fun _ => 0 :: (List.range (n + 1)).map (fun i => (i : ℝ) / n) ++ [1]⟩
/-- C52. Of two patches at a vertex, one with elements of size 1/2, the other with elements of size 1/4, only the bases of the first one in the list are read: the factor depends on which patch that is. -/
theorem C52_first_violation : sigmaApprox (fun _ => uni 2) [1, 2] [[1, 0, 0, 1], [1, 0, 0, 1]] = some 2 ∧ sigmaApprox (fun _ => uni 4) [2, 1] [[1, 0, 0, 1], [1, 0, 0, 1]] = some 4 := by
  constructor
  · norm_num [sigmaApprox, loopH, turnH, uni, TB.maxDeg, finish, supNorm, List.range_succ]
  · norm_num [sigmaApprox, loopH, turnH, uni, TB.maxDeg, finish, supNorm, List.range_succ]

/-- C52. For patches of different degrees the knot of index given by the largest degree so far is read: the order of the patches plays a role for surfaces too. -/
theorem C52_order_violation : ∃ a b, sigmaSurf [⟨fun _ => 2, fun _ => [0, 0, 0, 1 / 8, 1 / 4, 1 / 2, 1, 1, 1]⟩, ⟨fun _ => 3, fun _ => [0, 0, 0, 0, 1 / 8, 1 / 4, 1, 1, 1, 1]⟩] [[1, 0, 0, 1, 0, 0], [1, 0, 0, 1, 0, 0]] = some a ∧
    sigmaSurf [⟨fun _ => 3, fun _ => [0, 0, 0, 0, 1 / 8, 1 / 4, 1, 1, 1, 1]⟩, ⟨fun _ => 2, fun _ => [0, 0, 0, 1 / 8, 1 / 4, 1 / 2, 1, 1, 1]⟩] [[1, 0, 0, 1, 0, 0], [1, 0, 0, 1, 0, 0]] = some b ∧ a = 2 * b := by
  refine ⟨12, 6, ?_, ?_, by norm_num⟩
  · norm_num [sigmaSurf, loopH, turnH, TB.maxDeg, finish, supNorm]
  · norm_num [sigmaSurf, loopH, turnH, TB.maxDeg, finish, supNorm]

/-- C52. For the same patches the two constructions use factors that differ by two: the surface construction takes the knot after the first inner knot. -/
theorem C52_two_violation : sigmaApprox (fun _ => uni 4) [1, 2] [[1, 0, 0, 1, 0, 0], [1, 0, 0, 1, 0, 0]] = some 4 ∧ sigmaSurf [uni 4, uni 4] [[1, 0, 0, 1, 0, 0], [1, 0, 0, 1, 0, 0]] = some 2 := by
  constructor
  · norm_num [sigmaApprox, loopH, turnH, uni, TB.maxDeg, finish, supNorm, List.range_succ]
  · norm_num [sigmaSurf, loopH, turnH, uni, TB.maxDeg, finish, supNorm, List.range_succ]

/-! ## Examples -/

/-- Two bilinear patches at a vertex. -/
def exGeo : List (Geo 2) := [⟨![![1, 0], ![0, 1]], fun n => if n = 2 then 1 else 0⟩, ⟨![![0, -2], ![1, 0]], fun _ => 0⟩]

example : (3 / 5 : ℝ) ^ 2 + (4 / 5) ^ 2 = 1 ∧ (turnGeo (3 / 5) (4 / 5) ⟨![![1, 0], ![0, 1]], fun n => if n = 2 then 1 else 0⟩).jac 0 1 = -(4 / 5) := by
  constructor
  · norm_num
  · norm_num [turnGeo, turn]

/-- The conditions of `C52_sigma_value` hold for four elements, degree 1. -/
example : ∃ sg h : ℝ, sigmaApprox (fun _ => uni 4) [1, 3] (exGeo.map derivs) = some sg ∧ 0 < sg ∧ 0 < h := by
  obtain ⟨sg, h, h1, h2, _, h3, _⟩ := C52_sigma_value (p := 1) Nat.one_pos (fun _ => uni 4) [1, 3] (by simp) (by
    intro i _
    refine ⟨⟨fun _ => le_rfl, 0, rfl⟩, fun j => ⟨1 / 4, ?_, by norm_num⟩⟩
    norm_num [uni, List.range_succ]) (exGeo.map derivs) (x := [1, 0, 0, 1]) (by simp [exGeo, derivs, List.finRange_succ]) (a := 1) (by simp) one_ne_zero
  exact ⟨sg, h, h1, h2, h3⟩

/-- In this example the factor is `8/3`: the mean of the largest derivatives is `3/2`. In a unit that is a tenth it is `4/15`. -/
example : sigmaApprox (fun _ => uni 4) [1, 3] (exGeo.map derivs) = some (8 / 3) ∧
    sigmaApprox (fun _ => uni 4) [1, 3] (exGeo.map fun x => derivs (scaleGeo 10 x)) = some (4 / 15) := by
  have h : sigmaApprox (fun _ => uni 4) [1, 3] (exGeo.map derivs) = some (8 / 3) := by
    norm_num [sigmaApprox, loopH, turnH, uni, TB.maxDeg, finish, supNorm, List.range_succ, exGeo, derivs, List.finRange_succ]
  refine ⟨h, ?_⟩
  rw [(C52_sigma_scale (by norm_num) exGeo _ _ []).1, h]
  norm_num

/-- Without the change of the factor the functions do change: the second function in a unit that is a tenth, at the vertex. -/
example : (dataPlanar (phiPlanar 1) 1).first (fun i => 10 * (![1, 0] : Fin 2 → ℝ) i) ≠ (dataPlanar (phiPlanar 1) 1).first ![1, 0] := by
  norm_num [dataPlanar, phiPlanar, Fin.sum_univ_two]

end Verif.VertexScale
