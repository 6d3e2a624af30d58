import Verif.Proofs.EdgeFun
import Mathlib.Analysis.Calculus.Deriv.Prod
import Mathlib.Tactic.NormNum
/-!
# Property C23: the functions at an interface are C1

Patches are maps `F : ℝ → ℝ → ℝ^k`, patch 1 meets the interface with its side `u = 0` (`uv = 1`), patch 0 with its side `v = 0` (`uv = 0`). `line uv F s c` is the point with
parameter `s` along and `c` across the interface. A physical function is a function `φ` with `φ (F u v) = f u v` on the patch near a point of the interface; `L` is its derivative there, within the patch.
`T` is the tangent of the interface, `A` the derivative of the patch across it. The functions of the B-spline basis are those of `Model/BSpline.lean`, for all open knot vectors.
-/
set_option autoImplicit false
set_option linter.unusedSimpArgs false
namespace Verif.EdgeFun
open Verif.BSpline Polynomial

/-- A patch at the point of the interface with parameter `t`. -/
structure At {k : ℕ} (uv : ℕ) (F : ℝ → ℝ → Fin k → ℝ) (t : ℝ) (T A : Fin k → ℝ) : Prop where
  along : HasDerivAt (fun s => line uv F s 0) T t
  across : HasDerivAt (fun c => line uv F t c) A 0

/-- The points of a patch near the point of the interface with parameter `t`. -/
def Near {k : ℕ} (uv : ℕ) (F : ℝ → ℝ → Fin k → ℝ) (t ε : ℝ) : Set (Fin k → ℝ) := {x | ∃ s c, |s - t| < ε ∧ 0 ≤ c ∧ c < ε ∧ x = line uv F s c}

/-- `φ` is the function `f` of the parameters, moved to the physical domain, with derivative `L` at the point. Only the points of the patch near the point count: nothing is said about `φ` on the other side of the interface, and the
derivative is the one within the patch. -/
structure Phys {k : ℕ} (uv : ℕ) (F : ℝ → ℝ → Fin k → ℝ) (f : ℝ → ℝ → ℝ) (t : ℝ) (φ : (Fin k → ℝ) → ℝ) (L : (Fin k → ℝ) →L[ℝ] ℝ) : Prop where
  near : ∃ ε, 0 < ε ∧ (∀ s c, |s - t| < ε → 0 ≤ c → c < ε → φ (line uv F s c) = line uv f s c) ∧ HasFDerivWithinAt φ L (Near uv F t ε) (line uv F t 0)

/-- Derivative by `u`, by `v` from the derivatives along and across. -/
def colU {k : ℕ} (uv : ℕ) (T A : Fin k → ℝ) : Fin k → ℝ := if uv = 0 then T else A
def colV {k : ℕ} (uv : ℕ) (T A : Fin k → ℝ) : Fin k → ℝ := if uv = 0 then A else T

theorem cols {k : ℕ} {uv : ℕ} (h : uv ≤ 1) (T A : Fin k → ℝ) :
    uv = 0 ∧ colU uv T A = T ∧ colV uv T A = A ∨ uv = 1 ∧ colU uv T A = A ∧ colV uv T A = T := by
  rcases Nat.le_one_iff_eq_zero_or_eq_one.1 h with rfl | rfl <;> simp [colU, colV]

theorem phys_at {k : ℕ} {uv : ℕ} {F : ℝ → ℝ → Fin k → ℝ} {f : ℝ → ℝ → ℝ} {t : ℝ} {φ : (Fin k → ℝ) → ℝ} {L : (Fin k → ℝ) →L[ℝ] ℝ}
    (h : Phys uv F f t φ L) : φ (line uv F t 0) = line uv f t 0 := by
  obtain ⟨ε, he, h1, -⟩ := h.near
  exact h1 t 0 (by simpa using he) le_rfl he

/-- Derivative along the interface. -/
theorem phys_along {k : ℕ} {uv : ℕ} {F : ℝ → ℝ → Fin k → ℝ} {f : ℝ → ℝ → ℝ} {t : ℝ} {T A : Fin k → ℝ} {φ : (Fin k → ℝ) → ℝ} {L : (Fin k → ℝ) →L[ℝ] ℝ}
    (h : Phys uv F f t φ L) (hF : At uv F t T A) {n : ℝ → ℝ} {d : ℝ} (hn : HasDerivAt n d t) (hf : ∀ s, line uv f s 0 = n s) : L T = d := by
  obtain ⟨ε, he, h1, h2⟩ := h.near
  refine chain (W := Metric.ball t ε) hF.along h2 hn ?_ (Metric.mem_ball_self he) (fun s hs => ?_) fun s hs => ?_
  · exact (Metric.isOpen_ball.uniqueDiffOn) t (Metric.mem_ball_self he)
  · rw [Metric.mem_ball, Real.dist_eq] at hs
    exact ⟨s, 0, hs, le_rfl, he, rfl⟩
  · rw [Metric.mem_ball, Real.dist_eq] at hs
    rw [h1 s 0 hs le_rfl he, hf]

/-- Derivative across the interface. -/
theorem phys_across {k : ℕ} {uv : ℕ} {F : ℝ → ℝ → Fin k → ℝ} {f : ℝ → ℝ → ℝ} {t : ℝ} {T A : Fin k → ℝ} {φ : (Fin k → ℝ) → ℝ} {L : (Fin k → ℝ) →L[ℝ] ℝ}
    (h : Phys uv F f t φ L) (hF : At uv F t T A) {d : ℝ} (hn : HasDerivAt (fun c => line uv f t c) d 0) : L A = d := by
  obtain ⟨ε, he, h1, h2⟩ := h.near
  refine chain (W := Set.Ico 0 ε) hF.across h2 hn ?_ ⟨le_rfl, he⟩ (fun c hc => ?_) fun c hc => ?_
  · exact uniqueDiffOn_Ico 0 ε 0 ⟨le_rfl, he⟩
  · exact ⟨t, c, by simpa using he, hc.1, hc.2, rfl⟩
  · exact h1 t c (by simpa using he) hc.1 hc.2

/-! ## Values and derivatives in the parameter domain -/

/-- Trace functions: value `n`, derivative across the interface `-beta * n'` (zero on the boundary). -/
theorem C23_trace_parameter {b : Comp} (hb : Open b.t b.p) (hp : 1 ≤ b.p) (uv : ℕ) (bd : Bool) (beta n dn : ℝ → ℝ) (t : ℝ) :
    line uv (traceBasis uv bd b beta n dn) t 0 = n t ∧
    HasDerivAt (fun c => line uv (traceBasis uv bd b beta n dn) t c) (-((if bd then 0 else beta t) * dn t)) 0 := by
  have hne := p_ne hp
  have htp := hb.pos.ne'
  constructor
  · rw [line_trace, eval_zero0 hb hp, eval_one0 hb hp]; simp
  · have := deriv_comb hb hp (n t) (-((if bd then 0 else beta t) * dn t * b.t (b.p + 1) / b.p))
    refine (this.congr_deriv (by field_simp)).congr_of_eventuallyEq (Filter.Eventually.of_forall fun c => ?_)
    simp only [line_trace]; ring

/-- Derivative functions: value zero, derivative across the interface `± alpha * m`. -/
theorem C23_normal_parameter {b : Comp} (hb : Open b.t b.p) (hp : 1 ≤ b.p) (uv : ℕ) (alpha m : ℝ → ℝ) (t : ℝ) :
    line uv (normalDerivBasis uv false b alpha m) t 0 = 0 ∧
    HasDerivAt (fun c => line uv (normalDerivBasis uv false b alpha m) t c) ((if uv = 0 then -1 else 1) * (alpha t * m t)) 0 := by
  have hne := p_ne hp
  have htp := hb.pos.ne'
  constructor
  · rw [line_normal, eval_one0 hb hp]; simp
  · have := deriv_comb hb hp 0 ((if uv = 0 then -1 else 1) * (alpha t * m t * b.t (b.p + 1) / b.p))
    refine (this.congr_deriv (by field_simp)).congr_of_eventuallyEq (Filter.Eventually.of_forall fun c => ?_)
    simp only [line_normal]; simp; ring

/-- On the boundary the derivative functions have value zero and derivative `± m * p / tau_1`. -/
theorem C23_normal_boundary {b : Comp} (hb : Open b.t b.p) (hp : 1 ≤ b.p) (uv : ℕ) (alpha m : ℝ → ℝ) (t : ℝ) :
    line uv (normalDerivBasis uv true b alpha m) t 0 = 0 ∧
    HasDerivAt (fun c => line uv (normalDerivBasis uv true b alpha m) t c) ((if uv = 0 then -1 else 1) * (m t * (b.p / b.t (b.p + 1)))) 0 := by
  constructor
  · rw [line_normal, eval_one0 hb hp]; simp
  · have := deriv_comb hb hp 0 ((if uv = 0 then -1 else 1) * m t)
    refine (this.congr_deriv (by ring)).congr_of_eventuallyEq (Filter.Eventually.of_forall fun c => ?_)
    simp only [line_normal]; simp

/-! ## Approximate C1 functions with exact gluing data -/

/-- The physical gradient of a trace function lies in the direction of the interface: its value is the one of the prescribed trace, its derivative in any tangential direction orthogonal to the
interface is zero. Holds for patches in every dimension. -/
theorem C23_trace_gradient {k : ℕ} {uv : ℕ} (huv : uv ≤ 1) {F : ℝ → ℝ → Fin k → ℝ} {t : ℝ} {T A : Fin k → ℝ} (hF : At uv F t T A) (hT : T ≠ 0)
    {b : Comp} (hb : Open b.t b.p) (hp : 1 ≤ b.p) {beta n dn : ℝ → ℝ} (hn : HasDerivAt n (dn t) t) (hbeta : beta t = betaGeo uv (colU uv T A) (colV uv T A))
    {φ : (Fin k → ℝ) → ℝ} {L : (Fin k → ℝ) →L[ℝ] ℝ} (hφ : Phys uv F (traceBasis uv false b beta n dn) t φ L) :
    φ (line uv F t 0) = n t ∧ ∀ x y : ℝ, L (x • A + y • T) = dn t / (T ⬝ᵥ T) * (T ⬝ᵥ (x • A + y • T)) := by
  have hpar := fun s => C23_trace_parameter hb hp uv false beta n dn s
  refine ⟨by rw [phys_at hφ]; exact (hpar t).1, fun x y => ?_⟩
  have hTT : T ⬝ᵥ T ≠ 0 := fun h => hT (dotProduct_self_eq_zero.1 h)
  have h1 : L T = dn t := phys_along hφ hF hn fun r => (hpar r).1
  have h2 : L A = -(beta t * dn t) := by
    have := (hpar t).2
    simp only [Bool.false_eq_true, if_false] at this
    exact phys_across hφ hF this
  rw [map_add, map_smul, map_smul, h1, h2, hbeta, betaGeo_eq uv _ _ T A (cols huv T A)]
  simp only [dotProduct_add, dotProduct_smul, smul_eq_mul]
  field_simp

/-- Planar patches: trace functions are C1 across the interface, with the prescribed trace. -/
theorem C23_trace_C1 {F0 F1 : ℝ → ℝ → Fin 2 → ℝ} (hmatch : ∀ s, line 0 F0 s 0 = line 1 F1 s 0) {t : ℝ} {T A0 A1 : Fin 2 → ℝ}
    (h0 : At 0 F0 t T A0) (h1 : At 1 F1 t T A1) (hd0 : alphaPlanar T A0 ≠ 0) (hd1 : alphaPlanar A1 T ≠ 0)
    {b0 b1 : Comp} (hb0 : Open b0.t b0.p) (hb1 : Open b1.t b1.p) (hp0 : 1 ≤ b0.p) (hp1 : 1 ≤ b1.p)
    {beta0 beta1 n dn : ℝ → ℝ} (hn : HasDerivAt n (dn t) t) (he0 : beta0 t = betaGeo 0 T A0) (he1 : beta1 t = betaGeo 1 A1 T)
    {φ0 φ1 : (Fin 2 → ℝ) → ℝ} {L0 L1 : (Fin 2 → ℝ) →L[ℝ] ℝ}
    (hφ0 : Phys 0 F0 (traceBasis 0 false b0 beta0 n dn) t φ0 L0) (hφ1 : Phys 1 F1 (traceBasis 1 false b1 beta1 n dn) t φ1 L1) :
    φ0 (F0 t 0) = n t ∧ φ1 (F1 0 t) = n t ∧ F0 t 0 = F1 0 t ∧ L0 = L1 ∧ L0 ![T 1, -T 0] = 0 := by
  have hT : T ≠ 0 := by rintro rfl; exact hd0 (by rw [det_two]; simp)
  have g0 := C23_trace_gradient (by omega) h0 hT hb0 hp0 hn he0 hφ0
  have g1 := C23_trace_gradient (by omega) h1 hT hb1 hp1 hn he1 hφ1
  have e0 : ∀ w, L0 w = dn t / (T ⬝ᵥ T) * (T ⬝ᵥ w) := by
    intro w
    obtain ⟨x, y, rfl⟩ := span_two hd0 w
    rw [add_comm]; exact g0.2 y x
  have e1 : ∀ w, L1 w = dn t / (T ⬝ᵥ T) * (T ⬝ᵥ w) := by
    intro w
    obtain ⟨x, y, rfl⟩ := span_two hd1 w
    exact g1.2 x y
  refine ⟨g0.1, g1.1, hmatch t, ?_, ?_⟩
  · ext w; rw [e0, e1]
  · rw [e0]; simp [dotProduct, Fin.sum_univ_two]; right; ring

/-- Planar patches: derivative functions are C1 across the interface, vanish on it and have the prescribed derivative: the gradient is `m` times the tangent turned by a right angle. -/
theorem C23_normal_C1 {F0 F1 : ℝ → ℝ → Fin 2 → ℝ} (hmatch : ∀ s, line 0 F0 s 0 = line 1 F1 s 0) {t : ℝ} {T A0 A1 : Fin 2 → ℝ}
    (h0 : At 0 F0 t T A0) (h1 : At 1 F1 t T A1) (hd0 : alphaPlanar T A0 ≠ 0) (hd1 : alphaPlanar A1 T ≠ 0)
    {b0 b1 : Comp} (hb0 : Open b0.t b0.p) (hb1 : Open b1.t b1.p) (hp0 : 1 ≤ b0.p) (hp1 : 1 ≤ b1.p)
    {alpha0 alpha1 m : ℝ → ℝ} (he0 : alpha0 t = alphaPlanar T A0) (he1 : alpha1 t = alphaPlanar A1 T)
    {φ0 φ1 : (Fin 2 → ℝ) → ℝ} {L0 L1 : (Fin 2 → ℝ) →L[ℝ] ℝ}
    (hφ0 : Phys 0 F0 (normalDerivBasis 0 false b0 alpha0 m) t φ0 L0) (hφ1 : Phys 1 F1 (normalDerivBasis 1 false b1 alpha1 m) t φ1 L1) :
    φ0 (F0 t 0) = 0 ∧ φ1 (F1 0 t) = 0 ∧ F0 t 0 = F1 0 t ∧ L0 = L1 ∧ L0 T = 0 ∧ ∀ w, L0 w = m t * (![T 1, -T 0] ⬝ᵥ w) := by
  have p0 := fun s => C23_normal_parameter hb0 hp0 0 alpha0 m s
  have p1 := fun s => C23_normal_parameter hb1 hp1 1 alpha1 m s
  have t0 : L0 T = 0 := phys_along hφ0 h0 (hasDerivAt_const t (0 : ℝ)) fun r => (p0 r).1
  have t1 : L1 T = 0 := phys_along hφ1 h1 (hasDerivAt_const t (0 : ℝ)) fun r => (p1 r).1
  have a0 : L0 A0 = -(alpha0 t * m t) := by
    have := phys_across hφ0 h0 (p0 t).2
    rw [this]; simp
  have a1 : L1 A1 = alpha1 t * m t := by
    have := phys_across hφ1 h1 (p1 t).2
    rw [this]; simp
  have e0 : ∀ w, L0 w = m t * (![T 1, -T 0] ⬝ᵥ w) := by
    intro w
    obtain ⟨x, y, rfl⟩ := span_two hd0 w
    rw [map_add, map_smul, map_smul, t0, a0, he0, det_two]
    simp [dotProduct, Fin.sum_univ_two]; ring
  have e1 : ∀ w, L1 w = m t * (![T 1, -T 0] ⬝ᵥ w) := by
    intro w
    obtain ⟨x, y, rfl⟩ := span_two hd1 w
    rw [map_add, map_smul, map_smul, t1, a1, he1, det_two]
    simp [dotProduct, Fin.sum_univ_two]; ring
  refine ⟨?_, ?_, hmatch t, ?_, t0, e0⟩
  · exact (phys_at hφ0).trans (p0 t).1
  · exact (phys_at hφ1).trans (p1 t).1
  · ext w; rw [e0, e1]

/-- Surface patches in space with a common tangent plane: trace functions have the same derivative in all tangential directions. -/
theorem C23_surface_trace_C1 {F0 F1 : ℝ → ℝ → Fin 3 → ℝ} {t : ℝ} {T A0 A1 : Fin 3 → ℝ}
    (h0 : At 0 F0 t T A0) (h1 : At 1 F1 t T A1) (hT : T ≠ 0) {x1 y1 : ℝ} (hplane : A1 = x1 • A0 + y1 • T)
    {b0 b1 : Comp} (hb0 : Open b0.t b0.p) (hb1 : Open b1.t b1.p) (hp0 : 1 ≤ b0.p) (hp1 : 1 ≤ b1.p)
    {beta0 beta1 n dn : ℝ → ℝ} (hn : HasDerivAt n (dn t) t) (he0 : beta0 t = betaGeo 0 T A0) (he1 : beta1 t = betaGeo 1 A1 T)
    {φ0 φ1 : (Fin 3 → ℝ) → ℝ} {L0 L1 : (Fin 3 → ℝ) →L[ℝ] ℝ}
    (hφ0 : Phys 0 F0 (traceBasis 0 false b0 beta0 n dn) t φ0 L0) (hφ1 : Phys 1 F1 (traceBasis 1 false b1 beta1 n dn) t φ1 L1) (x y : ℝ) :
    φ0 (F0 t 0) = n t ∧ φ1 (F1 0 t) = n t ∧ L0 (x • A1 + y • T) = L1 (x • A1 + y • T) := by
  have g0 := C23_trace_gradient (by omega) h0 hT hb0 hp0 hn he0 hφ0
  have g1 := C23_trace_gradient (by omega) h1 hT hb1 hp1 hn he1 hφ1
  refine ⟨g0.1, g1.1, ?_⟩
  rw [g1.2 x y]
  have e : x • A1 + y • T = (x * x1) • A0 + (x * y1 + y) • T := by
    rw [hplane, smul_add, smul_smul, smul_smul, add_smul, add_assoc]
  rw [e, g0.2]

/-- The factor `alpha` of a surface patch is the distance of the end of `A` from the line of the interface. -/
theorem alphaSurface_conormal {uv : ℕ} (huv : uv ≤ 1) {T A eta : Fin 3 → ℝ} (hT : T ≠ 0) (heta : eta ⬝ᵥ eta = 1) (hperp : eta ⬝ᵥ T = 0) {a c : ℝ}
    (hA : A = a • eta + c • T) : alphaSurface uv (colU uv T A) (colV uv T A) = |a| := by
  have hTT : 0 < T ⬝ᵥ T := by
    rcases (by simp only [dotProduct]; exact Finset.sum_nonneg fun i _ => mul_self_nonneg _ : 0 ≤ T ⬝ᵥ T).lt_or_eq with h | h
    · exact h
    · exact absurd (dotProduct_self_eq_zero.1 h.symm) hT
  rw [alphaSurface_eq uv _ _ T A (cols huv T A), hA]
  have hperp' : T ⬝ᵥ eta = 0 := by rw [dotProduct_comm]; exact hperp
  have : (a • eta + c • T) ⬝ᵥ (a • eta + c • T) * (T ⬝ᵥ T) - ((a • eta + c • T) ⬝ᵥ T) ^ 2 = (a * a) * (T ⬝ᵥ T) := by
    simp only [add_dotProduct, dotProduct_add, smul_dotProduct, dotProduct_smul, smul_eq_mul, heta, hperp, hperp']; ring
  rw [this, Real.sqrt_mul (mul_self_nonneg a), Real.sqrt_mul_self_eq_abs]
  have := (Real.sqrt_pos.2 hTT).ne'
  field_simp

/-- Surface patches that join smoothly: on the two sides of the interface with unit conormal `eta`. Derivative functions vanish on the interface, their derivative in
the direction of the conormal is `m` from both sides. -/
theorem C23_surface_normal_C1 {F0 F1 : ℝ → ℝ → Fin 3 → ℝ} {t : ℝ} {T A0 A1 eta : Fin 3 → ℝ}
    (h0 : At 0 F0 t T A0) (h1 : At 1 F1 t T A1) (hT : T ≠ 0) (heta : eta ⬝ᵥ eta = 1) (hperp : eta ⬝ᵥ T = 0)
    {a0 a1 c0 c1 : ℝ} (ha0 : 0 < a0) (ha1 : 0 < a1) (hA0 : A0 = (-a0) • eta + c0 • T) (hA1 : A1 = a1 • eta + c1 • T)
    {b0 b1 : Comp} (hb0 : Open b0.t b0.p) (hb1 : Open b1.t b1.p) (hp0 : 1 ≤ b0.p) (hp1 : 1 ≤ b1.p)
    {alpha0 alpha1 m : ℝ → ℝ} (he0 : alpha0 t = alphaSurface 0 T A0) (he1 : alpha1 t = alphaSurface 1 A1 T)
    {φ0 φ1 : (Fin 3 → ℝ) → ℝ} {L0 L1 : (Fin 3 → ℝ) →L[ℝ] ℝ}
    (hφ0 : Phys 0 F0 (normalDerivBasis 0 false b0 alpha0 m) t φ0 L0) (hφ1 : Phys 1 F1 (normalDerivBasis 1 false b1 alpha1 m) t φ1 L1) :
    φ0 (F0 t 0) = 0 ∧ φ1 (F1 0 t) = 0 ∧ L0 T = 0 ∧ L1 T = 0 ∧ L0 eta = m t ∧ L1 eta = m t := by
  have p0 := fun s => C23_normal_parameter hb0 hp0 0 alpha0 m s
  have p1 := fun s => C23_normal_parameter hb1 hp1 1 alpha1 m s
  have t0 : L0 T = 0 := phys_along hφ0 h0 (hasDerivAt_const t (0 : ℝ)) fun r => (p0 r).1
  have t1 : L1 T = 0 := phys_along hφ1 h1 (hasDerivAt_const t (0 : ℝ)) fun r => (p1 r).1
  have d0 : L0 A0 = -(alpha0 t * m t) := by
    have := phys_across hφ0 h0 (p0 t).2
    rw [this]; simp
  have d1 : L1 A1 = alpha1 t * m t := by
    have := phys_across hφ1 h1 (p1 t).2
    rw [this]; simp
  have v0 := alphaSurface_conormal (uv := 0) (by omega) hT heta hperp hA0
  have v1 := alphaSurface_conormal (uv := 1) (by omega) hT heta hperp hA1
  simp only [colU, colV, if_pos, if_neg one_ne_zero] at v0 v1
  rw [abs_neg, abs_of_pos ha0] at v0
  rw [abs_of_pos ha1] at v1
  rw [he0, v0, hA0, map_add, map_smul, map_smul, t0] at d0
  rw [he1, v1, hA1, map_add, map_smul, map_smul, t1] at d1
  simp only [smul_eq_mul, mul_zero, add_zero] at d0 d1
  refine ⟨(phys_at hφ0).trans (p0 t).1, (phys_at hφ1).trans (p1 t).1, t0, t1, ?_, ?_⟩
  · exact mul_left_cancel₀ ha0.ne' (by linear_combination -d0)
  · exact mul_left_cancel₀ ha1.ne' (by linear_combination d1)

/-! ## Projection to the spline space -/

/-- The projection reproduces functions of the space: if `f` is a combination of the functions that are not eliminated, the weights are positive and only the zero combination vanishes at all quadrature
points, then the solution of the linear system exists, is unique and consists of the coefficients of `f`. -/
theorem C23_projection {ι κ : Type} [Fintype ι] [Fintype κ] (B : ι → κ → ℝ) (w : κ → ℝ) (hw : ∀ q, 0 < w q) (hB : ∀ x : ι → ℝ, (∀ q, ∑ i, x i * B i q = 0) → x = 0)
    (f : κ → ℝ) (c : ι → ℝ) (hf : ∀ q, f q = ∑ j, c j * B j q) (x : ι → ℝ) : (∀ i, ∑ j, projMat B w i j * x j = projRhs B w f i) ↔ x = c := by
  have hlin : ∀ y : ι → ℝ, ∀ i, ∑ j, projMat B w i j * y j = ∑ q, w q * (B i q * ∑ j, y j * B j q) := by
    intro y i
    simp only [projMat, Finset.sum_mul, Finset.mul_sum]
    rw [Finset.sum_comm]
    exact Finset.sum_congr rfl fun q _ => Finset.sum_congr rfl fun j _ => by ring
  constructor
  · intro h
    have hz : ∀ i, ∑ q, w q * (B i q * ∑ j, (x j - c j) * B j q) = 0 := by
      intro i
      have h1 := h i
      rw [hlin] at h1
      simp only [projRhs, hf] at h1
      rw [← sub_eq_zero, ← Finset.sum_sub_distrib] at h1
      rw [← h1]
      refine Finset.sum_congr rfl fun q _ => ?_
      simp only [sub_mul, Finset.sum_sub_distrib]; ring
    have hsq : ∑ q, w q * (∑ j, (x j - c j) * B j q) ^ 2 = 0 := by
      have : ∑ q, w q * (∑ j, (x j - c j) * B j q) ^ 2 = ∑ i, (x i - c i) * ∑ q, w q * (B i q * ∑ j, (x j - c j) * B j q) := by
        simp only [Finset.mul_sum (s := Finset.univ (α := κ))]
        rw [Finset.sum_comm]
        refine Finset.sum_congr rfl fun q _ => ?_
        rw [sq, Finset.sum_mul, Finset.mul_sum]
        exact Finset.sum_congr rfl fun i _ => by ring
      rw [this]
      exact Finset.sum_eq_zero fun i _ => by rw [hz i, mul_zero]
    have hq := (Finset.sum_eq_zero_iff_of_nonneg fun q _ => mul_nonneg (hw q).le (sq_nonneg _)).1 hsq
    have := hB (fun j => x j - c j) fun q => by
      have := hq q (Finset.mem_univ q)
      exact pow_eq_zero_iff (two_ne_zero) |>.1 ((mul_eq_zero.1 this).resolve_left (hw q).ne')
    funext j
    exact sub_eq_zero.1 (congrFun this j)
  · rintro rfl i
    rw [hlin]
    simp only [projRhs, hf]

/-- Two functions, three points. -/
example : ∀ x : Fin 2 → ℝ, (∀ i, ∑ j, projMat ![![1, 0, 1], ![0, 1, 1]] ![1, 2, 3] i j * x j = projRhs ![![1, 0, 1], ![0, 1, 1]] ![1, 2, 3] ![4, 5, 9] i) ↔ x = ![4, 5] := by
  refine C23_projection _ _ (fun q => by fin_cases q <;> simp) (fun x h => ?_) _ _ (fun q => by fin_cases q <;> simp [Fin.sum_univ_two]; norm_num)
  funext i
  fin_cases i
  · simpa [Fin.sum_univ_two] using h 0
  · simpa [Fin.sum_univ_two] using h 1

/-! ## `gsC1SurfSpline` -/

theorem plus_parameter {b : Comp} (hb : Open b.t b.p) (hp : 1 ≤ b.p) (uv : ℕ) (beta n dn : ℝ → ℝ) (t : ℝ) :
    line uv (surfPlus uv false b beta n dn) t 0 = n t ∧
    HasDerivAt (fun c => line uv (surfPlus uv false b beta n dn) t c) (-(beta t * dn t * (b.t (b.p + 2) / b.t (b.p + 1)))) 0 := by
  have hne := p_ne hp
  constructor
  · rw [line_plus, eval_zero0 hb hp, eval_one0 hb hp]; simp
  · have := deriv_comb hb hp (n t) (-(beta t * dn t * b.t (b.p + 2) / b.p))
    refine (this.congr_deriv (by field_simp)).congr_of_eventuallyEq (Filter.Eventually.of_forall fun c => ?_)
    simp only [line_plus]; simp; ring

theorem minus_parameter {b : Comp} (hb : Open b.t b.p) (hp : 1 ≤ b.p) (uv : ℕ) (alpha m : ℝ → ℝ) (t : ℝ) :
    line uv (surfMinus uv false b alpha m) t 0 = 0 ∧
    HasDerivAt (fun c => line uv (surfMinus uv false b alpha m) t c) ((if uv = 0 then -1 else 1) * (alpha t * m t * (b.p / b.t (b.p + 1)))) 0 := by
  constructor
  · rw [line_minus, eval_one0 hb hp]; simp
  · have := deriv_comb hb hp 0 ((if uv = 0 then -1 else 1) * (alpha t * m t))
    refine (this.congr_deriv (by ring)).congr_of_eventuallyEq (Filter.Eventually.of_forall fun c => ?_)
    simp only [line_minus]; simp; ring

/-- Exact condition for `"plus"` functions of `gsC1SurfSpline` to be C1, for exact gluing data in every dimension: the derivatives agree in the common tangent plane if and only if the factor vanishes.
It vanishes if the first interior knot across the interface is (at least) double on both patches. -/
theorem C23_surf_plus_iff {k : ℕ} {F0 F1 : ℝ → ℝ → Fin k → ℝ} {t : ℝ} {T A0 A1 : Fin k → ℝ}
    (h0 : At 0 F0 t T A0) (h1 : At 1 F1 t T A1)
    {b0 b1 : Comp} (hb0 : Open b0.t b0.p) (hb1 : Open b1.t b1.p) (hp0 : 1 ≤ b0.p) (hp1 : 1 ≤ b1.p)
    {alphaR alphaL betaR betaL n dn : ℝ → ℝ} (hL : alphaL t ≠ 0) (hn : HasDerivAt n (dn t) t)
    (hglue : alphaR t • A0 + alphaL t • A1 + (alphaL t * betaR t + alphaR t * betaL t) • T = 0)
    {φ0 φ1 : (Fin k → ℝ) → ℝ} {L0 L1 : (Fin k → ℝ) →L[ℝ] ℝ}
    (hφ0 : Phys 0 F0 (surfPlus 0 false b0 betaL n dn) t φ0 L0) (hφ1 : Phys 1 F1 (surfPlus 1 false b1 betaR n dn) t φ1 L1) :
    φ0 (F0 t 0) = n t ∧ φ1 (F1 0 t) = n t ∧
    ((∀ x y : ℝ, L0 (x • A1 + y • T) = L1 (x • A1 + y • T)) ↔
      dn t * (alphaL t * betaR t * (b1.t (b1.p + 2) / b1.t (b1.p + 1) - 1) + alphaR t * betaL t * (b0.t (b0.p + 2) / b0.t (b0.p + 1) - 1)) = 0) := by
  have p0 := fun s => plus_parameter hb0 hp0 0 betaL n dn s
  have p1 := fun s => plus_parameter hb1 hp1 1 betaR n dn s
  have t0 : L0 T = dn t := phys_along hφ0 h0 hn fun r => (p0 r).1
  have t1 : L1 T = dn t := phys_along hφ1 h1 hn fun r => (p1 r).1
  have d0 := phys_across hφ0 h0 (p0 t).2
  have d1 := phys_across hφ1 h1 (p1 t).2
  have hg := congrArg L0 hglue
  rw [map_add, map_add, map_smul, map_smul, map_smul, d0, t0, map_zero] at hg
  simp only [smul_eq_mul] at hg
  refine ⟨(phys_at hφ0).trans (p0 t).1, (phys_at hφ1).trans (p1 t).1, ?_⟩
  generalize b1.t (b1.p + 2) / b1.t (b1.p + 1) = k1 at *
  generalize b0.t (b0.p + 2) / b0.t (b0.p + 1) = k0 at *
  constructor
  · intro h
    have := h 1 0
    rw [one_smul, zero_smul, add_zero, d1] at this
    rw [this] at hg
    linear_combination (-1 : ℝ) * hg
  · intro h x y
    rw [map_add, map_smul, map_smul, map_add, map_smul, map_smul, t0, t1, d1]
    have : L0 A1 = -(betaR t * dn t * k1) := mul_left_cancel₀ hL (by linear_combination hg + h)
    rw [this]

theorem C23_surf_plus_C1 {k : ℕ} {F0 F1 : ℝ → ℝ → Fin k → ℝ} {t : ℝ} {T A0 A1 : Fin k → ℝ}
    (h0 : At 0 F0 t T A0) (h1 : At 1 F1 t T A1)
    {b0 b1 : Comp} (hb0 : Open b0.t b0.p) (hb1 : Open b1.t b1.p) (hp0 : 1 ≤ b0.p) (hp1 : 1 ≤ b1.p)
    (hdouble0 : b0.t (b0.p + 2) = b0.t (b0.p + 1)) (hdouble1 : b1.t (b1.p + 2) = b1.t (b1.p + 1))
    {alphaR alphaL betaR betaL n dn : ℝ → ℝ} (hL : alphaL t ≠ 0) (hn : HasDerivAt n (dn t) t)
    (hglue : alphaR t • A0 + alphaL t • A1 + (alphaL t * betaR t + alphaR t * betaL t) • T = 0)
    {φ0 φ1 : (Fin k → ℝ) → ℝ} {L0 L1 : (Fin k → ℝ) →L[ℝ] ℝ}
    (hφ0 : Phys 0 F0 (surfPlus 0 false b0 betaL n dn) t φ0 L0) (hφ1 : Phys 1 F1 (surfPlus 1 false b1 betaR n dn) t φ1 L1) (x y : ℝ) :
    L0 (x • A1 + y • T) = L1 (x • A1 + y • T) := by
  refine (C23_surf_plus_iff h0 h1 hb0 hb1 hp0 hp1 hL hn hglue hφ0 hφ1).2.2.2 ?_ x y
  rw [hdouble0, hdouble1, div_self hb0.pos.ne', div_self hb1.pos.ne']; ring

/-- Exact condition for `"minus"` functions: the first elements across the interface must have the same length per degree. -/
theorem C23_surf_minus_iff {k : ℕ} {F0 F1 : ℝ → ℝ → Fin k → ℝ} {t : ℝ} {T A0 A1 : Fin k → ℝ}
    (h0 : At 0 F0 t T A0) (h1 : At 1 F1 t T A1)
    {b0 b1 : Comp} (hb0 : Open b0.t b0.p) (hb1 : Open b1.t b1.p) (hp0 : 1 ≤ b0.p) (hp1 : 1 ≤ b1.p)
    {alphaR alphaL m : ℝ → ℝ} {beta : ℝ} (hR : alphaR t ≠ 0) (hL : alphaL t ≠ 0) (hm : m t ≠ 0)
    (hglue : alphaR t • A0 + alphaL t • A1 + beta • T = 0)
    {φ0 φ1 : (Fin k → ℝ) → ℝ} {L0 L1 : (Fin k → ℝ) →L[ℝ] ℝ}
    (hφ0 : Phys 0 F0 (surfMinus 0 false b0 alphaL m) t φ0 L0) (hφ1 : Phys 1 F1 (surfMinus 1 false b1 alphaR m) t φ1 L1) :
    φ0 (F0 t 0) = 0 ∧ φ1 (F1 0 t) = 0 ∧
    ((∀ x y : ℝ, L0 (x • A1 + y • T) = L1 (x • A1 + y • T)) ↔ b0.p / b0.t (b0.p + 1) = b1.p / b1.t (b1.p + 1)) := by
  have p0 := fun s => minus_parameter hb0 hp0 0 alphaL m s
  have p1 := fun s => minus_parameter hb1 hp1 1 alphaR m s
  have t0 : L0 T = 0 := phys_along hφ0 h0 (hasDerivAt_const t (0 : ℝ)) fun r => (p0 r).1
  have t1 : L1 T = 0 := phys_along hφ1 h1 (hasDerivAt_const t (0 : ℝ)) fun r => (p1 r).1
  have d0 := phys_across hφ0 h0 (p0 t).2
  have d1 := phys_across hφ1 h1 (p1 t).2
  simp only [if_pos, if_neg one_ne_zero] at d0 d1
  have hg := congrArg L0 hglue
  rw [map_add, map_add, map_smul, map_smul, map_smul, d0, t0, map_zero] at hg
  simp only [smul_eq_mul] at hg
  refine ⟨(phys_at hφ0).trans (p0 t).1, (phys_at hφ1).trans (p1 t).1, ?_⟩
  generalize (b0.p : ℝ) / b0.t (b0.p + 1) = k0 at *
  generalize (b1.p : ℝ) / b1.t (b1.p + 1) = k1 at *
  have hne : alphaR t * alphaL t * m t ≠ 0 := mul_ne_zero (mul_ne_zero hR hL) hm
  constructor
  · intro h
    have := h 1 0
    rw [one_smul, zero_smul, add_zero, d1] at this
    rw [this] at hg
    exact mul_left_cancel₀ hne (by linear_combination -hg)
  · intro h x y
    rw [map_add, map_smul, map_smul, map_add, map_smul, map_smul, t0, t1, d1]
    have : L0 A1 = 1 * (alphaR t * m t * k1) := mul_left_cancel₀ hL (by rw [h] at hg; linear_combination hg)
    rw [this]

/-! ## A concrete interface

`F1 (u,v) = (u, v)` and `F0 (u,v) = (-v, u + c v)`: the interface is the second axis, for `c ≠ 0` the lines across it have a kink. -/

def exF1 (u v : ℝ) : Fin 2 → ℝ := ![u, v]
def exF0 (c : ℝ) (u v : ℝ) : Fin 2 → ℝ := ![-v, u + c * v]

/-- Cubic, knots `0,0,0,0,1,1,1,1`. -/
noncomputable def cubic1 : Comp := ⟨fun i => if i ≤ 3 then 0 else 1, 3⟩
/-- Cubic, knots `0,0,0,0,1/2,1,1,1,1`. -/
noncomputable def cubic2 : Comp := ⟨fun i => if i ≤ 3 then 0 else if i = 4 then 1 / 2 else 1, 3⟩

theorem cubic1_open : Open cubic1.t cubic1.p :=
  ⟨fun i hi => by simp only [cubic1] at hi ⊢; rw [if_pos hi], by simp [cubic1], fun i j hij => by
    simp only [cubic1]; split_ifs <;> first | omega | norm_num⟩
theorem cubic2_open : Open cubic2.t cubic2.p :=
  ⟨fun i hi => by simp only [cubic2] at hi ⊢; rw [if_pos hi], by simp [cubic2], fun i j hij => by
    simp only [cubic2]; split_ifs <;> first | omega | norm_num⟩

theorem exF0_at (c t : ℝ) : At 0 (exF0 c) t ![0, 1] ![-1, c] := by
  constructor
  · rw [hasDerivAt_pi]
    intro i; fin_cases i <;> simp [line, exF0]
    · exact hasDerivAt_const _ _
    · exact hasDerivAt_id _
  · rw [hasDerivAt_pi]
    intro i; fin_cases i <;> simp [line, exF0]
    · exact (hasDerivAt_id _).neg
    · simpa using ((hasDerivAt_id (0 : ℝ)).const_mul c).const_add t
theorem exF1_at (t : ℝ) : At 1 exF1 t ![0, 1] ![1, 0] := by
  constructor <;> rw [hasDerivAt_pi] <;> intro i <;> fin_cases i <;> simp [line, exF1]
  · exact hasDerivAt_const _ _
  · exact hasDerivAt_id _
  · exact hasDerivAt_id _
  · exact hasDerivAt_const _ _

theorem exPhys0 (c : ℝ) {f : ℝ → ℝ → ℝ} (hf : Differentiable ℝ fun x : Fin 2 → ℝ => f (x 1 + c * x 0) (-x 0)) (t : ℝ) :
    ∃ φ L, Phys 0 (exF0 c) f t φ L :=
  ⟨_, _, ⟨1, one_pos, fun s c _ _ _ => by simp [line, exF0], (hf _).hasFDerivAt.hasFDerivWithinAt⟩⟩
theorem exPhys1 {f : ℝ → ℝ → ℝ} (hf : Differentiable ℝ fun x : Fin 2 → ℝ => f (x 0) (x 1)) (t : ℝ) :
    ∃ φ L, Phys 1 exF1 f t φ L :=
  ⟨_, _, ⟨1, one_pos, fun s c _ _ _ => by simp [line, exF1], (hf _).hasFDerivAt.hasFDerivWithinAt⟩⟩

@[fun_prop] theorem Comp.eval_diff (b : Comp) (i : ℕ) : Differentiable ℝ (b.eval i) := (N b.t b.p i).differentiable

/-- All hypotheses of `C23_trace_C1` for the kinked interface, different meshes, trace `n(s) = s ^ 2` at `s = 3`. -/
example : ∃ φ0 L0 φ1 L1, Phys 0 (exF0 5) (traceBasis 0 false cubic1 (fun _ => betaGeo 0 ![0, 1] ![-1, 5]) (fun s => s ^ 2) fun s => 2 * s) 3 φ0 L0 ∧
    Phys 1 exF1 (traceBasis 1 false cubic2 (fun _ => betaGeo 1 ![1, 0] ![0, 1]) (fun s => s ^ 2) fun s => 2 * s) 3 φ1 L1 ∧ φ0 (exF0 5 3 0) = 9 ∧ L0 = L1 ∧ L0 ![0, 1] = 6 := by
  obtain ⟨φ0, L0, h0⟩ := exPhys0 5 (f := traceBasis 0 false cubic1 (fun _ => betaGeo 0 ![0, 1] ![-1, 5]) (fun s => s ^ 2) fun s => 2 * s)
    (by simp only [traceBasis]; simp; fun_prop) 3
  obtain ⟨φ1, L1, h1⟩ := exPhys1 (f := traceBasis 1 false cubic2 (fun _ => betaGeo 1 ![1, 0] ![0, 1]) (fun s => s ^ 2) fun s => 2 * s)
    (by simp only [traceBasis]; simp; fun_prop) 3
  have hn : HasDerivAt (fun s : ℝ => s ^ 2) (2 * 3) 3 := by simpa using hasDerivAt_pow 2 (3 : ℝ)
  have key := C23_trace_C1 (fun s => by simp [line, exF0, exF1]) (exF0_at 5 3) (exF1_at 3) (by rw [det_two]; simp) (by rw [det_two]; simp)
    cubic1_open cubic2_open (by simp [cubic1]) (by simp [cubic2]) (n := fun s => s ^ 2) (dn := fun s => 2 * s) hn rfl rfl h0 h1
  refine ⟨φ0, L0, φ1, L1, h0, h1, by rw [key.1]; norm_num, key.2.2.2.1, ?_⟩
  have := (C23_trace_gradient (by omega) (exF0_at 5 3) (by simp) cubic1_open (by simp [cubic1]) (n := fun s => s ^ 2) (dn := fun s => 2 * s) hn rfl h0).2 0 1
  simp at this
  rw [this]; norm_num

/-- All hypotheses of `C23_normal_C1` for the kinked interface. -/
example : ∃ φ0 L0 φ1 L1, Phys 0 (exF0 5) (normalDerivBasis 0 false cubic1 (fun _ => alphaPlanar ![0, 1] ![-1, 5]) fun s => s ^ 2) 3 φ0 L0 ∧
    Phys 1 exF1 (normalDerivBasis 1 false cubic2 (fun _ => alphaPlanar ![1, 0] ![0, 1]) fun s => s ^ 2) 3 φ1 L1 ∧ L0 = L1 ∧ L0 ![1, 0] = 9 := by
  obtain ⟨φ0, L0, h0⟩ := exPhys0 5 (f := normalDerivBasis 0 false cubic1 (fun _ => alphaPlanar ![0, 1] ![-1, 5]) fun s => s ^ 2)
    (by simp only [normalDerivBasis]; simp; fun_prop) 3
  obtain ⟨φ1, L1, h1⟩ := exPhys1 (f := normalDerivBasis 1 false cubic2 (fun _ => alphaPlanar ![1, 0] ![0, 1]) fun s => s ^ 2)
    (by simp only [normalDerivBasis]; simp; fun_prop) 3
  have key := C23_normal_C1 (fun s => by simp [line, exF0, exF1]) (exF0_at 5 3) (exF1_at 3) (by rw [det_two]; simp) (by rw [det_two]; simp)
    cubic1_open cubic2_open (by simp [cubic1]) (by simp [cubic2]) (m := fun s => s ^ 2) rfl rfl h0 h1
  refine ⟨φ0, L0, φ1, L1, h0, h1, key.2.2.2.1, ?_⟩
  rw [key.2.2.2.2.2]; simp [dotProduct, Fin.sum_univ_two]; norm_num

/-- Both patches flat in space, seen from their common tangent plane: the conormal form of `A0` and `A1`. -/
example : (![-2, 5, 0] : Fin 3 → ℝ) = (-2 : ℝ) • ![1, 0, 0] + (5 : ℝ) • ![0, 1, 0] ∧ (![1, 0, 0] : Fin 3 → ℝ) ⬝ᵥ ![1, 0, 0] = 1 ∧ (![1, 0, 0] : Fin 3 → ℝ) ⬝ᵥ ![0, 1, 0] = 0 ∧
    alphaSurface 0 ![0, 1, 0] ![-2, 5, 0] = 2 := by
  have h : (![-2, 5, 0] : Fin 3 → ℝ) = (-2 : ℝ) • ![1, 0, 0] + (5 : ℝ) • ![0, 1, 0] := by ext i; fin_cases i <;> simp
  have h1 : (![1, 0, 0] : Fin 3 → ℝ) ⬝ᵥ ![1, 0, 0] = 1 := by simp [dotProduct, Fin.sum_univ_three]
  have h2 : (![1, 0, 0] : Fin 3 → ℝ) ⬝ᵥ ![0, 1, 0] = 0 := by simp [dotProduct, Fin.sum_univ_three]
  refine ⟨h, h1, h2, ?_⟩
  have := alphaSurface_conormal (uv := 0) (by omega) (T := ![0, 1, 0]) (by intro h; have := congrFun h 1; simp at this) h1 h2 h
  simpa [colU, colV] using this

/-- The claim fails for `gsC1SurfSpline` on patches with different mesh sizes across the interface: `"minus"` functions with exact gluing data (`alpha = 1`, `beta = 0`, a straight interface of
two squares) have different normal derivatives on the two sides. -/
theorem C23_surf_minus_violated : ∃ φ0 L0 φ1 L1, Phys 0 (exF0 0) (surfMinus 0 false cubic1 (fun _ => 1) fun _ => 1) 0 φ0 L0 ∧
    Phys 1 exF1 (surfMinus 1 false cubic2 (fun _ => 1) fun _ => 1) 0 φ1 L1 ∧ L0 ![1, 0] = 3 ∧ L1 ![1, 0] = 6 := by
  obtain ⟨φ0, L0, h0⟩ := exPhys0 0 (f := surfMinus 0 false cubic1 (fun _ => 1) fun _ => 1) (by simp only [surfMinus]; simp; fun_prop) 0
  obtain ⟨φ1, L1, h1⟩ := exPhys1 (f := surfMinus 1 false cubic2 (fun _ => 1) fun _ => 1) (by simp only [surfMinus]; simp; fun_prop) 0
  have d0 := phys_across h0 (exF0_at 0 0) (minus_parameter cubic1_open (by simp [cubic1]) 0 (fun _ => 1) (fun _ => 1) 0).2
  have d1 := phys_across h1 (exF1_at 0) (minus_parameter cubic2_open (by simp [cubic2]) 1 (fun _ => 1) (fun _ => 1) 0).2
  refine ⟨φ0, L0, φ1, L1, h0, h1, ?_, ?_⟩
  · have : (![1, 0] : Fin 2 → ℝ) = -![-1, 0] := by ext i; fin_cases i <;> simp
    rw [this, map_neg, d0]; simp [cubic1]
  · rw [d1]; simp [cubic2]; norm_num

/-- The claim fails for `"plus"` functions of `gsC1SurfSpline` if the first interior knot is simple: cubic with knots `0,0,0,0,1/2,1,…`, exact gluing data of the kinked interface
(`alpha = 1`, `beta_R = 0`, `beta_L = -1`). -/
theorem C23_surf_plus_violated : ∃ φ0 L0 φ1 L1, Phys 0 (exF0 1) (surfPlus 0 false cubic2 (fun _ => -1) (fun s => s) fun _ => 1) 0 φ0 L0 ∧
    Phys 1 exF1 (surfPlus 1 false cubic2 (fun _ => 0) (fun s => s) fun _ => 1) 0 φ1 L1 ∧
    (1 : ℝ) • ![-1, 1] + (1 : ℝ) • ![1, 0] + ((1 : ℝ) * 0 + 1 * -1) • (![0, 1] : Fin 2 → ℝ) = 0 ∧ L0 ≠ L1 := by
  obtain ⟨φ0, L0, h0⟩ := exPhys0 1 (f := surfPlus 0 false cubic2 (fun _ => -1) (fun s => s) fun _ => 1) (by simp only [surfPlus]; simp; fun_prop) 0
  obtain ⟨φ1, L1, h1⟩ := exPhys1 (f := surfPlus 1 false cubic2 (fun _ => 0) (fun s => s) fun _ => 1) (by simp only [surfPlus]; simp; fun_prop) 0
  have hg : (1 : ℝ) • ![-1, 1] + (1 : ℝ) • ![1, 0] + ((1 : ℝ) * 0 + 1 * -1) • (![0, 1] : Fin 2 → ℝ) = 0 := by
    ext i; fin_cases i <;> simp
  refine ⟨φ0, L0, φ1, L1, h0, h1, hg, fun h => ?_⟩
  have := (C23_surf_plus_iff (exF0_at 1 0) (exF1_at 0) cubic2_open cubic2_open (by simp [cubic2]) (by simp [cubic2])
    (alphaR := fun _ => 1) (alphaL := fun _ => 1) (n := fun s => s) (dn := fun _ => 1) (by simp) (hasDerivAt_id 0) hg h0 h1).2.2.1 (fun x y => by rw [h])
  simp [cubic2] at this
  norm_num at this

end Verif.EdgeFun
