import Verif.Props.BilinearEdge
import Verif.Props.VertexFun
/-!
# Properties C39 and C51: vertex functions on the whole interface

In `Props/VertexFun.lean` the functions of the bases are the polynomials of the first element. Here they are splines (`vertexVal`), so that the theorems hold on all elements of the interface; and for bilinear patches all steps
are put together, as in `Props/BilinearEdge.lean`.
-/
set_option autoImplicit false
namespace Verif.Spaces
open Polynomial Filter Topology
open _root_.Verif.EdgeFun (At Phys Near line alphaPlanar betaGeo projMat projRhs det_two betaGeo_eq)
open _root_.Verif.VertexFun (Geo Data Jet Rep Along0 Along1 dirMinus dirPlus dMinus dPlus dIk IsGeo Jet2)

/-! ## Near the vertex -/

theorem eltAt_first {z : ℕ → ℝ} (hz : StrictMono z) (N : ℕ) {t : ℝ} (h : t < z 1) : eltAt z N t = 0 := by
  induction N with
  | zero => rfl
  | succ N ih => rw [eltAt, if_neg (not_le.2 (h.trans_le (hz.monotone (by omega)))), ih]

theorem val_first {z : ℕ → ℝ} (hz : StrictMono z) (n : ℕ) (f : ℕ → ℝ[X]) {t : ℝ} (h : t < z 1) : val z n f t = (f 0).eval t := by
  unfold val; rw [eltAt_first hz _ h]

theorem val_near {z : ℕ → ℝ} (hz : StrictMono z) (h0 : z 0 = 0) (n : ℕ) (f : ℕ → ℝ[X]) : val z n f =ᶠ[𝓝 0] fun t => (f 0).eval t := by
  have : (0 : ℝ) < z 1 := h0 ▸ hz Nat.zero_lt_one
  filter_upwards [Iio_mem_nhds this] with t ht using val_first hz n f ht

/-- A direction at a vertex with parameter zero. -/
structure Corner (d : Dir) : Prop where
  mono : StrictMono d.z
  zero : d.z 0 = 0
  pos : 0 < d.n
  basis : 1 ≤ d.basis.deg
  plus : 2 ≤ d.plus.deg
  minus : 1 ≤ d.minus.deg
  alpha : d.glue.alpha 0 ≠ 0

/-- The bases of the first element. -/
def bas (d : Dir) : VertexFun.Bases := ⟨⟨knots d.z d.n d.basis, d.basis.deg⟩, ⟨knots d.z d.n d.plus, d.plus.deg⟩, ⟨knots d.z d.n d.minus, d.minus.deg⟩⟩

theorem bas_ok {d : Dir} (h : Corner d) : (bas d).Ok :=
  ⟨knots_open h.mono h.zero h.pos _, knots_open h.mono h.zero h.pos _, knots_open h.mono h.zero h.pos _, h.basis, h.plus, h.minus⟩

theorem glue_ok {d : Dir} (h : Corner d) : d.glue.Ok :=
  ⟨h.alpha, ((d.al 0).hasDerivAt 0).congr_of_eventuallyEq (val_near h.mono h.zero _ _), ((d.be 0).hasDerivAt 0).congr_of_eventuallyEq (val_near h.mono h.zero _ _)⟩

/-- Trace and transversal derivative on an edge, as splines. -/
noncomputable def trS (d : Dir) (m : Fin 5 → ℝ) (e : ℕ) : ℝ[X] := C (m 0) * e_0_plus d.z d.n d.plus e + C (m 1) * e_1_plus d.z d.n d.plus e + C (m 2) * e_2_plus d.z d.n d.plus e
noncomputable def ndS (d : Dir) (m : Fin 5 → ℝ) (e : ℕ) : ℝ[X] := C (m 3) * e_0 d.z d.n d.minus e + C (m 4) * e_1 d.z d.n d.minus e
noncomputable def bmS (d : Dir) (m : Fin 5 → ℝ) (x : ℝ) : ℝ := -(d.glue.beta x * val d.z d.n (fun e => derivative (trS d m e)) x) - d.glue.alpha x * val d.z d.n (ndS d m) x
noncomputable def bpS (d : Dir) (m : Fin 5 → ℝ) (x : ℝ) : ℝ := -(d.glue.beta x * val d.z d.n (fun e => derivative (trS d m e)) x) + d.glue.alpha x * val d.z d.n (ndS d m) x

theorem trS_sp {d : Dir} (hz : StrictMono d.z) (m : Fin 5 → ℝ) : Sp d.z d.n d.plus (trS d m) :=
  sp_add (sp_add (sp_smul _ (e_0_plus_sp hz)) (sp_smul _ (e_1_plus_sp hz))) (sp_smul _ (e_2_plus_sp hz))

theorem vertexVal_eq {k : ℕ} (du dv : Dir) (geo : Geo k) (D : Data k) (u v : ℝ) :
    vertexVal du dv geo D u v = val du.z du.n (trS du (dMinus geo du.glue D)) u * val dv.z dv.n (e_0 dv.z dv.n dv.basis) v + bmS du (dMinus geo du.glue D) u * val dv.z dv.n (e_1 dv.z dv.n dv.basis) v
      + (val dv.z dv.n (trS dv (dPlus geo dv.glue D)) v * val du.z du.n (e_0 du.z du.n du.basis) u + bpS dv (dPlus geo dv.glue D) v * val du.z du.n (e_1 du.z du.n du.basis) u)
      - (dIk geo D 0 * (val du.z du.n (e_0 du.z du.n du.basis) u * val dv.z dv.n (e_0 dv.z dv.n dv.basis) v) + dIk geo D 2 * (val du.z du.n (e_0 du.z du.n du.basis) u * val dv.z dv.n (e_1 dv.z dv.n dv.basis) v)
        + dIk geo D 1 * (val du.z du.n (e_1 du.z du.n du.basis) u * val dv.z dv.n (e_0 dv.z dv.n dv.basis) v) + dIk geo D 3 * (val du.z du.n (e_1 du.z du.n du.basis) u * val dv.z dv.n (e_1 dv.z dv.n dv.basis) v)) := by
  simp only [vertexVal, trS, ndS, bmS, bpS, val, derivative_add, derivative_mul, derivative_C, zero_mul, zero_add, e_0_deriv, e_1_deriv, e_2_deriv, eval_add, eval_mul, eval_C]
  ring

theorem bmS_near {d : Dir} (h : Corner d) (m : Fin 5 → ℝ) : bmS d m =ᶠ[𝓝 0] VertexFun.bm (bas d) d.glue m := by
  filter_upwards [val_near h.mono h.zero d.n (fun e => derivative (trS d m e)), val_near h.mono h.zero d.n (ndS d m)] with t h1 h2
  rw [bmS, h1, h2]; rfl

theorem bpS_near {d : Dir} (h : Corner d) (m : Fin 5 → ℝ) : bpS d m =ᶠ[𝓝 0] VertexFun.bp (bas d) d.glue m := by
  filter_upwards [val_near h.mono h.zero d.n (fun e => derivative (trS d m e)), val_near h.mono h.zero d.n (ndS d m)] with t h1 h2
  rw [bpS, h1, h2]; rfl

theorem near_val {z : ℕ → ℝ} (hz : StrictMono z) (h0 : z 0 = 0) (n : ℕ) {f : ℕ → ℝ[X]} {a b : ℝ} (h : (f 0).eval 0 = a ∧ (derivative (f 0)).eval 0 = b) : val z n f 0 = a ∧ HasDerivAt (val z n f) b 0 :=
  ⟨(val_near hz h0 n f).self_of_nhds.trans h.1, (VertexFun.poly_hasDerivAt h.2).congr_of_eventuallyEq (val_near hz h0 n f)⟩

theorem dPlus_first {k : ℕ} (geo : Geo k) (g : VertexFun.Glue) (D : Data k) : dPlus geo g D 0 = dIk geo D 0 ∧ dPlus geo g D 1 = dIk geo D 2 := ⟨rfl, rfl⟩
theorem dMinus_first {k : ℕ} (geo : Geo k) (g : VertexFun.Glue) (D : Data k) : dMinus geo g D 0 = dIk geo D 0 ∧ dMinus geo g D 1 = dIk geo D 1 := ⟨rfl, rfl⟩

theorem e_0_near {d : Dir} (h : Corner d) : val d.z d.n (e_0 d.z d.n d.basis) 0 = 1 ∧ HasDerivAt (val d.z d.n (e_0 d.z d.n d.basis)) 0 0 :=
  near_val h.mono h.zero d.n (f := e_0 d.z d.n d.basis) (VertexFun.c_0_jet (b := (bas d).geo) (bas_ok h).geo (bas_ok h).pg)

theorem e_1_near {d : Dir} (h : Corner d) : val d.z d.n (e_1 d.z d.n d.basis) 0 = 0 ∧ HasDerivAt (val d.z d.n (e_1 d.z d.n d.basis)) 1 0 :=
  near_val h.mono h.zero d.n (f := e_1 d.z d.n d.basis) (VertexFun.c_1_jet (b := (bas d).geo) (bas_ok h).geo (bas_ok h).pg)

theorem trS_near {d : Dir} (h : Corner d) (m : Fin 5 → ℝ) : val d.z d.n (trS d m) 0 = m 0 ∧ HasDerivAt (val d.z d.n (trS d m)) (m 1) 0 := by
  obtain ⟨t0, t1, _⟩ := VertexFun.tr_jet (b := (bas d).plus) (bas_ok h).plus (bas_ok h).pp m
  exact near_val h.mono h.zero d.n (f := trS d m) ⟨t0, t1⟩

theorem bpS_jet {k : ℕ} {d : Dir} {geo : Geo k} {D : Data k} {J : Jet k} (hd : Corner d) (h : Rep D J) : bpS d (dPlus geo d.glue D) 0 = dIk geo D 1 ∧ HasDerivAt (bpS d (dPlus geo d.glue D)) (dIk geo D 3) 0 := by
  obtain ⟨p0, p1⟩ := VertexFun.bp_jet (geo := geo) (bas_ok hd) (glue_ok hd) h
  exact ⟨(bpS_near hd _).self_of_nhds.trans p0, p1.congr_of_eventuallyEq (bpS_near hd _)⟩

theorem bmS_jet {k : ℕ} {d : Dir} {geo : Geo k} {D : Data k} {J : Jet k} (hd : Corner d) (h : Rep D J) : bmS d (dMinus geo d.glue D) 0 = dIk geo D 2 ∧ HasDerivAt (bmS d (dMinus geo d.glue D)) (dIk geo D 3) 0 := by
  obtain ⟨p0, p1⟩ := VertexFun.bm_jet (geo := geo) (bas_ok hd) (glue_ok hd) h
  exact ⟨(bmS_near hd _).self_of_nhds.trans p0, p1.congr_of_eventuallyEq (bmS_near hd _)⟩

section
variable {k : ℕ} {du dv : Dir} {geo : Geo k} {D : Data k} {J : Jet k}

/-- On the edge `v = 0`, for all parameters `u`: the spline with trace `trS` and derivative across the edge from `ndS`. -/
theorem spline_edge_u (hv : Corner dv) (h : Rep D J) (u : ℝ) :
    vertexVal du dv geo D u 0 = val du.z du.n (trS du (dMinus geo du.glue D)) u ∧ HasDerivAt (fun v => vertexVal du dv geo D u v) (bmS du (dMinus geo du.glue D) u) 0 := by
  have q := trS_near hv (dPlus geo dv.glue D)
  rw [(dPlus_first geo dv.glue D).1, (dPlus_first geo dv.glue D).2] at q
  exact VertexFun.coons (g := vertexVal du dv geo D) (vertexVal_eq du dv geo D) (e_0_near hv).1 (e_0_near hv).2 (e_1_near hv).1 (e_1_near hv).2 q.1 q.2 (bpS_jet hv h).1 (bpS_jet hv h).2 u

theorem spline_edge_v (hu : Corner du) (h : Rep D J) (v : ℝ) :
    vertexVal du dv geo D 0 v = val dv.z dv.n (trS dv (dPlus geo dv.glue D)) v ∧ HasDerivAt (fun u => vertexVal du dv geo D u v) (bpS dv (dPlus geo dv.glue D) v) 0 := by
  have q := trS_near hu (dMinus geo du.glue D)
  rw [(dMinus_first geo du.glue D).1, (dMinus_first geo du.glue D).2] at q
  exact VertexFun.coons (g := fun v u => vertexVal du dv geo D u v) (w1 := dIk geo D 2) (w2 := dIk geo D 1) (n := val dv.z dv.n (trS dv (dPlus geo dv.glue D))) (B := bpS dv (dPlus geo dv.glue D))
    (c0u := val dv.z dv.n (e_0 dv.z dv.n dv.basis)) (c1u := val dv.z dv.n (e_1 dv.z dv.n dv.basis))
    (fun v u => by rw [vertexVal_eq]; ring) (e_0_near hu).1 (e_0_near hu).2 (e_1_near hu).1 (e_1_near hu).2 q.1 q.2 (bmS_jet hu h).1 (bmS_jet hu h).2 v
end

/-! ## C39 on all elements -/

/-- The coefficients of both patches on their common edge are equal; only the points of the edge near the vertex count. -/
theorem C39_data_near {k : ℕ} {g0 g1 : VertexFun.Glue} {geo0 geo1 : Geo k} {D : Data k} {T A0 A1 : ℝ → Fin k → ℝ} (h0 : Along0 geo0 T A0) (h1 : Along1 geo1 T A1) (hg0 : g0.Ok) (hg1 : g1.Ok)
    (hdir : ∀ᶠ t in 𝓝[≥] 0, dirMinus g0 T A0 t = dirPlus g1 T A1 t) : dMinus geo0 g0 D = dPlus geo1 g1 D := by
  have e1 : geo0.u = geo1.v := funext fun i => (h0.t i).symm.trans (h1.t i)
  have e2 : geo0.uu = geo1.vv := funext fun i => (h0.dt i).unique (h1.dt i)
  have z : dirMinus g0 T A0 0 = dirPlus g1 T A1 0 := hdir.self_of_nhdsWithin Set.self_mem_Ici
  have e3 : VertexFun.ddMinus geo0 g0 = VertexFun.ddPlus geo1 g1 := funext fun i => by
    rw [← (VertexFun.ddMinus_deriv h0 hg0 i).1, ← (VertexFun.ddPlus_deriv h1 hg1 i).1, z]
  have e4 : VertexFun.ddMinusDeriv geo0 g0 = VertexFun.ddPlusDeriv geo1 g1 := funext fun i => by
    have a := (VertexFun.ddMinus_deriv h0 hg0 i).2.hasDerivWithinAt (s := Set.Ici 0)
    have b := (VertexFun.ddPlus_deriv h1 hg1 i).2.hasDerivWithinAt (s := Set.Ici 0)
    have b' := b.congr_of_eventuallyEq (hdir.mono fun t ht => congrFun ht i) (congrFun z i)
    exact (uniqueDiffWithinAt_Ici (0 : ℝ)).eq_deriv _ a b'
  simp only [dMinus, dPlus, e1, e2, e3, e4]

/-- **C39** on all elements, in every dimension: at all inner points of the interface the vertex functions of both patches have the same value, the same derivative along the interface and the same derivative in the direction of the
transversal vector. The other edges at the vertex may be interfaces or boundary. -/
theorem C39_spline {k : ℕ} {du0 dv0 du1 dv1 : Dir} (hu0 : Corner du0) (hv0 : Corner dv0) (hu1 : Corner du1) (hv1 : Corner dv1) (hz : du0.z = dv1.z) (hn : du0.n = dv1.n) (hp : du0.plus = dv1.plus)
    (hm : du0.minus = dv1.minus) (hreg : ∀ i, 1 ≤ i → i < du0.n → du0.plus.mult i + 1 ≤ du0.plus.deg) {geo0 geo1 : Geo k} {D : Data k} {J : Jet k} (h : Rep D J) {T A0 A1 : ℝ → Fin k → ℝ}
    (h0 : Along0 geo0 T A0) (h1 : Along1 geo1 T A1) (hdir : ∀ᶠ t in 𝓝[≥] 0, dirMinus du0.glue T A0 t = dirPlus dv1.glue T A1 t) {F0 F1 : ℝ → ℝ → Fin k → ℝ} {t : ℝ} (ht0 : 0 < t) (ht1 : t < du0.z du0.n)
    (hT0 : At 0 F0 t (T t) (A0 t)) (hT1 : At 1 F1 t (T t) (A1 t)) (hdt : dirMinus du0.glue T A0 t = dirPlus dv1.glue T A1 t) (ha0 : du0.glue.alpha t ≠ 0) (ha1 : dv1.glue.alpha t ≠ 0)
    {φ0 φ1 : (Fin k → ℝ) → ℝ} {L0 L1 : (Fin k → ℝ) →L[ℝ] ℝ} (hφ0 : Phys 0 F0 (vertexVal du0 dv0 geo0 D) t φ0 L0) (hφ1 : Phys 1 F1 (vertexVal du1 dv1 geo1 D) t φ1 L1) :
    φ0 (F0 t 0) = φ1 (F1 0 t) ∧ L0 (T t) = L1 (T t) ∧ L0 (dirPlus dv1.glue T A1 t) = L1 (dirPlus dv1.glue T A1 t) := by
  have hd := C39_data_near (D := D) h0 h1 (glue_ok hu0) (glue_ok hv1) hdir
  have E0 := fun s => spline_edge_u (du := du0) (geo := geo0) hv0 h s
  have E1 := fun s => spline_edge_v (dv := dv1) (geo := geo1) hu1 h s
  have etr : ∀ m, trS du0 m = trS dv1 m := fun m => by funext e; simp only [trS, hz, hn, hp]
  have end' : ∀ m, ndS du0 m = ndS dv1 m := fun m => by funext e; simp only [ndS, hz, hn, hm]
  have d0 := val_hasDeriv hu0.mono hreg (trS_sp hu0.mono (dMinus geo0 du0.glue D)) (by rw [hu0.zero]; exact ht0) ht1
  have d1 := val_hasDeriv hv1.mono (by rw [← hn, ← hp]; exact hreg) (trS_sp hv1.mono (dPlus geo1 dv1.glue D)) (by rw [hv1.zero]; exact ht0) (by rw [← hz, ← hn]; exact ht1)
  have t0 := EdgeFun.phys_along hφ0 hT0 d0 fun r => (E0 r).1
  have t1 := EdgeFun.phys_along hφ1 hT1 d1 fun r => (E1 r).1
  have a0 : L0 (A0 t) = bmS du0 (dMinus geo0 du0.glue D) t := EdgeFun.phys_across hφ0 hT0 (E0 t).2
  have a1 : L1 (A1 t) = bpS dv1 (dPlus geo1 dv1.glue D) t := EdgeFun.phys_across hφ1 hT1 (E1 t).2
  refine ⟨?_, ?_, ?_⟩
  · rw [show φ0 (F0 t 0) = _ from (EdgeFun.phys_at hφ0).trans (E0 t).1, show φ1 (F1 0 t) = _ from (EdgeFun.phys_at hφ1).trans (E1 t).1, hd, etr, hz, hn]
  · rw [t0, t1, hd, etr, hz, hn]
  · have l0 : L0 (dirPlus dv1.glue T A1 t) = val du0.z du0.n (ndS du0 (dMinus geo0 du0.glue D)) t := by
      rw [← hdt, dirMinus, map_smul, map_add, map_smul, a0, t0, bmS]
      simp only [smul_eq_mul]; field_simp; ring
    have l1 : L1 (dirPlus dv1.glue T A1 t) = val dv1.z dv1.n (ndS dv1 (dPlus geo1 dv1.glue D)) t := by
      rw [dirPlus, map_smul, map_add, map_smul, a1, t1, bpS]
      simp only [smul_eq_mul]; field_simp; ring
    rw [l0, l1, hd, end', hz, hn]

/-- **C39** on all elements for planar patches and gluing data that are exact on the interface: the vertex functions are C1 at all inner points of the interface. -/
theorem C39_spline_planar {du0 dv0 du1 dv1 : Dir} (hu0 : Corner du0) (hv0 : Corner dv0) (hu1 : Corner du1) (hv1 : Corner dv1) (hz : du0.z = dv1.z) (hn : du0.n = dv1.n) (hp : du0.plus = dv1.plus)
    (hm : du0.minus = dv1.minus) (hreg : ∀ i, 1 ≤ i → i < du0.n → du0.plus.mult i + 1 ≤ du0.plus.deg) {geo0 geo1 : Geo 2} {D : Data 2} {J : Jet 2} (h : Rep D J) {T A0 A1 : ℝ → Fin 2 → ℝ}
    (h0 : Along0 geo0 T A0) (h1 : Along1 geo1 T A1) (hd0 : ∀ t, 0 ≤ t → t ≤ du0.z du0.n → alphaPlanar (T t) (A0 t) ≠ 0) (hd1 : ∀ t, 0 ≤ t → t ≤ du0.z du0.n → alphaPlanar (A1 t) (T t) ≠ 0)
    (e0 : ∀ t, 0 ≤ t → t ≤ du0.z du0.n → du0.glue.alpha t = alphaPlanar (T t) (A0 t) ∧ du0.glue.beta t = betaGeo 0 (T t) (A0 t))
    (e1 : ∀ t, 0 ≤ t → t ≤ du0.z du0.n → dv1.glue.alpha t = alphaPlanar (A1 t) (T t) ∧ dv1.glue.beta t = betaGeo 1 (A1 t) (T t)) {F0 F1 : ℝ → ℝ → Fin 2 → ℝ} {t : ℝ} (ht0 : 0 < t)
    (ht1 : t < du0.z du0.n) (hT0 : At 0 F0 t (T t) (A0 t)) (hT1 : At 1 F1 t (T t) (A1 t))
    {φ0 φ1 : (Fin 2 → ℝ) → ℝ} {L0 L1 : (Fin 2 → ℝ) →L[ℝ] ℝ} (hφ0 : Phys 0 F0 (vertexVal du0 dv0 geo0 D) t φ0 L0) (hφ1 : Phys 1 F1 (vertexVal du1 dv1 geo1 D) t φ1 L1) :
    φ0 (F0 t 0) = φ1 (F1 0 t) ∧ L0 = L1 := by
  have hdir : ∀ s, 0 ≤ s → s ≤ du0.z du0.n → dirMinus du0.glue T A0 s = dirPlus dv1.glue T A1 s := fun s a b => by
    rw [dirMinus, dirPlus, (e0 s a b).1, (e0 s a b).2, (e1 s a b).1, (e1 s a b).2]; exact VertexFun.dir_planar (hd0 s a b) (hd1 s a b)
  have hev : ∀ᶠ s in 𝓝[≥] 0, dirMinus du0.glue T A0 s = dirPlus dv1.glue T A1 s := by
    filter_upwards [self_mem_nhdsWithin, mem_nhdsWithin_of_mem_nhds (Iio_mem_nhds (ht0.trans ht1))] with s a b using hdir s a (le_of_lt b)
  have r0 := hd0 t ht0.le ht1.le
  have r1 := hd1 t ht0.le ht1.le
  have n1 : dv1.glue.alpha t ≠ 0 := by rw [(e1 t ht0.le ht1.le).1]; exact r1
  obtain ⟨f0, f1, f2⟩ := C39_spline hu0 hv0 hu1 hv1 hz hn hp hm hreg h h0 h1 hev ht0 ht1 hT0 hT1 (hdir t ht0.le ht1.le) (by rw [(e0 t ht0.le ht1.le).1]; exact r0) n1 hφ0 hφ1
  refine ⟨f0, ?_⟩
  have hA : L0 (A1 t) = L1 (A1 t) := by
    simp only [dirPlus, map_smul, map_add, f1, smul_eq_mul] at f2
    linarith [mul_left_cancel₀ (one_div_ne_zero n1) f2]
  ext w
  obtain ⟨x, y, rfl⟩ := EdgeFun.span_two r1 w
  simp only [map_add, map_smul, hA, f1]

/-! ## Bilinear patches -/

theorem made_corner {d : Dir} {geo : Kv} {pt rt : ℤ} (h : Made d geo pt rt) (h0 : d.z 0 = 0) (ha : d.glue.alpha 0 ≠ 0) : Corner d := by
  have e := h.deg
  obtain ⟨h1, h2⟩ := C51_plus_minus (basis := d.basis) h.noGeo
  have p1 : d.plus.deg = d.basis.deg := by rw [← Option.some.inj (h1.symm.trans h.plus)]
  have p2 : d.minus.deg = d.basis.deg - 1 := by rw [← Option.some.inj (h2.symm.trans h.minus)]
  exact ⟨h.mono, h0, h.pos, by omega, by omega, by omega, ha⟩

theorem bilin_jet (a b c d : Fin 2 → ℝ) (i : Fin 2) : Jet2 (fun u v => bilin a b c d u v i) (a i) (b i) (c i) 0 (d i) 0 := by
  have hb : ∀ v, HasDerivAt (fun u => bilin a b c d u v i) (b i + v * d i) 0 := fun v => by
    have := (((hasDerivAt_id (0 : ℝ)).mul_const (b i)).const_add (a i)).add ((((hasDerivAt_id (0 : ℝ)).mul_const v).mul_const (d i)).const_add (v * c i))
    refine (this.congr_deriv (by simp)).congr_of_eventuallyEq (Eventually.of_forall fun u => ?_)
    simp [bilin]; ring
  have hc : ∀ u, HasDerivAt (fun v => bilin a b c d u v i) (c i + u * d i) 0 := fun u => by
    have := (((hasDerivAt_id (0 : ℝ)).mul_const (c i)).const_add (a i + u * b i)).add (((hasDerivAt_id (0 : ℝ)).const_mul u).mul_const (d i))
    refine (this.congr_deriv (by simp)).congr_of_eventuallyEq (Eventually.of_forall fun v => ?_)
    simp [bilin]
  have lin : ∀ x y : ℝ, HasDerivAt (fun s => x + s * y) y 0 := fun x y => by simpa using ((hasDerivAt_id (0 : ℝ)).mul_const y).const_add x
  refine ⟨by simp [bilin], ⟨fun _ => b i, fun u => ?_, rfl, hasDerivAt_const _ _⟩, ⟨fun _ => c i, fun v => ?_, rfl, hasDerivAt_const _ _⟩, ⟨_, hc, lin _ _⟩, ⟨_, hb, lin _ _⟩⟩
  · have := ((hasDerivAt_id u).mul_const (b i)).const_add (a i)
    refine (this.congr_deriv (by simp)).congr_of_eventuallyEq (Eventually.of_forall fun s => ?_)
    simp [bilin]
  · have := ((hasDerivAt_id v).mul_const (c i)).const_add (a i)
    refine (this.congr_deriv (by simp)).congr_of_eventuallyEq (Eventually.of_forall fun s => ?_)
    simp [bilin]

theorem bilin_along0 {a T c d : Fin 2 → ℝ} {geo : Geo 2} (h : IsGeo geo (bilin a T c d)) : Along0 geo (fun _ => T) fun t => c + t • d := by
  have u := fun i => (h i).unique (bilin_jet a T c d i)
  refine ⟨fun i => (u i).2.1.symm, fun i => ?_, fun i => ?_, fun i => ?_⟩
  · simpa using (u i).2.2.1.symm
  · rw [(u i).2.2.2.1]; exact hasDerivAt_const _ _
  · rw [(u i).2.2.2.2.1]; simpa using ((hasDerivAt_id (0 : ℝ)).mul_const (d i)).const_add (c i)

theorem bilin_along1 {a b T d : Fin 2 → ℝ} {geo : Geo 2} (h : IsGeo geo (bilin a b T d)) : Along1 geo (fun _ => T) fun t => b + t • d := by
  have u := fun i => (h i).unique (bilin_jet a b T d i)
  refine ⟨fun i => (u i).2.2.1.symm, fun i => ?_, fun i => ?_, fun i => ?_⟩
  · simpa using (u i).2.1.symm
  · rw [(u i).2.2.2.2.2]; exact hasDerivAt_const _ _
  · rw [(u i).2.2.2.2.1]; simpa using ((hasDerivAt_id (0 : ℝ)).mul_const (d i)).const_add (b i)

section
variable {z : ℕ → ℝ} (hz : StrictMono z) (hz0 : z 0 = 0) {n : ℕ} (hn : 0 < n) {geo basis : Kv} (hgeo : NoGeo n geo) {pt rt : ℤ} {p r : ℕ} (ho : Options basis pt rt p r) (hd : 2 ≤ basis.deg)
  {m : ℕ} (hm : m ≤ basis.deg - 1) (hu : ∀ i, basis.mult i = 0 ∨ basis.mult i = m) {kp km kg ke : Kv} (hs : interfaceSpaces n geo basis pt rt = some (kp, km, kg, ke))
include hz hz0 hn hgeo ho hd hm hu hs

/-- `C51_bilinear_vertex`. Two bilinear patches with a common edge that starts at a vertex; on the edge the spaces and the projected gluing data as in `C51_bilinear_edges`, on the other two edges any spaces and gluing data as the
code makes them (`Made`; interface or boundary). `x0` and `x1` are the coefficients of the projections of a vertex function (data `D`, the derivatives `J` at the vertex) on both patches to the spaces of the vertex. The functions with these coefficients have the same
values and derivatives at all inner points of the edge. -/
theorem C51_bilinear_vertex {κ : Type} [Fintype κ] {pg : κ → ℝ} (hqg : Quad z n kg pg) {wg : κ → ℝ} (hwg : ∀ q, 0 < wg q) (a b c d d' T : Fin 2 → ℝ) {xa0 xa1 xb0 xb1 : Fin (dim n kg) → ℝ}
    (ha0 : Solves (fun (i : Fin (dim n kg)) q => splVal z n kg i (pg q)) wg (fun q => alphaPlanar T (c + pg q • d)) xa0)
    (ha1 : Solves (fun (i : Fin (dim n kg)) q => splVal z n kg i (pg q)) wg (fun q => alphaPlanar (b + pg q • d') T) xa1)
    (hb0 : Solves (fun (i : Fin (dim n kg)) q => splVal z n kg i (pg q)) wg (fun q => betaGeo 0 T (c + pg q • d)) xb0)
    (hb1 : Solves (fun (i : Fin (dim n kg)) q => splVal z n kg i (pg q)) wg (fun q => betaGeo 1 (b + pg q • d') T) xb1)
    (r0 : ∀ t, 0 ≤ t → t ≤ z n → alphaPlanar T (c + t • d) ≠ 0) (r1 : ∀ t, 0 ≤ t → t ≤ z n → alphaPlanar (b + t • d') T ≠ 0)
    {dv0 du1 : Dir} {geoV0 geoU1 : Kv} (hv0 : Made dv0 geoV0 pt rt) (hu1 : Made du1 geoU1 pt rt) (zv0 : dv0.z 0 = 0) (zu1 : du1.z 0 = 0) (av0 : dv0.glue.alpha 0 ≠ 0) (au1 : du1.glue.alpha 0 ≠ 0)
    {ke0 kv0 ku1 : Kv} (hke0 : vertexSpace true n geo basis pt rt = some ke0) (hkv0 : vertexSpace dv0.kind dv0.n geoV0 dv0.basis pt rt = some kv0)
    (hku1 : vertexSpace du1.kind du1.n geoU1 du1.basis pt rt = some ku1)
    {geo0 geo1 : Geo 2} (hg0 : IsGeo geo0 (bilin a T c d)) (hg1 : IsGeo geo1 (bilin a b T d')) {D : Data 2} {J : Jet 2} (hD : Rep D J)
    {κ0 μ0 κ1 μ1 : Type} [Fintype κ0] [Fintype μ0] [Fintype κ1] [Fintype μ1]
    {pu0 : κ0 → ℝ} {pv0 : μ0 → ℝ} (qu0 : Quad z n ke0 pu0) (qv0 : Quad dv0.z dv0.n kv0 pv0) {w0 : κ0 × μ0 → ℝ} (hw0 : ∀ q, 0 < w0 q)
    {pu1 : κ1 → ℝ} {pv1 : μ1 → ℝ} (qu1 : Quad du1.z du1.n ku1 pu1) (qv1 : Quad z n ke0 pv1) {w1 : κ1 × μ1 → ℝ} (hw1 : ∀ q, 0 < w1 q)
    {x0 : Fin (dim n ke0) × Fin (dim dv0.n kv0) → ℝ} {x1 : Fin (dim du1.n ku1) × Fin (dim n ke0) → ℝ}
    (hx0 : Solves (fun i (q : κ0 × μ0) => tenVal z n ke0 dv0.z dv0.n kv0 i (pu0 q.1) (pv0 q.2)) w0 (fun q => vertexVal (ifaceDir z n basis kp km kg xa0 xb0) dv0 geo0 D (pu0 q.1) (pv0 q.2)) x0)
    (hx1 : Solves (fun i (q : κ1 × μ1) => tenVal du1.z du1.n ku1 z n ke0 i (pu1 q.1) (pv1 q.2)) w1 (fun q => vertexVal du1 (ifaceDir z n basis kp km kg xa1 xb1) geo1 D (pu1 q.1) (pv1 q.2)) x1)
    {t : ℝ} (h0 : 0 < t) (h1 : t < z n) {φ0 φ1 : (Fin 2 → ℝ) → ℝ} {L0 L1 : (Fin 2 → ℝ) →L[ℝ] ℝ}
    (hφ0 : Phys 0 (bilin a T c d) (fun u v => ∑ j, x0 j * tenVal z n ke0 dv0.z dv0.n kv0 j u v) t φ0 L0) (hφ1 : Phys 1 (bilin a b T d') (fun u v => ∑ j, x1 j * tenVal du1.z du1.n ku1 z n ke0 j u v) t φ1 L1) :
    φ0 (a + t • T) = φ1 (a + t • T) ∧ L0 = L1 := by
  obtain ⟨e1, e2, e3, e4, e5⟩ := iface_parts hgeo hs
  have hpr := ho.2.2
  have gd : kg.deg = p := by have := ho.1; rw [e5]; unfold gluing0; simp only [this]; omega
  have gm : ∀ i, 1 ≤ i → i < n → kg.mult i ≤ kg.deg + 1 := fun i _ _ => by
    rw [gd, e5]; unfold gluing0; simp only [ho.1, ho.2.1]; split <;> omega
  have made := fun xa xb => iface_made hz hn hgeo ho hd hm hu hs xa xb
  obtain ⟨pa0, pb0, da0, db0, g0⟩ := C51_bilinear_data a T c d 0 (by omega)
  obtain ⟨pa1, pb1, da1, db1, g1⟩ := C51_bilinear_data a b T d' 1 (by omega)
  simp only [if_true, if_neg one_ne_zero] at g0 g1
  have G := fun {g : ℝ → ℝ} {P : ℝ[X]} (hP : P.natDegree ≤ 1) (hg : ∀ t, P.eval t = g t) {x : Fin (dim n kg) → ℝ} hx t => (glue_val z n kg x t).trans (C51_gluing_projection hz hn (by omega) gm hqg hwg hP hg (x := x) hx t)
  have A0 : ∀ t, val z n (glueSpl z n kg xa0) t = alphaPlanar T (c + t • d) := G da0 (fun s => (g0 s).2.1) ha0
  have A1 : ∀ t, val z n (glueSpl z n kg xa1) t = alphaPlanar (b + t • d') T := G da1 (fun s => (g1 s).2.1) ha1
  have B0 : ∀ t, val z n (glueSpl z n kg xb0) t = betaGeo 0 T (c + t • d) := G db0 (fun s => (g0 s).2.2) hb0
  have B1 : ∀ t, val z n (glueSpl z n kg xb1) t = betaGeo 1 (b + t • d') T := G db1 (fun s => (g1 s).2.2) hb1
  have zn := (h0.trans h1).le
  have c0 : Corner (ifaceDir z n basis kp km kg xa0 xb0) := made_corner (made xa0 xb0) hz0 (by rw [show (ifaceDir z n basis kp km kg xa0 xb0).glue.alpha 0 = _ from A0 0]; exact r0 0 le_rfl zn)
  have c1 : Corner (ifaceDir z n basis kp km kg xa1 xb1) := made_corner (made xa1 xb1) hz0 (by rw [show (ifaceDir z n basis kp km kg xa1 xb1).glue.alpha 0 = _ from A1 0]; exact r1 0 le_rfl zn)
  have P0 := fun u v => C51_vertex_projection (made xa0 xb0) hv0 (ku := ke0) hke0 hkv0 geo0 D qu0 qv0 hw0 hx0 u v
  have P1 := fun u v => C51_vertex_projection hu1 (made xa1 xb1) (kv := ke0) hku1 hke0 geo1 D qu1 qv1 hw1 hx1 u v
  have k0 : Phys 0 (bilin a T c d) (vertexVal (ifaceDir z n basis kp km kg xa0 xb0) dv0 geo0 D) t φ0 L0 := phys_congr one_pos (fun s c _ _ _ => by simp only [line, if_true]; exact P0 s c) hφ0
  have k1 : Phys 1 (bilin a b T d') (vertexVal du1 (ifaceDir z n basis kp km kg xa1 xb1) geo1 D) t φ1 L1 := phys_congr one_pos (fun s c _ _ _ => by simp only [line, if_neg one_ne_zero]; exact P1 c s) hφ1
  have kpm : ∀ i, 1 ≤ i → i < n → kp.mult i + 1 ≤ kp.deg := fun i _ _ => by rw [e4]; simp only; rcases hu i with h | h <;> omega
  have key := C39_spline_planar c0 (made_corner hv0 zv0 av0) (made_corner hu1 zu1 au1) c1 rfl rfl rfl rfl kpm hD (bilin_along0 hg0) (bilin_along1 hg1) r0 r1
    (fun s _ _ => ⟨A0 s, B0 s⟩) (fun s _ _ => ⟨A1 s, B1 s⟩) h0 h1 (g0 t).1 (g1 t).1 k0 k1
  have y0 : bilin a T c d t 0 = a + t • T := by simp [bilin]
  have y1 : bilin a b T d' 0 t = a + t • T := by simp [bilin]
  rwa [y0, y1] at key

end

/-! ## Example -/

theorem exTen {k b : Kv} {s r : ℝ} (hs1 : s < 1) (h1 : r < 1) (x : Fin (dim 4 k) × Fin (dim 4 b) → ℝ) :
    ∑ j, x j * tenVal (fun i : ℕ => (i : ℝ)) 4 k (fun i : ℕ => (i : ℝ)) 4 b j s r = ∑ j, x j * ((spl (fun i : ℕ => (i : ℝ)) 4 k j.1 0).eval s * (spl (fun i : ℕ => (i : ℝ)) 4 b j.2 0).eval r) := by
  have e : eltAt (fun i : ℕ => (i : ℝ)) 3 s = 0 := eltAt_first exMono _ (by simpa using hs1)
  have e' : eltAt (fun i : ℕ => (i : ℝ)) 3 r = 0 := eltAt_first exMono _ (by simpa using h1)
  simp only [tenVal, splVal, val, show 4 - 1 = 3 from rfl, e, e']

theorem exTen' {k b : Kv} {s r : ℝ} (hs1 : s < 1) (h1 : r < 1) (x : Fin (dim 4 b) × Fin (dim 4 k) → ℝ) :
    ∑ j, x j * tenVal (fun i : ℕ => (i : ℝ)) 4 b (fun i : ℕ => (i : ℝ)) 4 k j r s = ∑ j, x j * ((spl (fun i : ℕ => (i : ℝ)) 4 b j.1 0).eval r * (spl (fun i : ℕ => (i : ℝ)) 4 k j.2 0).eval s) := by
  have e : eltAt (fun i : ℕ => (i : ℝ)) 3 s = 0 := eltAt_first exMono _ (by simpa using hs1)
  have e' : eltAt (fun i : ℕ => (i : ℝ)) 3 r = 0 := eltAt_first exMono _ (by simpa using h1)
  simp only [tenVal, splVal, val, show 4 - 1 = 3 from rfl, e, e']

/-- The derivatives of the two patches of the example at the vertex. -/
def exGeo0 : Geo 2 := ⟨![![1, 0], ![0, 1]], fun i => if i = 5 then 1 else 0⟩
def exGeo1 : Geo 2 := ⟨![![0, 1], ![-1, 0]], fun i => if i = 5 then -1 else 0⟩

theorem exGeo0_is : IsGeo exGeo0 (bilin 0 ![1, 0] ![0, 1] ![0, 1]) := fun i => by
  refine (bilin_jet _ _ _ _ i).congr ?_ ?_ ?_ ?_ ?_ ?_ <;> fin_cases i <;> simp [exGeo0, bilin]

theorem exGeo1_is : IsGeo exGeo1 (bilin 0 ![0, -1] ![1, 0] ![0, -1]) := fun i => by
  refine (bilin_jet _ _ _ _ i).congr ?_ ?_ ?_ ?_ ?_ ?_ <;> fin_cases i <;> simp [exGeo1, bilin]

/-- All hypotheses of `C51_bilinear_vertex` for the function with value one at the vertex, on patches that are bilinear and not affine, with the boundary on the other sides. Its value at the middle of the first element of the interface
is 47/48. -/
example : ∃ (k kb : Kv) (x0 : Fin (dim 4 k) × Fin (dim 4 kb) → ℝ) (x1 : Fin (dim 4 kb) × Fin (dim 4 k) → ℝ) (φ0 φ1 : (Fin 2 → ℝ) → ℝ) (L0 L1 : (Fin 2 → ℝ) →L[ℝ] ℝ),
    Phys 0 (bilin 0 ![1, 0] ![0, 1] ![0, 1]) (fun u v => ∑ j, x0 j * tenVal (fun i => i) 4 k (fun i => i) 4 kb j u v) (1 / 2) φ0 L0 ∧
    Phys 1 (bilin 0 ![0, -1] ![1, 0] ![0, -1]) (fun u v => ∑ j, x1 j * tenVal (fun i => i) 4 kb (fun i => i) 4 k j u v) (1 / 2) φ1 L1 ∧ L0 = L1 ∧ φ0 ((1 / 2 : ℝ) • ![1, 0]) = 47 / 48 := by
  have hu : ∀ i, exK.mult i = 0 ∨ exK.mult i = 1 := fun i => by unfold exK; simp only; split <;> simp
  have ng : NoGeo 4 ⟨1, fun _ => 0⟩ := fun _ _ _ => rfl
  have ho := C51_default exK (by decide)
  obtain ⟨kp, km, kg, ke, hs, -⟩ := C51_edge (fun i : ℕ => (i : ℝ)) ng ho (by decide) (m := 1) (by decide) hu
  obtain ⟨e1, e2, e3, e4, e5⟩ := iface_parts ng hs
  have hp : kp = exK := Option.some.inj (e1.symm.trans rfl)
  have gd : kg.deg = 2 := by rw [e5]; rfl
  have gm : ∀ i, 1 ≤ i → i < 4 → kg.mult i ≤ kg.deg + 1 := fun i _ _ => by
    rw [gd, e5]; unfold gluing0; simp only [ho.1, ho.2.1]; split <;> simp [exK]
  obtain ⟨pa0, pb0, da0, db0, g0⟩ := C51_bilinear_data 0 ![1, 0] ![0, 1] ![0, 1] 0 (by omega)
  obtain ⟨pa1, pb1, da1, db1, g1⟩ := C51_bilinear_data 0 ![0, -1] ![1, 0] ![0, -1] 1 (by omega)
  simp only [if_true, if_neg one_ne_zero] at g0 g1
  obtain ⟨xa0, ha0⟩ := exSolve kg (by omega) gm da0 fun s => (g0 s).2.1
  obtain ⟨xa1, ha1⟩ := exSolve kg (by omega) gm da1 fun s => (g1 s).2.1
  obtain ⟨xb0, hb0⟩ := exSolve kg (by omega) gm db0 fun s => (g0 s).2.2
  obtain ⟨xb1, hb1⟩ := exSolve kg (by omega) gm db1 fun s => (g1 s).2.2
  have made := fun xa xb => iface_made exMono (n := 4) (by decide) ng ho (by decide) (m := 1) (by decide) hu hs xa xb
  obtain ⟨k, hk, -⟩ := C51_vertex_space (made xa0 xb0)
  obtain ⟨kb, hkb, -⟩ := C51_vertex_space exMadeBdy
  obtain ⟨x0, hx0, -⟩ := C51_vertex_solvable (made xa0 xb0) exMadeBdy hk hkb exGeo0 (VertexFun.dataPlanar (VertexFun.phiPlanar 1) 0) (exQuad k) (exQuad kb) (w := fun _ => 1) fun _ => one_pos
  obtain ⟨x1, hx1, -⟩ := C51_vertex_solvable exMadeBdy (made xa1 xb1) hkb hk exGeo1 (VertexFun.dataPlanar (VertexFun.phiPlanar 1) 0) (exQuad kb) (exQuad k) (w := fun _ => 1) fun _ => one_pos
  have dp : ∀ p : ℝ[X], Differentiable ℝ fun x => p.eval x := fun p => p.differentiable
  obtain ⟨φ0, L0, h0⟩ := exBilin0 (f := fun u v => ∑ j, x0 j * ((spl (fun i : ℕ => (i : ℝ)) 4 k j.1 0).eval u * (spl (fun i : ℕ => (i : ℝ)) 4 kb j.2 0).eval v))
    (Differentiable.fun_sum fun j _ => (((dp _).comp differentiable_fst).mul ((dp _).comp differentiable_snd)).const_mul _)
  obtain ⟨φ1, L1, h1⟩ := exBilin1 (f := fun u v => ∑ j, x1 j * ((spl (fun i : ℕ => (i : ℝ)) 4 kb j.1 0).eval u * (spl (fun i : ℕ => (i : ℝ)) 4 k j.2 0).eval v))
    (Differentiable.fun_sum fun j _ => (((dp _).comp differentiable_fst).mul ((dp _).comp differentiable_snd)).const_mul _)
  have near : ∀ {s : ℝ}, |s - 1 / 2| < 1 / 2 → s < 1 := fun {s} h => by rw [abs_lt] at h; linarith
  have k0 := phys_congr (g := fun u v => ∑ j, x0 j * tenVal (fun i => i) 4 k (fun i => i) 4 kb j u v) (δ := 1 / 2) (by norm_num)
    (fun s c a b d => by simp only [line, if_true]; exact (exTen (near a) (by linarith) x0).symm) h0
  have k1 := phys_congr (g := fun u v => ∑ j, x1 j * tenVal (fun i => i) 4 kb (fun i => i) 4 k j u v) (δ := 1 / 2) (by norm_num)
    (fun s c a b d => by simp only [line, if_neg one_ne_zero]; exact (exTen' (near a) (by linarith) x1).symm) h1
  have al : ({ exDir with kind := false } : Dir).glue.alpha 0 ≠ 0 := by simp [Dir.glue, Dir.al, val]
  have key := C51_bilinear_vertex exMono Nat.cast_zero (by decide) ng ho (by decide) (by decide) hu hs (exQuad kg) (fun _ => one_pos) 0 ![0, -1] ![0, 1] ![0, 1] ![0, -1] ![1, 0] ha0 ha1 hb0 hb1
    (fun t a _ => by simp [alphaPlanar]; linarith) (fun t a _ => by simp [alphaPlanar]; linarith) exMadeBdy exMadeBdy Nat.cast_zero Nat.cast_zero al al hk hkb hkb exGeo0_is exGeo1_is (VertexFun.rep_planar 1 0)
    (exQuad k) (exQuad kb) (fun _ => one_pos) (exQuad kb) (exQuad k) (fun _ => one_pos) hx0 hx1 (t := 1 / 2) (by norm_num) (by norm_num) k0 k1
  refine ⟨k, kb, x0, x1, φ0, φ1, L0, L1, k0, k1, key.2, ?_⟩
  have P0 := C51_vertex_projection (made xa0 xb0) exMadeBdy hk hkb exGeo0 (VertexFun.dataPlanar (VertexFun.phiPlanar 1) 0) (exQuad k) (exQuad kb) (w := fun _ => 1) (fun _ => one_pos) hx0 (1 / 2) 0
  have hb : Corner ({ exDir with kind := false } : Dir) := made_corner exMadeBdy Nat.cast_zero al
  have E := (spline_edge_u (du := ifaceDir (fun i => i) 4 exK kp km kg xa0 xb0) (geo := exGeo0) hb (VertexFun.rep_planar 1 0) (1 / 2)).1
  have y : φ0 ((1 / 2 : ℝ) • ![1, 0]) = val (fun i => i) 4 (trS (ifaceDir (fun i => i) 4 exK kp km kg xa0 xb0) (dMinus exGeo0 (ifaceDir (fun i => i) 4 exK kp km kg xa0 xb0).glue (VertexFun.dataPlanar (VertexFun.phiPlanar 1) 0))) (1 / 2) := by
    have := EdgeFun.phys_at k0
    rw [show line 0 (bilin 0 ![1, 0] ![0, 1] ![0, 1]) (1 / 2) 0 = (1 / 2 : ℝ) • ![1, 0] by simp [line, bilin]] at this
    exact this.trans (P0.trans E)
  rw [y]
  have e : eltAt (fun i : ℕ => (i : ℝ)) 3 (1 / 2) = 0 := eltAt_first exMono _ (by norm_num)
  subst hp
  simp only [val, ifaceDir, show 4 - 1 = 3 from rfl, e, trS, dMinus, VertexFun.dataPlanar, VertexFun.phiPlanar, e_0_plus]
  simp [spl, exK, BSpline.bs, knots, knotPt, pos]
  norm_num

end Verif.Spaces
