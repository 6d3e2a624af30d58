import Verif.Props.SplineSpace
/-!
# Property C51: the functions of an interface between bilinear patches are C1

From the spaces over the projection of the gluing data and the projection of the functions of the interface to the functions that are stored (`gsApproxC1GluingData.h:101-190`, `gsApproxC1Edge.hpp:30-190`): for bilinear patches no step
makes an error.
-/
set_option autoImplicit false
namespace Verif.Spaces
open Polynomial
open _root_.Verif.EdgeFun (At Phys Near line alphaPlanar betaGeo projMat projRhs det_two betaGeo_eq)

/-! ## Splines have derivatives -/

/-- A C1 spline has the derivative that is computed from the derivatives of its polynomials. -/
theorem val_hasDeriv {z : ℕ → ℝ} (hz : StrictMono z) {n : ℕ} {k : Kv} {f : ℕ → ℝ[X]} (hk : ∀ i, 1 ≤ i → i < n → k.mult i + 1 ≤ k.deg) (hf : Sp z n k f) {t : ℝ} (h0 : z 0 < t) (h1 : t < z n) :
    HasDerivAt (val z n f) (val z n (fun e => derivative (f e)) t) t := by
  have hn : 0 < n := by
    rcases Nat.eq_zero_or_pos n with rfl | h
    · exact absurd (h0.trans h1) (lt_irrefl _)
    · exact h
  have hk' : ∀ i, 1 ≤ i → i < n → k.mult i ≤ k.deg := fun i a b => (Nat.le_succ _).trans (hk i a b)
  obtain ⟨a, b⟩ := eltAt_mem (N := n - 1) h0.le
  have hl := eltAt_le (z := z) (n - 1) t
  have hu : t < z (eltAt z (n - 1) t + 1) := by
    rcases Nat.lt_or_ge (eltAt z (n - 1) t) (n - 1) with h | h
    · exact b h
    · rw [show eltAt z (n - 1) t + 1 = n by omega]; exact h1
  unfold val at *
  generalize eltAt z (n - 1) t = e at *
  show HasDerivAt (val z n f) _ t
  have right : HasDerivWithinAt (val z n f) ((derivative (f e)).eval t) (Set.Icc (z e) (z (e + 1))) t := by
    refine ((f e).hasDerivAt t).hasDerivWithinAt.congr (fun x hx => val_eq hz hk' hf (by omega) hx.1 hx.2) (val_eq hz hk' hf (by omega) a hu.le)
  rcases lt_or_eq_of_le a with h | h
  · exact right.hasDerivAt (Icc_mem_nhds h hu)
  · obtain ⟨i, rfl⟩ : ∃ i, e = i + 1 := by
      refine ⟨e - 1, ?_⟩
      rcases Nat.eq_zero_or_pos e with rfl | hp
      · exact absurd h h0.ne
      · omega
    have hj := (C51_jump_iff _ _ _ _).1 (hf.jump (i + 1) (by omega) (by omega)) 1 (by have := hk (i + 1) (by omega) (by omega); omega)
    simp only [Function.iterate_one, Nat.add_sub_cancel] at hj
    rw [h] at hj
    have left : HasDerivWithinAt (val z n f) ((derivative (f (i + 1))).eval t) (Set.Icc (z i) (z (i + 1))) t := by
      rw [hj]
      refine ((f i).hasDerivAt t).hasDerivWithinAt.congr (fun x hx => val_eq hz hk' hf (by omega) hx.1 hx.2) (val_eq hz hk' hf (by omega) ?_ ?_)
      · rw [← h]; exact (hz (Nat.lt_succ_self i)).le
      · exact h.ge
    have := left.union right
    rw [Set.Icc_union_Icc_eq_Icc (hz (Nat.lt_succ_self i)).le (hz (Nat.lt_succ_self _)).le] at this
    exact this.hasDerivAt (Icc_mem_nhds (by rw [← h]; exact hz (Nat.lt_succ_self i)) hu)

/-- Only the parameters near the edge count. -/
theorem phys_congr {k : ℕ} {uv : ℕ} {F : ℝ → ℝ → Fin k → ℝ} {f g : ℝ → ℝ → ℝ} {t δ : ℝ} (hδ : 0 < δ) (h : ∀ s c, |s - t| < δ → 0 ≤ c → c < δ → line uv f s c = line uv g s c) {φ : (Fin k → ℝ) → ℝ} {L : (Fin k → ℝ) →L[ℝ] ℝ}
    (hp : Phys uv F f t φ L) : Phys uv F g t φ L := by
  obtain ⟨ε, e0, e1, e2⟩ := hp.near
  refine ⟨min ε δ, lt_min e0 hδ, fun s c a b c' => ?_, e2.mono ?_⟩
  · rw [e1 s c (a.trans_le (min_le_left _ _)) b (c'.trans_le (min_le_left _ _)), h s c (a.trans_le (min_le_right _ _)) b (c'.trans_le (min_le_right _ _))]
  · rintro x ⟨s, c, a, b, c', rfl⟩
    exact ⟨s, c, a.trans_le (min_le_left _ _), b, c'.trans_le (min_le_left _ _), rfl⟩

/-! ## The interface -/

/-- `x` solves the system of the projection of `f`. -/
def Solves {ι κ : Type} [Fintype ι] [Fintype κ] (B : ι → κ → ℝ) (w f : κ → ℝ) (x : ι → ℝ) : Prop := ∀ i, ∑ j, projMat B w i j * x j = projRhs B w f i

/-- The component across the interface: grid and basis. -/
structure Across (zc : ℕ → ℝ) (nc : ℕ) (b : Kv) : Prop where
  mono : StrictMono zc
  zero : zc 0 = 0
  pos : 0 < nc
  deg : 1 ≤ b.deg
  mult : ∀ i, 1 ≤ i → i < nc → b.mult i ≤ b.deg + 1

/-- The gluing data with coefficients `x`. -/
noncomputable def glueSpl (z : ℕ → ℝ) (n : ℕ) (kg : Kv) (x : Fin (dim n kg) → ℝ) (e : ℕ) : ℝ[X] := ∑ j, C (x j) * spl z n kg j e

theorem glue_val (z : ℕ → ℝ) (n : ℕ) (kg : Kv) (x : Fin (dim n kg) → ℝ) (t : ℝ) : val z n (glueSpl z n kg x) t = ∑ j, x j * splVal z n kg j t :=
  val_sum Finset.univ z n x (fun j : Fin (dim n kg) => spl z n kg j) t

theorem glue_sp {z : ℕ → ℝ} (hz : StrictMono z) (n : ℕ) (kg : Kv) (x : Fin (dim n kg) → ℝ) : Sp z n kg (glueSpl z n kg x) :=
  sp_sum Finset.univ x (f := fun j : Fin (dim n kg) => spl z n kg j) fun j _ => spl_sp hz j

/-- The direction along the interface on one patch. -/
noncomputable def ifaceDir (z : ℕ → ℝ) (n : ℕ) (basis kp km kg : Kv) (xa xb : Fin (dim n kg) → ℝ) : Dir := ⟨z, n, basis, kp, km, true, glueSpl z n kg xa, glueSpl z n kg xb⟩

section
variable {z : ℕ → ℝ} (hz : StrictMono z) {n : ℕ} (hn : 0 < n) {geo basis : Kv} (hgeo : NoGeo n geo) {pt rt : ℤ} {p r : ℕ} (ho : Options basis pt rt p r) (hd : 2 ≤ basis.deg)
  {m : ℕ} (hm : m ≤ basis.deg - 1) (hu : ∀ i, basis.mult i = 0 ∨ basis.mult i = m) {kp km kg ke : Kv} (hs : interfaceSpaces n geo basis pt rt = some (kp, km, kg, ke))

include hgeo hs in
theorem iface_parts : plus n geo basis = some kp ∧ minus n geo basis = some km ∧ gluing n geo basis pt rt = some kg ∧ kp = ⟨basis.deg, fun i => basis.mult i - raise n basis⟩ ∧ kg = gluing0 basis pt rt := by
  have := iface_eq (basis := basis) hgeo pt rt
  rw [hs] at this
  cases this
  exact ⟨(C51_plus_minus hgeo).1, (C51_plus_minus hgeo).2, gluing_nil hgeo pt rt, rfl, rfl⟩

include hz hn hgeo ho hd hm hu hs

theorem iface_made (xa xb : Fin (dim n kg) → ℝ) : Made (ifaceDir z n basis kp km kg xa xb) geo pt rt := by
  obtain ⟨h1, h2, h3, _, _⟩ := iface_parts hgeo hs
  refine ⟨hz, hn, hgeo, hd, h1, h2, fun i => ?_, fun _ => ⟨⟨m, hu⟩, ⟨p, r, ho⟩, fun kg' hg => ?_⟩⟩
  · show basis.mult i ≤ basis.deg - 1
    rcases hu i with h | h <;> omega
  · obtain rfl := Option.some.inj (h3.symm.trans hg)
    exact ⟨glue_sp hz n _ xa, glue_sp hz n _ xb⟩

/-- `C51_bilinear_edges`. Two bilinear patches with a common edge, the spaces that the code makes, gluing data `xa`, `xb` projected to the space of the gluing data on each patch, then function `i` of the plus space (or of the minus space)
made into functions on both patches, `x0` and `x1` their projections to the functions that are not eliminated. The functions with these coefficients have the same values and the same derivatives at every inner point of the interface,
where the patches are regular. The bases across the interface may be different. -/
theorem C51_bilinear_edges {κ : Type} [Fintype κ] {pg : κ → ℝ} (hqg : Quad z n kg pg) {wg : κ → ℝ} (hwg : ∀ q, 0 < wg q) (a b c d d' T : Fin 2 → ℝ) {xa0 xa1 xb0 xb1 : Fin (dim n kg) → ℝ}
    (ha0 : Solves (fun (i : Fin (dim n kg)) q => splVal z n kg i (pg q)) wg (fun q => alphaPlanar T (c + pg q • d)) xa0)
    (ha1 : Solves (fun (i : Fin (dim n kg)) q => splVal z n kg i (pg q)) wg (fun q => alphaPlanar (b + pg q • d') T) xa1)
    (hb0 : Solves (fun (i : Fin (dim n kg)) q => splVal z n kg i (pg q)) wg (fun q => betaGeo 0 T (c + pg q • d)) xb0)
    (hb1 : Solves (fun (i : Fin (dim n kg)) q => splVal z n kg i (pg q)) wg (fun q => betaGeo 1 (b + pg q • d') T) xb1)
    {z0 z1 : ℕ → ℝ} {n0 n1 : ℕ} {b0 b1 : Kv} (hc0 : Across z0 n0 b0) (hc1 : Across z1 n1 b1) {κ0 μ0 κ1 μ1 : Type} [Fintype κ0] [Fintype μ0] [Fintype κ1] [Fintype μ1]
    {pu0 : κ0 → ℝ} {pv0 : μ0 → ℝ} (hu0 : Quad z n ke pu0) (hv0 : Quad z0 n0 b0 pv0) {w0 : κ0 × μ0 → ℝ} (hw0 : ∀ q, 0 < w0 q)
    {pu1 : κ1 → ℝ} {pv1 : μ1 → ℝ} (hu1 : Quad z n ke pu1) (hv1 : Quad z1 n1 b1 pv1) {w1 : κ1 × μ1 → ℝ} (hw1 : ∀ q, 0 < w1 q) (i : ℕ)
    {F0 F1 : ℝ → ℝ → ℝ} (trace : Bool)
    (hF : if trace then F0 = traceVal (ifaceDir z n basis kp km kg xa0 xb0) z0 n0 b0 i ∧ F1 = traceVal (ifaceDir z n basis kp km kg xa1 xb1) z1 n1 b1 i
      else F0 = normalVal 0 (ifaceDir z n basis kp km kg xa0 xb0) z0 n0 b0 i ∧ F1 = normalVal 1 (ifaceDir z n basis kp km kg xa1 xb1) z1 n1 b1 i)
    {x0 x1 : Fin (dim n ke) × Fin 2 → ℝ} (hx0 : Solves (fun i (q : κ0 × μ0) => rowVal z n ke z0 n0 b0 i (pu0 q.1) (pv0 q.2)) w0 (fun q => F0 (pu0 q.1) (pv0 q.2)) x0)
    (hx1 : Solves (fun i (q : κ1 × μ1) => rowVal z n ke z1 n1 b1 i (pu1 q.1) (pv1 q.2)) w1 (fun q => F1 (pu1 q.1) (pv1 q.2)) x1)
    {t : ℝ} (h0 : z 0 < t) (h1 : t < z n) (r0 : alphaPlanar T (c + t • d) ≠ 0) (r1 : alphaPlanar (b + t • d') T ≠ 0) {φ0 φ1 : (Fin 2 → ℝ) → ℝ} {L0 L1 : (Fin 2 → ℝ) →L[ℝ] ℝ}
    (hφ0 : Phys 0 (bilin a T c d) (fun u v => ∑ j, x0 j * rowVal z n ke z0 n0 b0 j u v) t φ0 L0) (hφ1 : Phys 1 (bilin a b T d') (fun u v => ∑ j, x1 j * rowVal z n ke z1 n1 b1 j v u) t φ1 L1) :
    φ0 (a + t • T) = φ1 (a + t • T) ∧ L0 = L1 ∧
      (trace = true → φ0 (a + t • T) = splVal z n kp i t ∧ L0 T = val z n (fun e => derivative (spl z n kp i e)) t ∧ L0 ![T 1, -T 0] = 0) ∧
      (trace = false → φ0 (a + t • T) = 0 ∧ ∀ v, L0 v = splVal z n km i t * (![T 1, -T 0] ⬝ᵥ v)) := by
  obtain ⟨e1, e2, e3, e4, e5⟩ := iface_parts hgeo hs
  have hpr := ho.2.2
  have gd : kg.deg = p := by have := ho.1; rw [e5]; unfold gluing0; simp only [this]; omega
  have gm : ∀ i, 1 ≤ i → i < n → kg.mult i ≤ kg.deg + 1 := fun i _ _ => by
    rw [gd, e5]; unfold gluing0; simp only [ho.1, ho.2.1]; split <;> omega
  have made := fun xa xb => iface_made hz hn hgeo ho hd hm hu hs xa xb
  have hke : ∀ xa xb : Fin (dim n kg) → ℝ, edgeSpace (ifaceDir z n basis kp km kg xa xb).kind (ifaceDir z n basis kp km kg xa xb).n geo (ifaceDir z n basis kp km kg xa xb).basis pt rt = some ke := fun xa xb => by
    show edgeSpace true n geo basis pt rt = some ke
    unfold edgeSpace; rw [if_pos rfl, hs]; rfl
  obtain ⟨pa0, pb0, da0, db0, g0⟩ := C51_bilinear_data a T c d 0 (by omega)
  obtain ⟨pa1, pb1, da1, db1, g1⟩ := C51_bilinear_data a b T d' 1 (by omega)
  simp only [if_true, if_neg one_ne_zero] at g0 g1
  have G := fun {g : ℝ → ℝ} {P : ℝ[X]} (hP : P.natDegree ≤ 1) (hg : ∀ t, P.eval t = g t) {x : Fin (dim n kg) → ℝ} hx => (glue_val z n kg x t).trans (C51_gluing_projection hz hn (by omega) gm hqg hwg hP hg (x := x) hx t)
  have A0 : val z n (glueSpl z n kg xa0) t = alphaPlanar T (c + t • d) := G da0 (fun s => (g0 s).2.1) ha0
  have A1 : val z n (glueSpl z n kg xa1) t = alphaPlanar (b + t • d') T := G da1 (fun s => (g1 s).2.1) ha1
  have B0 : val z n (glueSpl z n kg xb0) t = betaGeo 0 T (c + t • d) := G db0 (fun s => (g0 s).2.2) hb0
  have B1 : val z n (glueSpl z n kg xb1) t = betaGeo 1 (b + t • d') T := G db1 (fun s => (g1 s).2.2) hb1
  have hF0 : F0 = traceVal (ifaceDir z n basis kp km kg xa0 xb0) z0 n0 b0 i ∨ F0 = normalVal 0 (ifaceDir z n basis kp km kg xa0 xb0) z0 n0 b0 i := by
    cases trace <;> simp only [Bool.false_eq_true, if_false, if_true] at hF
    · exact Or.inr hF.1
    · exact Or.inl hF.1
  have hF1 : F1 = traceVal (ifaceDir z n basis kp km kg xa1 xb1) z1 n1 b1 i ∨ F1 = normalVal 1 (ifaceDir z n basis kp km kg xa1 xb1) z1 n1 b1 i := by
    cases trace <;> simp only [Bool.false_eq_true, if_false, if_true] at hF
    · exact Or.inr hF.2
    · exact Or.inl hF.2
  have P0 : ∀ u v, ∑ j, x0 j * rowVal z n ke z0 n0 b0 j u v = F0 u v := by
    have := edge_solves (made xa0 xb0) (hke xa0 xb0) hc0.mono hc0.pos hc0.deg hc0.mult hu0 hv0 hw0 i 0 hF0 hx0
    exact this
  have P1 : ∀ u v, ∑ j, x1 j * rowVal z n ke z1 n1 b1 j u v = F1 u v := by
    have := edge_solves (made xa1 xb1) (hke xa1 xb1) hc1.mono hc1.pos hc1.deg hc1.mult hu1 hv1 hw1 i 1 hF1 hx1
    exact this
  simp only [P0] at hφ0
  simp only [P1] at hφ1
  have hmatch : ∀ s, line 0 (bilin a T c d) s 0 = line 1 (bilin a b T d') s 0 := fun s => by simp [line, bilin]
  have y0 : bilin a T c d t 0 = a + t • T := by simp [bilin]
  have y1 : bilin a b T d' 0 t = a + t • T := by simp [bilin]
  have o0 := knots_open hc0.mono hc0.zero hc0.pos b0
  have o1 := knots_open hc1.mono hc1.zero hc1.pos b1
  have q0 : (0 : ℝ) < z0 1 := hc0.zero ▸ hc0.mono Nat.zero_lt_one
  have q1 : (0 : ℝ) < z1 1 := hc1.zero ▸ hc1.mono Nat.zero_lt_one
  have f0 := fun s {r} (hr : 0 ≤ r ∧ r < z0 1) => C51_edge_first (ifaceDir z n basis kp km kg xa0 xb0) hc0.mono n0 b0 i s (r := r) ⟨hc0.zero ▸ hr.1, hr.2⟩
  have f1 := fun s {r} (hr : 0 ≤ r ∧ r < z1 1) => C51_edge_first (ifaceDir z n basis kp km kg xa1 xb1) hc1.mono n1 b1 i s (r := r) ⟨hc1.zero ▸ hr.1, hr.2⟩
  cases trace with
  | true =>
    simp only [if_true] at hF
    obtain ⟨rfl, rfl⟩ := hF
    have kpm : ∀ i, 1 ≤ i → i < n → kp.mult i + 1 ≤ kp.deg := fun i _ _ => by rw [e4]; simp only; rcases hu i with h | h <;> omega
    have hder := val_hasDeriv hz kpm (spl_sp hz (n := n) (k := kp) i) h0 h1
    have k0 := phys_congr (g := EdgeFun.traceBasis 0 false ⟨knots z0 n0 b0, b0.deg⟩ (val z n (glueSpl z n kg xb0)) (splVal z n kp i) (val z n fun e => derivative (spl z n kp i e))) q0
      (fun s c _ h1 h2 => by simpa [line, ifaceDir] using (f0 s ⟨h1, h2⟩).1) hφ0
    have k1 := phys_congr (g := EdgeFun.traceBasis 1 false ⟨knots z1 n1 b1, b1.deg⟩ (val z n (glueSpl z n kg xb1)) (splVal z n kp i) (val z n fun e => derivative (spl z n kp i e))) q1
      (fun s c _ h1 h2 => by simpa [line, ifaceDir] using (f1 s ⟨h1, h2⟩).2.1) hφ1
    have key := EdgeFun.C23_trace_C1 hmatch (g0 t).1 (g1 t).1 r0 r1 o0 o1 hc0.deg hc1.deg (n := splVal z n kp i) (dn := val z n fun e => derivative (spl z n kp i e)) hder B0 B1 k0 k1
    rw [y0, y1] at key
    refine ⟨key.1.trans key.2.1.symm, key.2.2.2.1, fun _ => ⟨key.1, ?_, key.2.2.2.2⟩, fun h => by cases h⟩
    exact EdgeFun.phys_along k0 (g0 t).1 hder fun s => (EdgeFun.C23_trace_parameter o0 hc0.deg 0 false _ _ _ s).1
  | false =>
    simp only [Bool.false_eq_true, if_false] at hF
    obtain ⟨rfl, rfl⟩ := hF
    have k0 := phys_congr (g := EdgeFun.normalDerivBasis 0 false ⟨knots z0 n0 b0, b0.deg⟩ (val z n (glueSpl z n kg xa0)) (splVal z n km i)) q0
      (fun s c _ h1 h2 => by simpa [line, ifaceDir] using (f0 s ⟨h1, h2⟩).2.2.1) hφ0
    have k1 := phys_congr (g := EdgeFun.normalDerivBasis 1 false ⟨knots z1 n1 b1, b1.deg⟩ (val z n (glueSpl z n kg xa1)) (splVal z n km i)) q1
      (fun s c _ h1 h2 => by simpa [line, ifaceDir] using (f1 s ⟨h1, h2⟩).2.2.2) hφ1
    have key := EdgeFun.C23_normal_C1 hmatch (g0 t).1 (g1 t).1 r0 r1 o0 o1 hc0.deg hc1.deg A0 A1 k0 k1
    rw [y0, y1] at key
    exact ⟨key.1.trans key.2.1.symm, key.2.2.2.1, fun h => (by cases h), fun _ => ⟨key.1, key.2.2.2.2.2⟩⟩

end

/-! ## Example -/

theorem exSolve (kg : Kv) (hd : 1 ≤ kg.deg) (hk : ∀ i, 1 ≤ i → i < 4 → kg.mult i ≤ kg.deg + 1) {g : ℝ → ℝ} {P : ℝ[X]} (hP : P.natDegree ≤ 1) (hg : ∀ t, P.eval t = g t) :
    ∃ x, Solves (fun (i : Fin (dim 4 kg)) (q : Fin 4 × Fin (kg.deg + 1)) => splVal (fun i : ℕ => (i : ℝ)) 4 kg i ((q.1 : ℝ) + ((q.2 : ℝ) + 1) / ((kg.deg : ℝ) + 2))) (fun _ => 1)
      (fun q => g ((q.1 : ℝ) + ((q.2 : ℝ) + 1) / ((kg.deg : ℝ) + 2))) x := by
  obtain ⟨c, hc⟩ := val_combination exMono (n := 4) (by decide) hk (sp_const (fun i : ℕ => (i : ℝ)) 4 kg P (hP.trans hd))
  refine ⟨c, (EdgeFun.C23_projection _ _ (fun _ => one_pos) (C51_unisolvent exMono (by decide) hk (exQuad kg)) _ c (fun q => ?_) c).2 rfl⟩
  rw [← hc, ← hg]; rfl

/-- In the first element the functions are polynomials. -/
theorem exRow {k b : Kv} {s r : ℝ} (hs : |s - 1 / 2| < 1 / 2) (h0 : 0 ≤ r) (h1 : r < 1 / 2) (x : Fin (dim 4 k) × Fin 2 → ℝ) :
    ∑ j, x j * rowVal (fun i : ℕ => (i : ℝ)) 4 k (fun i : ℕ => (i : ℝ)) 4 b j s r = ∑ j, x j * ((spl (fun i : ℕ => (i : ℝ)) 4 k j.1 0).eval s * (spl (fun i : ℕ => (i : ℝ)) 4 b j.2 0).eval r) := by
  rw [abs_lt] at hs
  have e : eltAt (fun i : ℕ => (i : ℝ)) 3 s = 0 := eltAt_eq exMono (by decide) (by norm_num; linarith) (Or.inr (by norm_num; linarith))
  have e' : eltAt (fun i : ℕ => (i : ℝ)) 3 r = 0 := eltAt_eq exMono (by decide) (by norm_num; linarith) (Or.inr (by norm_num; linarith))
  simp only [rowVal, splVal, val, show 4 - 1 = 3 from rfl, e, e']

/-- All hypotheses of `C51_bilinear_edges` for a function with value 19/32 at the point, on patches that are bilinear and not affine. -/
example : ∃ (k : Kv) (x0 x1 : Fin (dim 4 k) × Fin 2 → ℝ) (φ0 φ1 : (Fin 2 → ℝ) → ℝ) (L0 L1 : (Fin 2 → ℝ) →L[ℝ] ℝ),
    Phys 0 (bilin 0 ![1, 0] ![0, 1] ![0, 1]) (fun u v => ∑ j, x0 j * rowVal (fun i => i) 4 k (fun i => i) 4 exK j u v) (1 / 2) φ0 L0 ∧
    Phys 1 (bilin 0 ![0, -1] ![1, 0] ![0, -1]) (fun u v => ∑ j, x1 j * rowVal (fun i => i) 4 k (fun i => i) 4 ⟨2, fun _ => 1⟩ j v u) (1 / 2) φ1 L1 ∧ L0 = L1 ∧ φ0 ((1 / 2 : ℝ) • ![1, 0]) = 19 / 32 := by
  have hu : ∀ i, exK.mult i = 0 ∨ exK.mult i = 1 := fun i => by unfold exK; simp only; split <;> simp
  have ng : NoGeo 4 ⟨1, fun _ => 0⟩ := fun _ _ _ => rfl
  have ho := C51_default exK (by decide)
  obtain ⟨kp, km, kg, ke, hs, -⟩ := C51_edge (fun i : ℕ => (i : ℝ)) ng ho (by decide) (m := 1) (by decide) hu
  obtain ⟨e1, e2, e3, e4, e5⟩ := iface_parts ng hs
  have hp : kp = exK := Option.some.inj (e1.symm.trans rfl)
  have gd : kg.deg = 2 := by rw [e5]; rfl
  have gm : ∀ i, 1 ≤ i → i < 4 → kg.mult i ≤ kg.deg + 1 := fun i _ _ => by
    rw [gd, e5]; unfold gluing0; simp only [ho.1, ho.2.1]; split <;> simp [exK]
  obtain ⟨pa0, pb0, da0, db0, g0⟩ := C51_bilinear_data 0 ![1, 0] ![0, 1] ![0, 1] 0 (by omega)
  obtain ⟨pa1, pb1, da1, db1, g1⟩ := C51_bilinear_data 0 ![0, -1] ![1, 0] ![0, -1] 1 (by omega)
  simp only [if_true, if_neg one_ne_zero] at g0 g1
  obtain ⟨xa0, ha0⟩ := exSolve kg (by omega) gm da0 fun s => (g0 s).2.1
  obtain ⟨xa1, ha1⟩ := exSolve kg (by omega) gm da1 fun s => (g1 s).2.1
  obtain ⟨xb0, hb0⟩ := exSolve kg (by omega) gm db0 fun s => (g0 s).2.2
  obtain ⟨xb1, hb1⟩ := exSolve kg (by omega) gm db1 fun s => (g1 s).2.2
  have made := fun xa xb => iface_made exMono (n := 4) (by decide) ng ho (by decide) (m := 1) (by decide) hu hs xa xb
  have hke : edgeSpace true 4 ⟨1, fun _ => 0⟩ exK (-1) (-1) = some ke := by unfold edgeSpace; rw [if_pos rfl, hs]; rfl
  have c0 : Across (fun i : ℕ => (i : ℝ)) 4 exK := ⟨exMono, Nat.cast_zero, by decide, by decide, fun i _ _ => by unfold exK; simp only; split <;> omega⟩
  have c1 : Across (fun i : ℕ => (i : ℝ)) 4 ⟨2, fun _ => 1⟩ := ⟨exMono, Nat.cast_zero, by decide, by decide, fun i _ _ => by simp⟩
  obtain ⟨x0, ⟨hx0, _⟩, _⟩ := C51_edge_projection (made xa0 xb0) hke c0.mono c0.pos c0.deg c0.mult (exQuad ke) (exQuad _) (w := fun _ => 1) (fun _ => one_pos) 1 0 (Or.inl rfl)
  obtain ⟨x1, ⟨hx1, _⟩, _⟩ := C51_edge_projection (made xa1 xb1) hke c1.mono c1.pos c1.deg c1.mult (exQuad ke) (exQuad _) (w := fun _ => 1) (fun _ => one_pos) 1 1 (Or.inl rfl)
  have dp : ∀ p : ℝ[X], Differentiable ℝ fun x => p.eval x := fun p => p.differentiable
  obtain ⟨φ0, L0, h0⟩ := exBilin0 (f := fun u v => ∑ j, x0 j * ((spl (fun i : ℕ => (i : ℝ)) 4 ke j.1 0).eval u * (spl (fun i : ℕ => (i : ℝ)) 4 exK j.2 0).eval v))
    (Differentiable.fun_sum fun j _ => (((dp _).comp differentiable_fst).mul ((dp _).comp differentiable_snd)).const_mul _)
  obtain ⟨φ1, L1, h1⟩ := exBilin1 (f := fun u v => ∑ j, x1 j * ((spl (fun i : ℕ => (i : ℝ)) 4 ke j.1 0).eval v * (spl (fun i : ℕ => (i : ℝ)) 4 ⟨2, fun _ => 1⟩ j.2 0).eval u))
    (Differentiable.fun_sum fun j _ => (((dp _).comp differentiable_snd).mul ((dp _).comp differentiable_fst)).const_mul _)
  have k0 := phys_congr (g := fun u v => ∑ j, x0 j * rowVal (fun i => i) 4 ke (fun i => i) 4 exK j u v) (δ := 1 / 2) (by norm_num) (fun s c a b d => by simp only [line, if_true]; exact (exRow a b d x0).symm) h0
  have k1 := phys_congr (g := fun u v => ∑ j, x1 j * rowVal (fun i => i) 4 ke (fun i => i) 4 ⟨2, fun _ => 1⟩ j v u) (δ := 1 / 2) (by norm_num) (fun s c a b d => by simp only [line, if_neg one_ne_zero]; exact (exRow a b d x1).symm) h1
  have key := C51_bilinear_edges exMono (by decide) ng ho (by decide) (by decide) hu hs (exQuad kg) (fun _ => one_pos) 0 ![0, -1] ![0, 1] ![0, 1] ![0, -1] ![1, 0] ha0 ha1 hb0 hb1 c0 c1
    (exQuad ke) (exQuad exK) (fun _ => one_pos) (exQuad ke) (exQuad _) (fun _ => one_pos) 1 true ⟨rfl, rfl⟩ hx0 hx1 (t := 1 / 2) (by norm_num) (by norm_num)
    (by simp [alphaPlanar]; norm_num) (by simp [alphaPlanar]; norm_num) k0 k1
  refine ⟨ke, x0, x1, φ0, φ1, L0, L1, k0, k1, key.2.1, ?_⟩
  have := (key.2.2.1 rfl).1
  rw [zero_add] at this
  rw [this, hp]
  have e : eltAt (fun i : ℕ => (i : ℝ)) 3 (1 / 2) = 0 := eltAt_eq exMono (by decide) (by norm_num) (Or.inr (by norm_num))
  simp only [splVal, val, show 4 - 1 = 3 from rfl, e, spl, exK, BSpline.bs, knots, knotPt, pos]
  norm_num

end Verif.Spaces
