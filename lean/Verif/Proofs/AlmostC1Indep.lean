import Verif.Proofs.AlmostC1EV
import Mathlib.LinearAlgebra.Matrix.ToLinearEquiv
/-! Columns of free functions; weights of three points. -/
set_option autoImplicit false
set_option linter.unusedSectionVars false
set_option linter.unusedVariables false
set_option linter.unusedSimpArgs false
namespace Verif.Smooth
open Verif

/-- the column of a free function -/
theorem Wa_free {P : Type} [DecidableEq P] {T : Topo P} (r b : ADof P) (h : AElim T b = false) : Wa T r b = ind r b := by
  have edge : ∀ (c : PC P) (s : Side) (x : ADof P), (T.nb (c.1, s)).isSome = false → edgeW T c s r x = ind r x := by
    intro c s x hn
    rw [cross_isSome] at hn
    unfold edgeW
    rcases hc : cross T c s with _ | d
    · rfl
    · rw [hc] at hn; cases hn
  cases b with
  | int p i j => rfl
  | sid s off m =>
    cases off
    · rw [AElim] at h
      rw [Wa]
      rcases hn : T.nb s with _ | t
      · rfl
      · rw [hn] at h; cases h
    · rfl
  | cor c x y =>
    cases x <;> cases y
    · rw [AElim] at h
      rw [Wa, cornW]
      simp only [Bool.or_eq_false_iff, Bool.and_eq_false_iff, beq_eq_false_iff_ne, Bool.not_eq_false'] at h
      rw [if_neg (by rw [h.1]; decide), if_neg]
      rintro ⟨h1, h2⟩
      rcases h.2 with h3 | h3
      · exact h3 h1
      · exact h2 h3
    · exact edge c _ _ h
    · exact edge c _ _ h
    · rfl

end Verif.Smooth

namespace Verif.AlmostC1
open Verif Smooth
variable {P : Type} [LinearOrder P]

theorem FA_free {T : Topo P} (r b : ADof P) (h1 : AE T b = false) (h2 : AZ T b = false) : FA T r b = ind r b := by
  rw [FA_eq, Wa_free r b (not_keep b h1 h2)]
  rintro c rfl ⟨hi, h3, hc⟩
  have hk : keep3 T c = true := by unfold keep3; simp [hi, h3, hc]
  have e1 : AE T (.cor c false false) = ((AElim T (.cor c false false) || keep3 T c) && ! (keep3 T c && decide (enc T (.cor c false false) ∈ low0 T c))) := rfl
  have e2 : AZ T (.cor c false false) = (keep3 T c && decide (enc T (.cor c false false) ∈ low0 T c)) := rfl
  rw [← e2, h2, hk] at e1
  rw [e1] at h1
  simp at h1

/-- a corner function that is free has no weight elsewhere -/
theorem FA_corner_row {T : Topo P} (ok : Ok T) (d : PC P) (b : ADof P) (h : FA T (.cor d false false) b ≠ 0) : b = .cor d false false := by
  by_contra hb
  apply h
  have edge : ∀ (c : PC P) (s : Side) (x : ADof P), x ≠ .cor d false false → edgeW T c s (.cor d false false) x = 0 := by
    intro c s x hx
    unfold edgeW
    rcases hc : cross T c s with _ | e
    · exact ind_ne (fun h => hx h.symm)
    · simp only
      rw [ind_ne (by simp), ind_ne (by simp)]; norm_num
  by_cases hsp : ∃ c, b = .cor c false false ∧ (T.interior c = false ∧ 2 < (T.cl c).length ∧ T.c0 c = false)
  · obtain ⟨c, rfl, hi, h3, hc⟩ := hsp
    rw [FA_half ok hi h3 hc, if_neg]
    intro hm
    obtain ⟨e, -, s, -, -, he⟩ := mem_bnd.1 hm
    unfold av at he
    split_ifs at he <;> simp at he
  · rw [FA_eq T _ _ (fun c hc hx => hsp ⟨c, hc, hx⟩)]
    cases b with
    | int p i j => exact ind_ne (by simp)
    | sid s off m =>
      cases off
      · rw [Wa]
        rcases hn : T.nb s with _ | t
        · exact ind_ne (by simp)
        · simp only
          rw [ind_ne (by simp), ind_ne (by simp)]; norm_num
      · exact ind_ne (by simp)
    | cor c x y =>
      cases x <;> cases y
      · rw [Wa, cornW]
        split_ifs with g1 g2
        · have : ((T.cl c).map fun e => ind (.cor d false false) (.cor e true true : ADof P)).sum = 0 := by
            apply List.sum_eq_zero
            intro x hx
            rw [List.mem_map] at hx
            obtain ⟨e, -, rfl⟩ := hx
            exact ind_ne (by simp)
          rw [this]; simp
        · rcases hc : cross T c (regularSide T c) with _ | e
          · rfl
          · simp only
            rw [ind_ne (by unfold av; split_ifs <;> simp), ind_ne (by unfold av; split_ifs <;> simp)]; norm_num
        · exact ind_ne (fun h => hb h.symm)
      · exact edge c _ _ (by simp)
      · exact edge c _ _ (by simp)
      · exact ind_ne (by simp)

/-- weights of three points that are not on a line, as convex combinations of three others, determine a combination of the three others -/
theorem three_points {V : Type} [AddCommGroup V] [Module ℝ V] (b : Fin 3 → Fin 3 → ℝ) (g u : Fin 3 → V) (h1 : ∀ n, ∑ i, b n i = 1)
    (h2 : ∀ n, ∑ i, b n i • g i = u n) (hind : ∀ y : Fin 3 → ℝ, ∑ n, y n = 0 → ∑ n, y n • u n = 0 → y = 0)
    (x : Fin 3 → ℝ) (hx : ∀ n, ∑ i, b n i * x i = 0) : x = 0 := by
  by_contra hne
  have hd : Matrix.det (Matrix.of b) = 0 := by
    rw [← Matrix.exists_mulVec_eq_zero_iff]
    exact ⟨x, hne, funext hx⟩
  rw [← Matrix.exists_vecMul_eq_zero_iff] at hd
  obtain ⟨y, hy, hyb⟩ := hd
  apply hy
  have hyb' : ∀ i, ∑ n, y n * b n i = 0 := fun i => congrFun hyb i
  apply hind
  · have : ∑ n, y n = ∑ i, ∑ n, y n * b n i := by
      rw [Finset.sum_comm]
      apply Finset.sum_congr rfl
      intro n _
      rw [← Finset.mul_sum, h1, mul_one]
    rw [this]
    exact Finset.sum_eq_zero fun i _ => hyb' i
  · have : ∑ n, y n • u n = ∑ i, (∑ n, y n * b n i) • g i := by
      simp only [← h2, Finset.smul_sum, Finset.sum_smul, mul_smul]
      rw [Finset.sum_comm]
    rw [this]
    exact Finset.sum_eq_zero fun i _ => by rw [hyb', zero_smul]

end Verif.AlmostC1
