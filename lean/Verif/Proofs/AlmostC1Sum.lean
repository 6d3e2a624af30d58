import Verif.Proofs.AlmostC1
import Mathlib.Data.List.Perm.Subperm
/-! `gsAlmostC1`: column sums, counting, rows of the triangle, the step at special vertices. -/
set_option autoImplicit false
set_option linter.unusedSectionVars false
set_option linter.unusedSimpArgs false
set_option linter.unusedVariables false
namespace Verif.AlmostC1
open Verif Smooth

variable {P : Type} [LinearOrder P]

/-! ## column sums -/

theorem FA_nonneg {T : Topo P} (a b : ADof P) : 0 ≤ FA T a b := by
  by_cases hb : ∃ c, b = .cor c false false ∧ (T.interior c = false ∧ 2 < (T.cl c).length ∧ T.c0 c = false)
  · obtain ⟨c, rfl, hc⟩ := hb
    rw [FA, if_pos hc]
    apply div_nonneg _ (by norm_num)
    apply List.sum_nonneg
    intro x hx
    rw [List.mem_map] at hx
    obtain ⟨y, -, rfl⟩ := hx
    exact ind_nonneg _ _
  · rw [FA_eq T a b (fun c h1 h2 => hb ⟨c, h1, h2⟩)]
    exact Wa_nonneg _ _

theorem bnd_valid {T : Topo P} {c : PC P} {a : ADof P} (h : a ∈ bnd T c) : AValid T a := by
  obtain ⟨d, -, s, -, -, rfl⟩ := mem_bnd.1 h
  exact av_valid ..

theorem sum_FA {T : Topo P} (ok : Ok T) {dl : List (Dof P)} (hn : dl.Nodup) (hdl : ∀ d, d ∈ dl ↔ valid T d) {b : ADof P} (hb : AValid T b) :
    (dl.map fun r => FA T (dec T r) b).sum = 1 := by
  by_cases hB : ∃ c, b = .cor c false false ∧ (T.interior c = false ∧ 2 < (T.cl c).length ∧ T.c0 c = false)
  · obtain ⟨c, rfl, hc⟩ := hB
    have h1 : (dl.map fun r => FA T (dec T r) (.cor c false false)) = dl.map fun r => ((bnd T c).map fun a => ind (dec T r) a / 2).sum := by
      apply List.map_congr_left
      intro r _
      rw [FA, if_pos hc]
      induction bnd T c with
      | nil => simp
      | cons a l ih => simp only [List.map_cons, List.sum_cons, ← ih, add_div]
    rw [h1]
    have h2 : ∀ l : List (ADof P), (∀ a ∈ l, AValid T a) → (dl.map fun r => (l.map fun a => ind (dec T r) a / 2).sum).sum = (l.length : ℚ) / 2 := by
      intro l
      induction l with
      | nil => intro _; simp
      | cons a l ih =>
        intro hl
        have e : (dl.map fun r => ((a :: l).map fun a => ind (dec T r) a / 2).sum) =
            dl.map fun r => ind (dec T r) a / 2 + (l.map fun a => ind (dec T r) a / 2).sum := by
          apply List.map_congr_left; intro r _; rfl
        rw [e, List.sum_map_add, ih (fun a ha => hl a (List.mem_cons_of_mem _ ha))]
        have := sum_ind_eval ok hn hdl (fun _ => (1 / 2 : ℚ)) (hl a List.mem_cons_self)
        have e2 : (dl.map fun r => ind (dec T r) a / 2) = dl.map fun r => ind (dec T r) a • (1 / 2 : ℚ) := by
          apply List.map_congr_left; intro r _; rw [smul_eq_mul]; linarith
        rw [e2, this, List.length_cons]; push_cast; linarith
    rw [h2 _ (fun a ha => bnd_valid ha), bnd_length ok hc.1]
    norm_num
  · have e : (dl.map fun r => FA T (dec T r) b) = dl.map fun r => Wa T (dec T r) b • (1 : ℚ) := by
      apply List.map_congr_left
      intro r _
      rw [FA_eq T _ b (fun c h1 h2 => hB ⟨c, h1, h2⟩), smul_eq_mul, mul_one]
    rw [e, sum_Wa ok hn hdl (fun _ => (1 : ℚ)) hb]
    exact LV_one ok b

/-! ## counting -/

theorem filter_mem_length {α : Type} [DecidableEq α] {l m : List α} (hl : l.Nodup) (hm : m.Nodup) (hs : ∀ x ∈ m, x ∈ l) (p : α → Bool)
    (hp : ∀ x, p x = true ↔ x ∈ m) : (l.filter p).length = m.length := by
  apply List.Perm.length_eq
  rw [List.perm_ext_iff_of_nodup (hl.filter _) hm]
  intro x
  rw [List.mem_filter]
  rw [hp]
  exact ⟨fun h => h.2, fun h => ⟨hs x h, h⟩⟩

theorem all1_pos {T : Topo P} (ok : Ok T) {c : PC P} (hi : T.interior c = false) (h2 : (T.cl c).length = 2) : 1 ≤ (allIndices T 1 c).length := by
  have hex : ∃ s ∈ c.2.sides, (T.nb (c.1, s)).isSome = true := by
    rcases v2_side ok hi h2 with ⟨d, hd, -⟩ | ⟨d, hd, -⟩
    · exact ⟨_, uside_mem _, by rw [cross_isSome, hd]; rfl⟩
    · exact ⟨_, vside_mem _, by rw [cross_isSome, hd]; rfl⟩
  obtain ⟨s, hs, h⟩ := hex
  exact List.length_pos_of_mem ((mem_all1 T c _).2 ⟨c, ok.cl_self c, s, hs, h, rfl⟩)

/-- change in the number of free functions of a corner -/
def ex0 (T : Topo P) (m : List (Dof P)) (d : PC P) : ℤ :=
  if keep3 T d then (if enc T (.cor d false false) ∈ m then 1 else 0) - fr T (.cor d false false) else 0
def ex1 (T : Topo P) (m : List (Dof P)) (d : PC P) : ℤ :=
  if keep1 T d then ((indices T 1 d).filter fun x => decide (x ∈ m)).length else 0

theorem cntG_eq {T : Topo P} (ok : Ok T) {c d : PC P} (h : d ∈ T.cl c) :
    cntG (AE T) d = cnt T d + ex0 T (low0 T c) d + ex1 T (low1 T c) d := by
  have h0 : frG (AE T) (.cor d false false) = fr T (.cor d false false) + ex0 T (low0 T c) d := by
    have e : AE T (.cor d false false) = ((AElim T (.cor d false false) || keep3 T d) && ! (keep3 T d && decide (enc T (.cor d false false) ∈ low0 T d))) := rfl
    unfold frG ex0
    rw [e, low0_same ok h]
    cases keep3 T d
    · simp [fr]
    · by_cases hm : enc T (.cor d false false) ∈ low0 T c <;> simp [hm, fr]
  have h11 : frG (AE T) (.cor d true true) = fr T (.cor d true true) := rfl
  have hs : frG (AE T) (.cor d false true) + frG (AE T) (.cor d true false) =
      fr T (.cor d false true) + fr T (.cor d true false) + ex1 T (low1 T c) d := by
    have hu : av d d.2.uside true false = .cor d false true := by simp [av, uside_dir]
    have hv : av d d.2.vside true false = .cor d true false := by simp [av, vside_dir]
    have a1 := AE_av (T := T) (uside_mem d.2)
    have a2 := AE_av (T := T) (vside_mem d.2)
    have b1 := AElim_av (T := T) (uside_mem d.2)
    have b2 := AElim_av (T := T) (vside_mem d.2)
    rw [hu] at a1 b1
    rw [hv] at a2 b2
    unfold frG fr ex1
    rw [a1, a2, b1, b2, indices1, low1_same ok h]
    simp only [Corner.sides, isIface]
    cases keep1 T d
    · simp
    · cases g1 : T.nb (d.1, d.2.uside) <;> cases g2 : T.nb (d.1, d.2.vside) <;>
        by_cases h1 : enc T (ADof.cor d false true) ∈ low1 T c <;> by_cases h2 : enc T (ADof.cor d true false) ∈ low1 T c <;>
        simp [List.filter_cons, hu, hv, h1, h2, g1, g2]
  unfold cntG cnt corL
  simp only [List.map_cons, List.map_nil, List.sum_cons, List.sum_nil]
  linarith

theorem vertexCountG_eq {T : Topo P} (ok : Ok T) (h3 : Val3 T) (c : PC P) :
    vertexCount T c = ∑ d ∈ (T.cl c).toFinset, cntG (AE T) d := by
  have hcard : (T.cl c).toFinset.card = (T.cl c).length := List.toFinset_card_of_nodup (ok.cl_nodup c)
  have hs : ∑ d ∈ (T.cl c).toFinset, cntG (AE T) d = Smooth.vertexCount T c +
      ∑ d ∈ (T.cl c).toFinset, ex0 T (low0 T c) d + ∑ d ∈ (T.cl c).toFinset, ex1 T (low1 T c) d := by
    rw [Smooth.vertexCount_eq ok, ← Finset.sum_add_distrib, ← Finset.sum_add_distrib]
    apply Finset.sum_congr rfl
    intro d hd
    exact cntG_eq ok (by simpa using hd)
  have h0 : ∑ d ∈ (T.cl c).toFinset, ex0 T (low0 T c) d =
      if keep3 T c then 3 - (T.cl c).length * fr T (.cor c false false) else 0 := by
    cases hk : keep3 T c
    · rw [Finset.sum_eq_zero]; rfl
      intro d hd
      unfold ex0
      rw [keep3_same ok (by simpa using hd), hk]; rfl
    · have hlen : 3 ≤ (T.cl c).length := by
        rcases keep3_interior hk with h | ⟨-, h, -⟩
        · exact h3 c h
        · omega
      have e : ∀ d ∈ (T.cl c).toFinset, ex0 T (low0 T c) d = (if enc T (.cor d false false) ∈ low0 T c then 1 else 0) - fr T (.cor c false false) := by
        intro d hd
        have hd' : d ∈ T.cl c := by simpa using hd
        unfold ex0
        rw [keep3_same ok hd', hk, if_pos rfl, fr00_same ok hd']
      rw [Finset.sum_congr rfl e, Finset.sum_sub_distrib, Finset.sum_const, hcard, nsmul_eq_mul, if_pos rfl]
      congr 1
      have := filter_mem_length (all0_nodup ok c) (getLowest_nodup T (all0_nodup ok c) 3) (fun x hx => getLowest_sub T hx)
        (fun x => decide (x ∈ low0 T c)) (fun x => decide_eq_true_iff)
      rw [getLowest_length T (by rw [all0, List.length_map]; exact hlen)] at this
      have h2 : (((allIndices T 0 c).filter fun x => decide (x ∈ low0 T c)).length : ℤ) = 3 := by rw [this]; rfl
      rw [← h2, all0, List.sum_toFinset _ (ok.cl_nodup c)]
      generalize low0 T c = m
      induction T.cl c with
      | nil => simp
      | cons a l ih =>
        rw [List.map_cons, List.sum_cons, ih, List.map_cons, List.filter_cons]
        split_ifs with h1 h2 <;> simp_all <;> omega
  have h1 : ∑ d ∈ (T.cl c).toFinset, ex1 T (low1 T c) d = if keep1 T c then 1 else 0 := by
    cases hk : keep1 T c
    · rw [Finset.sum_eq_zero]; rfl
      intro d hd
      unfold ex1
      rw [keep1_same ok (by simpa using hd), hk]; rfl
    · have hlen : 1 ≤ (allIndices T 1 c).length := by
        unfold keep1 at hk
        simp only [Bool.and_eq_true, Bool.not_eq_true', beq_iff_eq] at hk
        exact all1_pos ok hk.1.1 hk.1.2
      have e : ∀ d ∈ (T.cl c).toFinset, ex1 T (low1 T c) d = (((indices T 1 d).filter fun x => decide (x ∈ low1 T c)).length : ℤ) := by
        intro d hd
        unfold ex1
        rw [keep1_same ok (by simpa using hd), hk, if_pos rfl]
      rw [Finset.sum_congr rfl e, if_pos rfl]
      have := filter_mem_length (all1_nodup ok c) (getLowest_nodup T (all1_nodup ok c) 1) (fun x hx => getLowest_sub T hx)
        (fun x => decide (x ∈ low1 T c)) (fun x => decide_eq_true_iff)
      rw [getLowest_length T hlen] at this
      have h2 : (((allIndices T 1 c).filter fun x => decide (x ∈ low1 T c)).length : ℤ) = 1 := by rw [this]; rfl
      rw [← h2, List.sum_toFinset _ (ok.cl_nodup c)]
      unfold allIndices
      generalize low1 T c = m
      induction T.cl c with
      | nil => simp
      | cons a l ih =>
        rw [List.map_cons, List.sum_cons, ih, List.flatMap_cons, List.filter_append, List.length_append]
        push_cast; rfl
  rw [hs, h0, h1]
  have hp := len_pos ok c
  unfold vertexCount Smooth.vertexCount keep3 keep1
  simp only
  cases hi : T.interior c
  · simp only [fr, AElim, hi, Bool.false_or, Bool.false_eq_true, not_false_eq_true, true_and, Bool.false_and, Bool.not_false, Bool.true_and, false_and, if_false]
    cases hc : T.c0 c <;> simp [hc]
    · by_cases g1 : (T.cl c).length = 1
      · simp [g1]
      · by_cases g2 : (T.cl c).length = 2
        · simp [g2]
        · have g3 : 2 < (T.cl c).length := by omega
          have i1 : ¬ ((T.cl c).length : ℤ) = 1 := by omega
          have i2 : ¬ ((T.cl c).length : ℤ) = 2 := by omega
          simp [g1, g2, g3, i1, i2]; try linarith
    · by_cases g1 : (T.cl c).length = 1
      · simp [g1]
      · by_cases g2 : (T.cl c).length = 2
        · simp [g2]
        · have g3 : 2 < (T.cl c).length := by omega
          have i2 : ¬ ((T.cl c).length : ℤ) = 2 := by omega
          simp [g1, g2, g3, i2]
  · simp only [fr, AElim, hi]
    by_cases g4 : (T.cl c).length = 4
    · simp [g4]
    · have : ((T.cl c).length : ℤ) ≠ 4 := by omega
      simp [g4, this]

end Verif.AlmostC1
