import Verif.Model.HCarry
import Verif.Proofs.LocalIndep
import Verif.Proofs.Carry
import Mathlib.Algebra.Polynomial.Roots
import Mathlib.Order.Interval.Set.Infinite
import Mathlib.Algebra.Order.Archimedean.Real.Basic
/-! # B-splines on nested open knot vectors with simple inner knots -/
set_option autoImplicit false
namespace Verif.HCarry
open Finset Polynomial
open Boehm (knotAt insertKnot)
open Carry (reals elem curve RKnots qcurve qcurve_insertAll clamped_reals newKnots newKnots_eq insertAll reals_knotAt)
open Repair (Clamped)
open _root_.Verif.BSpline (bs bs_zero_of_gt bs_zero_of_lt)

/-! ### Break points -/

theorem br_mono {b : ℕ → ℚ} (hb : StrictMono b) (l : ℕ) : StrictMono (br b l) := by
  induction l with
  | zero => exact hb
  | succ l ih =>
    refine strictMono_nat_of_lt_succ fun e => ?_
    simp only [br]
    rcases Nat.even_or_odd' e with ⟨k, rfl | rfl⟩
    · rw [if_pos (by omega), if_neg (by omega), show 2 * k / 2 = k by omega, show (2 * k + 1) / 2 = k by omega]
      have := ih (Nat.lt_succ_self k)
      simp only [Nat.succ_eq_add_one] at this
      linarith
    · rw [if_neg (by omega), if_pos (by omega), show (2 * k + 1) / 2 = k by omega, show (2 * k + 1 + 1) / 2 = k + 1 by omega]
      have := ih (Nat.lt_succ_self k)
      simp only [Nat.succ_eq_add_one] at this
      linarith

theorem br_even (b : ℕ → ℚ) (l e : ℕ) : br b (l + 1) (2 * e) = br b l e := by
  rw [br, if_pos (by omega), show 2 * e / 2 = e by omega]

theorem br_pow (b : ℕ → ℚ) (l e k : ℕ) : br b (l + k) (e * 2 ^ k) = br b l e := by
  induction k with
  | zero => simp
  | succ k ih => rw [show e * 2 ^ (k + 1) = 2 * (e * 2 ^ k) by ring, ← add_assoc, br_even, ih]

/-! ### Knots -/

section
variable {p N : ℕ} {β : ℕ → ℚ}

theorem openKnots_length : (openKnots p N β).length = N + p + (p + 1) := by
  simp [openKnots]; omega

theorem openKnots_clamped (hβ : StrictMono β) (hN : 0 < N) : Clamped (p + 1) (β 0) (β N) (openKnots p N β) := by
  have h0 : β 0 < β N := hβ hN
  refine ⟨?_, by omega, h0, ?_, ?_, ?_⟩
  · unfold openKnots
    rw [List.pairwise_append, List.pairwise_append]
    refine ⟨⟨List.pairwise_replicate.2 (Or.inr le_rfl), ?_, ?_⟩, List.pairwise_replicate.2 (Or.inr le_rfl), ?_⟩
    · rw [List.pairwise_map]
      exact (List.pairwise_lt_range).imp fun h => hβ.monotone h.le
    · intro a ha c hc
      rw [List.eq_of_mem_replicate ha]
      obtain ⟨i, _, rfl⟩ := List.mem_map.1 hc
      exact hβ.monotone (Nat.zero_le _)
    · intro a ha c hc
      rw [List.eq_of_mem_replicate hc]
      rcases List.mem_append.1 ha with ha | ha
      · rw [List.eq_of_mem_replicate ha]; exact h0.le
      · obtain ⟨i, hi, rfl⟩ := List.mem_map.1 ha
        exact hβ.monotone (by have := List.mem_range.1 hi; omega)
  · unfold openKnots
    rw [List.count_append, List.count_append, List.count_replicate_self, List.count_map_of_injective _ _ hβ.injective,
      List.count_eq_one_of_mem List.nodup_range (by simp), List.count_eq_zero_of_not_mem (fun h => h0.ne (List.eq_of_mem_replicate h))]
  · unfold openKnots
    rw [List.count_append, List.count_append, List.count_replicate_self, List.count_map_of_injective _ _ hβ.injective,
      List.count_eq_one_of_mem List.nodup_range (by simp), List.count_eq_zero_of_not_mem (fun h => h0.ne' (List.eq_of_mem_replicate h))]
    omega
  · intro x hx
    unfold openKnots at hx
    rcases List.mem_append.1 hx with hx | hx
    · rcases List.mem_append.1 hx with hx | hx
      · rw [List.eq_of_mem_replicate hx]; exact ⟨le_rfl, h0.le⟩
      · obtain ⟨i, hi, rfl⟩ := List.mem_map.1 hx
        exact ⟨hβ.monotone (Nat.zero_le _), hβ.monotone (by have := List.mem_range.1 hi; omega)⟩
    · rw [List.eq_of_mem_replicate hx]; exact ⟨h0.le, le_rfl⟩

theorem openKnots_at (i : ℕ) : knotAt (openKnots p N β) i = β (min (i - p) N) := by
  have hl : (openKnots p N β).getLastD 0 = β N := by
    unfold openKnots
    cases p with
    | zero => simp [List.range_succ]
    | succ p => rw [List.replicate_succ' (a := β N), ← List.append_assoc, List.getLastD_concat]
  unfold knotAt
  rw [hl]
  by_cases h1 : i < p
  · rw [openKnots, List.append_assoc, List.getD_append _ _ _ _ (by simpa using h1), List.getD_eq_getElem _ _ (by simpa using h1), List.getElem_replicate, show i - p = 0 by omega]
    simp
  · by_cases h2 : i - p < N + 1
    · rw [openKnots, List.append_assoc, List.getD_append_right _ _ _ _ (by simpa using h1), List.getD_append _ _ _ _ (by simpa using h2), List.length_replicate,
        List.getD_eq_getElem _ _ (by simpa using h2), List.getElem_map, List.getElem_range, show min (i - p) N = i - p by omega]
    · rw [show min (i - p) N = N by omega]
      by_cases h3 : i - p - (N + 1) < p
      · rw [openKnots, List.append_assoc, List.getD_append_right _ _ _ _ (by simpa using h1), List.getD_append_right _ _ _ _ (by simp; omega), List.length_replicate,
          List.getD_eq_getElem _ _ (by simpa using h3), List.getElem_replicate]
      · rw [List.getD_eq_default _ _ (by rw [openKnots_length]; omega)]

theorem openKnots_mono (hβ : StrictMono β) : Monotone (knotAt (reals (openKnots p N β))) := by
  intro i j h
  rw [reals_knotAt, reals_knotAt, openKnots_at, openKnots_at]
  exact_mod_cast hβ.monotone (by omega)

theorem openKnots_gap (hβ : StrictMono β) {e : ℕ} (he : e < N) : knotAt (reals (openKnots p N β)) (p + e) < knotAt (reals (openKnots p N β)) (p + e + 1) := by
  rw [reals_knotAt, reals_knotAt, openKnots_at, openKnots_at]
  exact_mod_cast hβ (by omega)

/-- The element of a parameter in cell `e`. -/
theorem elem_cell (hβ : StrictMono β) {e : ℕ} (he : e < N) {x : ℝ} (h1 : (β e : ℝ) ≤ x) (h2 : x < (β (e + 1) : ℝ)) : elem (reals (openKnots p N β)) x = p + e := by
  have hr := clamped_reals (openKnots_clamped (p := p) hβ (show 0 < N by omega))
  have hlast : x < ((β N : ℚ) : ℝ) := h2.trans_le (by exact_mod_cast hβ.monotone (by omega))
  have hfirst : ((β 0 : ℚ) : ℝ) ≤ x := le_trans (by exact_mod_cast hβ.monotone (Nat.zero_le e)) h1
  unfold elem
  rw [hr.last, if_pos hlast]
  have hc : (reals (openKnots p N β)).countP (fun t => decide (t ≤ x)) = p + (e + 1) := by
    unfold reals openKnots
    rw [List.map_append, List.map_append, List.countP_append, List.countP_append, List.map_replicate, List.map_replicate, List.countP_replicate, List.countP_replicate,
      if_pos (by simpa using hfirst), if_neg (by simpa using hlast), add_zero]
    congr 1
    rw [List.map_map, List.countP_map]
    have : ∀ k, (((fun t : ℝ => decide (t ≤ x)) ∘ ((Rat.cast : ℚ → ℝ) ∘ β)) k) = decide (k < e + 1) := by
      intro k
      simp only [Function.comp_apply, decide_eq_decide]
      constructor
      · intro h
        by_contra hk
        have : ((β (e + 1) : ℚ) : ℝ) ≤ (β k : ℚ) := by exact_mod_cast hβ.monotone (not_lt.1 hk)
        linarith
      · intro h
        exact le_trans (by exact_mod_cast hβ.monotone (by omega)) h1
    rw [List.countP_congr (fun k _ => by rw [this k]), List.countP_eq_length_filter]
    have hN : N + 1 = (e + 1) + (N - e) := by omega
    rw [hN, List.range_add, List.filter_append, List.filter_eq_self.2 (by simp), List.filter_eq_nil_iff.2 (by simp; omega), List.append_nil, List.length_range]
  rw [hc]
  omega

end

/-! ### Functions -/

/-- Function `i` of the basis of degree `p` on `N` cells (G+Smo), as a function on the interval; zero outside. -/
noncomputable def spl (p N : ℕ) (β : ℕ → ℚ) (i : ℕ) (x : ℝ) : ℝ :=
  if (β 0 : ℝ) ≤ x ∧ x ≤ (β N : ℝ) then (bs (knotAt (reals (openKnots p N β))) (elem (reals (openKnots p N β)) x) p i).eval x else 0

section
variable {p N : ℕ} {β : ℕ → ℚ}

theorem spl_cell (hβ : StrictMono β) {e : ℕ} (he : e < N) (i : ℕ) {x : ℝ} (h1 : (β e : ℝ) ≤ x) (h2 : x < (β (e + 1) : ℝ)) :
    spl p N β i x = (bs (knotAt (reals (openKnots p N β))) (p + e) p i).eval x := by
  have a : ((β 0 : ℚ) : ℝ) ≤ (β e : ℚ) := by exact_mod_cast hβ.monotone (Nat.zero_le e)
  have c : ((β (e + 1) : ℚ) : ℝ) ≤ (β N : ℚ) := by exact_mod_cast hβ.monotone (by omega)
  rw [spl, if_pos ⟨by linarith, by linarith⟩, elem_cell hβ he h1 h2]

/-- A function vanishes on the cells outside its support. -/
theorem spl_zero (hβ : StrictMono β) {e : ℕ} (he : e < N) {i : ℕ} (h : ¬ (i - p ≤ e ∧ e < min (i + 1) N)) {x : ℝ} (h1 : (β e : ℝ) ≤ x) (h2 : x < (β (e + 1) : ℝ)) : spl p N β i x = 0 := by
  rw [spl_cell hβ he i h1 h2]
  by_cases c : i - p ≤ e
  · rw [bs_zero_of_lt (by omega)]; simp
  · rw [bs_zero_of_gt (by omega)]; simp

/-- The functions that do not vanish on a cell are linearly independent on any part `(r,s)` of it. -/
theorem spl_indep (hβ : StrictMono β) {e : ℕ} (he : e < N) {r s : ℝ} (hrs : r < s) (hr : (β e : ℝ) ≤ r) (hs : s ≤ (β (e + 1) : ℝ)) (c : ℕ → ℝ)
    (h : ∀ x, r < x → x < s → ∑ i ∈ range (N + p), c i * spl p N β i x = 0) {i : ℕ} (hi : i - p ≤ e ∧ e < min (i + 1) N) : c i = 0 := by
  set t := knotAt (reals (openKnots p N β)) with ht
  have hP : ∑ k ∈ range (p + 1), C (c (e + k)) * bs t (p + e) p (e + k) = 0 := by
    refine Polynomial.eq_of_infinite_eval_eq _ _ ((Set.Ioo_infinite hrs).mono fun x hx => ?_)
    have hx1 : ((β e : ℚ) : ℝ) ≤ x := hr.trans hx.1.le
    have hx2 : x < ((β (e + 1) : ℚ) : ℝ) := hx.2.trans_le hs
    have h0 := h x hx.1 hx.2
    rw [Set.mem_ofPred_eq, eval_zero, eval_finsetSum, ← h0]
    have : ∀ i ∈ range (N + p), c i * spl p N β i x = if i ∈ (range (p + 1)).image (e + ·) then c i * (bs t (p + e) p i).eval x else 0 := by
      intro i _
      split_ifs with hm
      · rw [spl_cell hβ he i hx1 hx2]
      · rw [spl_zero hβ he (fun hc => hm (mem_image.2 ⟨i - e, mem_range.2 (by omega), by omega⟩)) hx1 hx2, mul_zero]
    rw [sum_congr rfl this, ← sum_filter, sum_congr (show (range (N + p)).filter (· ∈ (range (p + 1)).image (e + ·)) = (range (p + 1)).image (e + ·) from ?_) fun _ _ => rfl,
      sum_image (by intro a _ b _ hab; simpa using hab)]
    · exact sum_congr rfl fun k _ => by rw [eval_mul, eval_C]
    · ext i
      simp only [mem_filter, mem_range, mem_image, and_iff_right_iff_imp]
      rintro ⟨k, hk, rfl⟩
      omega
  have := Boehm.elt_indep (openKnots_mono hβ) (openKnots_gap hβ he) p e (by omega) (fun k => c (e + k)) hP (i - e) (by omega)
  rwa [show e + (i - e) = i by omega] at this

/-- The functions sum to one. -/
theorem spl_sum (hβ : StrictMono β) (hN : 0 < N) {x : ℝ} (h1 : (β 0 : ℝ) ≤ x) (h2 : x ≤ (β N : ℝ)) : ∑ i ∈ range (N + p), spl p N β i x = 1 := by
  set t := knotAt (reals (openKnots p N β)) with ht
  set ℓ := elem (reals (openKnots p N β)) x with hℓ
  have hlt : t ℓ < t (ℓ + 1) := (clamped_reals (openKnots_clamped (p := p) hβ hN)).elem_lt h1
  have hk : ∀ i, t i = ((β (min (i - p) N) : ℚ) : ℝ) := fun i => by rw [ht, reals_knotAt, openKnots_at]
  rw [hk, hk] at hlt
  have hlt : β (min (ℓ - p) N) < β (min (ℓ + 1 - p) N) := by exact_mod_cast hlt
  have hlt := hβ.lt_iff_lt.1 hlt
  obtain ⟨e, he⟩ : ∃ e, ℓ = p + e := ⟨ℓ - p, by omega⟩
  have heN : e < N := by omega
  have := Boehm.elt_sum (openKnots_mono (p := p) (N := N) hβ) (openKnots_gap hβ heN) p e (by omega)
  have hev := congrArg (Polynomial.eval x) this
  rw [eval_finsetSum, eval_one] at hev
  rw [← hev]
  have : ∀ i ∈ range (N + p), spl p N β i x = if i ∈ (range (p + 1)).image (e + ·) then (bs t (p + e) p i).eval x else 0 := by
    intro i _
    rw [spl, if_pos ⟨h1, h2⟩, ← ht, ← hℓ, he]
    split_ifs with hm
    · rfl
    · by_cases c : i ≤ p + e
      · rw [bs_zero_of_lt (by
          by_contra hc
          exact hm (mem_image.2 ⟨i - e, mem_range.2 (by omega), by omega⟩)), eval_zero]
      · rw [bs_zero_of_gt (by omega), eval_zero]
  rw [sum_congr rfl this, ← sum_filter, sum_congr (show (range (N + p)).filter (· ∈ (range (p + 1)).image (e + ·)) = (range (p + 1)).image (e + ·) from ?_) fun _ _ => rfl,
    sum_image (by intro a _ b _ hab; simpa using hab)]
  ext i
  simp only [mem_filter, mem_range, mem_image, and_iff_right_iff_imp]
  rintro ⟨k, hk, rfl⟩
  omega

end

/-! ### Two levels -/

section
variable {p N : ℕ} {β γ : ℕ → ℚ}

/-- `γ` halves the cells of `β`. -/
def Halves (β γ : ℕ → ℚ) : Prop := ∀ e, γ (2 * e) = β e

private theorem range_perm (f : ℕ → ℚ) (N : ℕ) : ((List.range (2 * N + 1)).map f).Perm ((List.range (N + 1)).map (fun e => f (2 * e)) ++ (List.range N).map fun e => f (2 * e + 1)) := by
  induction N with
  | zero => simp
  | succ N ih =>
    rw [List.perm_iff_count] at ih ⊢
    intro a
    have := ih a
    rw [show 2 * (N + 1) + 1 = 2 * N + 1 + 1 + 1 by ring]
    rw [List.range_succ (n := 2 * N + 1 + 1), List.range_succ (n := 2 * N + 1), List.range_succ (n := N + 1)]
    have e2 : (List.range (N + 1)).map (fun e => f (2 * e + 1)) = (List.range N).map (fun e => f (2 * e + 1)) ++ [f (2 * N + 1)] := by rw [List.range_succ, List.map_append]; rfl
    rw [e2]
    simp only [List.map_append, List.map_cons, List.map_nil, List.count_append] at this ⊢
    rw [show 2 * (N + 1) = 2 * N + 1 + 1 by ring]
    omega

theorem two_scale (hβ : StrictMono β) (hγ : StrictMono γ) (hh : Halves β γ) (hN : 0 < N) (i : ℕ) (hi : i < N + p) :
    ∃ m : ℕ → ℝ, (∀ x, spl p N β i x = ∑ j ∈ range (2 * N + p), m j * spl p (2 * N) γ j x) ∧
      ∀ j < 2 * N + p, m j ≠ 0 → ∀ e < 2 * N, (j - p ≤ e ∧ e < min (j + 1) (2 * N)) → i - p ≤ e / 2 ∧ e / 2 < min (i + 1) N := by
  set ins := (List.range N).map fun e => γ (2 * e + 1) with hins
  have hc := openKnots_clamped (p := p) hβ hN
  have hin : ∀ s ∈ ins, β 0 < s ∧ s < β N := by
    intro s hs
    obtain ⟨e, he, rfl⟩ := List.mem_map.1 hs
    have he := List.mem_range.1 he
    rw [← hh, ← hh]
    exact ⟨hγ (by omega), hγ (by omega)⟩
  have hK : newKnots (openKnots p N β) ins = openKnots p (2 * N) γ := by
    refine newKnots_eq ins hc hin (openKnots_clamped hγ (by omega)).sorted ?_
    have h1 : (List.range (N + 1)).map β = (List.range (N + 1)).map fun e => γ (2 * e) := List.map_congr_left fun e _ => (hh e).symm
    unfold openKnots
    rw [hh, show γ 0 = β 0 from hh 0, h1]
    have := range_perm γ N
    rw [List.perm_iff_count] at this ⊢
    intro a
    have := this a
    simp only [List.count_append] at this ⊢
    rw [← hins] at this
    omega
  set m := insertAll p ins (openKnots p N β) (fun k => if k = i then 1 else 0) with hm
  have hval : ∀ x, spl p N β i x = ∑ j ∈ range (2 * N + p), ((m j : ℚ) : ℝ) * spl p (2 * N) γ j x := by
    intro x
    by_cases hx : (β 0 : ℝ) ≤ x ∧ x ≤ (β N : ℝ)
    · have := qcurve_insertAll ins hc hin (fun k => if k = i then 1 else 0) hx.1
      rw [hK] at this
      unfold qcurve curve at this
      simp only [reals, List.length_map, openKnots_length, Nat.add_sub_cancel] at this
      have hx' : (γ 0 : ℝ) ≤ x ∧ x ≤ (γ (2 * N) : ℝ) := by rw [hh, show γ 0 = β 0 from hh 0]; exact hx
      simp only [spl, if_pos hx, if_pos hx']
      rw [show ∑ k ∈ range (N + p), (((if k = i then 1 else 0 : ℚ)) : ℝ) * eval x (bs (knotAt (List.map Rat.cast (openKnots p N β))) (elem (List.map Rat.cast (openKnots p N β)) x) p k)
        = eval x (bs (knotAt (List.map Rat.cast (openKnots p N β))) (elem (List.map Rat.cast (openKnots p N β)) x) p i) from ?_] at this
      · exact this.symm
      · rw [sum_eq_single i]
        · simp
        · intro k _ hk; simp [hk]
        · intro h; exact absurd (mem_range.2 hi) h
    · have hx' : ¬ ((γ 0 : ℝ) ≤ x ∧ x ≤ (γ (2 * N) : ℝ)) := by rw [hh, show γ 0 = β 0 from hh 0]; exact hx
      simp only [spl, if_neg hx, if_neg hx', mul_zero, sum_const_zero]
  refine ⟨fun j => (m j : ℝ), hval, ?_⟩
  intro j hj hmj e he hje
  by_contra hc
  apply hmj
  have heN : e / 2 < N := by omega
  have b1 : β (e / 2) ≤ γ e := by rw [← hh]; exact hγ.monotone (by omega)
  have b2 : γ (e + 1) ≤ β (e / 2 + 1) := by rw [← hh]; exact hγ.monotone (by omega)
  have b1' : ((β (e / 2) : ℚ) : ℝ) ≤ (γ e : ℚ) := by exact_mod_cast b1
  have b2' : ((γ (e + 1) : ℚ) : ℝ) ≤ (β (e / 2 + 1) : ℚ) := by exact_mod_cast b2
  refine spl_indep hγ he (r := (γ e : ℝ)) (s := (γ (e + 1) : ℝ)) (by exact_mod_cast hγ (Nat.lt_succ_self e)) le_rfl le_rfl (fun j => (m j : ℝ)) (fun x h1 h2 => ?_) hje
  rw [← hval]
  exact spl_zero hβ heN hc (b1'.trans h1.le) (h2.trans_le b2')

end

end Verif.HCarry
