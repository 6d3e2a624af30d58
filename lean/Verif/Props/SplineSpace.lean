import Verif.Model.SplineSpace
import Verif.Props.Spaces
import Verif.Proofs.LocalIndep
import Mathlib.RingTheory.Polynomial.DegreeLT
import Mathlib.LinearAlgebra.FiniteDimensional.Basic
/-!
# Property C51: the B-splines are a basis of the splines

`Sp` says what a spline is; here it is shown that the B-splines of the knot vector are a basis of these functions (the theorem of Curry and Schoenberg), so that the projections reproduce what lies in the space.
-/
set_option autoImplicit false
namespace Verif.Spaces
open Polynomial
open _root_.Verif.BSpline (bs bs_zero_of_gt bs_zero_of_lt)
open _root_.Verif.Boehm (Mult elt_indep)
open _root_.Verif.EdgeFun (projMat projRhs)

/-! ## The knots -/

theorem pos_mono (k : Kv) : Monotone (pos k) := monotone_nat_of_le_succ fun i => by rw [pos]; omega

theorem knotPt_le (k : Kv) (n j : ℕ) : knotPt k n j ≤ n := by
  induction n with
  | zero => simp [knotPt]
  | succ n ih => rw [knotPt]; split <;> omega

theorem knotPt_mono (k : Kv) (n : ℕ) : Monotone (knotPt k n) := by
  induction n with
  | zero => intro a b _; simp [knotPt]
  | succ n ih =>
    intro a b h
    rw [knotPt, knotPt]
    have := knotPt_le k n a
    split <;> split <;> first | omega | exact ih h

/-- The knots behind the last one at the point `i - 1`, up to the last one at the point `i`. -/
theorem knotPt_eq (k : Kv) {n i j : ℕ} (hi : i < n) (h1 : j ≤ pos k i) (h2 : ∀ i', i' < i → pos k i' < j) : knotPt k n j = i := by
  induction n with
  | zero => omega
  | succ n ih =>
    rw [knotPt]
    rcases Nat.lt_or_ge i n with h | h
    · rw [if_pos (h1.trans (pos_mono k h.le)), ih h]
    · obtain rfl : i = n := by omega
      rw [if_pos h1]
      cases i with
      | zero => rfl
      | succ i => rw [knotPt, if_neg (by have := h2 i (by omega); omega)]

theorem knotPt_after (k : Kv) {n e : ℕ} (he : e < n) {j : ℕ} (h : pos k e < j) : e < knotPt k n j := by
  induction n with
  | zero => omega
  | succ n ih =>
    rw [knotPt]
    split
    · next h1 =>
      have : e < n := by
        by_contra hc
        have : pos k n ≤ pos k e := pos_mono k (by omega)
        omega
      exact ih this
    · omega

theorem knotPt_before (k : Kv) {n e : ℕ} {j : ℕ} (h : j ≤ pos k e) : knotPt k n j ≤ e := by
  induction n with
  | zero => simp [knotPt]
  | succ n ih =>
    rw [knotPt]
    split
    · exact ih
    · next h1 =>
      by_contra hc
      have : pos k e ≤ pos k n := pos_mono k (by omega)
      omega

section
variable {z : ℕ → ℝ} (hz : StrictMono z) {n : ℕ} {k : Kv}
include hz

theorem knots_mono : Monotone (knots z n k) := fun _ _ h => hz.monotone (knotPt_mono k n h)

/-- The knot span of an element is not empty, and contains the element. -/
theorem knots_span {e : ℕ} (he : e < n) : knots z n k (pos k e) ≤ z e ∧ z (e + 1) ≤ knots z n k (pos k e + 1) :=
  ⟨hz.monotone (knotPt_before k le_rfl), hz.monotone (knotPt_after k he (Nat.lt_succ_self _))⟩

theorem knots_gap {e : ℕ} (he : e < n) : knots z n k (pos k e) < knots z n k (pos k e + 1) := by
  obtain ⟨a, b⟩ := knots_span hz (k := k) he
  exact a.trans_lt ((hz (Nat.lt_succ_self e)).trans_le b)

theorem knots_mult {i : ℕ} (hi : i + 1 < n) : Mult (knots z n k) (z (i + 1)) (pos k (i + 1)) (k.mult (i + 1)) := by
  have hp : pos k (i + 1) = pos k i + k.mult (i + 1) := rfl
  refine ⟨knots_mono hz, by omega, fun j h1 h2 => ?_, ?_, ?_⟩
  · rw [knots, knotPt_eq k hi h2 fun i' h => ?_]
    have : pos k i' ≤ pos k i := pos_mono k (by omega)
    omega
  · rw [hp, Nat.add_sub_cancel]
    exact (knots_span hz (k := k) (by omega : i < n)).1.trans_lt (hz (Nat.lt_succ_self _))
  · exact (hz (Nat.lt_succ_self _)).trans_le (knots_span hz (k := k) hi).2

end

/-! ## The B-splines are splines -/

theorem bs_natDegree (t : ℕ → ℝ) (ℓ q i : ℕ) : (bs t ℓ q i).natDegree ≤ q := by
  induction q generalizing i with
  | zero => rw [bs]; split <;> simp
  | succ q ih =>
    rw [bs]
    refine natDegree_add_le_of_degree_le ?_ ?_
    · refine (natDegree_mul_le_of_le (natDegree_C_mul_le _ _) (ih i)).trans ?_
      rw [natDegree_X_sub_C]; omega
    · refine (natDegree_mul_le_of_le ((natDegree_C_mul_le _ _).trans (natDegree_sub_le _ _)) (ih (i + 1))).trans ?_
      rw [natDegree_C, natDegree_X]; omega

section
variable {z : ℕ → ℝ} (hz : StrictMono z) {n : ℕ} {k : Kv}
include hz

theorem spl_jump {i : ℕ} (hi : i + 1 < n) (j : ℕ) : (X - C (z (i + 1))) ^ (k.deg + 1 - k.mult (i + 1)) ∣ spl z n k j (i + 1) - spl z n k j i := by
  rcases Nat.eq_zero_or_pos (k.mult (i + 1)) with h0 | h0
  · have : pos k (i + 1) = pos k i := by rw [pos, h0]; rfl
    rw [spl, spl, this, sub_self]; exact dvd_zero _
  · have hM := knots_mult hz (k := k) hi
    rw [C51_jump_iff]
    intro r hr
    have := hM.smooth h0 r k.deg (by omega) j
    rw [show pos k (i + 1) - k.mult (i + 1) = pos k i by rw [pos]; omega] at this
    exact this.symm

theorem spl_sp (j : ℕ) : Sp z n k (spl z n k j) :=
  ⟨fun _ _ => bs_natDegree _ _ _ _, fun i h1 h2 => by
    obtain ⟨i, rfl⟩ := Nat.exists_eq_add_of_le' h1
    exact spl_jump hz h2 j⟩

end

theorem sp_sum {ι : Type} (s : Finset ι) {z : ℕ → ℝ} {n : ℕ} {k : Kv} (c : ι → ℝ) {f : ι → ℕ → ℝ[X]} (h : ∀ i ∈ s, Sp z n k (f i)) : Sp z n k fun e => ∑ i ∈ s, C (c i) * f i e := by
  refine ⟨fun e he => ?_, fun i h1 h2 => ?_⟩
  · exact natDegree_sum_le_of_forall_le _ _ fun i hi => (natDegree_C_mul_le _ _).trans ((h i hi).deg e he)
  · rw [← Finset.sum_sub_distrib]
    refine Finset.dvd_sum fun j hj => ?_
    rw [← mul_sub]
    exact ((h j hj).jump i h1 h2).mul_left _

/-! ## They span -/

/-- `m` independent polynomials of degree less than `m` span. -/
theorem span_lt {m : ℕ} {r : Fin m → ℝ[X]} (hr : ∀ i, r i ∈ degreeLT ℝ m) (hi : ∀ a : Fin m → ℝ, ∑ i, C (a i) * r i = 0 → ∀ i, a i = 0) {d : ℝ[X]} (hd : d ∈ degreeLT ℝ m) :
    ∃ a : Fin m → ℝ, d = ∑ i, C (a i) * r i := by
  let v : Fin m → degreeLT ℝ m := fun i => ⟨r i, hr i⟩
  have hv : LinearIndependent ℝ v := by
    rw [Fintype.linearIndependent_iff]
    intro a h
    refine hi a ?_
    have := congrArg (Subtype.val) h
    simpa [v, smul_eq_C_mul] using this
  have : FiniteDimensional ℝ (degreeLT ℝ m) := (degreeLTEquiv ℝ m).symm.finiteDimensional
  have hf : Module.finrank ℝ (degreeLT ℝ m) = m := by rw [(degreeLTEquiv ℝ m).finrank_eq]; simp
  have hs := hv.span_eq_top_of_card_eq_finrank' (by rw [hf, Fintype.card_fin])
  have hm : (⟨d, hd⟩ : degreeLT ℝ m) ∈ Submodule.span ℝ (Set.range v) := hs ▸ Submodule.mem_top
  obtain ⟨a, ha⟩ := (Submodule.mem_span_range_iff_exists_fun ℝ).1 hm
  refine ⟨a, ?_⟩
  have := congrArg (Subtype.val) ha
  simpa [v, smul_eq_C_mul] using this.symm

/-- The same for polynomials of degree at most `p` with a zero of order `p + 1 - m`. -/
theorem span_dvd {p m : ℕ} (hm : m ≤ p + 1) (s : ℝ) {f : ℕ → ℝ[X]} (hf : ∀ i, i < m → (f i).natDegree ≤ p ∧ (X - C s) ^ (p + 1 - m) ∣ f i)
    (hi : ∀ a : ℕ → ℝ, ∑ i ∈ Finset.range m, C (a i) * f i = 0 → ∀ i, i < m → a i = 0) {d : ℝ[X]} (hd : d.natDegree ≤ p) (hs : (X - C s) ^ (p + 1 - m) ∣ d) :
    ∃ a : ℕ → ℝ, d = ∑ i ∈ Finset.range m, C (a i) * f i := by
  have hlt : ∀ {q r : ℝ[X]}, q.natDegree ≤ p → q = (X - C s) ^ (p + 1 - m) * r → r ∈ degreeLT ℝ m := by
    intro q r hq h
    rw [mem_degreeLT]
    by_cases h0 : r = 0
    · rw [h0, degree_zero]; exact WithBot.bot_lt_coe m
    · rw [h, natDegree_mul (pow_ne_zero _ (X_sub_C_ne_zero s)) h0, natDegree_pow, natDegree_X_sub_C, mul_one] at hq
      exact (natDegree_lt_iff_degree_lt h0).1 (by omega)
  choose g hg using fun i : Fin m => (hf i i.2).2
  obtain ⟨b, hb⟩ := hs
  obtain ⟨a, ha⟩ := span_lt (fun i => hlt (hf i i.2).1 (hg i)) (fun a h i => by
    have := hi (fun i => if h : i < m then a ⟨i, h⟩ else 0) (by
      rw [Finset.sum_range]
      have e := congrArg (fun x => (X - C s) ^ (p + 1 - m) * x) h
      simp only [Finset.mul_sum, mul_zero] at e
      rw [← e]
      refine Finset.sum_congr rfl fun i _ => ?_
      rw [dif_pos i.2, hg i]; ring) i i.2
    rwa [dif_pos i.2] at this) (hlt hd hb)
  refine ⟨fun i => if h : i < m then a ⟨i, h⟩ else 0, ?_⟩
  rw [Finset.sum_range, hb, ha, Finset.mul_sum]
  refine Finset.sum_congr rfl fun i _ => ?_
  simp only
  rw [dif_pos i.2, hg i]; ring

section
variable {z : ℕ → ℝ} (hz : StrictMono z) {n : ℕ} {k : Kv}
include hz

/-- The functions that begin at the last `m` knots of an element are independent there. -/
theorem spl_indep {e : ℕ} (he : e < n) {m : ℕ} (hm : m ≤ k.deg + 1) (hp : m ≤ pos k e + 1) (a : ℕ → ℝ) (h : ∑ i ∈ Finset.range m, C (a i) * spl z n k (pos k e + 1 - m + i) e = 0) :
    ∀ i, i < m → a i = 0 := by
  intro i hi
  have hd : k.deg ≤ pos k e := pos_mono k (Nat.zero_le e)
  have key := elt_indep (knots_mono hz) (knots_gap hz (k := k) he) k.deg (pos k e - k.deg) (by omega) (fun j => if k.deg + 1 ≤ j + m then a (j + m - (k.deg + 1)) else 0) (by
    rw [show k.deg + 1 = (k.deg + 1 - m) + m by omega, Finset.sum_range_add]
    rw [Finset.sum_eq_zero (s := Finset.range (k.deg + 1 - m)) fun j hj => by rw [if_neg (by have := Finset.mem_range.1 hj; omega), C_0, zero_mul], zero_add, ← h]
    refine Finset.sum_congr rfl fun j hj => ?_
    rw [if_pos (by omega), spl, show k.deg + 1 - m + j + m - (k.deg + 1 - m + m) = j by omega, show pos k e - k.deg + (k.deg + 1 - m + j) = pos k e + 1 - m + j by omega]) (k.deg + 1 - m + i) (by omega)
  rw [if_pos (by omega), show k.deg + 1 - m + i + m - (k.deg + 1) = i by omega] at key
  exact key

theorem spans_upto (hk : ∀ i, 1 ≤ i → i < n → k.mult i ≤ k.deg + 1) {f : ℕ → ℝ[X]} (hf : Sp z n k f) (e : ℕ) (he : e < n) :
    ∃ c : ℕ → ℝ, ∀ e', e' ≤ e → f e' = ∑ j ∈ Finset.range (pos k e + 1), C (c j) * spl z n k j e' := by
  induction e with
  | zero =>
    obtain ⟨a, ha⟩ := span_dvd (p := k.deg) (m := k.deg + 1) le_rfl 0 (f := fun i => spl z n k i 0) (fun i _ => ⟨bs_natDegree _ _ _ _, by simp⟩)
      (fun a h => spl_indep hz he le_rfl (by rw [pos]) a (by simpa [pos] using h)) (hf.deg 0 he) (by simp)
    refine ⟨a, fun e' h => ?_⟩
    obtain rfl : e' = 0 := by omega
    rw [ha]; rfl
  | succ e ih =>
    obtain ⟨c, hc⟩ := ih (by omega)
    have hp : pos k (e + 1) = pos k e + k.mult (e + 1) := rfl
    have hd : k.deg ≤ pos k e := pos_mono k (Nat.zero_le e)
    obtain ⟨a, ha⟩ := span_dvd (p := k.deg) (m := k.mult (e + 1)) (hk _ (by omega) he) (z (e + 1)) (f := fun i => spl z n k (pos k e + 1 + i) (e + 1))
      (fun i _ => ⟨bs_natDegree _ _ _ _, by
        have := spl_jump hz (k := k) he (pos k e + 1 + i)
        rwa [spl.eq_def z n k (pos k e + 1 + i) e, bs_zero_of_gt (by omega), sub_zero] at this⟩)
      (fun a h => spl_indep hz he (hk _ (by omega) he) (by omega) a (by rwa [show pos k (e + 1) + 1 - k.mult (e + 1) = pos k e + 1 by omega]))
      (d := f (e + 1) - ∑ j ∈ Finset.range (pos k e + 1), C (c j) * spl z n k j (e + 1))
      ((natDegree_sub_le _ _).trans (max_le (hf.deg _ he) (natDegree_sum_le_of_forall_le _ _ fun j _ => (natDegree_C_mul_le _ _).trans (bs_natDegree _ _ _ _))))
      (by
        have h1 := hf.jump (e + 1) (by omega) he
        rw [Nat.add_sub_cancel, hc e le_rfl] at h1
        have h2 : (X - C (z (e + 1))) ^ (k.deg + 1 - k.mult (e + 1)) ∣ ∑ j ∈ Finset.range (pos k e + 1), C (c j) * (spl z n k j (e + 1) - spl z n k j e) :=
          Finset.dvd_sum fun j _ => (spl_jump hz he j).mul_left _
        have := dvd_sub h1 h2
        simp only [mul_sub, Finset.sum_sub_distrib] at this
        rwa [show ∀ a b c : ℝ[X], a - b - (c - b) = a - c from fun a b c => by ring] at this)
    refine ⟨fun j => if j < pos k e + 1 then c j else a (j - (pos k e + 1)), fun e' h => ?_⟩
    have e1 : ∑ j ∈ Finset.range (pos k e + 1), C (if j < pos k e + 1 then c j else a (j - (pos k e + 1))) * spl z n k j e' = ∑ j ∈ Finset.range (pos k e + 1), C (c j) * spl z n k j e' :=
      Finset.sum_congr rfl fun j hj => by rw [if_pos (Finset.mem_range.1 hj)]
    have e2 : ∑ i ∈ Finset.range (k.mult (e + 1)), C (if pos k e + 1 + i < pos k e + 1 then c (pos k e + 1 + i) else a (pos k e + 1 + i - (pos k e + 1))) * spl z n k (pos k e + 1 + i) e' =
        ∑ i ∈ Finset.range (k.mult (e + 1)), C (a i) * spl z n k (pos k e + 1 + i) e' :=
      Finset.sum_congr rfl fun i _ => by rw [if_neg (by omega), Nat.add_sub_cancel_left]
    rw [show pos k (e + 1) + 1 = (pos k e + 1) + k.mult (e + 1) by omega, Finset.sum_range_add, e1, e2]
    rcases Nat.lt_or_ge e e' with h1 | h1
    · obtain rfl : e' = e + 1 := by omega
      rw [← ha]; ring
    · rw [hc e' h1, Finset.sum_eq_zero (s := Finset.range (k.mult (e + 1))) fun i _ => by
        have := pos_mono k h1
        rw [spl, bs_zero_of_gt (by omega), mul_zero], add_zero]

/-- `C51_basis`. The B-splines of a knot vector are a basis of the splines: every spline is a combination of them in exactly one way, and nothing else is. Multiplicities up to degree plus one. -/
theorem C51_basis (hn : 0 < n) (hk : ∀ i, 1 ≤ i → i < n → k.mult i ≤ k.deg + 1) (f : ℕ → ℝ[X]) :
    (Sp z n k f ↔ ∃ c : Fin (dim n k) → ℝ, ∀ e, e < n → f e = ∑ j, C (c j) * spl z n k j e) ∧
      ∀ c c' : Fin (dim n k) → ℝ, (∀ e, e < n → ∑ j, C (c j) * spl z n k j e = ∑ j, C (c' j) * spl z n k j e) → c = c' := by
  refine ⟨⟨fun hf => ?_, ?_⟩, ?_⟩
  · obtain ⟨c, hc⟩ := spans_upto hz hk hf (n - 1) (by omega)
    refine ⟨fun j => c j, fun e he => ?_⟩
    rw [hc e (by omega), Finset.sum_range]
    rfl
  · rintro ⟨c, hc⟩
    have := sp_sum Finset.univ c (f := fun j : Fin (dim n k) => spl z n k j) fun j _ => spl_sp hz (n := n) (k := k) j
    refine ⟨fun e he => ?_, fun i h1 h2 => ?_⟩
    · rw [hc e he]; exact this.deg e he
    · rw [hc i h2, hc (i - 1) (by omega)]; exact this.jump i h1 h2
  · intro c c' h
    -- the element where the function `j` begins
    funext j
    obtain ⟨e, he, h1, h2⟩ : ∃ e, e < n ∧ j.1 ≤ pos k e ∧ pos k e ≤ j.1 + k.deg := by
      have hj : j.1 ≤ pos k (n - 1) := Nat.lt_succ_iff.1 j.2
      have hex : ∃ e, j.1 ≤ pos k e := ⟨_, hj⟩
      classical
      refine ⟨Nat.find hex, ?_, Nat.find_spec hex, ?_⟩
      · have := Nat.find_min' hex hj; omega
      · rcases Nat.eq_zero_or_pos (Nat.find hex) with h0 | h0
        · rw [h0, pos]; omega
        · have := Nat.find_min hex (m := Nat.find hex - 1) (by omega)
          obtain ⟨i, hi⟩ := Nat.exists_eq_add_of_le' h0
          rw [hi] at this ⊢
          rw [Nat.add_sub_cancel] at this
          rw [pos]
          have := hk (i + 1) (by omega) (by have := Nat.find_min' hex hj; omega)
          omega
    have hd : k.deg ≤ pos k e := pos_mono k (Nat.zero_le e)
    have hle : pos k e + 1 ≤ dim n k := by unfold dim; have := pos_mono k (show e ≤ n - 1 by omega); omega
    let a : ℕ → ℝ := fun i => if hi : i < dim n k then c ⟨i, hi⟩ - c' ⟨i, hi⟩ else 0
    have hs : ∑ i ∈ Finset.range (dim n k), C (a i) * spl z n k i e = 0 := by
      rw [Finset.sum_range, ← sub_eq_zero.2 (h e he), ← Finset.sum_sub_distrib]
      refine Finset.sum_congr rfl fun i _ => ?_
      simp only [a, dif_pos i.2, C_sub]; ring
    rw [show dim n k = (pos k e - k.deg) + ((k.deg + 1) + (dim n k - (pos k e + 1))) by omega, Finset.sum_range_add, Finset.sum_range_add,
      Finset.sum_eq_zero (s := Finset.range (pos k e - k.deg)) fun i hi => by rw [spl, bs_zero_of_lt (by have := Finset.mem_range.1 hi; omega), mul_zero],
      Finset.sum_eq_zero (s := Finset.range (dim n k - (pos k e + 1))) fun i _ => by rw [spl, bs_zero_of_gt (by omega), mul_zero], zero_add, add_zero] at hs
    have := spl_indep hz (k := k) he le_rfl (by omega) (fun i => a (pos k e - k.deg + i)) (by rw [show pos k e + 1 - (k.deg + 1) = pos k e - k.deg by omega]; exact hs) (j - (pos k e - k.deg)) (by omega)
    rw [show pos k e - k.deg + (j.1 - (pos k e - k.deg)) = j by omega] at this
    simp only [a, dif_pos j.2] at this
    exact sub_eq_zero.1 this

end

/-! ## The functions as functions -/

section
variable {z : ℕ → ℝ} (hz : StrictMono z) {n : ℕ} {k : Kv}
include hz

theorem eltAt_eq {N e : ℕ} {t : ℝ} (h : e ≤ N) (h0 : z e ≤ t) (h1 : e = N ∨ t < z (e + 1)) : eltAt z N t = e := by
  induction N with
  | zero => rw [eltAt]; omega
  | succ N ih =>
    rw [eltAt]
    rcases Nat.lt_or_ge e (N + 1) with h2 | h2
    · have h1 := h1.resolve_left (by omega)
      rw [if_neg (not_le.2 (h1.trans_le (hz.monotone (by omega)))), ih (by omega) (Or.inr h1)]
    · obtain rfl : e = N + 1 := by omega
      rw [if_pos h0]

omit hz in
theorem eltAt_le (N : ℕ) (t : ℝ) : eltAt z N t ≤ N := by
  induction N with
  | zero => rw [eltAt]
  | succ N ih => rw [eltAt]; split <;> omega

omit hz in
theorem eltAt_mem {N : ℕ} {t : ℝ} (h0 : z 0 ≤ t) : z (eltAt z N t) ≤ t ∧ (eltAt z N t < N → t < z (eltAt z N t + 1)) := by
  induction N with
  | zero => rw [eltAt]; exact ⟨h0, fun h => by omega⟩
  | succ N ih =>
    rw [eltAt]
    split
    · next h => exact ⟨h, fun h => by omega⟩
    · next h =>
      refine ⟨ih.1, fun _ => ?_⟩
      rcases Nat.lt_or_ge (eltAt z N t) N with h2 | h2
      · exact ih.2 h2
      · have := eltAt_le (z := z) N t
        rw [show eltAt z N t = N by omega]
        exact not_le.1 h

/-- In the inside of the knot span of an element, all functions are given by the polynomials of the element. -/
theorem val_span {e : ℕ} (he : e < n) {t : ℝ} (h1 : knots z n k (pos k e) < t) (h2 : t < knots z n k (pos k e + 1)) (j : ℕ) : splVal z n k j t = (spl z n k j e).eval t := by
  have h0 : z 0 ≤ t := (hz.monotone (Nat.zero_le _)).trans h1.le
  obtain ⟨a, b⟩ := eltAt_mem (N := n - 1) h0
  have hl := eltAt_le (z := z) (n - 1) t
  unfold splVal val
  generalize eltAt z (n - 1) t = e' at *
  have hp : pos k e' = pos k e := by
    rcases Nat.lt_trichotomy (pos k e') (pos k e) with h | h | h
    · exfalso
      have h3 := knotPt_after k (n := n) (by omega : e' < n) h
      have h4 : e' < e := by
        by_contra hc
        have := pos_mono k (not_lt.1 hc)
        omega
      have := b (by omega)
      have := hz.monotone (show e' + 1 ≤ _ from h3)
      unfold knots at h1
      linarith
    · exact h
    · exfalso
      have h3 : knotPt k n (pos k e + 1) ≤ e' := knotPt_before k (by omega)
      have := hz.monotone h3
      unfold knots at h2
      linarith
  unfold spl
  rw [hp]

/-- At a common point of two elements a continuous spline has one value. -/
theorem val_eq {f : ℕ → ℝ[X]} (hk : ∀ i, 1 ≤ i → i < n → k.mult i ≤ k.deg) (hf : Sp z n k f) {e : ℕ} (he : e < n) {t : ℝ} (h1 : z e ≤ t) (h2 : t ≤ z (e + 1)) : val z n f t = (f e).eval t := by
  unfold val
  rcases lt_or_eq_of_le h2 with h | h
  · rw [eltAt_eq hz (by omega) h1 (Or.inr h)]
  · rcases Nat.lt_or_ge (e + 1) n with h3 | h3
    · rw [eltAt_eq hz (e := e + 1) (by omega) h.ge (Or.inr (h ▸ hz (Nat.lt_succ_self _)))]
      have := (C51_jump_iff _ _ _ _).1 (hf.jump (e + 1) (by omega) h3) 0 (by have := hk (e + 1) (by omega) h3; omega)
      simpa [h] using this
    · rw [eltAt_eq hz (by omega) h1 (Or.inl (by omega))]

end

theorem val_sum {ι : Type} (s : Finset ι) (z : ℕ → ℝ) (n : ℕ) (c : ι → ℝ) (f : ι → ℕ → ℝ[X]) (t : ℝ) : val z n (fun e => ∑ i ∈ s, C (c i) * f i e) t = ∑ i ∈ s, c i * val z n (f i) t := by
  unfold val
  rw [eval_finsetSum]
  exact Finset.sum_congr rfl fun i _ => by rw [eval_mul, eval_C]

/-- Every spline is a combination of the functions of the basis. -/
theorem val_combination {z : ℕ → ℝ} (hz : StrictMono z) {n : ℕ} {k : Kv} (hn : 0 < n) (hk : ∀ i, 1 ≤ i → i < n → k.mult i ≤ k.deg + 1) {f : ℕ → ℝ[X]} (hf : Sp z n k f) :
    ∃ c : Fin (dim n k) → ℝ, ∀ t, val z n f t = ∑ j, c j * splVal z n k j t := by
  obtain ⟨c, hc⟩ := (C51_basis hz hn hk f).1.1 hf
  refine ⟨c, fun t => ?_⟩
  have := val_sum Finset.univ z n c (fun j : Fin (dim n k) => spl z n k j) t
  rw [show ∑ j, c j * splVal z n k j t = _ from this.symm]
  unfold val
  rw [hc _ (by have := eltAt_le (z := z) (n - 1) t; omega)]

/-- `C51_spans`. The functions of the basis span the splines of the knot vector, if these are continuous. -/
theorem C51_spans {z : ℕ → ℝ} (hz : StrictMono z) {n : ℕ} {k : Kv} (hn : 0 < n) (hk : ∀ i, 1 ≤ i → i < n → k.mult i ≤ k.deg) : Spans z n k fun j : Fin (dim n k) => splVal z n k j := by
  intro f hf
  obtain ⟨c, hc⟩ := val_combination hz hn (fun i h1 h2 => (hk i h1 h2).trans (Nat.le_succ _)) hf
  exact ⟨c, fun e he t h1 h2 => by rw [← hc, val_eq hz hk hf he h1 h2]⟩

/-- Quadrature points: more than the degree in every non-empty knot span. -/
structure Quad (z : ℕ → ℝ) (n : ℕ) (k : Kv) {κ : Type} (pt : κ → ℝ) : Prop where
  mem : ∀ q, z 0 ≤ pt q ∧ pt q ≤ z n
  enough : ∀ e, e < n → ∃ S : Finset κ, k.deg < S.card ∧ Set.InjOn pt S ∧ ∀ q ∈ S, knots z n k (pos k e) < pt q ∧ pt q < knots z n k (pos k e + 1)

/-- `C51_unisolvent`. No combination of the functions vanishes at all quadrature points. -/
theorem C51_unisolvent {z : ℕ → ℝ} (hz : StrictMono z) {n : ℕ} {k : Kv} (hn : 0 < n) (hk : ∀ i, 1 ≤ i → i < n → k.mult i ≤ k.deg + 1) {κ : Type} {pt : κ → ℝ} (hq : Quad z n k pt)
    (x : Fin (dim n k) → ℝ) (h : ∀ q, ∑ j, x j * splVal z n k j (pt q) = 0) : x = 0 := by
  refine (C51_basis hz hn hk 0).2 x 0 fun e he => ?_
  obtain ⟨S, hS, hi, hm⟩ := hq.enough e he
  simp only [Pi.zero_apply, C_0, zero_mul, Finset.sum_const_zero]
  classical
  refine eq_zero_of_natDegree_lt_card_of_eval_eq_zero' _ (S.image pt) (fun t ht => ?_) ?_
  · obtain ⟨q, hq, rfl⟩ := Finset.mem_image.1 ht
    rw [← h q, eval_finsetSum]
    refine Finset.sum_congr rfl fun j _ => ?_
    rw [eval_mul, eval_C, val_span hz he (hm q hq).1 (hm q hq).2]
  · rw [Finset.card_image_of_injOn hi]
    refine lt_of_le_of_lt ?_ hS
    exact natDegree_sum_le_of_forall_le _ _ fun j _ => (natDegree_C_mul_le _ _).trans (bs_natDegree _ _ _ _)

/-- `C51_projection`. The projection (`A.assemble(u * u.tr(), u * aa)`, `gsApproxC1GluingData.h:158-183`) of a spline of the space is the spline: nothing is assumed about the basis, the system is only assumed to be solved. -/
theorem C51_projection {z : ℕ → ℝ} (hz : StrictMono z) {n : ℕ} {k : Kv} (hn : 0 < n) (hk : ∀ i, 1 ≤ i → i < n → k.mult i ≤ k.deg + 1) {κ : Type} [Fintype κ] {pt : κ → ℝ} (hq : Quad z n k pt)
    {w : κ → ℝ} (hw : ∀ q, 0 < w q) {f : ℕ → ℝ[X]} (hf : Sp z n k f) {x : Fin (dim n k) → ℝ}
    (hx : ∀ i, ∑ j, projMat (fun (i : Fin (dim n k)) q => splVal z n k i (pt q)) w i j * x j = projRhs (fun (i : Fin (dim n k)) q => splVal z n k i (pt q)) w (fun q => val z n f (pt q)) i) (t : ℝ) :
    ∑ j, x j * splVal z n k j t = val z n f t := by
  obtain ⟨c, hc⟩ := val_combination hz hn hk hf
  rw [(EdgeFun.C23_projection (fun (i : Fin (dim n k)) q => splVal z n k i (pt q)) w hw (C51_unisolvent hz hn hk hq) _ c (fun q => hc _) x).1 hx, hc]

/-- `C51_gluing_projection`. Gluing data that are polynomials of degree one, as on bilinear patches (`C51_bilinear_data`), are reproduced by the projection to the space of the gluing data. -/
theorem C51_gluing_projection {z : ℕ → ℝ} (hz : StrictMono z) {n : ℕ} {k : Kv} (hn : 0 < n) (hd : 1 ≤ k.deg) (hk : ∀ i, 1 ≤ i → i < n → k.mult i ≤ k.deg + 1) {κ : Type} [Fintype κ] {pt : κ → ℝ} (hq : Quad z n k pt)
    {w : κ → ℝ} (hw : ∀ q, 0 < w q) {g : ℝ → ℝ} {P : ℝ[X]} (hP : P.natDegree ≤ 1) (hg : ∀ t, P.eval t = g t) {x : Fin (dim n k) → ℝ}
    (hx : ∀ i, ∑ j, projMat (fun (i : Fin (dim n k)) q => splVal z n k i (pt q)) w i j * x j = projRhs (fun (i : Fin (dim n k)) q => splVal z n k i (pt q)) w (fun q => g (pt q)) i) (t : ℝ) :
    ∑ j, x j * splVal z n k j t = g t := by
  have e : ∀ t, val z n (fun _ => P) t = g t := hg
  rw [C51_projection hz hn hk hq hw (sp_const z n k P (hP.trans hd)) (x := x) (by simpa only [e] using hx), e]

/-! ## Two variables -/

/-- A function of two variables in the tensor product of two spaces. -/
def TSp (zu : ℕ → ℝ) (nu : ℕ) (ku : Kv) (zv : ℕ → ℝ) (nv : ℕ) (kv : Kv) (F : ℝ → ℝ → ℝ) : Prop :=
  ∃ (L : ℕ) (f g : Fin L → ℕ → ℝ[X]), (∀ l, Sp zu nu ku (f l)) ∧ (∀ l, Sp zv nv kv (g l)) ∧ ∀ u v, F u v = ∑ l, val zu nu (f l) u * val zv nv (g l) v

section
variable {zu : ℕ → ℝ} {nu : ℕ} {ku : Kv} {zv : ℕ → ℝ} {nv : ℕ} {kv : Kv}

theorem tsp_mul {f g : ℕ → ℝ[X]} (hf : Sp zu nu ku f) (hg : Sp zv nv kv g) : TSp zu nu ku zv nv kv fun u v => val zu nu f u * val zv nv g v :=
  ⟨1, fun _ => f, fun _ => g, fun _ => hf, fun _ => hg, fun u v => by simp⟩

theorem tsp_add {F G : ℝ → ℝ → ℝ} (hF : TSp zu nu ku zv nv kv F) (hG : TSp zu nu ku zv nv kv G) : TSp zu nu ku zv nv kv fun u v => F u v + G u v := by
  obtain ⟨L, f, g, a, b, c⟩ := hF
  obtain ⟨M, f', g', a', b', c'⟩ := hG
  refine ⟨L + M, Fin.append f f', Fin.append g g', fun l => ?_, fun l => ?_, fun u v => ?_⟩
  · refine Fin.addCases (fun l => ?_) (fun l => ?_) l
    · rw [Fin.append_left]; exact a l
    · rw [Fin.append_right]; exact a' l
  · refine Fin.addCases (fun l => ?_) (fun l => ?_) l
    · rw [Fin.append_left]; exact b l
    · rw [Fin.append_right]; exact b' l
  · beta_reduce
    rw [Fin.sum_univ_add, c, c']
    simp only [Fin.append_left, Fin.append_right]

theorem sp_smul {z : ℕ → ℝ} {n : ℕ} {k : Kv} (c : ℝ) {f : ℕ → ℝ[X]} (h : Sp z n k f) : Sp z n k fun e => C c * f e := by
  have := sp_sum {()} (fun _ => c) (f := fun _ => f) fun _ _ => h
  simpa using this

theorem tsp_smul (c : ℝ) {F : ℝ → ℝ → ℝ} (hF : TSp zu nu ku zv nv kv F) : TSp zu nu ku zv nv kv fun u v => c * F u v := by
  obtain ⟨L, f, g, a, b, h⟩ := hF
  refine ⟨L, fun l e => C c * f l e, g, fun l => sp_smul c (a l), b, fun u v => ?_⟩
  beta_reduce
  rw [h, Finset.mul_sum]
  refine Finset.sum_congr rfl fun l _ => ?_
  simp only [val, eval_mul, eval_C]; ring

theorem tsp_sub {F G : ℝ → ℝ → ℝ} (hF : TSp zu nu ku zv nv kv F) (hG : TSp zu nu ku zv nv kv G) : TSp zu nu ku zv nv kv fun u v => F u v - G u v := by
  have := tsp_add hF (tsp_smul (-1) hG)
  simpa [sub_eq_add_neg] using this

theorem tsp_swap {F : ℝ → ℝ → ℝ} (hF : TSp zv nv kv zu nu ku F) : TSp zu nu ku zv nv kv fun u v => F v u := by
  obtain ⟨L, f, g, a, b, h⟩ := hF
  exact ⟨L, g, f, b, a, fun u v => by beta_reduce; rw [h]; exact Finset.sum_congr rfl fun l _ => mul_comm _ _⟩

/-- The functions of the tensor-product basis. -/
noncomputable def tenVal (zu : ℕ → ℝ) (nu : ℕ) (ku : Kv) (zv : ℕ → ℝ) (nv : ℕ) (kv : Kv) (i : Fin (dim nu ku) × Fin (dim nv kv)) (u v : ℝ) : ℝ := splVal zu nu ku i.1 u * splVal zv nv kv i.2 v

variable (hzu : StrictMono zu) (hzv : StrictMono zv) (hnu : 0 < nu) (hnv : 0 < nv) (hku : ∀ i, 1 ≤ i → i < nu → ku.mult i ≤ ku.deg + 1) (hkv : ∀ i, 1 ≤ i → i < nv → kv.mult i ≤ kv.deg + 1)
include hzu hzv hnu hnv hku hkv

theorem ten_combination {F : ℝ → ℝ → ℝ} (hF : TSp zu nu ku zv nv kv F) : ∃ c : Fin (dim nu ku) × Fin (dim nv kv) → ℝ, ∀ u v, F u v = ∑ i, c i * tenVal zu nu ku zv nv kv i u v := by
  obtain ⟨L, f, g, a, b, h⟩ := hF
  choose c hc using fun l => val_combination hzu hnu hku (a l)
  choose d hd using fun l => val_combination hzv hnv hkv (b l)
  refine ⟨fun i => ∑ l, c l i.1 * d l i.2, fun u v => ?_⟩
  rw [h, Fintype.sum_prod_type]
  simp only [hc, hd, tenVal]
  simp_rw [Finset.sum_mul_sum, Finset.sum_mul]
  rw [Finset.sum_comm]
  refine Finset.sum_congr rfl fun i _ => ?_
  rw [Finset.sum_comm]
  exact Finset.sum_congr rfl fun j _ => Finset.sum_congr rfl fun l _ => by ring

theorem ten_unisolvent {κ μ : Type} {pu : κ → ℝ} {pv : μ → ℝ} (hqu : Quad zu nu ku pu) (hqv : Quad zv nv kv pv) (y : Fin (dim nu ku) × Fin (dim nv kv) → ℝ)
    (hy : ∀ q : κ × μ, ∑ i, y i * tenVal zu nu ku zv nv kv i (pu q.1) (pv q.2) = 0) : y = 0 := by
  funext ⟨i, j⟩
  have h1 : ∀ q, (fun i => ∑ j, y (i, j) * splVal zv nv kv j (pv q)) = 0 := fun q =>
    C51_unisolvent hzu hnu hku hqu _ fun q' => by
      rw [← hy (q', q), Fintype.sum_prod_type]
      refine Finset.sum_congr rfl fun i _ => ?_
      rw [Finset.sum_mul]
      exact Finset.sum_congr rfl fun j _ => by simp only [tenVal]; ring
  have h2 := C51_unisolvent hzv hnv hkv hqv (fun j => y (i, j)) fun q => congrFun (h1 q) i
  exact congrFun h2 j

/-- `C51_tensor_projection`. The projection to the tensor-product space (`gsApproxC1Vertex.h:266-325`) reproduces all functions of the space, for quadrature points on a grid with more than the degree in every knot span. -/
theorem C51_tensor_projection {κ μ : Type} [Fintype κ] [Fintype μ] {pu : κ → ℝ} {pv : μ → ℝ} (hqu : Quad zu nu ku pu) (hqv : Quad zv nv kv pv) {w : κ × μ → ℝ} (hw : ∀ q, 0 < w q)
    {F : ℝ → ℝ → ℝ} (hF : TSp zu nu ku zv nv kv F) {x : Fin (dim nu ku) × Fin (dim nv kv) → ℝ}
    (hx : ∀ i, ∑ j, projMat (fun i (q : κ × μ) => tenVal zu nu ku zv nv kv i (pu q.1) (pv q.2)) w i j * x j = projRhs (fun i (q : κ × μ) => tenVal zu nu ku zv nv kv i (pu q.1) (pv q.2)) w (fun q => F (pu q.1) (pv q.2)) i)
    (u v : ℝ) : ∑ j, x j * tenVal zu nu ku zv nv kv j u v = F u v := by
  obtain ⟨c, hc⟩ := ten_combination hzu hzv hnu hnv hku hkv hF
  rw [(EdgeFun.C23_projection _ w hw (ten_unisolvent hzu hzv hnu hnv hku hkv hqu hqv) _ c (fun q => hc _ _) x).1 hx, hc]

end

/-! ## Vertices -/

/-- What a space has to contain in one direction. -/
structure DirIn (d : Dir) (ke : Kv) : Prop where
  trace : ∀ f, Sp d.z d.n d.plus f → Sp d.z d.n ke f
  across : ∀ f, Sp d.z d.n d.plus f → Sp d.z d.n ke fun e => d.be e * derivative (f e)
  normal : ∀ g, Sp d.z d.n d.minus g → Sp d.z d.n ke fun e => d.al e * g e
  basis : ∀ f, Sp d.z d.n d.basis f → Sp d.z d.n ke f

theorem sp_add {z : ℕ → ℝ} {n : ℕ} {k : Kv} {f g : ℕ → ℝ[X]} (hf : Sp z n k f) (hg : Sp z n k g) : Sp z n k fun e => f e + g e :=
  ⟨fun e he => (natDegree_add_le _ _).trans (max_le (hf.deg e he) (hg.deg e he)), fun i h1 h2 => by
    rw [add_sub_add_comm]; exact dvd_add (hf.jump i h1 h2) (hg.jump i h1 h2)⟩

section
variable {z : ℕ → ℝ} (hz : StrictMono z) {n : ℕ} {k : Kv}
include hz
theorem e_0_sp : Sp z n k (e_0 z n k) := sp_add (spl_sp hz 0) (spl_sp hz 1)
theorem e_1_sp : Sp z n k (e_1 z n k) := sp_smul _ (spl_sp hz 1)
theorem e_0_plus_sp : Sp z n k (e_0_plus z n k) := sp_add (sp_add (spl_sp hz 0) (spl_sp hz 1)) (spl_sp hz 2)
theorem e_1_plus_sp : Sp z n k (e_1_plus z n k) := sp_add (sp_smul _ (spl_sp hz 1)) (sp_smul _ (spl_sp hz 2))
theorem e_2_plus_sp : Sp z n k (e_2_plus z n k) := sp_smul _ (spl_sp hz 2)
end

theorem e_0_deriv (z : ℕ → ℝ) (n : ℕ) (k : Kv) (e : ℕ) : derivative (e_0_plus z n k e) = e_0_plus_deriv z n k e := by simp [e_0_plus, e_0_plus_deriv]
theorem e_1_deriv (z : ℕ → ℝ) (n : ℕ) (k : Kv) (e : ℕ) : derivative (e_1_plus z n k e) = e_1_plus_deriv z n k e := by simp [e_1_plus, e_1_plus_deriv]
theorem e_2_deriv (z : ℕ → ℝ) (n : ℕ) (k : Kv) (e : ℕ) : derivative (e_2_plus z n k e) = e_2_plus_deriv z n k e := by simp [e_2_plus, e_2_plus_deriv]

/-- `C51_vertex_tensor`. The functions at a vertex lie in the tensor product of spaces that contain the parts in both directions. -/
theorem C51_vertex_tensor {k : ℕ} {du dv : Dir} (hzu : StrictMono du.z) (hzv : StrictMono dv.z) {ku kv : Kv} (hu : DirIn du ku) (hv : DirIn dv kv) (geo : VertexFun.Geo k) (D : VertexFun.Data k) :
    TSp du.z du.n ku dv.z dv.n kv (vertexVal du dv geo D) := by
  have T : ∀ {zu nu ku zv nv kv} {f b f' g h : ℕ → ℝ[X]} (m : ℝ), Sp zu nu ku f → Sp zv nv kv g → (Sp zu nu ku fun e => b e * f' e) → Sp zv nv kv h →
      TSp zu nu ku zv nv kv fun u v => m * (val zu nu f u * val zv nv g v - val zu nu b u * (val zu nu f' u * val zv nv h v)) := by
    intro zu nu ku zv nv kv f b f' g h m h1 h2 h3 h4
    refine tsp_smul m (tsp_sub (tsp_mul h1 h2) ?_)
    have := tsp_mul h3 h4
    simp only [val, eval_mul, mul_assoc] at this ⊢
    exact this
  have N : ∀ {zu nu ku zv nv kv} {a g h : ℕ → ℝ[X]} (m : ℝ), (Sp zu nu ku fun e => a e * g e) → Sp zv nv kv h → TSp zu nu ku zv nv kv fun u v => m * (val zu nu a u * (val zu nu g u * val zv nv h v)) := by
    intro zu nu ku zv nv kv a g h m h1 h2
    refine tsp_smul m ?_
    have := tsp_mul h1 h2
    simp only [val, eval_mul, mul_assoc] at this ⊢
    exact this
  have ac : ∀ {d : Dir} {ke : Kv} (_ : DirIn d ke) {f f' : ℕ → ℝ[X]}, Sp d.z d.n d.plus f → (∀ e, derivative (f e) = f' e) → Sp d.z d.n ke fun e => d.be e * f' e := by
    intro d ke hd f f' hf he
    have := hd.across f hf
    simpa only [he] using this
  have half : ∀ {du dv : Dir} (_ : StrictMono du.z) (_ : StrictMono dv.z) {ku kv : Kv} (_ : DirIn du ku) (_ : DirIn dv kv) (m0 m1 m2 m3 m4 : ℝ), TSp du.z du.n ku dv.z dv.n kv fun u v =>
      m0 * (val du.z du.n (e_0_plus du.z du.n du.plus) u * val dv.z dv.n (e_0 dv.z dv.n dv.basis) v - val du.z du.n du.be u * (val du.z du.n (e_0_plus_deriv du.z du.n du.plus) u * val dv.z dv.n (e_1 dv.z dv.n dv.basis) v))
      + m1 * (val du.z du.n (e_1_plus du.z du.n du.plus) u * val dv.z dv.n (e_0 dv.z dv.n dv.basis) v - val du.z du.n du.be u * (val du.z du.n (e_1_plus_deriv du.z du.n du.plus) u * val dv.z dv.n (e_1 dv.z dv.n dv.basis) v))
      + m2 * (val du.z du.n (e_2_plus du.z du.n du.plus) u * val dv.z dv.n (e_0 dv.z dv.n dv.basis) v - val du.z du.n du.be u * (val du.z du.n (e_2_plus_deriv du.z du.n du.plus) u * val dv.z dv.n (e_1 dv.z dv.n dv.basis) v))
      + m3 * (val du.z du.n du.al u * (val du.z du.n (e_0 du.z du.n du.minus) u * val dv.z dv.n (e_1 dv.z dv.n dv.basis) v))
      + m4 * (val du.z du.n du.al u * (val du.z du.n (e_1 du.z du.n du.minus) u * val dv.z dv.n (e_1 dv.z dv.n dv.basis) v)) := by
    intro du dv hzu hzv ku kv hu hv m0 m1 m2 m3 m4
    have b0 := hv.basis _ (e_0_sp hzv)
    have b1 := hv.basis _ (e_1_sp hzv)
    exact tsp_add (tsp_add (tsp_add (tsp_add
      (T m0 (hu.trace _ (e_0_plus_sp hzu)) b0 (ac hu (e_0_plus_sp hzu) (e_0_deriv _ _ _)) b1)
      (T m1 (hu.trace _ (e_1_plus_sp hzu)) b0 (ac hu (e_1_plus_sp hzu) (e_1_deriv _ _ _)) b1))
      (T m2 (hu.trace _ (e_2_plus_sp hzu)) b0 (ac hu (e_2_plus_sp hzu) (e_2_deriv _ _ _)) b1))
      (N m3 (hu.normal _ (e_0_sp hzu)) b1)) (N m4 (hu.normal _ (e_1_sp hzu)) b1)
  have b0 := hv.basis _ (e_0_sp hzv)
  have b1 := hv.basis _ (e_1_sp hzv)
  have a0 := hu.basis _ (e_0_sp hzu)
  have a1 := hu.basis _ (e_1_sp hzu)
  have key := tsp_sub (tsp_add (half hzu hzv hu hv (VertexFun.dMinus geo du.glue D 0) (VertexFun.dMinus geo du.glue D 1) (VertexFun.dMinus geo du.glue D 2) (-VertexFun.dMinus geo du.glue D 3) (-VertexFun.dMinus geo du.glue D 4))
      (tsp_swap (half hzv hzu hv hu (VertexFun.dPlus geo dv.glue D 0) (VertexFun.dPlus geo dv.glue D 1) (VertexFun.dPlus geo dv.glue D 2) (VertexFun.dPlus geo dv.glue D 3) (VertexFun.dPlus geo dv.glue D 4))))
    (tsp_add (tsp_add (tsp_add (tsp_smul (VertexFun.dIk geo D 0) (tsp_mul a0 b0)) (tsp_smul (VertexFun.dIk geo D 2) (tsp_mul a0 b1))) (tsp_smul (VertexFun.dIk geo D 1) (tsp_mul a1 b0))) (tsp_smul (VertexFun.dIk geo D 3) (tsp_mul a1 b1)))
  refine (congrArg (TSp du.z du.n ku dv.z dv.n kv) ?_).mp key
  funext u v
  simp only [vertexVal, Dir.glue]
  ring

/-- Near the vertex the functions are those of `Model/VertexFun.lean`, to which the theorems of C24, C52 and C68 apply. -/
theorem C51_vertex_first {k : ℕ} {du dv : Dir} (hzu : StrictMono du.z) (hzv : StrictMono dv.z) (geo : VertexFun.Geo k) (D : VertexFun.Data k) {u v : ℝ}
    (hu : du.z 0 ≤ u ∧ u < du.z 1) (hv : dv.z 0 ≤ v ∧ v < dv.z 1) :
    vertexVal du dv geo D u v = VertexFun.vertexFun ⟨⟨knots du.z du.n du.basis, du.basis.deg⟩, ⟨knots du.z du.n du.plus, du.plus.deg⟩, ⟨knots du.z du.n du.minus, du.minus.deg⟩⟩
      ⟨⟨knots dv.z dv.n dv.basis, dv.basis.deg⟩, ⟨knots dv.z dv.n dv.plus, dv.plus.deg⟩, ⟨knots dv.z dv.n dv.minus, dv.minus.deg⟩⟩ du.glue dv.glue geo D u v := by
  have e1 : ∀ f : ℕ → ℝ[X], val du.z du.n f u = (f 0).eval u := fun f => by unfold val; rw [eltAt_eq hzu (Nat.zero_le _) hu.1 (Or.inr hu.2)]
  have e2 : ∀ f : ℕ → ℝ[X], val dv.z dv.n f v = (f 0).eval v := fun f => by unfold val; rw [eltAt_eq hzv (Nat.zero_le _) hv.1 (Or.inr hv.2)]
  unfold vertexVal VertexFun.vertexFun
  simp only [e1, e2]
  rfl

/-- The knot vector is open, as the theorems about `VertexFun.vertexFun` ask. -/
theorem knots_open {z : ℕ → ℝ} (hz : StrictMono z) (h0 : z 0 = 0) {n : ℕ} (hn : 0 < n) (k : Kv) : BSpline.Open (knots z n k) k.deg := by
  refine ⟨fun i hi => ?_, ?_, knots_mono hz⟩
  · rw [knots, knotPt_eq k hn (show i ≤ pos k 0 from hi) (fun i' h => by omega), h0]
  · have := (knots_span hz (k := k) hn).2
    exact (h0 ▸ hz Nat.zero_lt_one).trans_le this

/-- A direction at a vertex as the code makes it: basis with inner knots, geometry without, the spaces of `createPlusSpace` and `createMinusSpace`, and on interfaces gluing data in the space of `createGluingDataSpace`. -/
structure Made (d : Dir) (geo : Kv) (pt rt : ℤ) : Prop where
  mono : StrictMono d.z
  pos : 0 < d.n
  noGeo : NoGeo d.n geo
  deg : 2 ≤ d.basis.deg
  plus : Spaces.plus d.n geo d.basis = some d.plus
  minus : Spaces.minus d.n geo d.basis = some d.minus
  mult : ∀ i, d.basis.mult i ≤ d.basis.deg - 1
  /-- On an interface all inner knots have the same multiplicity (`C51_mixed_violation` otherwise), the options are not contradictory, and the gluing data lie in their space. -/
  iface : d.kind = true → (∃ m, ∀ i, d.basis.mult i = 0 ∨ d.basis.mult i = m) ∧ (∃ p r, Options d.basis pt rt p r) ∧ ∀ kg, gluing d.n geo d.basis pt rt = some kg → Sp d.z d.n kg d.alpha ∧ Sp d.z d.n kg d.beta

/-- The space that the code makes contains the parts. -/
theorem C51_vertex_space {d : Dir} {geo : Kv} {pt rt : ℤ} (h : Made d geo pt rt) : ∃ ke, vertexSpace d.kind d.n geo d.basis pt rt = some ke ∧ DirIn d ke ∧ ∀ i, 1 ≤ i → i < d.n → ke.mult i ≤ ke.deg := by
  unfold vertexSpace
  cases hk : d.kind with
  | false =>
    obtain ⟨kp, km, ke, h1, h2, h3, h4, h5, h6, h7⟩ := C51_vertex_boundary d.z h.noGeo h.deg h.mult
    obtain rfl := Option.some.inj (h.plus.symm.trans h1)
    obtain rfl := Option.some.inj (h.minus.symm.trans h2)
    refine ⟨ke, h3, ⟨h4, fun f _ => ?_, fun g hg => ?_, h6⟩, h7⟩
    · simp only [Dir.be, hk, Bool.false_eq_true, if_false, zero_mul]
      exact sp_const _ _ _ 0 (by simp)
    · simp only [Dir.al, hk, Bool.false_eq_true, if_false, one_mul]
      exact h5 g hg
  | true =>
    obtain ⟨⟨m, hm⟩, ⟨p, r, ho⟩, hg⟩ := h.iface hk
    have hm' : ∃ m, m ≤ d.basis.deg - 1 ∧ ∀ i, d.basis.mult i = 0 ∨ d.basis.mult i = m := by
      by_cases h0 : ∀ i, d.basis.mult i = 0
      · exact ⟨0, Nat.zero_le _, fun i => Or.inl (h0 i)⟩
      · push Not at h0
        obtain ⟨i, hi⟩ := h0
        have := h.mult i
        rcases hm i with h1 | h1
        · exact absurd h1 hi
        · exact ⟨m, h1 ▸ this, hm⟩
    obtain ⟨m, hm1, hm2⟩ := hm'
    obtain ⟨kp, km, kg, ke, h1, h2, h3, h4, h5, h6, h7⟩ := C51_vertex_iface d.z h.noGeo ho h.deg hm1 hm2
    obtain rfl := Option.some.inj (h.plus.symm.trans h1)
    obtain rfl := Option.some.inj (h.minus.symm.trans h2)
    obtain ⟨ha, hb⟩ := hg kg h3
    refine ⟨ke, h4, ⟨h5.trace, fun f hf => ?_, fun g hg => ?_, h6⟩, h7⟩
    · have := h5.across f _ hf hb
      simp only [Dir.be, hk, if_true, mul_comm (d.beta _)]
      exact this
    · simp only [Dir.al, hk, if_true]
      exact h5.normal _ _ ha hg

/-- `C51_vertex_projection`. Vertices: the projection of the function to the space of the vertex is the function itself, on the whole patch, for all kinds of the two edges. -/
theorem C51_vertex_projection {k : ℕ} {du dv : Dir} {geoU geoV : Kv} {pt rt : ℤ} (hu : Made du geoU pt rt) (hv : Made dv geoV pt rt) {ku kv : Kv}
    (hku : vertexSpace du.kind du.n geoU du.basis pt rt = some ku) (hkv : vertexSpace dv.kind dv.n geoV dv.basis pt rt = some kv) (geo : VertexFun.Geo k) (D : VertexFun.Data k)
    {κ μ : Type} [Fintype κ] [Fintype μ] {pu : κ → ℝ} {pv : μ → ℝ} (hqu : Quad du.z du.n ku pu) (hqv : Quad dv.z dv.n kv pv) {w : κ × μ → ℝ} (hw : ∀ q, 0 < w q)
    {x : Fin (dim du.n ku) × Fin (dim dv.n kv) → ℝ}
    (hx : ∀ i, ∑ j, projMat (fun i (q : κ × μ) => tenVal du.z du.n ku dv.z dv.n kv i (pu q.1) (pv q.2)) w i j * x j =
      projRhs (fun i (q : κ × μ) => tenVal du.z du.n ku dv.z dv.n kv i (pu q.1) (pv q.2)) w (fun q => vertexVal du dv geo D (pu q.1) (pv q.2)) i) (u v : ℝ) :
    ∑ j, x j * tenVal du.z du.n ku dv.z dv.n kv j u v = vertexVal du dv geo D u v := by
  obtain ⟨ku', e1, iu, mu⟩ := C51_vertex_space hu
  obtain ⟨kv', e2, iv, mv⟩ := C51_vertex_space hv
  obtain rfl := Option.some.inj (e1.symm.trans hku)
  obtain rfl := Option.some.inj (e2.symm.trans hkv)
  exact C51_tensor_projection hu.mono hv.mono hu.pos hv.pos (fun i a b => (mu i a b).trans (Nat.le_succ _)) (fun i a b => (mv i a b).trans (Nat.le_succ _)) hqu hqv hw
    (C51_vertex_tensor hu.mono hv.mono iu iv geo D) hx u v

/-- The system has a solution, so the projection exists. -/
theorem C51_vertex_solvable {k : ℕ} {du dv : Dir} {geoU geoV : Kv} {pt rt : ℤ} (hu : Made du geoU pt rt) (hv : Made dv geoV pt rt) {ku kv : Kv}
    (hku : vertexSpace du.kind du.n geoU du.basis pt rt = some ku) (hkv : vertexSpace dv.kind dv.n geoV dv.basis pt rt = some kv) (geo : VertexFun.Geo k) (D : VertexFun.Data k)
    {κ μ : Type} [Fintype κ] [Fintype μ] {pu : κ → ℝ} {pv : μ → ℝ} (hqu : Quad du.z du.n ku pu) (hqv : Quad dv.z dv.n kv pv) {w : κ × μ → ℝ} (hw : ∀ q, 0 < w q) :
    ∃! x : Fin (dim du.n ku) × Fin (dim dv.n kv) → ℝ, ∀ i, ∑ j, projMat (fun i (q : κ × μ) => tenVal du.z du.n ku dv.z dv.n kv i (pu q.1) (pv q.2)) w i j * x j =
      projRhs (fun i (q : κ × μ) => tenVal du.z du.n ku dv.z dv.n kv i (pu q.1) (pv q.2)) w (fun q => vertexVal du dv geo D (pu q.1) (pv q.2)) i := by
  obtain ⟨ku', e1, iu, mu⟩ := C51_vertex_space hu
  obtain ⟨kv', e2, iv, mv⟩ := C51_vertex_space hv
  obtain rfl := Option.some.inj (e1.symm.trans hku)
  obtain rfl := Option.some.inj (e2.symm.trans hkv)
  have mu' := fun i a b => (mu i a b).trans (Nat.le_succ _)
  have mv' := fun i a b => (mv i a b).trans (Nat.le_succ _)
  obtain ⟨c, hc⟩ := ten_combination hu.mono hv.mono hu.pos hv.pos mu' mv' (C51_vertex_tensor hu.mono hv.mono iu iv geo D)
  have hB := ten_unisolvent hu.mono hv.mono hu.pos hv.pos mu' mv' hqu hqv
  exact ⟨c, (EdgeFun.C23_projection _ w hw hB _ c (fun q => hc _ _) c).2 rfl, fun y hy => (EdgeFun.C23_projection _ w hw hB _ c (fun q => hc _ _) y).1 hy⟩

/-! ## Edges -/

/-- What the space of an edge has to contain. -/
structure EdgeIn (d : Dir) (ke : Kv) : Prop where
  trace : ∀ f, Sp d.z d.n d.plus f → Sp d.z d.n ke f
  across : ∀ f, Sp d.z d.n d.plus f → Sp d.z d.n ke fun e => d.be e * derivative (f e)
  normal : ∀ g, Sp d.z d.n d.minus g → Sp d.z d.n ke fun e => d.al e * g e

/-- The space that the code makes contains the parts. -/
theorem C51_edge_space {d : Dir} {geo : Kv} {pt rt : ℤ} (h : Made d geo pt rt) : ∃ ke, edgeSpace d.kind d.n geo d.basis pt rt = some ke ∧ EdgeIn d ke ∧ ∀ i, 1 ≤ i → i < d.n → ke.mult i ≤ ke.deg := by
  unfold edgeSpace
  cases hk : d.kind with
  | false =>
    obtain ⟨kp, km, ke, h1, h2, h3, h4, h5⟩ := C51_boundary d.z h.noGeo h.deg h.mult
    have h7 := C51_boundary_mult h.noGeo h.deg h.mult h1 h2 h3
    obtain rfl := Option.some.inj (h.plus.symm.trans h1)
    obtain rfl := Option.some.inj (h.minus.symm.trans h2)
    refine ⟨ke, by simp [h1, h2, h3], ⟨h4, fun f _ => ?_, fun g hg => ?_⟩, h7⟩
    · simp only [Dir.be, hk, Bool.false_eq_true, if_false, zero_mul]
      exact sp_const _ _ _ 0 (by simp)
    · simp only [Dir.al, hk, Bool.false_eq_true, if_false, one_mul]
      exact h5 g hg
  | true =>
    obtain ⟨⟨m, hm⟩, ⟨p, r, ho⟩, hg⟩ := h.iface hk
    have hm' : ∃ m, m ≤ d.basis.deg - 1 ∧ ∀ i, d.basis.mult i = 0 ∨ d.basis.mult i = m := by
      by_cases h0 : ∀ i, d.basis.mult i = 0
      · exact ⟨0, Nat.zero_le _, fun i => Or.inl (h0 i)⟩
      · push Not at h0
        obtain ⟨i, hi⟩ := h0
        have := h.mult i
        rcases hm i with h1 | h1
        · exact absurd h1 hi
        · exact ⟨m, h1 ▸ this, hm⟩
    obtain ⟨m, hm1, hm2⟩ := hm'
    obtain ⟨kp, km, kg, ke, hs, h5⟩ := C51_edge d.z h.noGeo ho h.deg hm1 hm2
    have h7 := C51_edge_cont h.noGeo ho h.deg hm1 hm2 hs
    refine ⟨ke, by rw [if_pos rfl, hs]; rfl, ?_, h7⟩
    unfold interfaceSpaces at hs
    simp only [h.plus, h.minus, Option.bind_eq_bind, Option.bind_some, Option.pure_def, Option.bind_eq_some_iff, Option.some.injEq, Prod.mk.injEq] at hs
    obtain ⟨kg', h3, ke', _, rfl, rfl, rfl, rfl⟩ := hs
    obtain ⟨ha, hb⟩ := hg _ h3
    refine ⟨h5.trace, fun f hf => ?_, fun g hg => ?_⟩
    · have := h5.across f _ hf hb
      simp only [Dir.be, hk, if_true, mul_comm (d.beta _)]
      exact this
    · simp only [Dir.al, hk, if_true]
      exact h5.normal _ _ ha hg

/-- A function of the space of an edge that only needs the functions that are not eliminated: the first two across the edge. -/
def TwoRows (zu : ℕ → ℝ) (nu : ℕ) (ku : Kv) (zv : ℕ → ℝ) (nv : ℕ) (kv : Kv) (F : ℝ → ℝ → ℝ) : Prop :=
  ∃ f : Fin 2 → ℕ → ℝ[X], (∀ l, Sp zu nu ku (f l)) ∧ ∀ s r, F s r = ∑ l : Fin 2, val zu nu (f l) s * splVal zv nv kv l r

/-- The functions that are not eliminated (`gsApproxC1Edge.hpp:95-102`: all rows but the first two get `markBoundary`). -/
noncomputable def rowVal (zu : ℕ → ℝ) (nu : ℕ) (ku : Kv) (zv : ℕ → ℝ) (nv : ℕ) (kv : Kv) (i : Fin (dim nu ku) × Fin 2) (s r : ℝ) : ℝ := splVal zu nu ku i.1 s * splVal zv nv kv i.2 r

/-- The functions of an edge lie in the space of the edge, and need the first two rows only. -/
theorem C51_edge_tensor {d : Dir} (hz : StrictMono d.z) {ke : Kv} (hd : EdgeIn d ke) (zc : ℕ → ℝ) (nc : ℕ) (b : Kv) (i uv : ℕ) :
    TwoRows d.z d.n ke zc nc b (traceVal d zc nc b i) ∧ TwoRows d.z d.n ke zc nc b (normalVal uv d zc nc b i) := by
  have t := hd.trace _ (spl_sp hz (n := d.n) (k := d.plus) i)
  have a := hd.across _ (spl_sp hz (n := d.n) (k := d.plus) i)
  have g := hd.normal _ (spl_sp hz (n := d.n) (k := d.minus) i)
  constructor
  · refine ⟨![spl d.z d.n d.plus i, fun e => spl d.z d.n d.plus i e + C (-(knots zc nc b (b.deg + 1) / b.deg)) * (d.be e * derivative (spl d.z d.n d.plus i e))], fun l => ?_, fun s r => ?_⟩
    · fin_cases l
      · exact t
      · exact sp_add t (sp_smul _ a)
    · simp only [traceVal, Fin.sum_univ_two, Matrix.cons_val_zero, Matrix.cons_val_one, splVal, val, eval_add, eval_mul, eval_C, Fin.val_zero, Fin.val_one]
      ring
  · refine ⟨![fun _ => 0, fun e => C ((if uv = 0 then -1 else 1) * if d.kind then knots zc nc b (b.deg + 1) / b.deg else 1) * (d.al e * spl d.z d.n d.minus i e)], fun l => ?_, fun s r => ?_⟩
    · fin_cases l
      · exact sp_const _ _ _ 0 (by simp)
      · exact sp_smul _ g
    · simp only [normalVal, Fin.sum_univ_two, Matrix.cons_val_zero, Matrix.cons_val_one, splVal, val, eval_zero, eval_mul, eval_C, Fin.val_zero, Fin.val_one]
      cases d.kind
      · simp only [Bool.false_eq_true, if_false]; ring
      · simp only [if_true]; ring

section
variable {zu : ℕ → ℝ} {nu : ℕ} {ku : Kv} {zv : ℕ → ℝ} {nv : ℕ} {kv : Kv} (hzu : StrictMono zu) (hzv : StrictMono zv) (hnu : 0 < nu) (hnv : 0 < nv) (hku : ∀ i, 1 ≤ i → i < nu → ku.mult i ≤ ku.deg + 1)
  (hkv : ∀ i, 1 ≤ i → i < nv → kv.mult i ≤ kv.deg + 1)
include hzu hzv hnu hnv hku hkv

/-- The projection to the functions that are not eliminated. -/
theorem rows_projection (h1 : 1 ≤ kv.deg) {κ μ : Type} [Fintype κ] [Fintype μ] {pu : κ → ℝ} {pv : μ → ℝ} (hqu : Quad zu nu ku pu) (hqv : Quad zv nv kv pv) {w : κ × μ → ℝ} (hw : ∀ q, 0 < w q)
    {F : ℝ → ℝ → ℝ} (hF : TwoRows zu nu ku zv nv kv F) :
    ∃ c : Fin (dim nu ku) × Fin 2 → ℝ, (∀ s r, ∑ j, c j * rowVal zu nu ku zv nv kv j s r = F s r) ∧
      ∀ x : Fin (dim nu ku) × Fin 2 → ℝ, (∀ i, ∑ j, projMat (fun i (q : κ × μ) => rowVal zu nu ku zv nv kv i (pu q.1) (pv q.2)) w i j * x j =
        projRhs (fun i (q : κ × μ) => rowVal zu nu ku zv nv kv i (pu q.1) (pv q.2)) w (fun q => F (pu q.1) (pv q.2)) i) ↔ x = c := by
  obtain ⟨f, hf, hF⟩ := hF
  choose c hc using fun l => val_combination hzu hnu hku (hf l)
  have hsum : ∀ s r, ∑ j : Fin (dim nu ku) × Fin 2, c j.2 j.1 * rowVal zu nu ku zv nv kv j s r = F s r := by
    intro s r
    rw [hF, Fintype.sum_prod_type, Finset.sum_comm]
    refine Finset.sum_congr rfl fun l _ => ?_
    rw [hc, Finset.sum_mul]
    exact Finset.sum_congr rfl fun i _ => by simp only [rowVal]; ring
  refine ⟨fun j => c j.2 j.1, hsum, fun x => EdgeFun.C23_projection _ w hw (fun y hy => ?_) _ _ (fun q => (hsum _ _).symm) x⟩
  have hdim : 2 ≤ dim nv kv := by
    have : kv.deg ≤ pos kv (nv - 1) := pos_mono kv (Nat.zero_le _)
    unfold dim; omega
  funext ⟨i, j⟩
  have e1 : ∀ q, (fun i => ∑ j : Fin 2, y (i, j) * splVal zv nv kv j (pv q)) = 0 := fun q =>
    C51_unisolvent hzu hnu hku hqu _ fun q' => by
      rw [← hy (q', q), Fintype.sum_prod_type]
      refine Finset.sum_congr rfl fun i _ => ?_
      rw [Finset.sum_mul]
      exact Finset.sum_congr rfl fun j _ => by simp only [rowVal]; ring
  have e2 := C51_unisolvent hzv hnv hkv hqv (fun j => if h : j.1 < 2 then y (i, ⟨j, h⟩) else 0) fun q => by
    have := congrFun (e1 q) i
    simp only [Pi.zero_apply] at this
    have e3 : ∀ g : ℕ → ℝ, (∀ j, 2 ≤ j → g j = 0) → ∑ j : Fin (dim nv kv), g j = ∑ j : Fin 2, g j := fun g hg => by
      rw [Fin.sum_univ_eq_sum_range g, Fin.sum_univ_eq_sum_range g]
      refine (Finset.sum_subset (fun a ha => ?_) fun a _ ha => hg a ?_).symm
      · rw [Finset.mem_range] at ha ⊢; omega
      · rw [Finset.mem_range] at ha; omega
    have e4 := e3 (fun j => (if h : j < 2 then y (i, ⟨j, h⟩) else 0) * splVal zv nv kv j (pv q)) fun j hj => by rw [dif_neg (by omega), zero_mul]
    refine e4.trans (Eq.trans (Finset.sum_congr rfl fun j _ => ?_) this)
    rw [dif_pos j.2]
  have := congrFun e2 ⟨j, by omega⟩
  simp only [dif_pos j.2] at this
  exact this

end

/-- `C51_edge_projection`. Edges: the projection of the functions of an edge to the functions that are not eliminated is the function itself, on the whole patch, for interfaces and boundary edges and both positions of the edge. -/
theorem C51_edge_projection {d : Dir} {geo : Kv} {pt rt : ℤ} (h : Made d geo pt rt) {ke : Kv} (hk : edgeSpace d.kind d.n geo d.basis pt rt = some ke) {zc : ℕ → ℝ} (hzc : StrictMono zc) {nc : ℕ} (hnc : 0 < nc)
    {b : Kv} (hb1 : 1 ≤ b.deg) (hb : ∀ i, 1 ≤ i → i < nc → b.mult i ≤ b.deg + 1) {κ μ : Type} [Fintype κ] [Fintype μ] {pu : κ → ℝ} {pv : μ → ℝ} (hqu : Quad d.z d.n ke pu) (hqv : Quad zc nc b pv)
    {w : κ × μ → ℝ} (hw : ∀ q, 0 < w q) (i uv : ℕ) {F : ℝ → ℝ → ℝ} (hF : F = traceVal d zc nc b i ∨ F = normalVal uv d zc nc b i) :
    ∃! x : Fin (dim d.n ke) × Fin 2 → ℝ, (∀ i, ∑ j, projMat (fun i (q : κ × μ) => rowVal d.z d.n ke zc nc b i (pu q.1) (pv q.2)) w i j * x j =
        projRhs (fun i (q : κ × μ) => rowVal d.z d.n ke zc nc b i (pu q.1) (pv q.2)) w (fun q => F (pu q.1) (pv q.2)) i) ∧
      ∀ s r, ∑ j, x j * rowVal d.z d.n ke zc nc b j s r = F s r := by
  obtain ⟨ke', e, hi, hm⟩ := C51_edge_space h
  obtain rfl := Option.some.inj (e.symm.trans hk)
  have hT : TwoRows d.z d.n ke' zc nc b F := by
    rcases hF with rfl | rfl
    · exact (C51_edge_tensor h.mono hi zc nc b i uv).1
    · exact (C51_edge_tensor h.mono hi zc nc b i uv).2
  obtain ⟨c, c1, c2⟩ := rows_projection h.mono hzc h.pos hnc (fun i a b => (hm i a b).trans (Nat.le_succ _)) hb hb1 hqu hqv hw hT
  exact ⟨c, ⟨(c2 c).2 rfl, c1⟩, fun y hy => (c2 y).1 hy.1⟩

/-- Every solution of the system has these values. -/
theorem edge_solves {d : Dir} {geo : Kv} {pt rt : ℤ} (h : Made d geo pt rt) {ke : Kv} (hk : edgeSpace d.kind d.n geo d.basis pt rt = some ke) {zc : ℕ → ℝ} (hzc : StrictMono zc) {nc : ℕ} (hnc : 0 < nc)
    {b : Kv} (hb1 : 1 ≤ b.deg) (hb : ∀ i, 1 ≤ i → i < nc → b.mult i ≤ b.deg + 1) {κ μ : Type} [Fintype κ] [Fintype μ] {pu : κ → ℝ} {pv : μ → ℝ} (hqu : Quad d.z d.n ke pu) (hqv : Quad zc nc b pv)
    {w : κ × μ → ℝ} (hw : ∀ q, 0 < w q) (i uv : ℕ) {F : ℝ → ℝ → ℝ} (hF : F = traceVal d zc nc b i ∨ F = normalVal uv d zc nc b i) {x : Fin (dim d.n ke) × Fin 2 → ℝ}
    (hx : ∀ i, ∑ j, projMat (fun i (q : κ × μ) => rowVal d.z d.n ke zc nc b i (pu q.1) (pv q.2)) w i j * x j =
        projRhs (fun i (q : κ × μ) => rowVal d.z d.n ke zc nc b i (pu q.1) (pv q.2)) w (fun q => F (pu q.1) (pv q.2)) i) (s r : ℝ) : ∑ j, x j * rowVal d.z d.n ke zc nc b j s r = F s r := by
  obtain ⟨ke', e, hi, hm⟩ := C51_edge_space h
  obtain rfl := Option.some.inj (e.symm.trans hk)
  have hT : TwoRows d.z d.n ke' zc nc b F := by
    rcases hF with rfl | rfl
    · exact (C51_edge_tensor h.mono hi zc nc b i uv).1
    · exact (C51_edge_tensor h.mono hi zc nc b i uv).2
  obtain ⟨c, c1, c2⟩ := rows_projection h.mono hzc h.pos hnc (fun i a b => (hm i a b).trans (Nat.le_succ _)) hb hb1 hqu hqv hw hT
  rw [(c2 x).1 hx, c1]

/-- Near the edge the functions are those of `Model/EdgeFun.lean`, to which the theorems of C23 apply. -/
theorem C51_edge_first (d : Dir) {zc : ℕ → ℝ} (hzc : StrictMono zc) (nc : ℕ) (b : Kv) (i : ℕ) (s : ℝ) {r : ℝ} (hr : zc 0 ≤ r ∧ r < zc 1) :
    let T := EdgeFun.traceBasis
    let N := EdgeFun.normalDerivBasis
    let f := splVal d.z d.n d.plus i
    let df := val d.z d.n fun e => derivative (spl d.z d.n d.plus i e)
    let m := splVal d.z d.n d.minus i
    traceVal d zc nc b i s r = T 0 (!d.kind) ⟨knots zc nc b, b.deg⟩ (val d.z d.n d.beta) f df s r ∧ traceVal d zc nc b i s r = T 1 (!d.kind) ⟨knots zc nc b, b.deg⟩ (val d.z d.n d.beta) f df r s ∧
      normalVal 0 d zc nc b i s r = N 0 (!d.kind) ⟨knots zc nc b, b.deg⟩ (val d.z d.n d.alpha) m s r ∧ normalVal 1 d zc nc b i s r = N 1 (!d.kind) ⟨knots zc nc b, b.deg⟩ (val d.z d.n d.alpha) m r s := by
  have e1 : ∀ j, splVal zc nc b j r = (BSpline.N (knots zc nc b) b.deg j).eval r := fun j => by
    unfold splVal val; rw [eltAt_eq hzc (Nat.zero_le _) hr.1 (Or.inr hr.2)]; rfl
  cases hk : d.kind
  · have hb : val d.z d.n d.be s = 0 := by simp [val, Dir.be, hk]
    have ha : val d.z d.n d.al s = 1 := by simp [val, Dir.al, hk]
    simp [traceVal, normalVal, EdgeFun.traceBasis, EdgeFun.normalDerivBasis, EdgeFun.Comp.eval, e1, hb, ha, hk]
  · have hb : val d.z d.n d.be s = val d.z d.n d.beta s := by simp [val, Dir.be, hk]
    have ha : val d.z d.n d.al s = val d.z d.n d.alpha s := by simp [val, Dir.al, hk]
    simp [traceVal, normalVal, EdgeFun.traceBasis, EdgeFun.normalDerivBasis, EdgeFun.Comp.eval, e1, hb, ha, hk]

/-! ## Cases -/

/-- Four elements of length one, degree three, knots of multiplicity one. -/
def exK : Kv := ⟨3, fun i => if i = 0 then 0 else 1⟩

/-- The knots and the number of functions. -/
example : (List.range 11).map (knotPt exK 4) = [0, 0, 0, 0, 1, 2, 3, 4, 4, 4, 4] ∧ dim 4 exK = 7 := by decide

/-- A direction on an interface with default options, gluing data `1 + t` and `t / 2`. -/
noncomputable def exDir : Dir where
  z i := i
  n := 4
  basis := exK
  plus := exK
  minus := ⟨2, exK.mult⟩
  kind := true
  alpha _ := X + 1
  beta _ := C (1 / 2) * X

theorem exMono : StrictMono fun i : ℕ => (i : ℝ) := fun _ _ h => Nat.cast_lt.2 h

theorem exMade : Made exDir ⟨1, fun _ => 0⟩ (-1) (-1) where
  mono := exMono
  pos := by decide
  noGeo := fun _ _ _ => rfl
  deg := by decide
  plus := rfl
  minus := rfl
  mult i := by show exK.mult i ≤ 2; unfold exK; simp only; split <;> omega
  iface _ := by
    refine ⟨⟨1, fun i => ?_⟩, ⟨_, _, C51_default _ (by decide)⟩, fun kg hg => ?_⟩
    · show exK.mult i = 0 ∨ exK.mult i = 1
      unfold exK; simp only; split <;> simp
    · have hd : kg.deg = 2 := by
        have : gluing 4 ⟨1, fun _ => 0⟩ exK (-1) (-1) = some kg := hg
        have e : (gluing 4 ⟨1, fun _ => 0⟩ exK (-1) (-1)).map (fun k => k.deg) = some 2 := by decide
        rw [this] at e
        exact Option.some.inj e
      refine ⟨sp_const _ _ _ _ ?_, sp_const _ _ _ _ ?_⟩
      · rw [hd]; exact (natDegree_add_le _ _).trans (by simp)
      · rw [hd]; exact (natDegree_C_mul_le _ _).trans (by simp)

/-- The same at the boundary. -/
theorem exMadeBdy : Made { exDir with kind := false } ⟨1, fun _ => 0⟩ (-1) (-1) :=
  ⟨exMade.mono, exMade.pos, exMade.noGeo, exMade.deg, exMade.plus, exMade.minus, exMade.mult, fun h => by cases h⟩

/-- Quadrature points for any degree: enough points in every element. -/
theorem exQuad (k : Kv) : Quad (fun i : ℕ => (i : ℝ)) 4 k fun q : Fin 4 × Fin (k.deg + 1) => (q.1 : ℝ) + ((q.2 : ℝ) + 1) / ((k.deg : ℝ) + 2) := by
  have b : ∀ q : Fin (k.deg + 1), (0 : ℝ) < ((q : ℝ) + 1) / ((k.deg : ℝ) + 2) ∧ ((q : ℝ) + 1) / ((k.deg : ℝ) + 2) < 1 := fun q => by
    have hq : (q : ℝ) ≤ k.deg := by exact_mod_cast Nat.lt_succ_iff.1 q.2
    refine ⟨by positivity, ?_⟩
    rw [div_lt_one (by positivity)]; linarith
  constructor
  · rintro ⟨i, q⟩
    have hi : (i : ℝ) ≤ 3 := by exact_mod_cast Nat.lt_succ_iff.1 i.2
    have := b q
    have h0 : (0 : ℝ) ≤ i := Nat.cast_nonneg _
    constructor
    · simp only [Nat.cast_zero]; linarith
    · norm_num; linarith
  · intro e he
    obtain ⟨a1, a2⟩ := knots_span exMono (k := k) (n := 4) he
    refine ⟨Finset.univ.image fun q => (⟨e, he⟩, q), ?_, ?_, ?_⟩
    · rw [Finset.card_image_of_injective _ (fun a b h => (Prod.mk.inj h).2), Finset.card_univ, Fintype.card_fin]; omega
    · intro x hx y hy h
      rw [Finset.mem_coe, Finset.mem_image] at hx hy
      obtain ⟨p, _, rfl⟩ := hx
      obtain ⟨q, _, rfl⟩ := hy
      simp only [add_right_inj] at h
      rw [div_left_inj' (by positivity), add_left_inj, Nat.cast_inj] at h
      rw [Fin.ext h]
    · intro x hx
      obtain ⟨q, _, rfl⟩ := Finset.mem_image.1 hx
      have := b q
      push_cast at a1 a2
      simp only
      constructor <;> linarith

/-- `C51_vertex_projection` and `C51_vertex_solvable` at a vertex between an interface and the boundary: the function with value one. -/
example (geo : VertexFun.Geo 2) (D : VertexFun.Data 2) : ∃ ku kv, vertexSpace true 4 ⟨1, fun _ => 0⟩ exK (-1) (-1) = some ku ∧ vertexSpace false 4 ⟨1, fun _ => 0⟩ exK (-1) (-1) = some kv ∧
    ∃ x : Fin (dim 4 ku) × Fin (dim 4 kv) → ℝ, ∀ u v, ∑ j, x j * tenVal (fun i => i) 4 ku (fun i => i) 4 kv j u v = vertexVal exDir { exDir with kind := false } geo D u v := by
  obtain ⟨ku, hu, _⟩ := C51_vertex_space exMade
  obtain ⟨kv, hv, _⟩ := C51_vertex_space exMadeBdy
  obtain ⟨x, hx, _⟩ := C51_vertex_solvable exMade exMadeBdy hu hv geo D (exQuad ku) (exQuad kv) (w := fun _ => 1) fun _ => one_pos
  exact ⟨ku, kv, hu, hv, x, fun u v => C51_vertex_projection exMade exMadeBdy hu hv geo D (exQuad ku) (exQuad kv) (w := fun _ => 1) (fun _ => one_pos) hx u v⟩

/-- `C51_edge_projection` for a function of the interface. -/
example : ∃ ke, edgeSpace true 4 ⟨1, fun _ => 0⟩ exK (-1) (-1) = some ke ∧ ∃ x : Fin (dim 4 ke) × Fin 2 → ℝ, ∀ s r, ∑ j, x j * rowVal (fun i => i) 4 ke (fun i => i) 4 exK j s r = traceVal exDir (fun i => i) 4 exK 3 s r := by
  obtain ⟨ke, he, _⟩ := C51_edge_space exMade
  obtain ⟨x, ⟨_, hx⟩, _⟩ := C51_edge_projection exMade he exMono (nc := 4) (by decide) (b := exK) (by decide) (fun i _ _ => by unfold exK; simp only; split <;> omega) (exQuad ke) (exQuad exK) (w := fun _ => 1) (fun _ => one_pos) 3 0 (Or.inl rfl)
  exact ⟨ke, he, x, hx⟩

/-- The function is not zero: at the knot 2 on the edge it has the value 2/3. -/
example : traceVal exDir (fun i => i) 4 exK 3 2 0 = 2 / 3 := by
  have e : eltAt (fun i : ℕ => (i : ℝ)) 3 2 = 2 := eltAt_eq exMono (by decide) (by norm_num) (Or.inr (by norm_num))
  have e0 : eltAt (fun i : ℕ => (i : ℝ)) 3 0 = 0 := eltAt_eq exMono (by decide) (by norm_num) (Or.inr (by norm_num))
  have s0 : splVal (fun i : ℕ => (i : ℝ)) 4 exK 0 0 + splVal (fun i : ℕ => (i : ℝ)) 4 exK 1 0 = 1 := by
    simp only [splVal, val, show 4 - 1 = 3 from rfl, e0, spl, exK, bs, knots, knotPt, pos]
    norm_num
  have s1 : splVal (fun i : ℕ => (i : ℝ)) 4 exK 1 0 = 0 := by
    simp only [splVal, val, show 4 - 1 = 3 from rfl, e0, spl, exK, bs, knots, knotPt, pos]
    norm_num
  have s3 : splVal (fun i : ℕ => (i : ℝ)) 4 exK 3 2 = 2 / 3 := by
    simp only [splVal, val, show 4 - 1 = 3 from rfl, e, spl, exK, bs, knots, knotPt, pos]
    norm_num
  simp only [traceVal]
  rw [s0, s1]
  simp only [exDir, s3]
  norm_num

end Verif.Spaces
