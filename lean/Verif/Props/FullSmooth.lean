import Verif.Props.FullWeights

/-!
# C72: the global functions are smooth over all interfaces
-/

set_option autoImplicit false

namespace Verif.Boehm
open Finset Polynomial Verif.BSpline

/-! ## Weights depend on the scaled knots only -/

section
variable {K : Type} [Field K] [LinearOrder K]

omit [LinearOrder K] in
theorem reverse_twice (L : List K) : reverseKnots (reverseKnots L) = L := by
  rcases L.eq_nil_or_concat with rfl | ⟨L', z, rfl⟩
  · rfl
  · rw [List.concat_eq_append]
    have h1 : (reverseKnots (L' ++ [z])).headD 0 = (L' ++ [z]).headD 0 := by
      simp [reverseKnots]
    have h2 : (reverseKnots (L' ++ [z])).getLastD 0 = z := by
      rw [reverseKnots, List.getLastD_concat, List.getLastD_eq_getLast?, List.getLast?_reverse, List.head?_map]
      cases L' <;> simp
    rw [reverseKnots, h1, h2, reverseKnots]
    simp only [List.getLastD_concat, List.map_reverse, List.reverse_reverse, List.map_map]
    conv_rhs => rw [← List.map_id (L' ++ [z])]
    refine List.map_congr_left fun x _ => ?_
    simp

omit [LinearOrder K] in
theorem second_eq (kv : List K) (dir : Bool) (w s : K) : secondKnots kv dir w s = (reverseKnots (firstKnots kv dir w)).map (· + s) := by
  cases dir <;> simp [secondKnots, firstKnots, reverse_twice]

theorem weights_congr {kv0 kv0' kv1 kv1' : List K} {dir0 dir0' dir1 dir1' : Bool} {w0 w0' w1 w1' : K} (p d a : ℕ) (h0 : firstKnots kv0 dir0 w0 = firstKnots kv0' dir0' w0')
    (h1 : firstKnots kv1 dir1 w1 = firstKnots kv1' dir1' w1') : weights p kv0 dir0 w0 kv1 dir1 w1 d a = weights p kv0' dir0' w0' kv1' dir1' w1' d a := by
  have len : ∀ (kv : List K) dir w, (firstKnots kv dir w).length = kv.length := fun kv dir w => by cases dir <;> simp [firstKnots, reverseKnots]
  have hl : kv0.length = kv0'.length := by rw [← len kv0 dir0 w0, h0, len]
  unfold weights
  simp only [second_eq, h0, h1, hl]

end

/-! ## Functions away from a side -/

/-- The function with distance `b` from the end (`dir`) or the beginning of the parameter interval, on the element there. -/
noncomputable def sideFn (p : ℕ) (kv : List ℝ) (n : ℕ) (dir : Bool) (b : ℕ) : ℝ[X] := bs (knotAt kv) (if dir then n - 1 else p) p (if dir then n - 1 - b else b)

/-- Its end of the interval. -/
def sideVal (kv : List ℝ) (dir : Bool) : ℝ := if dir then kv.getLastD 0 else 0

private theorem deriv_order (Q : ℝ[X]) {r k : ℕ} (h : r < k) : (derivative^[r] (X ^ k * Q)).eval 0 = 0 := by
  have : ∃ R, derivative^[r] (X ^ k * Q) = X ^ (k - r) * R := by
    induction r with
    | zero => exact ⟨Q, rfl⟩
    | succ r ih =>
      obtain ⟨R, hR⟩ := ih (by omega)
      rw [Function.iterate_succ_apply', hR]
      obtain ⟨m, hm⟩ : ∃ m, k - r = m + 1 := ⟨k - r - 1, by omega⟩
      rw [hm, show k - (r + 1) = m by omega, derivative_mul, derivative_X_pow]
      refine ⟨C ((m + 1 : ℕ) : ℝ) * R + X * derivative R, ?_⟩
      rw [Nat.add_sub_cancel]
      ring
  obtain ⟨R, hR⟩ := this
  rw [hR, eval_mul, eval_pow, eval_X, zero_pow (by omega), zero_mul]

private theorem open_at {p : ℕ} {kv M : List ℝ} {y : ℝ} (h : OpenKnots p kv M y) : Open (knotAt kv) p := by
  have hs : kv.Pairwise (· ≤ ·) := by
    rw [h.eq, List.pairwise_append, List.pairwise_append]
    refine ⟨⟨?_, h.sorted, ?_⟩, ?_, ?_⟩
    · exact List.pairwise_replicate.2 (Or.inr le_rfl)
    · intro x hx z hz; rw [List.eq_of_mem_replicate hx]; exact (h.mem z hz).1.le
    · exact List.pairwise_replicate.2 (Or.inr le_rfl)
    · intro x hx z hz
      rw [List.eq_of_mem_replicate hz]
      rcases List.mem_append.1 hx with hx | hx
      · rw [List.eq_of_mem_replicate hx]; exact h.pos.le
      · exact (h.mem x hx).2.le
  have ho : Open (knotAt kv) p := by
    have hl : kv.length = p + 1 + M.length + (p + 1) := by rw [h.eq]; simp; omega
    refine ⟨fun i hi => ?_, ?_, knotAt_mono hs⟩
    · rw [knotAt_lt (by omega)]
      have e := h.eq
      subst e
      rw [List.getElem_append_left (by simp; omega), List.getElem_append_left (by simp; omega), List.getElem_replicate]
    · rw [knotAt_lt (by omega)]
      have e := h.eq
      subst e
      rcases Nat.eq_zero_or_pos M.length with c0 | c0
      · rw [List.getElem_append_right (by simp only [List.length_append, List.length_replicate]; omega), List.getElem_replicate]; exact h.pos
      · rw [List.getElem_append_left (by simp; omega), List.getElem_append_right (by simp)]
        exact (h.mem _ (List.getElem_mem _)).1
  exact ho

private theorem first_zero {p : ℕ} {kv M : List ℝ} {y : ℝ} (h : OpenKnots p kv M y) {r b : ℕ} (hr : r < b) : (derivative^[r] (bs (knotAt kv) p p b)).eval 0 = 0 := by
  rcases Nat.lt_or_ge p b with c | c
  · rw [bs_zero_of_gt c]; simp
  · obtain ⟨Q, hQ, -⟩ := bs_order (open_at h) p b c (by omega)
    rw [hQ, Nat.add_sub_cancel]
    exact deriv_order Q hr

private theorem first_ne {p : ℕ} {kv M : List ℝ} {y : ℝ} (h : OpenKnots p kv M y) {r : ℕ} (hr : r ≤ p) : (derivative^[r] (bs (knotAt kv) p p r)).eval 0 ≠ 0 := by
  obtain ⟨Q, hQ, hQ0⟩ := bs_order (open_at h) p r hr (by omega)
  rw [hQ, Nat.add_sub_cancel, ← coeff_zero_eq_eval_zero, coeff_iterate_derivative, coeff_X_pow_mul, nsmul_eq_mul, coeff_zero_eq_eval_zero]
  refine mul_ne_zero (Nat.cast_ne_zero.2 ?_) hQ0.ne'
  rw [Nat.zero_add, Nat.descFactorial_self]
  exact Nat.factorial_ne_zero r

/-- The functions at the end of the interval are those at the beginning of the interval for the reversed knots. -/
private theorem side_mirror {p : ℕ} {kv M : List ℝ} {y : ℝ} (h : OpenKnots p kv M y) {r b : ℕ} (hb : b < p + 1 + M.length) :
    ∃ M', OpenKnots p (reverseKnots kv) M' y ∧ (derivative^[r] (sideFn p kv (p + 1 + M.length) true b)).eval (sideVal kv true) = (-1) ^ r * (derivative^[r] (bs (knotAt (reverseKnots kv)) p p b)).eval 0 := by
  obtain ⟨e1, e2, e3⟩ := h.ends 1
  simp only [mul_one, List.map_id'] at e1 e2
  simp only [sideFn, sideVal, if_true]
  have hR : OpenKnots p (reverseKnots kv) (M.map (y - ·)).reverse y := by
    refine ⟨?_, ?_, ?_, h.pos⟩
    · rw [reverseKnots, e1, e2, h.eq]
      simp [List.map_append, List.reverse_append]
    · rw [List.pairwise_reverse, List.pairwise_map]
      exact h.sorted.imp fun hab => by linarith
    · intro z hz
      obtain ⟨x, hx, rfl⟩ := List.mem_map.1 (List.mem_reverse.1 hz)
      have := h.mem x hx
      constructor <;> linarith
  have hm := bs_mirror (t := knotAt kv) (u := knotAt (reverseKnots kv)) (M := p + 1 + M.length + p) (α := 1) (β := y) (q := p) one_ne_zero (fun j j' hj => by
    rw [getElem_reverseKnots (by omega), e1, e2, e3, show p + 1 + M.length + p + 1 - 1 - j = j' by omega]; ring) (i := b) (i' := p + 1 + M.length - 1 - b) (ℓ := p) (ℓ' := p + 1 + M.length - 1) (by omega) (by omega)
  refine ⟨_, hR, ?_⟩
  rw [← hm]
  have := derivative_comp_eval (bs (knotAt (reverseKnots kv)) p p b) (-1) y y r
  rw [show (C y - C 1 * X : ℝ[X]) = C (-1) * X + C y by simp; ring, e2, this, show (-1 : ℝ) * y + y = 0 by ring]

/-- Only the functions with distance at most `r` have derivatives of order `r` at the side. -/
theorem side_zero {p : ℕ} {kv M : List ℝ} {y : ℝ} (h : OpenKnots p kv M y) (dir : Bool) {r b : ℕ} (hr : r < b) (hb : b < p + 1 + M.length) :
    (derivative^[r] (sideFn p kv (p + 1 + M.length) dir b)).eval (sideVal kv dir) = 0 := by
  cases dir
  · exact first_zero h hr
  · obtain ⟨M', h', e⟩ := side_mirror h (r := r) hb
    rw [e, first_zero h' hr, mul_zero]

/-- The function with distance `r` has one. -/
theorem side_ne {p : ℕ} {kv M : List ℝ} {y : ℝ} (h : OpenKnots p kv M y) (dir : Bool) {r : ℕ} (hr : r ≤ p) :
    (derivative^[r] (sideFn p kv (p + 1 + M.length) dir r)).eval (sideVal kv dir) ≠ 0 := by
  cases dir
  · exact first_ne h hr
  · obtain ⟨M', h', e⟩ := side_mirror h (r := r) (b := r) (by omega)
    rw [e]
    exact mul_ne_zero (pow_ne_zero _ (by norm_num)) (first_ne h' hr)

theorem sideVal_eq {p : ℕ} {kv M : List ℝ} {y : ℝ} (h : OpenKnots p kv M y) (dir : Bool) : sideVal kv dir = if dir then y else 0 := by
  obtain ⟨-, e2, -⟩ := h.ends 1
  simp only [mul_one, List.map_id'] at e2
  rw [sideVal, e2]

/-- The derivative of a combination. -/
theorem deriv_sum (S : Finset ℕ) (c : ℕ → ℝ) (g : ℕ → ℝ[X]) (r : ℕ) (x : ℝ) : (derivative^[r] (∑ b ∈ S, C (c b) * g b)).eval x = ∑ b ∈ S, c b * (derivative^[r] (g b)).eval x := by
  rw [iterate_derivative_sum, eval_finsetSum]
  exact Finset.sum_congr rfl fun b _ => by rw [iterate_derivative_C_mul, eval_mul, eval_C]

end Verif.Boehm

namespace Verif.FullMap
open Verif Verif.Walk Verif.Regions Finset

/-! ## Rows of coefficients over an interface -/

section
variable {K : Type} [Field K] [LinearOrder K]

omit [LinearOrder K] in
private theorem coef_reverse {w : List K} {len a b : ℕ} (hw : w.length = len + 1) (ha : a < len) (γ : Bool) : coef w.reverse γ (len - 1 - a) b = coef w (!γ) a b := by
  have hr : ∀ i, i ≤ len → w.reverse.getD i 0 = w.getD (len - i) 0 := by
    intro i hi
    rw [List.getD_eq_getElem _ _ (by simp; omega), List.getD_eq_getElem _ _ (by omega), List.getElem_reverse]
    simp only [hw, Nat.add_sub_cancel]
  cases γ
  · simp only [coef, Bool.false_eq_true, if_false, Bool.not_false, if_true]
    split_ifs with h
    · rw [hr _ (by omega), show len - (len - 1 - a - b) = a + 1 + b by omega]
    · rw [List.getD_eq_default _ _ (by omega)]
  · simp only [coef, if_true, Bool.not_true, Bool.false_eq_true, if_false]
    split_ifs with h
    · rw [hr _ (by omega), show len - (len - 1 - a + 1 + b) = a - b by omega]
    · rw [List.getD_eq_default _ _ (by simp; omega)]

/-- The coefficients next to an interface, at distance `b` in the first patch (`v0`) and in the second one (`v1`), are a combination of the smoothed functions of C54. -/
def Comb (W : Wts K) (p : ℕ) (s : Side) (q : ℕ) (s' : Side) (len : ℕ) (v0 v1 : ℕ → K) : Prop :=
  ∃ lam : ℕ → K, ∀ b < len, v0 b = ∑ a ∈ range len, lam a * coef (lineW W p s q s' len a) false a b ∧ v1 b = ∑ a ∈ range len, lam a * coef (lineW W p s q s' len a) true a b

variable [IsStrictOrderedRing K] {W : Wts K} {T : Net} {cornerList : PCorner → List PCorner} {P : ℕ → Patch} {n d : ℕ}

omit [IsStrictOrderedRing K] in
private theorem comb_zero {p : ℕ} {s : Side} {q : ℕ} {s' : Side} {len : ℕ} {v0 v1 : ℕ → K} (h : ∀ b < len, v0 b = 0 ∧ v1 b = 0) : Comb W p s q s' len v0 v1 :=
  ⟨fun _ => 0, fun b hb => by simp [h b hb]⟩

omit [IsStrictOrderedRing K] in
private theorem comb_single {p : ℕ} {s : Side} {q : ℕ} {s' : Side} {len : ℕ} {v0 v1 : ℕ → K} {a : ℕ} (ha : a < len) (c : K)
    (h : ∀ b < len, v0 b = c * coef (lineW W p s q s' len a) false a b ∧ v1 b = c * coef (lineW W p s q s' len a) true a b) : Comb W p s q s' len v0 v1 := by
  refine ⟨fun i => if i = a then c else 0, fun b hb => ?_⟩
  rw [(h b hb).1, (h b hb).2]
  constructor <;>
  · rw [Finset.sum_eq_single a]
    · simp only [if_true]
    · intro i _ hi; simp only [if_neg hi, zero_mul]
    · intro hn; exact absurd (Finset.mem_range.2 ha) hn

private theorem coef_sym (S : SetupW W T cornerList P n d) {p : ℕ} (hp : p < n) {s : Side} {q : ℕ} {s' : Side} {o : Bool} (hnb : T.nb p s = some (q, s', o)) {len a : ℕ} (hl : len ≤ d) (ha : a < len) (γ : Bool) (b : ℕ) :
    coef (lineW W q s' p s len (len - 1 - a)) γ (len - 1 - a) b = coef (lineW W p s q s' len a) (!γ) a b := by
  obtain ⟨M0, y0, k0⟩ := S.knots p hp s.dir
  have hq := (S.nbr _ _ _ _ _ hp hnb).1
  obtain ⟨M1, y1, k1⟩ := S.knots q hq s'.dir
  have hd := S.deg
  have := Boehm.C54_symmetric_partial k0 k1 (S.pos p hp s) (S.pos q hq s') s.par s'.par (d := len) (by omega) ha
  rw [lineW, this]
  exact coef_reverse ((lineW_facts S hp hnb hl).1 a ha).1 ha γ

private theorem comb_symm (S : SetupW W T cornerList P n d) {p : ℕ} (hp : p < n) {s : Side} {q : ℕ} {s' : Side} {o : Bool} (hnb : T.nb p s = some (q, s', o)) {len : ℕ} (hl : len ≤ d) {v0 v1 : ℕ → K}
    (h : Comb W q s' p s len v1 v0) : Comb W p s q s' len v0 v1 := by
  obtain ⟨lam, h⟩ := h
  refine ⟨fun a => lam (len - 1 - a), fun b hb => ?_⟩
  rw [(h b hb).1, (h b hb).2]
  constructor
  · rw [← Finset.sum_range_reflect]
    refine Finset.sum_congr rfl fun a ha => ?_
    rw [coef_sym S hp hnb hl (Finset.mem_range.1 ha)]; rfl
  · rw [← Finset.sum_range_reflect]
    refine Finset.sum_congr rfl fun a ha => ?_
    rw [coef_sym S hp hnb hl (Finset.mem_range.1 ha)]; rfl

/-- The knots along an interface, scaled with the weights of the sides at those of its ends where an interface meets it, are the same from both patches. -/
def Matched (W : Wts K) (T : Net) (n : ℕ) : Prop :=
  ∀ p v q v' o, p < n → T.nb p v = some (q, v', o) → ∀ s : Side, s.dir ≠ v.dir → (T.nb p s).isSome →
    Boehm.firstKnots (W.kv p s.dir) s.par (W.w p s) = Boehm.firstKnots (W.kv q (turn v v' o s).dir) (turn v v' o s).par (W.w q (turn v v' o s))

omit [IsStrictOrderedRing K] in
private theorem lineW_matched (hm : Matched W T n) {V : Vtx T} (hV : GoodVtx T P n V) (δ : Bool) (len a : ℕ) :
    lineW W (V.p false δ) (V.h false δ) (V.p true δ) (V.h true δ) len a = lineW W (V.p false false) (V.h false false) (V.p true false) (V.h true false) len a := by
  cases δ
  · rfl
  · refine (Boehm.weights_congr _ _ _ ?_ ?_).symm
    · have := hm _ _ _ _ _ (hV.lt false false) (V.nbv false false) (V.h false false) (V.perp false false) (by rw [V.nbh]; rfl)
      rw [V.tv] at this
      exact this
    · have := hm _ _ _ _ _ (hV.lt true false) (V.nbv true false) (V.h true false) (V.perp true false) (by rw [V.nbh]; rfl)
      rw [V.tv] at this
      exact this

/-- The number of coupled rows between two interfaces. -/
theorem block_rows (S : SetupW W T cornerList P n d) {x : Pos} (hx : T.In x) (hp : x.p < n) {s r : Side} (h : BlockAt T P d x s r) : rows (P x.p).clipped s (along x s) = d ∧ rows (P x.p).clipped r (along x r) = d := by
  obtain ⟨-, -, -, -, c1, c2, c3, c4⟩ := (S.std _ hp).toOk
  have d1 : (P x.p).clipped.du = d := S.du _ hp
  have d2 : (P x.p).clipped.dv = d := S.dv _ hp
  have f1 : (P x.p).clipped.nu = T.parMax x.p false + 1 := S.nu _ hp
  have f2 : (P x.p).clipped.nv = T.parMax x.p true + 1 := S.nv _ hp
  have q1 : (P x.p).clipped.swu + (P x.p).clipped.seu ≤ (P x.p).clipped.nu := by have := clip_sum (P x.p).seu (P x.p).swu (P x.p).nu; simp only [Patch.clipped]; omega
  have q2 : (P x.p).clipped.nwu + (P x.p).clipped.neu ≤ (P x.p).clipped.nu := by have := clip_sum (P x.p).neu (P x.p).nwu (P x.p).nu; simp only [Patch.clipped]; omega
  have q3 : (P x.p).clipped.swv + (P x.p).clipped.nwv ≤ (P x.p).clipped.nv := clip_sum (P x.p).swv (P x.p).nwv (P x.p).nv
  have q4 : (P x.p).clipped.sev + (P x.p).clipped.nev ≤ (P x.p).clipped.nv := clip_sum (P x.p).sev (P x.p).nev (P x.p).nv
  have g1 := S.iface _ hp
  have i1 := hx.1
  have i2 := hx.2
  rw [d1, d2] at c1 c2 c3 c4
  obtain ⟨hs, hr, a1, a2, a3, a4, a5⟩ := h
  rw [corner_special S hp] at a5
  rw [← g1] at a1 a2
  have key : ¬ nearSpecial (P x.p).clipped s (along x s) ∧ ¬ nearSpecial (P x.p).clipped r (along x r) := by
    cases s <;> cases r <;> simp only [Side.dir, Bool.true_eq_false, Bool.false_eq_true] at hs hr <;> simp only [dist, along, Side.dir, Side.par, nearSpecial, if_true, Bool.false_eq_true, if_false] at a3 a4 a5 ⊢
    · have c := ok2' c1 a1 a2
      exact ⟨by rintro (⟨h, -⟩ | ⟨-, h⟩); exacts [a5 h, by omega], by rintro (⟨h, -⟩ | ⟨-, h⟩); exacts [a5 h, by omega]⟩
    · have c := ok2' c2 a1 a2
      exact ⟨by rintro (⟨-, h⟩ | ⟨h, -⟩); exacts [by omega, a5 h], by rintro (⟨h, -⟩ | ⟨-, h⟩); exacts [a5 h, by omega]⟩
    · have c := ok2' c3 a1 a2
      exact ⟨by rintro (⟨h, -⟩ | ⟨-, h⟩); exacts [a5 h, by omega], by rintro (⟨-, h⟩ | ⟨h, -⟩); exacts [by omega, a5 h]⟩
    · have c := ok2' c4 a1 a2
      exact ⟨by rintro (⟨-, h⟩ | ⟨h, -⟩); exacts [by omega, a5 h], by rintro (⟨-, h⟩ | ⟨h, -⟩); exacts [by omega, a5 h]⟩
  unfold rows
  rw [if_neg key.1, if_neg key.2, d1]
  exact ⟨rfl, rfl⟩

/-- The coefficients of a line. -/
private theorem comb_line (S : SetupW W T cornerList P n d) {x : Pos} (hx : T.In x) (hp : x.p < n) (hs : ¬ specialAt (P x.p) x.u x.v) {s : Side} (hl : LineAt T P d x s) {q : ℕ} {s' : Side} {o : Bool}
    (hnb : T.nb x.p s = some (q, s', o)) :
    Comb W x.p s q s' (rows (P x.p).clipped s (along x s)) (fun b => contrib W T cornerList P x (place T x.p s (along x s) b)) (fun b => contrib W T cornerList P x (place T q s' (turnAlong T q s' o (along x s)) b)) := by
  have hc := (contrib_line S hx hp hs hl hnb).2
  have hqq := S.nbr _ _ _ _ _ hp hnb
  have hle := rows_le S hp s (along x s)
  have hlt := hl.2.1
  have t1 := two_d S hp s.dir
  have t2 := two_d S hqq.1 s'.dir
  by_cases hq : q < x.p
  · exact comb_zero fun b _ => by simp only [hc, if_pos hq, and_self]
  have f := ((lineW_facts S hp hnb hle).1 _ hlt).1
  refine comb_single hlt 1 fun b hb => ?_
  simp only [hc, if_neg hq, one_mul, coef, if_true, Bool.false_eq_true, if_false]
  constructor
  · split_ifs with h
    · rw [Finset.sum_eq_single (dist T x s - b), if_pos]
      · unfold spot
        rw [if_pos (by omega), show dist T x s - (dist T x s - b) = b by omega]
      · intro i hi hne
        have hi := Finset.mem_range.1 hi
        refine if_neg fun e => hne ?_
        unfold spot at e
        split_ifs at e with c
        · have := (place_inj (by omega) (by omega) e).2; omega
        · have := congrArg Pos.p e
          rw [place_p, place_p] at this
          exact absurd this hqq.2
      · intro hn; exact absurd (Finset.mem_range.2 (by omega)) hn
    · refine Finset.sum_eq_zero fun i hi => if_neg fun e => ?_
      unfold spot at e
      split_ifs at e with c
      · have := (place_inj (by omega) (by omega) e).2; omega
      · have := congrArg Pos.p e
        rw [place_p, place_p] at this
        exact absurd this hqq.2
  · by_cases h : dist T x s + 1 + b ≤ rows (P x.p).clipped s (along x s)
    · rw [Finset.sum_eq_single (dist T x s + 1 + b), if_pos]
      · unfold spot
        rw [if_neg (by omega), show dist T x s + 1 + b - dist T x s - 1 = b by omega]
      · intro i hi hne
        have hi := Finset.mem_range.1 hi
        refine if_neg fun e => hne ?_
        unfold spot at e
        split_ifs at e with c
        · have := congrArg Pos.p e
          rw [place_p, place_p] at this
          exact absurd this.symm hqq.2
        · have := (place_inj (by omega) (by omega) e).2; omega
      · intro hn; exact absurd (Finset.mem_range.2 (by omega)) hn
    · rw [List.getD_eq_default _ _ (by omega)]
      refine Finset.sum_eq_zero fun i hi => if_neg fun e => ?_
      have hi := Finset.mem_range.1 hi
      unfold spot at e
      split_ifs at e with c
      · have := congrArg Pos.p e
        rw [place_p, place_p] at this
        exact absurd this.symm hqq.2
      · have := (place_inj (by omega) (by omega) e).2; omega

/-- The weights of a block, for a vertex with its interfaces in either order. -/
theorem contrib_vtx (S : SetupW W T cornerList P n d) {x : Pos} (hx : T.In x) (hp : x.p < n) (hs : ¬ specialAt (P x.p) x.u x.v) {s r : Side} (hB : BlockAt T P d x s r) {V : Vtx T} (v1 : V.p false false = x.p)
    (hv : (V.h false false = s ∧ V.v false false = r) ∨ (V.h false false = r ∧ V.v false false = s)) (hV : GoodVtx T P n V) (hmin : ∀ α β, x.p ≤ V.p α β) (y : Pos) (γ δ : Bool) (i j : ℕ) (h : At V y γ δ i j) (hi : i < d) (hj : j < d) :
    contrib W T cornerList P x y = coef (lineW W x.p (V.h false false) (V.p true false) (V.h true false) d (dist T x (V.h false false))) γ (dist T x (V.h false false)) i *
      coef (lineW W x.p (V.v false false) (V.p false true) (V.v false true) d (dist T x (V.v false false))) δ (dist T x (V.v false false)) j := by
  rcases hv with ⟨v2, v3⟩ | ⟨v2, v3⟩
  · have := ((contrib_block S hx hp hs hB v1 v2 v3 hV).2.1 hmin).2 y γ δ i j h hi hj
    rw [this, v2, v3]
  · have := ((contrib_block S hx hp hs hB (V := V.swap) v1 v3 v2 (good_swap hV)).2.1 fun α β => hmin β α).2 y δ γ j i ((at_swap V y γ δ i j).2 h) hj hi
    rw [this, v2, v3, mul_comm]
    rfl

/-- The coefficients of a call that reaches the row of the first patch. -/
private theorem comb_half (S : SetupW W T cornerList P n d) (hm : Matched W T n) {p : ℕ} (hp : p < n) {s : Side} {q : ℕ} {s' : Side} {o : Bool} (hnb : T.nb p s = some (q, s', o)) {t : ℕ} (ht : t ≤ T.parMax p (!s.dir))
    {x : Pos} (hx : T.In x) (hxp : x.p < n) {b₀ : ℕ} (hb₀ : b₀ < rows (P p).clipped s t) (hne : contrib W T cornerList P x (place T p s t b₀) ≠ 0) :
    Comb W p s q s' (rows (P p).clipped s t) (fun b => contrib W T cornerList P x (place T p s t b)) (fun b => contrib W T cornerList P x (place T q s' (turnAlong T q s' o t) b)) := by
  have hle := rows_le S hp s t
  have t1 := two_d S hp s.dir
  have hqq := S.nbr _ _ _ _ _ hp hnb
  have t2 := two_d S hqq.1 s'.dir
  have hcf := S.conform _ _ _ _ _ hnb
  obtain ⟨y, hy⟩ : ∃ y, y = place T p s t b₀ := ⟨_, rfl⟩
  have y1 : y.p = p := by rw [hy, place_p]
  have y2 : along y s = t := by rw [hy, place_along]
  have y3 : dist T y s = b₀ := by rw [hy, place_dist (by omega)]
  have yIn : T.In y := by rw [hy]; exact place_in (by omega) ht
  have yp : y.p < n := by rw [y1]; exact hp
  rw [← hy] at hne
  rcases kinds S hx hxp with ⟨k, -⟩ | ⟨k, s₀, r₀, k', -⟩ | ⟨k, s₀, k', -⟩ | ⟨k, k', k'', -⟩
  · -- corners
    obtain ⟨-, l, l1, l2⟩ := contrib_corner S hx hxp k
    have hyl : y ∈ l ∧ ∀ z ∈ l, x.p ≤ z.p := by by_contra c; rw [l2, if_neg c] at hne; exact hne rfl
    have g := (l1 y).1 hyl.1
    obtain ⟨n1, n2⟩ := near_special S yIn yp (glued_special S hx hxp k g) (s := s) (by omega)
    rw [y1, y2] at n2
    have hb0 : b₀ = 0 := by omega
    subst hb0
    have hcr : Cross T y (place T q s' (turnAlong T q s' o t) 0) := ⟨s, q, s', o, by omega, by rw [y1]; exact hnb, by rw [y2, ← atSide_eq_place]; rfl⟩
    have hy' := (l1 _).2 (g.tail hcr)
    rw [n2]
    refine comb_single (a := 0) zero_lt_one 1 fun b hb => ?_
    obtain rfl : b = 0 := by omega
    have hw : lineW W p s q s' 1 0 = [1, 1] := by unfold lineW Boehm.weights; rw [if_pos rfl]
    rw [hw, ← hy]
    simp only [l2]
    rw [if_pos hyl, if_pos ⟨hy', hyl.2⟩]
    simp [coef]
  · -- blocks
    obtain ⟨V, v1, v2, v3, hV, hmin, γ, δ, i, j, hat, hi, hj⟩ := block_reach S hx hxp k k' hne
    obtain ⟨-, -, s₁, r₁, b1, b2⟩ := block_at S hV hat hi hj
    have br := block_rows S yIn yp b1
    have hU : ∃ (U : Vtx T) (γ' δ' : Bool) (i' j' : ℕ), GoodVtx T P n U ∧ U.p false false = x.p ∧ ((U.h false false = s₀ ∧ U.v false false = r₀) ∨ (U.h false false = r₀ ∧ U.v false false = s₀)) ∧
        (∀ α β, x.p ≤ U.p α β) ∧ At U y γ' δ' i' j' ∧ i' < d ∧ j' < d ∧ s = U.h γ' δ' := by
      by_cases c : s.dir = (V.h γ δ).dir
      · exact ⟨V, γ, δ, i, j, hV, v1, Or.inl ⟨v2, v3⟩, hmin, hat, hi, hj, dir_unique S yIn yp c (by omega) (by rw [hat.2.2.1]; exact hi)⟩
      · have c' : s.dir = (V.v γ δ).dir := by
          have := V.perp γ δ
          revert c this
          cases s.dir <;> cases (V.h γ δ).dir <;> cases (V.v γ δ).dir <;> simp
        exact ⟨V.swap, δ, γ, j, i, good_swap hV, v1, Or.inr ⟨v3, v2⟩, fun α β => hmin β α, (at_swap V y γ δ i j).2 hat, hj, hi, dir_unique S yIn yp c' (by omega) (show dist T y (V.v γ δ) < d by rw [hat.2.2.2]; exact hj)⟩
    have hrows : rows (P p).clipped s t = d := by
      rw [← y1, ← y2]
      have hss : s = s₁ ∨ s = r₁ := by
        cases c : s.dir
        · exact Or.inr (dir_unique S yIn yp (c.trans b1.2.1.symm) (by omega) b1.2.2.2.2.2.1)
        · exact Or.inl (dir_unique S yIn yp (c.trans b1.1.symm) (by omega) b1.2.2.2.2.1)
      rcases hss with h | h
      · rw [h]; exact br.1
      · rw [h]; exact br.2
    obtain ⟨U, γ', δ', i', j', gU, u1, u2, u3, hat', hi', hj', rfl⟩ := hU
    rw [hrows]
    have hpU : p = U.p γ' δ' := by rw [← y1]; exact hat'.1
    subst hpU
    have hn := U.nbh γ' δ'
    rw [hnb] at hn
    simp only [Option.some.injEq, Prod.mk.injEq] at hn
    obtain ⟨rfl, rfl, rfl⟩ := hn
    have A0 : ∀ b < d, At U (place T (U.p γ' δ') (U.h γ' δ') t b) γ' δ' b j' := by
      intro b hb
      refine ⟨place_p .., place_in (by omega) ht, place_dist (by omega), ?_⟩
      rw [← hat'.2.2.2]
      exact dist_along (s := U.h γ' δ') (U.perp γ' δ') (by rw [place_p, y1]) (by rw [place_along, y2])
    have A1 : ∀ b < d, At U (place T (U.p (!γ') δ') (U.h (!γ') δ') (turnAlong T (U.p (!γ') δ') (U.h (!γ') δ') (U.oh γ' δ') t) b) (!γ') δ' b j' := by
      intro b hb
      refine ⟨place_p .., place_in (by omega) (by unfold turnAlong; split_ifs <;> omega), place_dist (by omega), ?_⟩
      have cd := cross_dist S.conform yIn (by rw [y1]; exact hnb) (U.perp γ' δ')
      rw [U.th, hat'.2.2.2, y2] at cd
      rw [← cd]
      exact dist_along (s := U.h (!γ') δ') (U.perp (!γ') δ') (by rw [place_p, atSide_p]) (by rw [place_along, atSide_eq_place, place_along]; rfl)
    have cv := contrib_vtx S hx hxp k k' u1 u2 gU u3
    have ha : dist T x (U.h false false) < d := by
      rcases u2 with ⟨e, -⟩ | ⟨e, -⟩ <;> rw [e]
      exacts [k'.2.2.2.2.1, k'.2.2.2.2.2.1]
    obtain ⟨cB, hcB⟩ : ∃ c, c = coef (lineW W x.p (U.v false false) (U.p false true) (U.v false true) d (dist T x (U.v false false))) δ' (dist T x (U.v false false)) j' := ⟨_, rfl⟩
    have hw := lineW_matched (W := W) hm gU δ' d (dist T x (U.h false false))
    rw [u1] at hw
    cases γ'
    · refine comb_single ha cB fun b hb => ?_
      simp only [Bool.not_false] at A1 ⊢
      rw [hw, cv _ _ _ _ _ (A0 b hb) hb hj', cv _ _ _ _ _ (A1 b hb) hb hj', ← hcB]
      exact ⟨mul_comm _ _, mul_comm _ _⟩
    · refine comb_symm S hp hnb le_rfl (comb_single ha cB fun b hb => ?_)
      simp only [Bool.not_true] at A1 ⊢
      rw [hw, cv _ _ _ _ _ (A0 b hb) hb hj', cv _ _ _ _ _ (A1 b hb) hb hj', ← hcB]
      exact ⟨mul_comm _ _, mul_comm _ _⟩
  · -- lines
    obtain ⟨⟨q₀, s₀', o₀⟩, hnb₀⟩ := Option.isSome_iff_exists.1 k'.1
    have hne' := hne
    rw [(contrib_line S hx hxp k k' hnb₀).2] at hne'
    have hq : ¬ q₀ < x.p := by intro c; rw [if_pos c] at hne'; exact hne' rfl
    rw [if_neg hq] at hne'
    obtain ⟨i, hi, hi'⟩ := Finset.exists_ne_zero_of_sum_ne_zero hne'
    have hi := Finset.mem_range.1 hi
    have e : spot T x.p s₀ q₀ s₀' o₀ (along x s₀) (dist T x s₀) i = y := by by_contra c; rw [if_neg c] at hi'; exact hi' rfl
    obtain ⟨c1, ⟨a1, a2, a3, a4, a5⟩ | ⟨a1, a2, a3, a4, a5⟩⟩ := spot_line S hx hxp k k' hnb₀ (by omega) e
    · have hys : LineAt T P d y s := ⟨by rw [y1, hnb]; rfl, by rw [y1, y2, y3]; exact hb₀, a3.2.2⟩
      obtain rfl := line_unique S yIn yp c1 hys a3
      obtain rfl : p = x.p := y1.symm.trans a2
      obtain rfl : t = along x s := y2.symm.trans a4
      rw [hnb₀] at hnb
      simp only [Option.some.injEq, Prod.mk.injEq] at hnb
      obtain ⟨rfl, rfl, rfl⟩ := hnb
      exact comb_line S hx hxp k k' hnb₀
    · have hys : LineAt T P d y s := ⟨by rw [y1, hnb]; rfl, by rw [y1, y2, y3]; exact hb₀, a3.2.2⟩
      obtain rfl := line_unique S yIn yp c1 hys a3
      obtain rfl : p = q₀ := y1.symm.trans a2
      have hsy := S.sym _ _ _ _ _ hnb₀
      rw [hnb] at hsy
      simp only [Option.some.injEq, Prod.mk.injEq] at hsy
      obtain ⟨rfl, rfl, rfl⟩ := hsy
      have hax := along_le hx s'
      have e1 : t = turnAlong T p s o (along x s') := y2.symm.trans a4
      have e2 : turnAlong T x.p s' o t = along x s' := by
        rw [e1]
        unfold turnAlong
        have := S.conform _ _ _ _ _ hnb₀
        split_ifs <;> omega
      have main := comb_line S hx hxp k k' hnb₀
      rw [S.rows_eq _ _ _ _ _ _ hxp hnb₀ hax, ← e1] at main
      rw [e2]
      exact comb_symm S hp hnb hle main
  · rw [(contrib_free S hx hxp k k' k'').2] at hne
    have : x = y := by by_contra c; rw [if_neg c] at hne; exact hne rfl
    subst this
    exact absurd ⟨by rw [y1, hnb]; rfl, by rw [y1, y2, y3]; exact hb₀, k''⟩ (k' s)

/-- The coefficients of a call over an interface. -/
theorem comb_contrib (S : SetupW W T cornerList P n d) (hm : Matched W T n) {p : ℕ} (hp : p < n) {s : Side} {q : ℕ} {s' : Side} {o : Bool} (hnb : T.nb p s = some (q, s', o)) {t : ℕ} (ht : t ≤ T.parMax p (!s.dir))
    {x : Pos} (hx : T.In x) (hxp : x.p < n) :
    Comb W p s q s' (rows (P p).clipped s t) (fun b => contrib W T cornerList P x (place T p s t b)) (fun b => contrib W T cornerList P x (place T q s' (turnAlong T q s' o t) b)) := by
  by_cases h : ∃ b < rows (P p).clipped s t, contrib W T cornerList P x (place T p s t b) ≠ 0
  · obtain ⟨b, hb, h⟩ := h
    exact comb_half S hm hp hnb ht hx hxp hb h
  by_cases h' : ∃ b < rows (P p).clipped s t, contrib W T cornerList P x (place T q s' (turnAlong T q s' o t) b) ≠ 0
  · obtain ⟨b, hb, h'⟩ := h'
    have hq := (S.nbr _ _ _ _ _ hp hnb).1
    have hcf := S.conform _ _ _ _ _ hnb
    have er := S.rows_eq _ _ _ _ _ _ hp hnb ht
    have e2 : turnAlong T p s o (turnAlong T q s' o t) = t := by unfold turnAlong; split_ifs <;> omega
    have main := comb_half S hm hq (S.sym _ _ _ _ _ hnb) (t := turnAlong T q s' o t) (by unfold turnAlong; split_ifs <;> omega) hx hxp (by rw [← er]; exact hb) h'
    rw [← er, e2] at main
    exact comb_symm S hp hnb (rows_le S hp s t) main
  · push Not at h h'
    exact comb_zero fun b hb => ⟨h b hb, h' b hb⟩

end

/-! ## Derivatives -/

open Polynomial in
/-- The row of the functions with position `t` along side `s`, as a polynomial in the parameter across the side, on the elements at the side. `f` has the coefficients. -/
noncomputable def rowPoly (W : Wts ℝ) (T : Net) (f : Pos → ℝ) (p : ℕ) (s : Side) (t : ℕ) : ℝ[X] :=
  ∑ b ∈ range (T.parMax p s.dir + 1), C (f (place T p s t b)) * Boehm.sideFn W.deg (W.kv p s.dir) (T.parMax p s.dir + 1) s.par b

open Polynomial in
/-- The derivative of order `r` of the row at the side, in the direction out of the patch, with the parameter scaled with the weight of the side. -/
noncomputable def crossOut (W : Wts ℝ) (T : Net) (f : Pos → ℝ) (p : ℕ) (s : Side) (t r : ℕ) : ℝ :=
  ((if s.par then 1 else -1) / W.w p s) ^ r * (derivative^[r] (rowPoly W T f p s t)).eval (Boehm.sideVal (W.kv p s.dir) s.par)

open Polynomial in
/-- The same in the direction into the patch. -/
noncomputable def crossIn (W : Wts ℝ) (T : Net) (f : Pos → ℝ) (p : ℕ) (s : Side) (t r : ℕ) : ℝ :=
  ((if s.par then -1 else 1) / W.w p s) ^ r * (derivative^[r] (rowPoly W T f p s t)).eval (Boehm.sideVal (W.kv p s.dir) s.par)

section
variable {W : Wts ℝ} {T : Net} {cornerList : PCorner → List PCorner} {P : ℕ → Patch} {n d : ℕ}

open Polynomial in
theorem row_eval (S : SetupW W T cornerList P n d) {p : ℕ} (hp : p < n) {s : Side} {M : List ℝ} {y : ℝ} (hk : Boehm.OpenKnots W.deg (W.kv p s.dir) M y) (hM : T.parMax p s.dir + 1 = W.deg + 1 + M.length) {len r : ℕ} (hl : len ≤ d) (hr : r < len)
    (f : Pos → ℝ) (t : ℕ) : (derivative^[r] (rowPoly W T f p s t)).eval (Boehm.sideVal (W.kv p s.dir) s.par) =
      ∑ b ∈ range len, f (place T p s t b) * (derivative^[r] (Boehm.sideFn W.deg (W.kv p s.dir) (W.deg + 1 + M.length) s.par b)).eval (Boehm.sideVal (W.kv p s.dir) s.par) := by
  have t1 := two_d S hp s.dir
  rw [rowPoly, Boehm.deriv_sum, hM]
  symm
  refine Finset.sum_subset (fun b hb => Finset.mem_range.2 (by have := Finset.mem_range.1 hb; omega)) fun b hb hb' => ?_
  rw [Boehm.side_zero hk s.par (by have : ¬ b < len := fun h => hb' (Finset.mem_range.2 h); omega) (Finset.mem_range.1 hb), mul_zero]

open Polynomial in
private theorem line_eval (S : SetupW W T cornerList P n d) {p : ℕ} (hp : p < n) {s : Side} {q : ℕ} {s' : Side} {o : Bool} (hnb : T.nb p s = some (q, s', o)) {M0 M1 : List ℝ} {y0 y1 : ℝ} (k0 : Boehm.OpenKnots W.deg (W.kv p s.dir) M0 y0)
    (k1 : Boehm.OpenKnots W.deg (W.kv q s'.dir) M1 y1) {len r a : ℕ} (hl : len ≤ d) (hr : r < len) (ha : a < len) :
    ((if s.par then 1 else -1) / W.w p s) ^ r * ∑ b ∈ range len, coef (lineW W p s q s' len a) false a b * (derivative^[r] (Boehm.sideFn W.deg (W.kv p s.dir) (W.deg + 1 + M0.length) s.par b)).eval (Boehm.sideVal (W.kv p s.dir) s.par) =
      ((if s'.par then -1 else 1) / W.w q s') ^ r * ∑ b ∈ range len, coef (lineW W p s q s' len a) true a b * (derivative^[r] (Boehm.sideFn W.deg (W.kv q s'.dir) (W.deg + 1 + M1.length) s'.par b)).eval (Boehm.sideVal (W.kv q s'.dir) s'.par) := by
  have hq := (S.nbr _ _ _ _ _ hp hnb).1
  have hd := S.deg
  have f := ((lineW_facts S hp hnb hl).1 _ ha).1
  have key := Boehm.C54_parameters_partial k0 k1 (S.pos p hp s) (S.pos q hq s') s.par s'.par (d := len) (by omega) ha r hr
  simp only at key
  rw [Boehm.deriv_sum, Boehm.deriv_sum, ← Boehm.sideVal_eq k0, ← Boehm.sideVal_eq k1] at key
  have e0 : ∀ g : ℕ → ℝ, ∑ b ∈ range len, coef (lineW W p s q s' len a) false a b * g b = ∑ e ∈ range (a + 1), (lineW W p s q s' len a).getD e 0 * g (a - e) := by
    intro g
    rw [← Finset.sum_range_reflect]
    symm
    rw [← Finset.sum_range_reflect, ← Finset.sum_subset (s₁ := (range len).filter fun b => len - 1 - b ≤ a) (Finset.filter_subset _ _)]
    · refine Finset.sum_bij (fun e _ => len - 1 - (a - (a + 1 - 1 - e))) ?_ ?_ ?_ ?_
      · intro e he
        have := Finset.mem_range.1 he
        rw [Finset.mem_filter, Finset.mem_range]; omega
      · intro e he e' he' h
        have := Finset.mem_range.1 he
        have := Finset.mem_range.1 he'
        omega
      · intro b hb
        rw [Finset.mem_filter, Finset.mem_range] at hb
        exact ⟨len - 1 - b, Finset.mem_range.2 (by omega), by omega⟩
      · intro e he
        have := Finset.mem_range.1 he
        simp only [coef, Bool.false_eq_true, if_false]
        rw [if_pos (by omega), show len - 1 - (len - 1 - (a - (a + 1 - 1 - e))) = a - (a + 1 - 1 - e) by omega, show a - (a - (a + 1 - 1 - e)) = a + 1 - 1 - e by omega]
    · intro b hb hb'
      have : ¬ len - 1 - b ≤ a := fun h => hb' (Finset.mem_filter.2 ⟨hb, h⟩)
      simp only [coef, Bool.false_eq_true, if_false]
      rw [if_neg this, zero_mul]
  have e1 : ∀ g : ℕ → ℝ, ∑ b ∈ range len, coef (lineW W p s q s' len a) true a b * g b = ∑ b ∈ range (len - a), (lineW W p s q s' len a).getD (a + 1 + b) 0 * g b := by
    intro g
    symm
    refine Finset.sum_subset (fun b hb => Finset.mem_range.2 (by have := Finset.mem_range.1 hb; omega)) fun b hb hb' => ?_
    rw [List.getD_eq_default _ _ (by have : ¬ b < len - a := fun h => hb' (Finset.mem_range.2 h); omega), zero_mul]
  rw [e0, e1]
  exact key

private theorem row_smooth (S : SetupW W T cornerList P n d) {p : ℕ} (hp : p < n) {s : Side} {q : ℕ} {s' : Side} {o : Bool} (hnb : T.nb p s = some (q, s', o)) (hlen : ∀ p < n, ∀ dir, (W.kv p dir).length = T.parMax p dir + W.deg + 2)
    {len r : ℕ} (hl : len ≤ d) (hr : r < len) (f : Pos → ℝ) (t t' : ℕ) (h : Comb W p s q s' len (fun b => f (place T p s t b)) (fun b => f (place T q s' t' b))) : crossOut W T f p s t r = crossIn W T f q s' t' r := by
  have hq := (S.nbr _ _ _ _ _ hp hnb).1
  obtain ⟨M0, y0, k0⟩ := S.knots p hp s.dir
  obtain ⟨M1, y1, k1⟩ := S.knots q hq s'.dir
  have m0 : T.parMax p s.dir + 1 = W.deg + 1 + M0.length := by
    have := hlen p hp s.dir
    rw [k0.eq] at this
    simp only [List.length_append, List.length_replicate] at this
    omega
  have m1 : T.parMax q s'.dir + 1 = W.deg + 1 + M1.length := by
    have := hlen q hq s'.dir
    rw [k1.eq] at this
    simp only [List.length_append, List.length_replicate] at this
    omega
  obtain ⟨lam, h⟩ := h
  have h0 : ∀ b ∈ range len, f (place T p s t b) = ∑ a ∈ range len, lam a * coef (lineW W p s q s' len a) false a b := fun b hb => (h b (Finset.mem_range.1 hb)).1
  have h1 : ∀ b ∈ range len, f (place T q s' t' b) = ∑ a ∈ range len, lam a * coef (lineW W p s q s' len a) true a b := fun b hb => (h b (Finset.mem_range.1 hb)).2
  unfold crossOut crossIn
  rw [row_eval S hp k0 m0 hl hr, row_eval S hq k1 m1 hl hr]
  rw [Finset.sum_congr (g := fun b => (∑ a ∈ range len, lam a * coef (lineW W p s q s' len a) false a b) * _) rfl fun b hb => by rw [h0 b hb]]
  conv_rhs => rw [Finset.sum_congr (g := fun b => (∑ a ∈ range len, lam a * coef (lineW W p s q s' len a) true a b) * _) rfl fun b hb => by rw [h1 b hb]]
  simp only [Finset.sum_mul]
  conv_lhs => rw [Finset.sum_comm]
  conv_rhs => rw [Finset.sum_comm]
  simp only [Finset.mul_sum]
  refine Finset.sum_congr rfl fun a ha => ?_
  have key := line_eval S hp hnb k0 k1 hl hr (Finset.mem_range.1 ha)
  have key := congrArg (lam a * ·) key
  simp only [Finset.mul_sum] at key
  refine (Finset.sum_congr rfl fun b _ => ?_).trans (key.trans (Finset.sum_congr rfl fun b _ => ?_)) <;> ring

/-- C72: every global function of the map is smooth over every interface. The map is computed without error; for every column, every interface and every row of functions across it, the derivatives from both sides agree for all orders below the number of
coupled rows, if the parameter across the interface is scaled with the weights of its sides and points over the interface.

Missing: the geometry maps (smoothness is in the parameters of the patches; the knots along each interface must agree up to the weights). As for `C70_rows_partial`, patches given upside down relative to each other at vertices with blocks, patches glued to themselves or
twice to each other at a vertex, different smoothing degrees in the two directions, hierarchical bases. -/
theorem C72_rows_partial (S : SetupW W T cornerList P n d) (hm : Matched W T n) (hlen : ∀ p < n, ∀ dir, (W.kv p dir).length = T.parMax p dir + W.deg + 2) :
    ∃ F, mapW W T cornerList P n = some F ∧ ∀ col ∈ F, ∀ p < n, ∀ s q s' o, T.nb p s = some (q, s', o) → ∀ t ≤ T.parMax p (!s.dir), ∀ r < rows (P p).clipped s t,
      crossOut W T (entry col) p s t r = crossIn W T (entry col) q s' (turnAlong T q s' o t) r := by
  refine ⟨_, map_eq S, fun col hcol p hp s q s' o hnb t ht r hr => ?_⟩
  obtain ⟨e, he, h⟩ := List.mem_filterMap.1 hcol
  obtain ⟨h1, h2, -⟩ := mem_calls' S he
  have hc : contrib W T cornerList P e.1 = entry col := by
    funext y
    unfold contrib
    rw [h]; rfl
  have main := comb_contrib S hm hp hnb ht h1 h2
  rw [hc] at main
  exact row_smooth S hp hnb hlen (rows_le S hp s t) hr _ _ _ main

/-- C72 for functions: at a point of an interface all derivatives over it, of orders below the smoothing degree, agree. `N p t` is the value at the point of the function number `t` along the interface, as seen from patch `p`. The functions with coupled rows of less than full
number, next to special corners, must vanish at the point, otherwise only the lower orders agree.

Missing: as for `C72_rows_partial`. -/
theorem C72_functions_partial (S : SetupW W T cornerList P n d) (hm : Matched W T n) (hlen : ∀ p < n, ∀ dir, (W.kv p dir).length = T.parMax p dir + W.deg + 2) :
    ∃ F, mapW W T cornerList P n = some F ∧ ∀ col ∈ F, ∀ p < n, ∀ s q s' o, T.nb p s = some (q, s', o) → ∀ N N' : ℕ → ℝ, (∀ t ≤ T.parMax p (!s.dir), N' (turnAlong T q s' o t) = N t) →
      ∀ r, (∀ t ≤ T.parMax p (!s.dir), N t ≠ 0 → r < rows (P p).clipped s t) →
      ∑ t ∈ range (T.parMax p (!s.dir) + 1), N t * crossOut W T (entry col) p s t r = ∑ t ∈ range (T.parMax q (!s'.dir) + 1), N' t * crossIn W T (entry col) q s' t r := by
  obtain ⟨F, h1, h2⟩ := C72_rows_partial S hm hlen
  refine ⟨F, h1, fun col hcol p hp s q s' o hnb N N' hN r hr => ?_⟩
  have hcf := S.conform _ _ _ _ _ hnb
  have step : ∀ t ∈ range (T.parMax p (!s.dir) + 1), N t * crossOut W T (entry col) p s t r = N' (turnAlong T q s' o t) * crossIn W T (entry col) q s' (turnAlong T q s' o t) r := by
    intro t ht
    have ht : t ≤ T.parMax p (!s.dir) := by have := Finset.mem_range.1 ht; omega
    rw [hN t ht]
    by_cases c : N t = 0
    · rw [c, zero_mul, zero_mul]
    · rw [h2 col hcol p hp s q s' o hnb t ht r (hr t ht c)]
  rw [Finset.sum_congr rfl step]
  unfold turnAlong
  cases o
  · rw [← Finset.sum_range_reflect, hcf]
    refine Finset.sum_congr rfl fun t ht => ?_
    have := Finset.mem_range.1 ht
    simp only [Bool.false_eq_true, if_false]
    rw [show T.parMax q (!s'.dir) - (T.parMax q (!s'.dir) + 1 - 1 - t) = t by omega]
  · simp only [if_true]
    rw [hcf]

end

/-! ## Examples -/

/-- The L with knots and weights that agree along the interfaces. -/
noncomputable def ell5R : Wts ℝ := ⟨2, fun _ _ => [0, 0, 0, 1, 2, 3, 3, 3], fun p s => if s.dir then (if p = 2 then 3 else 1) else (if p = 0 then 1 else 2)⟩

private theorem knots5 : Boehm.OpenKnots 2 ([0, 0, 0, 1, 2, 3, 3, 3] : List ℝ) [1, 2] 3 := by
  refine ⟨rfl, ?_, ?_, by norm_num⟩
  · simp
  · intro z hz
    simp only [List.mem_cons, List.not_mem_nil, or_false] at hz
    rcases hz with rfl | rfl <;> norm_num

private theorem first5 (dir : Bool) (w : ℝ) : Boehm.firstKnots [0, 0, 0, 1, 2, 3, 3, 3] dir w = Boehm.firstKnots [0, 0, 0, 1, 2, 3, 3, 3] true w := by
  cases dir
  · simp only [Boehm.firstKnots, Boehm.reverseKnots, Bool.false_eq_true, if_false, if_true]
    simp
    constructor <;> ring
  · rfl

theorem ell5R_setup : SetupW ell5R ell5 ell5List ell5Patch 3 2 :=
  { ell5_setup with
    deg := le_refl 2
    knots := fun _ _ _ => ⟨_, _, knots5⟩
    pos := by intro p _ s; simp only [ell5R]; split_ifs <;> norm_num }

theorem ell5R_matched : Matched ell5R ell5 3 := by
  intro p v q v' o hp h s hs _
  simp only [ell5R]
  rw [first5 s.par, first5 (turn v v' o s).par]
  congr 1
  interval_cases p <;> cases v <;> simp [ell5, ell] at h <;> obtain ⟨rfl, rfl, rfl⟩ := h <;> cases s <;> simp [Side.dir] at hs <;> simp [turn, sideOf, Side.dir, Side.par, opp]

/-- All functions of the L are smooth over both interfaces; next to the reentrant corner only the value is continuous. -/
example : ∃ F, mapW ell5R ell5 ell5List ell5Patch 3 = some F ∧ ∀ col ∈ F, ∀ r < 2, crossOut ell5R ell5 (entry col) 0 .east 1 r = crossIn ell5R ell5 (entry col) 1 .west 1 r := by
  obtain ⟨F, h1, h2⟩ := C72_rows_partial ell5R_setup ell5R_matched fun _ _ _ => rfl
  exact ⟨F, h1, fun col hc r hr => h2 col hc 0 (by omega) .east 1 .west true rfl 1 (by decide) r (lt_of_lt_of_eq hr (by decide +kernel))⟩

/-- Four patches around a vertex with blocks, one of them turned; the weights differ between rows and columns. -/
noncomputable def four5R : Wts ℝ := ⟨2, fun _ _ => [0, 0, 0, 1, 2, 3, 3, 3], fun p s =>
  match p, s with
  | 0, .east => 5
  | 0, .north => 3
  | 1, .east => 3
  | 1, .north => 2
  | 2, .east => 5
  | 2, .south => 4
  | 3, .west => 2
  | 3, .south => 4
  | _, _ => 1⟩

theorem four5R_setup : SetupW four5R four5 (fun _ => []) four5Patch 4 2 :=
  { four5_setup with
    deg := le_refl 2
    knots := fun _ _ _ => ⟨_, _, knots5⟩
    pos := by intro p hp s; simp only [four5R]; split <;> norm_num }

theorem four5R_matched : Matched four5R four5 4 := by
  intro p v q v' o hp h s hs h'
  simp only [four5R]
  rw [first5 s.par, first5 (turn v v' o s).par]
  congr 1
  rcases four_nb h with ⟨rfl, rfl, rfl, rfl, rfl⟩ | ⟨rfl, rfl, rfl, rfl, rfl⟩ | ⟨rfl, rfl, rfl, rfl, rfl⟩ | ⟨rfl, rfl, rfl, rfl, rfl⟩ | ⟨rfl, rfl, rfl, rfl, rfl⟩ | ⟨rfl, rfl, rfl, rfl, rfl⟩ |
    ⟨rfl, rfl, rfl, rfl, rfl⟩ | ⟨rfl, rfl, rfl, rfl, rfl⟩ <;> cases s <;> simp [Side.dir, four5, fourPatches] at hs h' <;> simp [turn, sideOf, Side.dir, Side.par, opp]

/-- All functions are smooth over the interface between a turned patch and the next one, up to the vertex. -/
example : ∃ F, mapW four5R four5 (fun _ => []) four5Patch 4 = some F ∧ ∀ col ∈ F, ∀ t ≤ 4, ∀ r < 2, crossOut four5R four5 (entry col) 1 .east t r = crossIn four5R four5 (entry col) 3 .south (4 - t) r := by
  obtain ⟨F, h1, h2⟩ := C72_rows_partial four5R_setup four5R_matched fun _ _ _ => rfl
  refine ⟨F, h1, fun col hc t ht r hr => h2 col hc 1 (by omega) .east 3 .south false rfl t ht r (lt_of_lt_of_eq hr ?_)⟩
  interval_cases t <;> decide +kernel

/-- The same at the points of the interface, for any functions along it. -/
example (N : ℕ → ℝ) : ∃ F, mapW four5R four5 (fun _ => []) four5Patch 4 = some F ∧ ∀ col ∈ F, ∀ r < 2,
    ∑ t ∈ range 5, N t * crossOut four5R four5 (entry col) 1 .east t r = ∑ t ∈ range 5, N (4 - t) * crossIn four5R four5 (entry col) 3 .south t r := by
  obtain ⟨F, h1, h2⟩ := C72_functions_partial four5R_setup four5R_matched fun _ _ _ => rfl
  refine ⟨F, h1, fun col hc r hr => h2 col hc 1 (by omega) .east 3 .south false rfl N (fun t => N (4 - t)) (fun t ht => ?_) r fun t ht _ => lt_of_lt_of_eq hr ?_⟩
  · have ht : t ≤ 4 := ht
    show N (4 - (4 - t)) = N t
    rw [show 4 - (4 - t) = t by omega]
  · have ht : t ≤ 4 := ht
    interval_cases t <;> decide +kernel

/-! ## Weights that do not agree along an interface -/

/-- The same four patches; the weight of one side of one interface is set to two, which `setWeight` (`gsMPBESBasis.hpp:279-295`) allows. -/
noncomputable def four5X : Wts ℝ := ⟨2, fun _ _ => [0, 0, 0, 1, 2, 3, 3, 3], fun p s => if p = 0 ∧ s = .east then 2 else 1⟩

theorem four5X_setup : SetupW four5X four5 (fun _ => []) four5Patch 4 2 :=
  { four5_setup with
    deg := le_refl 2
    knots := fun _ _ _ => ⟨_, _, knots5⟩
    pos := by intro p hp s; simp only [four5X]; split_ifs <;> norm_num }

open Polynomial in
/-- Value and derivative at a side of the first two functions there. -/
private noncomputable def end5 (r : ℕ) (dir : Bool) (b : ℕ) : ℝ := (derivative^[r] (Boehm.sideFn 2 [0, 0, 0, 1, 2, 3, 3, 3] 5 dir b)).eval (Boehm.sideVal [0, 0, 0, 1, 2, 3, 3, 3] dir)

private theorem end5_eq (dir : Bool) : end5 0 dir 0 = 1 ∧ end5 0 dir 1 = 0 ∧ end5 1 dir 0 = (if dir then 2 else -2) ∧ end5 1 dir 1 = (if dir then -2 else 2) := by
  cases dir <;> simp [end5, Boehm.sideFn, Boehm.sideVal, BSpline.bs, Boehm.knotAt] <;> norm_num

private theorem four5_good : GoodVtx four5 four5Patch 4 four5Vtx :=
  ⟨by decide, by decide, fun _ _ _ _ => four5_plain _ _ _⟩

/-- C72 fails without `Matched`: with the weight of a single side changed there is a function over the vertex that has a kink at the opposite interface, far from special vertices. -/
theorem C72_weights_violated : SetupW four5X four5 (fun _ => []) four5Patch 4 2 ∧ (∀ p s, four5X.w p s ≠ 1 → (four5.nb p s).isSome) ∧ rows (four5Patch 2).clipped .east 0 = 2 ∧ four5.nb 2 .east = some (3, .west, true) ∧
    ∃ F, mapW four5X four5 (fun _ => []) four5Patch 4 = some F ∧ ∃ col ∈ F, crossOut four5X four5 (entry col) 2 .east 0 1 ≠ crossIn four5X four5 (entry col) 3 .west 0 1 := by
  refine ⟨four5X_setup, ?_, by decide +kernel, rfl, _, map_eq four5X_setup, ?_⟩
  · intro p s h
    simp only [four5X] at h
    split_ifs at h with c
    · obtain ⟨rfl, rfl⟩ := c; rfl
    · exact absurd rfl h
  have S := four5X_setup
  have hB : BlockAt four5 four5Patch 2 ⟨0, 4, 4⟩ .north .east := ⟨rfl, rfl, rfl, rfl, by decide, by decide, four5_plain _ _ _⟩
  have cv := contrib_vtx S (x := ⟨0, 4, 4⟩) ⟨by decide, by decide⟩ (by decide) (four5_plain _ _ _) hB (V := four5Vtx) rfl (Or.inr ⟨rfl, rfl⟩) four5_good fun _ _ => Nat.zero_le _
  have a20 := cv ⟨2, 4, 0⟩ false true 0 0 ⟨rfl, ⟨by decide, by decide⟩, by decide, by decide⟩ (by decide) (by decide)
  have a21 := cv ⟨2, 3, 0⟩ false true 1 0 ⟨rfl, ⟨by decide, by decide⟩, by decide, by decide⟩ (by decide) (by decide)
  have a30 := cv ⟨3, 0, 0⟩ true true 0 0 ⟨rfl, ⟨by decide, by decide⟩, by decide, by decide⟩ (by decide) (by decide)
  have a31 := cv ⟨3, 1, 0⟩ true true 1 0 ⟨rfl, ⟨by decide, by decide⟩, by decide, by decide⟩ (by decide) (by decide)
  have d0 : dist four5 ⟨0, 4, 4⟩ (four5Vtx.h false false) = 0 := by decide
  have d1 : dist four5 ⟨0, 4, 4⟩ (four5Vtx.v false false) = 0 := by decide
  rw [d0, d1] at a20 a21 a30 a31
  change _ = coef (lineW four5X 0 .east 1 .north 2 0) _ _ _ * coef (lineW four5X 0 .north 2 .south 2 0) _ _ _ at a20 a21 a30 a31
  have p1 := lineW_first S (p := 0) (by decide) (s := .east) (q := 1) (s' := .north) (o := true) rfl (len := 2) (a := 0) le_rfl (by decide)
  have p2 := lineW_first S (p := 0) (by decide) (s := .north) (q := 2) (s' := .south) (o := true) rfl (len := 2) (a := 0) le_rfl (by decide)
  have l0 := line_eval S (p := 0) (by decide) (s := .east) (q := 1) (s' := .north) (o := true) rfl knots5 knots5 (len := 2) (r := 0) (a := 0) le_rfl (by decide) (by decide)
  have l1 := line_eval S (p := 0) (by decide) (s := .east) (q := 1) (s' := .north) (o := true) rfl knots5 knots5 (len := 2) (r := 1) (a := 0) le_rfl (by decide) (by decide)
  have l2 := line_eval S (p := 0) (by decide) (s := .north) (q := 2) (s' := .south) (o := true) rfl knots5 knots5 (len := 2) (r := 0) (a := 0) le_rfl (by decide) (by decide)
  change _ * ∑ b ∈ range 2, _ * end5 _ true b = _ * ∑ b ∈ range 2, _ * end5 _ true b at l0 l1
  change _ * ∑ b ∈ range 2, _ * end5 _ true b = _ * ∑ b ∈ range 2, _ * end5 _ false b at l2
  obtain ⟨e1, e2, e3, e4⟩ := end5_eq true
  obtain ⟨f1, f2, f3, f4⟩ := end5_eq false
  have w1 : four5X.w 0 .east = 2 := by simp [four5X]
  have w2 : four5X.w 1 .north = 1 := by simp [four5X]
  have w3 : four5X.w 2 .east = 1 := by simp [four5X]
  have w4 : four5X.w 3 .west = 1 := by simp [four5X]
  generalize lineW four5X 0 .east 1 .north 2 0 = A at a20 a21 a30 a31 p1 l0 l1
  generalize lineW four5X 0 .north 2 .south 2 0 = B at a20 a21 a30 a31 p2 l2
  simp only [Finset.sum_range_succ, Finset.sum_range_zero, e1, e2, e3, e4, f1, f2, coef, w1, w2, Side.par] at l0 l1 l2
  simp at l0 l1 l2
  obtain ⟨col, hcol⟩ : ∃ col, colOf four5X four5 (fun _ => []) four5Patch ⟨0, 4, 4⟩ = some col := by
    rw [← Option.isSome_iff_exists, Option.isSome_iff_ne_none]
    intro h
    unfold contrib at a20
    rw [h] at a20
    simp only [coef] at a20
    simp at a20 p1 p2
    rcases a20 with h | h
    · exact p1.ne' h
    · exact p2.ne' (l2.trans h)
  refine ⟨col, List.mem_filterMap.2 ?_, ?_⟩
  · have : ∃ e ∈ allCalls four5Patch 4, e.1 = ⟨0, 4, 4⟩ := by decide +kernel
    obtain ⟨e, he, h⟩ := this
    exact ⟨e, he, by rw [h]; exact hcol⟩
  have hc : ∀ y, contrib four5X four5 (fun _ => []) four5Patch ⟨0, 4, 4⟩ y = entry col y := by
    intro y
    unfold contrib
    rw [hcol]; rfl
  rw [hc] at a20 a21 a30 a31
  unfold crossOut crossIn
  rw [row_eval S (p := 2) (by decide) (s := .east) knots5 rfl (len := 2) (r := 1) le_rfl (by decide), row_eval S (p := 3) (by decide) (s := .west) knots5 rfl (len := 2) (r := 1) le_rfl (by decide)]
  change _ * ∑ b ∈ range 2, _ * end5 _ true b ≠ _ * ∑ b ∈ range 2, _ * end5 _ false b
  simp only [Finset.sum_range_succ, Finset.sum_range_zero]
  change _ * (0 + entry col ⟨2, 4, 0⟩ * _ + entry col ⟨2, 3, 0⟩ * _) ≠ _ * (0 + entry col ⟨3, 0, 0⟩ * _ + entry col ⟨3, 1, 0⟩ * _)
  rw [a20, a21, a30, a31, e3, e4, f3, f4, w3, w4]
  simp [coef, Side.par]
  simp only [List.getD_eq_getElem?_getD] at p1 p2
  rw [l2] at p2
  intro h
  have := mul_pos p1 p2
  have e : A[2]?.getD 0 = A[0]?.getD 0 * (3 / 2) := by linarith
  rw [e, ← l0] at h
  nlinarith

end Verif.FullMap
