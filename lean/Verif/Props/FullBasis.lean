import Verif.Props.FullSmooth
import Verif.Props.FullIndep
import Mathlib.LinearAlgebra.Matrix.ToLin
import Mathlib.LinearAlgebra.FiniteDimensional.Basic

/-!
# C73: the columns are a basis of all smooth splines
-/

set_option autoImplicit false

namespace Verif.FullMap
open Verif Verif.Walk Verif.Regions Finset

variable {W : Wts ℝ} {T : Net} {cornerList : PCorner → List PCorner} {P : ℕ → Patch} {n d : ℕ}

/-- The spline with coefficients `f` is smooth over all interfaces: derivatives from both sides agree for all orders below the number of coupled rows. -/
def Smooth (W : Wts ℝ) (T : Net) (P : ℕ → Patch) (n : ℕ) (f : Pos → ℝ) : Prop :=
  ∀ p < n, ∀ s q s' o, T.nb p s = some (q, s', o) → ∀ t ≤ T.parMax p (!s.dir), ∀ r < rows (P p).clipped s t, crossOut W T f p s t r = crossIn W T f q s' (turnAlong T q s' o t) r

/-! ## A combination of smooth splines -/

open Polynomial in
private theorem cross_sum (W : Wts ℝ) (T : Net) (p : ℕ) (s : Side) (t r : ℕ) :
    ∃ κ κ' : ℕ → ℝ, ∀ f : Pos → ℝ, crossOut W T f p s t r = ∑ b ∈ range (T.parMax p s.dir + 1), f (place T p s t b) * κ b ∧ crossIn W T f p s t r = ∑ b ∈ range (T.parMax p s.dir + 1), f (place T p s t b) * κ' b := by
  refine ⟨fun b => ((if s.par then 1 else -1) / W.w p s) ^ r * (derivative^[r] (Boehm.sideFn W.deg (W.kv p s.dir) (T.parMax p s.dir + 1) s.par b)).eval (Boehm.sideVal (W.kv p s.dir) s.par),
    fun b => ((if s.par then -1 else 1) / W.w p s) ^ r * (derivative^[r] (Boehm.sideFn W.deg (W.kv p s.dir) (T.parMax p s.dir + 1) s.par b)).eval (Boehm.sideVal (W.kv p s.dir) s.par), fun f => ?_⟩
  constructor
  · rw [crossOut, rowPoly, Boehm.deriv_sum, Finset.mul_sum]
    exact Finset.sum_congr rfl fun b _ => by ring
  · rw [crossIn, rowPoly, Boehm.deriv_sum, Finset.mul_sum]
    exact Finset.sum_congr rfl fun b _ => by ring

private theorem cross_linear (W : Wts ℝ) (T : Net) (p : ℕ) (s : Side) (t r : ℕ) (f : Pos → ℝ) (N : ℕ) (c : ℕ → ℝ) (g : ℕ → Pos → ℝ) :
    crossOut W T (fun y => f y - ∑ k ∈ range N, c k * g k y) p s t r = crossOut W T f p s t r - ∑ k ∈ range N, c k * crossOut W T (g k) p s t r ∧
      crossIn W T (fun y => f y - ∑ k ∈ range N, c k * g k y) p s t r = crossIn W T f p s t r - ∑ k ∈ range N, c k * crossIn W T (g k) p s t r := by
  obtain ⟨κ, κ', h⟩ := cross_sum W T p s t r
  have key : ∀ κ : ℕ → ℝ, ∑ b ∈ range (T.parMax p s.dir + 1), (f (place T p s t b) - ∑ k ∈ range N, c k * g k (place T p s t b)) * κ b =
      ∑ b ∈ range (T.parMax p s.dir + 1), f (place T p s t b) * κ b - ∑ k ∈ range N, c k * ∑ b ∈ range (T.parMax p s.dir + 1), g k (place T p s t b) * κ b := by
    intro κ
    simp only [sub_mul, Finset.sum_sub_distrib, Finset.sum_mul, Finset.mul_sum]
    congr 1
    rw [Finset.sum_comm]
    exact Finset.sum_congr rfl fun k _ => Finset.sum_congr rfl fun b _ => by ring
  constructor
  · simp only [(h _).1]; exact key κ
  · simp only [(h _).2]; exact key κ'

private theorem smooth_sub {f : Pos → ℝ} (hf : Smooth W T P n f) (N : ℕ) (c : ℕ → ℝ) (g : ℕ → Pos → ℝ) (hg : ∀ k < N, Smooth W T P n (g k)) : Smooth W T P n fun y => f y - ∑ k ∈ range N, c k * g k y := by
  intro p hp s q s' o hnb t ht r hr
  rw [(cross_linear W T p s t r f N c g).1, (cross_linear W T q s' _ r f N c g).2, hf p hp s q s' o hnb t ht r hr]
  congr 1
  exact Finset.sum_congr rfl fun k hk => by rw [hg k (Finset.mem_range.1 hk) p hp s q s' o hnb t ht r hr]

/-! ## Rows -/

open Polynomial in
/-- If the derivatives of a row vanish, so do the coefficients. -/
private theorem cross_zero (S : SetupW W T cornerList P n d) (hlen : ∀ p < n, ∀ dir, (W.kv p dir).length = T.parMax p dir + W.deg + 2) {p : ℕ} (hp : p < n) (s : Side) {len : ℕ} (hl : len ≤ d) (f : Pos → ℝ) (t : ℕ) :
    ((∀ r < len, crossOut W T f p s t r = 0) ↔ ∀ b < len, f (place T p s t b) = 0) ∧ ((∀ r < len, crossIn W T f p s t r = 0) ↔ ∀ b < len, f (place T p s t b) = 0) := by
  obtain ⟨M, y, k⟩ := S.knots p hp s.dir
  have hd := S.deg
  have m : T.parMax p s.dir + 1 = W.deg + 1 + M.length := by
    have := hlen p hp s.dir
    rw [k.eq] at this
    simp only [List.length_append, List.length_replicate] at this
    omega
  have hw := (S.pos p hp s).ne'
  have key : (∀ r < len, (derivative^[r] (rowPoly W T f p s t)).eval (Boehm.sideVal (W.kv p s.dir) s.par) = 0) ↔ ∀ b < len, f (place T p s t b) = 0 := by
    constructor
    · intro h b
      induction b using Nat.strong_induction_on with
      | _ b ih =>
        intro hb
        have e := h b hb
        rw [row_eval S hp k m hl hb, Finset.sum_eq_single b] at e
        · exact (mul_eq_zero.1 e).resolve_right (Boehm.side_ne k s.par (by omega))
        · intro b' hb' hne
          have hb' := Finset.mem_range.1 hb'
          rcases Nat.lt_or_ge b' b with c | c
          · rw [ih b' c (by omega), zero_mul]
          · rw [Boehm.side_zero k s.par (by omega) (by have := two_d S hp s.dir; omega), mul_zero]
        · intro hn; exact absurd (Finset.mem_range.2 hb) hn
    · intro h r hr
      rw [row_eval S hp k m hl hr]
      exact Finset.sum_eq_zero fun b hb => by rw [h b (Finset.mem_range.1 hb), zero_mul]
  rw [← key]
  unfold crossOut crossIn
  constructor
  · refine forall₂_congr fun r _ => ?_
    rw [mul_eq_zero, or_iff_right (pow_ne_zero _ (div_ne_zero (by split_ifs <;> norm_num) hw))]
  · refine forall₂_congr fun r _ => ?_
    rw [mul_eq_zero, or_iff_right (pow_ne_zero _ (div_ne_zero (by split_ifs <;> norm_num) hw))]

/-- The coefficients of a smooth spline vanish on one side of an interface if they do on the other. -/
private theorem row_iff (S : SetupW W T cornerList P n d) (hlen : ∀ p < n, ∀ dir, (W.kv p dir).length = T.parMax p dir + W.deg + 2) {f : Pos → ℝ} (hf : Smooth W T P n f) {p : ℕ} (hp : p < n) {s : Side} {q : ℕ} {s' : Side} {o : Bool}
    (hnb : T.nb p s = some (q, s', o)) {t : ℕ} (ht : t ≤ T.parMax p (!s.dir)) :
    (∀ b < rows (P p).clipped s t, f (place T p s t b) = 0) ↔ ∀ b < rows (P p).clipped s t, f (place T q s' (turnAlong T q s' o t) b) = 0 := by
  have hle := rows_le S hp s t
  rw [← (cross_zero S hlen hp s hle f t).1, ← (cross_zero S hlen (S.nbr _ _ _ _ _ hp hnb).1 s' hle f _).2]
  exact forall₂_congr fun r hr => by rw [hf p hp s q s' o hnb t ht r hr]

/-! ## A smooth spline is zero if it is zero for all functions with a column -/

private theorem col_ne {x y : Pos} (h : contrib W T cornerList P x y ≠ 0) : colOf W T cornerList P x ≠ none := by
  intro c
  unfold contrib at h
  rw [c] at h
  exact h rfl

section
variable (S : SetupW W T cornerList P n d) (hlen : ∀ p < n, ∀ dir, (W.kv p dir).length = T.parMax p dir + W.deg + 2) {f : Pos → ℝ} (hf : Smooth W T P n f)
  (h0 : ∀ y, T.In y → y.p < n → colOf W T cornerList P y ≠ none → f y = 0)
include S hlen hf h0

private theorem zero_corner {x : Pos} (hx : T.In x) (hp : x.p < n) (hs : specialAt (P x.p) x.u x.v) : f x = 0 := by
  obtain ⟨z, hz, hmin⟩ : ∃ z, Glued T x z ∧ ∀ w, Glued T x w → z.p ≤ w.p := by
    classical
    have hex : ∃ m, ∃ z, Glued T x z ∧ z.p = m := ⟨_, x, Relation.ReflTransGen.refl, rfl⟩
    obtain ⟨z, h1, h2⟩ := Nat.find_spec hex
    exact ⟨z, h1, fun w hw => by rw [h2]; exact Nat.find_min' hex ⟨w, hw, rfl⟩⟩
  have zIn := glued_in S.conform hx hz
  have zp := glued_lt' S hp hz
  have zs := glued_special S hx hp hs hz
  have fz : f z = 0 := by
    refine h0 z zIn zp (col_ne (y := z) ?_)
    obtain ⟨-, l, l1, l2⟩ := contrib_corner S zIn zp zs
    rw [l2, if_pos ⟨(l1 z).2 Relation.ReflTransGen.refl, fun w hw => hmin w (hz.trans ((l1 w).1 hw))⟩]
    exact one_ne_zero
  clear hmin
  induction hz with
  | refl => exact fz
  | @tail a b ga gc ih =>
    have aIn := glued_in S.conform hx ga
    have ap := glued_lt' S hp ga
    have as := glued_special S hx hp hs ga
    refine ih aIn ap as ?_
    obtain ⟨s, q, s', o, c1, c2, rfl⟩ := gc
    have hd : 0 < d := by rw [← S.du _ hp]; exact (S.std _ hp).du_pos
    obtain ⟨-, r1⟩ := near_special S aIn ap as (s := s) (by omega)
    have key := (row_iff S hlen hf ap c2 (along_le aIn s)).2
    rw [r1] at key
    have := key (fun b hb => by
      obtain rfl : b = 0 := by omega
      rw [← atSide_eq_place]; exact fz) 0 one_pos
    rw [eq_place aIn s, c1]
    exact this

private theorem zero_block {x : Pos} (hx : T.In x) (hp : x.p < n) {s r : Side} (hB : BlockAt T P d x s r) : f x = 0 := by
  obtain ⟨-, -, V, v1, v2, v3, hV⟩ := vertex_at S hp hB
  have step : ∀ V : Vtx T, GoodVtx T P n V → ∀ γ δ, (∀ z i j, i < d → j < d → At V z (!γ) δ i j → f z = 0) → ∀ z i j, i < d → j < d → At V z γ δ i j → f z = 0 := by
    intro V hV γ δ h z i j hi hj hz
    obtain ⟨zp, -, s₁, r₁, b1, b2⟩ := block_at S hV hz hi hj
    have br := block_rows S hz.2.1 zp b1
    have hrows : rows (P z.p).clipped (V.h γ δ) (along z (V.h γ δ)) = d := by
      rcases b2 with ⟨e, -⟩ | ⟨-, e⟩
      · rw [← e]; exact br.1
      · rw [← e]; exact br.2
    have hnb := V.nbh γ δ
    rw [← hz.1] at hnb
    have ht := along_le hz.2.1 (V.h γ δ)
    have hqq := S.nbr _ _ _ _ _ zp hnb
    have t2 := two_d S hqq.1 (V.h (!γ) δ).dir
    have hcf := S.conform _ _ _ _ _ hnb
    have key := (row_iff S hlen hf zp hnb ht).2
    rw [hrows] at key
    have := key (fun b hb => by
      refine h _ b j hb hj ⟨place_p .., place_in (by omega) (by unfold turnAlong; split_ifs <;> omega), place_dist (by omega), ?_⟩
      have cd := cross_dist S.conform hz.2.1 hnb (V.perp γ δ)
      rw [V.th, hz.2.2.2] at cd
      rw [← cd]
      exact dist_along (s := V.h (!γ) δ) (V.perp (!γ) δ) (by rw [place_p, atSide_p]) (by rw [place_along, atSide_eq_place, place_along]; rfl)) i hi
    rw [eq_place hz.2.1 (V.h γ δ), hz.2.2.1]
    exact this
  obtain ⟨α, β, hmin⟩ : ∃ α β, ∀ α' β', V.p α β ≤ V.p α' β' := by
    obtain ⟨⟨α, β⟩, -, h⟩ := Finset.exists_min_image (Finset.univ : Finset (Bool × Bool)) (fun a => V.p a.1 a.2) ⟨(true, true), Finset.mem_univ _⟩
    exact ⟨α, β, fun α' β' => h (α', β') (Finset.mem_univ _)⟩
  have first : ∀ z i j, i < d → j < d → At V z α β i j → f z = 0 := by
    intro z i j hi hj hz
    obtain ⟨zp, zs, s₁, r₁, b1, b2⟩ := block_at S hV hz hi hj
    refine h0 z hz.2.1 zp (col_ne (y := z) ?_)
    have q0 : (V.re α β).p false false = z.p := by simpa [Vtx.re] using hz.1.symm
    have q1 : (V.re α β).h false false = V.h α β := by simp [Vtx.re]
    have q2 : (V.re α β).v false false = V.v α β := by simp [Vtx.re]
    have cv := contrib_vtx S hz.2.1 zp zs b1 (V := V.re α β) q0 (by rw [q1, q2]; rcases b2 with ⟨e, e'⟩ | ⟨e, e'⟩ <;> rw [e, e'] <;> simp) (good_re hV α β)
      (fun α' β' => by rw [hz.1]; exact hmin _ _) z false false i j ⟨q0.symm, hz.2.1, by rw [q1]; exact hz.2.2.1, by rw [q2]; exact hz.2.2.2⟩ hi hj
    have n1 := (V.re α β).nbh false false
    have n2 := (V.re α β).nbv false false
    rw [q0] at n1 n2
    have p1 := lineW_first S zp n1 (len := d) le_rfl hi
    have p2 := lineW_first S zp n2 (len := d) le_rfl hj
    rw [cv, q1, q2, hz.2.2.1, hz.2.2.2]
    simp only [coef, Bool.false_eq_true, if_false, le_refl, if_true, Nat.sub_self]
    rw [q1] at p1
    rw [q2] at p2
    exact (mul_pos p1 p2).ne'
  have second : ∀ γ, ∀ z i j, i < d → j < d → At V z γ β i j → f z = 0 := by
    intro γ
    by_cases c : γ = α
    · rw [c]; exact first
    · refine step V hV γ β ?_
      rw [show (!γ) = α by revert c; cases γ <;> cases α <;> simp]
      exact first
  have third : ∀ γ δ, ∀ z i j, i < d → j < d → At V z γ δ i j → f z = 0 := by
    intro γ δ
    by_cases c : δ = β
    · rw [c]; exact second γ
    · intro z i j hi hj hz
      refine step V.swap (good_swap hV) δ γ (fun z i j hi hj hz => ?_) z j i hj hi ((at_swap V z γ δ i j).2 hz)
      rw [show (!δ) = β by revert c; cases δ <;> cases β <;> simp] at hz
      exact second γ z j i hj hi ((at_swap V z γ β j i).1 hz)
  exact third false false x _ _ (by rw [v2]; exact hB.2.2.2.2.1) (by rw [v3]; exact hB.2.2.2.2.2.1) ⟨v1.symm, hx, rfl, rfl⟩

private theorem zero_first {x : Pos} (hx : T.In x) (hp : x.p < n) (hs : ¬ specialAt (P x.p) x.u x.v) {s : Side} (hl : LineAt T P d x s) {q : ℕ} {s' : Side} {o : Bool} (hnb : T.nb x.p s = some (q, s', o)) (hq : ¬ q < x.p) : f x = 0 := by
  refine h0 x hx hp (col_ne (y := x) ?_)
  rw [(contrib_line S hx hp hs hl hnb).2, if_neg hq]
  have hle := rows_le S hp s (along x s)
  have lf := (lineW_facts S hp hnb hle).1 _ hl.2.1
  refine (Finset.sum_pos' (fun i _ => ?_) ⟨0, Finset.mem_range.2 (by omega), ?_⟩).ne'
  · split_ifs with c
    · rcases Nat.lt_or_ge i (lineW W x.p s q s' (rows (P x.p).clipped s (along x s)) (dist T x s)).length with h | h
      · rw [List.getD_eq_getElem _ _ h]; exact lf.2 _ (List.getElem_mem h)
      · rw [List.getD_eq_default _ _ h]
    · exact le_rfl
  · rw [if_pos]
    · exact lineW_first S hp hnb hle hl.2.1
    · unfold spot
      rw [if_pos (Nat.zero_le _), Nat.sub_zero]
      exact (eq_place hx s).symm

private theorem zero_all {x : Pos} (hx : T.In x) (hp : x.p < n) : f x = 0 := by
  rcases kinds S hx hp with ⟨k, -⟩ | ⟨k, s, r, k', -⟩ | ⟨k, s, k', -⟩ | ⟨k, k', k'', -⟩
  · exact zero_corner S hlen hf h0 hx hp k
  · exact zero_block S hlen hf h0 hx hp k'
  · obtain ⟨⟨q, s', o⟩, hnb⟩ := Option.isSome_iff_exists.1 k'.1
    by_cases hq : q < x.p
    · have ht := along_le hx s
      have hqq := S.nbr _ _ _ _ _ hp hnb
      have t2 := two_d S hqq.1 s'.dir
      have hcf := S.conform _ _ _ _ _ hnb
      have hle := rows_le S hp s (along x s)
      have ht' : turnAlong T q s' o (along x s) ≤ T.parMax q (!s'.dir) := by unfold turnAlong; split_ifs <;> omega
      have key := (row_iff S hlen hf hp hnb ht).2 (fun b hb => by
        have zIn : T.In (place T q s' (turnAlong T q s' o (along x s)) b) := place_in (by omega) ht'
        have z1 : (place T q s' (turnAlong T q s' o (along x s)) b).p = q := place_p ..
        have zp : (place T q s' (turnAlong T q s' o (along x s)) b).p < n := by rw [z1]; exact hqq.1
        by_cases z2 : specialAt (P (place T q s' (turnAlong T q s' o (along x s)) b).p) (place T q s' (turnAlong T q s' o (along x s)) b).u (place T q s' (turnAlong T q s' o (along x s)) b).v
        · exact zero_corner S hlen hf h0 zIn zp z2
        by_cases z3 : ∃ s₁ r₁, BlockAt T P d (place T q s' (turnAlong T q s' o (along x s)) b) s₁ r₁
        · obtain ⟨s₁, r₁, z3⟩ := z3
          exact zero_block S hlen hf h0 zIn zp z3
        · push Not at z3
          have hsy := S.sym _ _ _ _ _ hnb
          refine zero_first S hlen hf h0 zIn zp z2 (s := s') (q := x.p) (s' := s) (o := o) ⟨by rw [z1, hsy]; rfl, ?_, z3⟩ (by rw [z1]; exact hsy) (by rw [z1]; omega)
          rw [z1, place_along, place_dist (by omega), ← S.rows_eq _ _ _ _ _ _ hp hnb ht]
          exact hb) (dist T x s) k'.2.1
      rw [eq_place hx s]
      exact key
    · exact zero_first S hlen hf h0 hx hp k k' hnb hq
  · refine h0 x hx hp (col_ne (y := x) ?_)
    rw [(contrib_free S hx hp k k' k'').2, if_pos rfl]
    exact one_ne_zero

end

/-! ## The theorem -/

/-- A square system without kernel has a solution. -/
private theorem solve (N : ℕ) (A : ℕ → ℕ → ℝ) (h : ∀ c : ℕ → ℝ, (∀ m < N, ∑ k ∈ range N, c k * A k m = 0) → ∀ k < N, c k = 0) (b : ℕ → ℝ) : ∃ c : ℕ → ℝ, ∀ m < N, ∑ k ∈ range N, c k * A k m = b m := by
  let M : Matrix (Fin N) (Fin N) ℝ := fun m k => A k m
  let e : (Fin N → ℝ) → ℕ → ℝ := fun c k => if h : k < N then c ⟨k, h⟩ else 0
  have he : ∀ (c : Fin N → ℝ) (m : Fin N), ∑ k ∈ range N, e c k * A k m = M.mulVec c m := by
    intro c m
    rw [Finset.sum_range]
    refine Finset.sum_congr rfl fun k _ => ?_
    simp only [e, M, k.2, dif_pos]
    exact mul_comm _ _
  have inj : Function.Injective M.mulVecLin := by
    rw [injective_iff_map_eq_zero]
    intro c hc
    funext k
    have := h (e c) (fun m hm => by rw [show m = ((⟨m, hm⟩ : Fin N) : ℕ) from rfl, he]; exact congrFun hc ⟨m, hm⟩) k k.2
    simpa [e] using this
  obtain ⟨c, hc⟩ := LinearMap.surjective_of_injective inj fun m => b m
  exact ⟨e c, fun m hm => by rw [show m = ((⟨m, hm⟩ : Fin N) : ℕ) from rfl, he]; exact congrFun hc ⟨m, hm⟩⟩

/-- C73: the columns of the map are a basis of the space of all splines that are smooth over the interfaces. A spline is smooth, in the parameters scaled with the weights, for the smoothing degree away from special vertices and continuous next to them, if and only if
it is a combination of the columns; the coefficients of the combination are unique.

Missing: as for `C72_rows_partial`. -/
theorem C73_basis_partial (S : SetupW W T cornerList P n d) (hm : Matched W T n) (hlen : ∀ p < n, ∀ dir, (W.kv p dir).length = T.parMax p dir + W.deg + 2) :
    ∃ F, mapW W T cornerList P n = some F ∧ (∀ f : Pos → ℝ, Smooth W T P n f ↔ ∃ c : ℕ → ℝ, ∀ y, T.In y → y.p < n → f y = ∑ k ∈ range F.length, c k * entry (F.getD k []) y) ∧
      ∀ c c' : ℕ → ℝ, (∀ y, T.In y → y.p < n → ∑ k ∈ range F.length, c k * entry (F.getD k []) y = ∑ k ∈ range F.length, c' k * entry (F.getD k []) y) → ∀ k < F.length, c k = c' k := by
  obtain ⟨F, L, e1, e2, e3, e4, e5⟩ := columns_at S
  have hcol : ∀ k < F.length, Smooth W T P n (entry (F.getD k [])) := by
    obtain ⟨F', e1', h⟩ := C72_rows_partial S hm hlen
    obtain rfl : F' = F := Option.some.inj (e1'.symm.trans e1)
    intro k hk
    rw [List.getD_eq_getElem _ _ hk]
    exact h _ (List.getElem_mem hk)
  refine ⟨F, e1, fun f => ⟨fun hf => ?_, ?_⟩, fun c c' h k hk => ?_⟩
  · obtain ⟨c, hc⟩ := solve F.length (fun k m => entry (F.getD k []) (L.getD m ⟨0, 0, 0⟩)) e5 fun m => f (L.getD m ⟨0, 0, 0⟩)
    refine ⟨c, fun y hy hp => ?_⟩
    have := zero_all S hlen (smooth_sub hf F.length c (fun k => entry (F.getD k [])) hcol) (fun z hz zp hn => ?_) hy hp
    · linarith
    · obtain ⟨m, hm, rfl⟩ := List.getElem_of_mem (e3 z hz zp hn)
      have := hc m (by omega)
      rw [List.getD_eq_getElem _ _ hm] at this
      linarith
  · rintro ⟨c, hc⟩
    have hz : Smooth W T P n fun _ => 0 := by
      intro p _ s q s' o _ t _ r _
      obtain ⟨κ, κ', h⟩ := cross_sum W T p s t r
      obtain ⟨μ, μ', h'⟩ := cross_sum W T q s' (turnAlong T q s' o t) r
      rw [(h _).1, (h' _).2]
      simp
    have h1 := smooth_sub hz F.length (fun k => - c k) (fun k => entry (F.getD k [])) hcol
    intro p hp s q s' o hnb t ht r hr
    have key := h1 p hp s q s' o hnb t ht r hr
    obtain ⟨κ, κ', h⟩ := cross_sum W T p s t r
    obtain ⟨μ, μ', h'⟩ := cross_sum W T q s' (turnAlong T q s' o t) r
    have hcf := S.conform _ _ _ _ _ hnb
    have hqn := (S.nbr _ _ _ _ _ hp hnb).1
    rw [(h _).1, (h' _).2] at key ⊢
    refine Eq.trans (Finset.sum_congr rfl fun b hb => ?_) (key.trans (Finset.sum_congr rfl fun b hb => ?_))
    · have hb := Finset.mem_range.1 hb
      rw [hc _ (place_in (by omega) ht) (by rw [place_p]; exact hp)]
      simp
    · have hb := Finset.mem_range.1 hb
      rw [hc _ (place_in (by omega) (by unfold turnAlong; split_ifs <;> omega)) (by rw [place_p]; exact hqn)]
      simp
  · have := e5 (fun k => c k - c' k) (fun m hm => ?_) k hk
    · linarith
    · obtain ⟨a1, a2⟩ := e4 _ (List.getElem_mem (show m < L.length by omega))
      rw [List.getD_eq_getElem _ _ (show m < L.length by omega)]
      simp only [sub_mul, Finset.sum_sub_distrib]
      rw [h _ a1 a2, sub_self]

/-! ## Knots that agree -/

private theorem reverse_scale (L : List ℝ) (w : ℝ) : Boehm.reverseKnots (L.map (· * w)) = (Boehm.reverseKnots L).map (· * w) := by
  have h1 : (L.map (· * w)).headD 0 = L.headD 0 * w := by cases L <;> simp
  have h2 : (L.map (· * w)).getLastD 0 = L.getLastD 0 * w := by
    rcases L.eq_nil_or_concat with rfl | ⟨L', z, rfl⟩
    · simp
    · simp only [List.concat_eq_append, List.map_append, List.map_cons, List.map_nil, List.getLastD_concat]
  rw [Boehm.reverseKnots, Boehm.reverseKnots, h1, h2, List.map_map, List.map_reverse, List.map_map]
  congr 1
  refine List.map_congr_left fun x _ => ?_
  simp only [Function.comp]
  ring

/-- The hypothesis of C72 and C73 in terms of the input: the knots along an interface are those of the other patch, reversed if the interface is, and opposite sides at a vertex have the same weight. -/
theorem matched_of (hk : ∀ p v q v' o, p < n → T.nb p v = some (q, v', o) → W.kv p (!v.dir) = if o then W.kv q (!v'.dir) else Boehm.reverseKnots (W.kv q (!v'.dir)))
    (hw : ∀ p v q v' o, p < n → T.nb p v = some (q, v', o) → ∀ s : Side, s.dir ≠ v.dir → (T.nb p s).isSome → W.w p s = W.w q (turn v v' o s)) : Matched W T n := by
  intro p v q v' o hp hnb s hs hi
  have e := hk p v q v' o hp hnb
  have hd : s.dir = !v.dir := by revert hs; cases s.dir <;> cases v.dir <;> simp
  have t1 : (turn v v' o s).dir = !v'.dir := by cases v <;> cases v' <;> cases o <;> cases s <;> simp [Side.dir] at hd <;> rfl
  have t2 : (turn v v' o s).par = if o then s.par else !s.par := by cases v <;> cases v' <;> cases o <;> cases s <;> simp [Side.dir] at hd <;> rfl
  rw [hw p v q v' o hp hnb s hs hi, hd, t1, t2, e]
  generalize W.w q (turn v v' o s) = w
  generalize W.kv q (!v'.dir) = L
  cases o <;> cases s.par <;> simp [Boehm.firstKnots, reverse_scale, Boehm.reverse_twice]

/-- C73 for the weights one, as they are before the first call of `setWeight` (`gsMPBESBasis.hpp:268-276`), and meshes that agree at the interfaces.

Missing: as for `C72_rows_partial`. -/
theorem C73_default_partial (S : SetupW W T cornerList P n d) (hw : ∀ p s, W.w p s = 1) (hk : ∀ p v q v' o, p < n → T.nb p v = some (q, v', o) → W.kv p (!v.dir) = if o then W.kv q (!v'.dir) else Boehm.reverseKnots (W.kv q (!v'.dir)))
    (hlen : ∀ p < n, ∀ dir, (W.kv p dir).length = T.parMax p dir + W.deg + 2) :
    ∃ F, mapW W T cornerList P n = some F ∧ (∀ f : Pos → ℝ, Smooth W T P n f ↔ ∃ c : ℕ → ℝ, ∀ y, T.In y → y.p < n → f y = ∑ k ∈ range F.length, c k * entry (F.getD k []) y) ∧
      ∀ c c' : ℕ → ℝ, (∀ y, T.In y → y.p < n → ∑ k ∈ range F.length, c k * entry (F.getD k []) y = ∑ k ∈ range F.length, c' k * entry (F.getD k []) y) → ∀ k < F.length, c k = c' k :=
  C73_basis_partial S (matched_of hk fun p v q v' o _ _ s _ _ => by rw [hw, hw]) hlen

/-! ## Examples -/

/-- The L with a special vertex. -/
example : ∃ F, mapW ell5R ell5 ell5List ell5Patch 3 = some F ∧ ∀ f : Pos → ℝ, Smooth ell5R ell5 ell5Patch 3 f ↔ ∃ c : ℕ → ℝ, ∀ y, ell5.In y → y.p < 3 → f y = ∑ k ∈ range F.length, c k * entry (F.getD k []) y := by
  obtain ⟨F, h1, h2, -⟩ := C73_basis_partial ell5R_setup ell5R_matched fun _ _ _ => rfl
  exact ⟨F, h1, h2⟩

/-- Four patches around a vertex with blocks. -/
example : ∃ F, mapW four5R four5 (fun _ => []) four5Patch 4 = some F ∧ ∀ f : Pos → ℝ, Smooth four5R four5 four5Patch 4 f ↔ ∃ c : ℕ → ℝ, ∀ y, four5.In y → y.p < 4 → f y = ∑ k ∈ range F.length, c k * entry (F.getD k []) y := by
  obtain ⟨F, h1, h2, -⟩ := C73_basis_partial four5R_setup four5R_matched fun _ _ _ => rfl
  exact ⟨F, h1, h2⟩

/-- Four patches with weights one and knots that are not symmetric; the interface between the patches 1 and 3 is reversed. -/
noncomputable def four5D : Wts ℝ := ⟨2, fun p dir => if p = 3 ∧ dir = false then [0, 0, 0, 2, 3, 4, 4, 4] else [0, 0, 0, 1, 2, 4, 4, 4], fun _ _ => 1⟩

example : ∃ F, mapW four5D four5 (fun _ => []) four5Patch 4 = some F ∧ ∀ f : Pos → ℝ, Smooth four5D four5 four5Patch 4 f ↔ ∃ c : ℕ → ℝ, ∀ y, four5.In y → y.p < 4 → f y = ∑ k ∈ range F.length, c k * entry (F.getD k []) y := by
  have S : SetupW four5D four5 (fun _ => []) four5Patch 4 2 :=
    { four5_setup with
      deg := le_refl 2
      knots := by
        intro p _ dir
        simp only [four5D]
        split_ifs
        · refine ⟨[2, 3], 4, rfl, by simp; norm_num, fun z hz => ?_, by norm_num⟩
          simp only [List.mem_cons, List.not_mem_nil, or_false] at hz
          rcases hz with rfl | rfl <;> norm_num
        · refine ⟨[1, 2], 4, rfl, by simp, fun z hz => ?_, by norm_num⟩
          simp only [List.mem_cons, List.not_mem_nil, or_false] at hz
          rcases hz with rfl | rfl <;> norm_num
      pos := fun _ _ _ => one_pos }
  obtain ⟨F, h1, h2, -⟩ := C73_default_partial S (fun _ _ => rfl) (fun p v q v' o _ h => by
    rcases four_nb h with ⟨rfl, rfl, rfl, rfl, rfl⟩ | ⟨rfl, rfl, rfl, rfl, rfl⟩ | ⟨rfl, rfl, rfl, rfl, rfl⟩ | ⟨rfl, rfl, rfl, rfl, rfl⟩ | ⟨rfl, rfl, rfl, rfl, rfl⟩ | ⟨rfl, rfl, rfl, rfl, rfl⟩ |
      ⟨rfl, rfl, rfl, rfl, rfl⟩ | ⟨rfl, rfl, rfl, rfl, rfl⟩ <;> simp [four5D, Side.dir, Boehm.reverseKnots] <;> norm_num) (fun p _ dir => by simp only [four5D]; split_ifs <;> rfl)
  exact ⟨F, h1, h2⟩

end Verif.FullMap
