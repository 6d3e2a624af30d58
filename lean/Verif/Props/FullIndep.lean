import Verif.Props.FullWeights

/-!
# C71: the columns of the map are linearly independent
-/

set_option autoImplicit false

namespace Verif.FullMap
open Verif Verif.Walk Verif.Regions Finset

variable {K : Type} [Field K] [LinearOrder K]

/-- The distances from the four sides, cut off at `d`. -/
def depth (T : Net) (d : ℕ) (x : Pos) : ℕ := min (dist T x .west) d + min (dist T x .east) d + min (dist T x .south) d + min (dist T x .north) d

section
variable [IsStrictOrderedRing K] {W : Wts K} {T : Net} {cornerList : PCorner → List PCorner} {P : ℕ → Patch} {n d : ℕ}

private theorem depth_line (S : SetupW W T cornerList P n d) {x y : Pos} (hx : T.In x) (hy : T.In y) (hp : x.p < n) (e : y.p = x.p) {s : Side} (ha : along y s = along x s) (hd : dist T x s < d)
    (h : dist T y s < dist T x s) : depth T d y < depth T d x := by
  have h1 := two_d S hp false
  have h2 := two_d S hp true
  obtain ⟨p, u, v⟩ := x
  obtain ⟨q, u', v'⟩ := y
  simp only at e
  subst e
  obtain ⟨a1, a2⟩ := hx
  obtain ⟨b1, b2⟩ := hy
  simp only at h1 h2 a1 a2 b1 b2
  cases s <;> simp only [along, dist, depth, Side.dir, if_true, Bool.false_eq_true, if_false] at ha hd h ⊢ <;> subst ha <;> omega

private theorem depth_block (S : SetupW W T cornerList P n d) {x y : Pos} (hx : T.In x) (hy : T.In y) (hp : x.p < n) (e : y.p = x.p) {s r : Side} (hs : s.dir = true) (hr : r.dir = false) (ds : dist T x s < d) (dr : dist T x r < d)
    (h1 : dist T y s ≤ dist T x s) (h2 : dist T y r ≤ dist T x r) (hne : x ≠ y) : depth T d y < depth T d x := by
  have g1 := two_d S hp false
  have g2 := two_d S hp true
  have hne' : dist T y s ≠ dist T x s ∨ dist T y r ≠ dist T x r := by
    by_contra c
    push Not at c
    exact hne (dist_unique hx hy e.symm (by rw [hs, hr]; simp) c.1.symm c.2.symm)
  clear hne
  obtain ⟨p, u, v⟩ := x
  obtain ⟨q, u', v'⟩ := y
  simp only at e
  subst e
  obtain ⟨a1, a2⟩ := hx
  obtain ⟨b1, b2⟩ := hy
  simp only at g1 g2 a1 a2 b1 b2
  cases s <;> cases r <;> simp only [Side.dir, Bool.true_eq_false, Bool.false_eq_true] at hs hr <;> simp only [dist, depth] at ds dr h1 h2 hne' ⊢ <;> omega

/-- A call that adds a column has a nonzero weight for its own function. -/
private theorem own (S : SetupW W T cornerList P n d) {x : Pos} (hx : T.In x) (hp : x.p < n) (h : colOf W T cornerList P x ≠ none) : 0 < contrib W T cornerList P x x := by
  rcases kinds S hx hp with ⟨k, k'⟩ | ⟨k, s, r, k', -⟩ | ⟨k, s, k', k''⟩ | ⟨k, k', k'', -⟩
  · obtain ⟨l, -, l2, l3⟩ := col_corner S hx hp k
    unfold contrib colOf at *
    rw [k', l3, Option.getD_some] at h ⊢
    split_ifs at h ⊢ with c
    · exact absurd rfl h
    · rw [Option.map_some, Option.getD_some, entry_ones, if_pos ((l2 x).2 Relation.ReflTransGen.refl)]
      exact zero_lt_one
  · obtain ⟨-, -, V, v1, v2, v3, hV⟩ := vertex_at S hp k'
    obtain ⟨-, c1, c2⟩ := contrib_block S hx hp k k' v1 v2 v3 hV
    have hmin : ∀ α β, x.p ≤ V.p α β := by
      by_contra c
      exact h (c2 c)
    have n1 := V.nbh false false
    have n2 := V.nbv false false
    rw [v1, v2] at n1
    rw [v1, v3] at n2
    rw [(c1 hmin).2 x false false _ _ ⟨v1.symm, hx, by rw [v2], by rw [v3]⟩ k'.2.2.2.2.1 k'.2.2.2.2.2.1]
    simp only [coef, Bool.false_eq_true, if_false, le_refl, if_true, Nat.sub_self]
    exact mul_pos (lineW_first S hp n1 (le_refl d) k'.2.2.2.2.1) (lineW_first S hp n2 (le_refl d) k'.2.2.2.2.2.1)
  · obtain ⟨⟨q, s', o⟩, hnb⟩ := Option.isSome_iff_exists.1 k'.1
    have hc := col_line S hx hp k' hnb
    have hq : ¬ q < x.p := by
      intro c
      rw [if_pos c] at hc
      unfold colOf at h
      rw [k'', hc] at h
      exact h rfl
    have hle := rows_le S hp s (along x s)
    have hqq := S.nbr _ _ _ _ _ hp hnb
    have h2 := two_d S hqq.1 s'.dir
    have e0 : spot T x.p s q s' o (along x s) (dist T x s) 0 = x := by
      unfold spot
      rw [if_pos (Nat.zero_le _), Nat.sub_zero, ← eq_place hx s]
    rw [(contrib_line S hx hp k k' hnb).2, if_neg hq, Finset.sum_eq_single 0]
    · rw [if_pos e0]
      exact lineW_first S hp hnb hle k'.2.1
    · intro i hi hi0
      have hi := Finset.mem_range.1 hi
      refine if_neg fun c => hi0 ?_
      exact spot_inj (len := rows (P x.p).clipped s (along x s)) hqq.2 (dist_le hx s) (by omega) (by omega) (by omega) (c.trans e0.symm)
    · intro c
      exact absurd (Finset.mem_range.2 (Nat.succ_pos _)) c
  · rw [(contrib_free S hx hp k k' k'').2, if_pos rfl]
    exact zero_lt_one

/-- Another call reaching a function whose call adds a column starts further from the sides. -/
private theorem further (S : SetupW W T cornerList P n d) {x y : Pos} (hx : T.In x) (hp : x.p < n) (hy : T.In y) (hyp : y.p < n) (hyy : contrib W T cornerList P y y ≠ 0) (hxy : contrib W T cornerList P x y ≠ 0)
    (hne : x ≠ y) : depth T d y < depth T d x := by
  rcases kinds S hx hp with ⟨k, -⟩ | ⟨k, s, r, k', -⟩ | ⟨k, s, k', -⟩ | ⟨k, k', k'', -⟩
  · exfalso
    obtain ⟨-, l, l1, l2⟩ := contrib_corner S hx hp k
    rw [l2] at hxy
    have h1 : y ∈ l ∧ ∀ z ∈ l, x.p ≤ z.p := by by_contra c; rw [if_neg c] at hxy; exact hxy rfl
    have g := (l1 y).1 h1.1
    obtain ⟨-, m, m1, m2⟩ := contrib_corner S hy hyp (glued_special S hx hp k g)
    rw [m2] at hyy
    have h2 : y ∈ m ∧ ∀ z ∈ m, y.p ≤ z.p := by by_contra c; rw [if_neg c] at hyy; exact hyy rfl
    exact hne (S.once x y hx hp k g (le_antisymm (h1.2 y h1.1) (h2.2 x ((m1 x).2 (glued_symm S.sym S.conform hx g)))))
  · obtain ⟨V, v1, v2, v3, hV, hmin, γ, δ, i, j, hat, hi, hj⟩ := block_reach S hx hp k k' hxy
    have hle : y.p ≤ x.p := by
      obtain ⟨-, c1, s1, r1, b1, b2⟩ := block_at S hV hat hi hj
      by_contra c
      rcases b2 with ⟨q1, q2⟩ | ⟨q1, q2⟩
      · obtain ⟨-, -, e⟩ := contrib_block S hy hyp c1 b1 (V := V.re γ δ) (by simpa [Vtx.re] using hat.1.symm) (by simpa [Vtx.re] using q1.symm) (by simpa [Vtx.re] using q2.symm) (good_re hV γ δ)
        refine hyy ?_
        unfold contrib
        rw [e fun hh => c ?_]
        · rfl
        · have := hh γ δ
          simpa [Vtx.re, v1] using this
      · obtain ⟨-, -, e⟩ := contrib_block S hy hyp c1 b1 (V := V.swap.re δ γ) (by simpa [Vtx.re, Vtx.swap] using hat.1.symm) (by simpa [Vtx.re, Vtx.swap] using q1.symm) (by simpa [Vtx.re, Vtx.swap] using q2.symm)
          (good_re (good_swap hV) δ γ)
        refine hyy ?_
        unfold contrib
        rw [e fun hh => c ?_]
        · rfl
        · have := hh δ γ
          simpa [Vtx.re, Vtx.swap, v1] using this
    have hge := hmin γ δ
    have hat1 := hat.1
    obtain ⟨rfl, rfl⟩ := hV.inj γ δ false false (by omega)
    obtain ⟨-, c1, -⟩ := contrib_block S hx hp k k' v1 v2 v3 hV
    rw [(c1 hmin).2 y false false i j hat hi hj] at hxy
    have hi' : i ≤ dist T x s := by
      by_contra c
      apply hxy
      simp [coef, c]
    have hj' : j ≤ dist T x r := by
      by_contra c
      apply hxy
      simp [coef, c]
    obtain ⟨-, -, a3, a4⟩ := hat
    rw [v2] at a3
    rw [v3] at a4
    exact depth_block S hx hy hp (by omega) k'.1 k'.2.1 k'.2.2.2.2.1 k'.2.2.2.2.2.1 (by omega) (by omega) hne
  · obtain ⟨⟨q, s', o⟩, hnb⟩ := Option.isSome_iff_exists.1 k'.1
    have hqq := S.nbr _ _ _ _ _ hp hnb
    rw [(contrib_line S hx hp k k' hnb).2] at hxy
    have hq : ¬ q < x.p := by intro c; rw [if_pos c] at hxy; exact hxy rfl
    rw [if_neg hq] at hxy
    obtain ⟨i, hi, hi'⟩ := Finset.exists_ne_zero_of_sum_ne_zero hxy
    have hi := Finset.mem_range.1 hi
    have e : spot T x.p s q s' o (along x s) (dist T x s) i = y := by by_contra c; rw [if_neg c] at hi'; exact hi' rfl
    obtain ⟨c1, ⟨a1, a2, a3, a4, a5⟩ | ⟨a1, a2, a3, a4, a5⟩⟩ := spot_line S hx hp k k' hnb (by omega) e
    · have hle := rows_le S hp s (along x s)
      have hlt := k'.2.1
      refine depth_line S hx hy hp a2 a4 (by omega) ?_
      by_contra c
      apply hne
      rw [eq_place hx s, eq_place hy s, a2, a4, show dist T y s = dist T x s by omega]
    · exfalso
      have hs := S.sym _ _ _ _ _ hnb
      rw [← a2] at hs
      rw [(contrib_line S hy hyp c1 a3 hs).2, if_pos (by have := hqq.2; omega)] at hyy
      exact hyy rfl
  · rw [(contrib_free S hx hp k k' k'').2, if_neg hne] at hxy
    exact absurd rfl hxy

omit [Field K] [LinearOrder K] [IsStrictOrderedRing K] in
/-- The calls that add the columns. -/
private theorem starts (l : List (Pos × Call)) (f : Pos → Option (List (Pos × K))) :
    ∃ L : List Pos, List.Sublist L (l.map Prod.fst) ∧ L.map f = (l.filterMap fun e => f e.1).map some ∧ ∀ e ∈ l, f e.1 ≠ none → e.1 ∈ L := by
  induction l with
  | nil => exact ⟨[], by simp, rfl, by simp⟩
  | cons e l ih =>
    obtain ⟨L, h1, h2, h3⟩ := ih
    cases h : f e.1 with
    | none =>
      refine ⟨L, h1.cons _, by rw [h2, List.filterMap_cons, h], fun e' he hn => ?_⟩
      rcases List.mem_cons.1 he with rfl | he
      · exact absurd h hn
      · exact h3 e' he hn
    | some c =>
      refine ⟨e.1 :: L, by rw [List.map_cons]; exact h1.cons_cons _, by rw [List.map_cons, h2, List.filterMap_cons, h, List.map_cons], fun e' he hn => ?_⟩
      rcases List.mem_cons.1 he with rfl | he
      · exact List.mem_cons_self
      · exact List.mem_cons_of_mem _ (h3 e' he hn)

/-- The columns with the functions whose calls add them: the square matrix of the weights of these functions has no kernel. -/
theorem columns_at (S : SetupW W T cornerList P n d) :
    ∃ (F : List (List (Pos × K))) (L : List Pos), mapW W T cornerList P n = some F ∧ L.length = F.length ∧ (∀ y, T.In y → y.p < n → colOf W T cornerList P y ≠ none → y ∈ L) ∧ (∀ y ∈ L, T.In y ∧ y.p < n) ∧
      (∀ c : ℕ → K, (∀ m < F.length, ∑ k ∈ range F.length, c k * entry (F.getD k []) (L.getD m ⟨0, 0, 0⟩) = 0) → ∀ k < F.length, c k = 0) := by
  obtain ⟨L, h1, h2, h3⟩ := starts (allCalls P n) (colOf W T cornerList P)
  refine ⟨_, L, map_eq S, by simpa using congrArg List.length h2, ?_, ?_, fun c hc => ?_⟩
  · intro y hy hp hn
    have := count_calls' S hy hp
    obtain ⟨e, he, h⟩ := List.countP_pos_iff.1 (by rw [this]; exact one_pos)
    have h := of_decide_eq_true h
    rw [← h] at hn ⊢
    exact h3 e he hn
  · intro y hy
    obtain ⟨e, he, h'⟩ := List.mem_map.1 (h1.subset hy)
    obtain ⟨a1, a2, -⟩ := mem_calls' S he
    rw [← h']
    exact ⟨a1, a2⟩
  generalize (allCalls P n).filterMap (fun e => colOf W T cornerList P e.1) = F at h2 hc ⊢
  have hlen : L.length = F.length := by have := congrArg List.length h2; simpa using this
  have hnd : L.Nodup := h1.nodup (calls_nodup S)
  have hcol : ∀ k (h : k < F.length), colOf W T cornerList P (L[k]'(by omega)) = some (F.getD k []) := by
    intro k h
    have := congrArg (fun l => l[k]?) h2
    simp only [List.getElem?_map, List.getElem?_eq_getElem h, List.getElem?_eq_getElem (show k < L.length by omega), Option.map_some, Option.some.injEq] at this
    rw [this, List.getD_eq_getElem _ _ h]
  have hin : ∀ k (h : k < L.length), T.In L[k] ∧ L[k].p < n := by
    intro k h
    obtain ⟨e, he, h'⟩ := List.mem_map.1 (h1.subset (List.getElem_mem h))
    obtain ⟨a1, a2, -⟩ := mem_calls' S he
    rw [← h']
    exact ⟨a1, a2⟩
  by_contra hne
  push Not at hne
  obtain ⟨k₀, hk₀, hne₀⟩ := hne
  obtain ⟨k, hk, hmax⟩ := Finset.exists_max_image ((range F.length).filter fun k => c k ≠ 0) (fun k => depth T d (L.getD k ⟨0, 0, 0⟩)) ⟨k₀, Finset.mem_filter.2 ⟨Finset.mem_range.2 hk₀, hne₀⟩⟩
  obtain ⟨hk, hck⟩ := Finset.mem_filter.1 hk
  have hk := Finset.mem_range.1 hk
  obtain ⟨y1, y2⟩ := hin k (by omega)
  have hown := own S y1 y2 (by rw [hcol k hk]; simp)
  have row := hc k hk
  rw [List.getD_eq_getElem _ _ (show k < L.length by omega)] at row
  have hcon : ∀ m (h : m < F.length) y, entry (F.getD m []) y = contrib W T cornerList P (L[m]'(by omega)) y := by
    intro m h y
    unfold contrib
    rw [hcol m h]
    rfl
  rw [Finset.sum_eq_single k] at row
  · rw [hcon k hk] at row
    rcases mul_eq_zero.1 row with h | h
    · exact hck h
    · exact absurd h hown.ne'
  · intro m hm hmk
    have hm := Finset.mem_range.1 hm
    by_contra c0
    obtain ⟨z1, z2⟩ := hin m (by omega)
    have cm : c m ≠ 0 := fun h => c0 (by rw [h, zero_mul])
    have em : contrib W T cornerList P (L[m]'(by omega)) (L[k]'(by omega)) ≠ 0 := fun h => c0 (by rw [hcon m hm, h, mul_zero])
    have lt := further S z1 z2 y1 y2 hown.ne' em fun h => hmk ((List.Nodup.getElem_inj_iff hnd).1 h)
    have le := hmax m (Finset.mem_filter.2 ⟨Finset.mem_range.2 hm, cm⟩)
    simp only [List.getD_eq_getElem _ _ (show m < L.length by omega), List.getD_eq_getElem _ _ (show k < L.length by omega)] at le
    omega
  · intro h
    exact absurd (Finset.mem_range.2 hk) h

/-- C71: the columns of the map are linearly independent, for every smoothness.

Missing: as for `C70_rows_partial`. -/
theorem C71_columns_partial (S : SetupW W T cornerList P n d) :
    ∃ F, mapW W T cornerList P n = some F ∧ ∀ c : ℕ → K, (∀ y, T.In y → y.p < n → ∑ k ∈ range F.length, c k * entry (F.getD k []) y = 0) → ∀ k < F.length, c k = 0 := by
  obtain ⟨F, L, h1, h2, -, h3, h4⟩ := columns_at S
  refine ⟨F, h1, fun c hc => h4 c fun m hm => ?_⟩
  rw [List.getD_eq_getElem _ _ (show m < L.length by omega)]
  obtain ⟨a1, a2⟩ := h3 _ (List.getElem_mem (show m < L.length by omega))
  exact hc _ a1 a2

/-- C71 for functions: if the local functions of every patch are linearly independent, so are the global functions. `B p i j t` is the value of local function `(i,j)` of patch `p` at `t`.

Missing: as for `C70_rows_partial`. -/
theorem C71_functions_partial (S : SetupW W T cornerList P n d) {X : Type} (B : ℕ → ℕ → ℕ → X → K)
    (hB : ∀ p < n, ∀ a : ℕ → ℕ → K, (∀ t, ∑ i ∈ range (T.parMax p false + 1), ∑ j ∈ range (T.parMax p true + 1), a i j * B p i j t = 0) → ∀ i j, i ≤ T.parMax p false → j ≤ T.parMax p true → a i j = 0) :
    ∃ F, mapW W T cornerList P n = some F ∧ ∀ c : ℕ → K,
      (∀ p < n, ∀ t, ∑ k ∈ range F.length, c k * ∑ i ∈ range (T.parMax p false + 1), ∑ j ∈ range (T.parMax p true + 1), entry (F.getD k []) ⟨p, i, j⟩ * B p i j t = 0) → ∀ k < F.length, c k = 0 := by
  obtain ⟨F, h1, h2⟩ := C71_columns_partial S
  refine ⟨F, h1, fun c hc => h2 c fun y hy hp => ?_⟩
  refine hB y.p hp (fun i j => ∑ k ∈ range F.length, c k * entry (F.getD k []) ⟨y.p, i, j⟩) (fun t => ?_) y.u y.v hy.1 hy.2
  rw [← hc y.p hp t]
  simp only [Finset.sum_mul, Finset.mul_sum]
  rw [Finset.sum_comm (s := range F.length)]
  refine Finset.sum_congr rfl fun i _ => ?_
  rw [Finset.sum_comm]
  exact Finset.sum_congr rfl fun k _ => Finset.sum_congr rfl fun j _ => mul_assoc _ _ _

end

/-! ## Examples -/

/-- The L. -/
example : ∃ F, mapW ell5W ell5 ell5List ell5Patch 3 = some F ∧ ∀ c : ℕ → ℚ, (∀ y, ell5.In y → y.p < 3 → ∑ k ∈ range F.length, c k * entry (F.getD k []) y = 0) → ∀ k < F.length, c k = 0 :=
  C71_columns_partial ell5_setup

/-- Four patches around a vertex with blocks. -/
example : ∃ F, mapW ell5W four5 (fun _ => []) four5Patch 4 = some F ∧ ∀ c : ℕ → ℚ, (∀ y, four5.In y → y.p < 4 → ∑ k ∈ range F.length, c k * entry (F.getD k []) y = 0) → ∀ k < F.length, c k = 0 :=
  C71_columns_partial four5_setup

/-- Independent local functions exist. -/
example : ∃ F, mapW ell5W four5 (fun _ => []) four5Patch 4 = some F ∧ ∀ c : ℕ → ℚ,
    (∀ p < 4, ∀ t : ℕ × ℕ, ∑ k ∈ range F.length, c k * ∑ i ∈ range (four5.parMax p false + 1), ∑ j ∈ range (four5.parMax p true + 1), entry (F.getD k []) ⟨p, i, j⟩ * (if t = (i, j) then 1 else 0) = 0) →
    ∀ k < F.length, c k = 0 := by
  refine C71_functions_partial four5_setup (fun _ i j t => if t = (i, j) then 1 else 0) fun p _ a h i j hi hj => ?_
  have := h (i, j)
  rw [Finset.sum_eq_single i, Finset.sum_eq_single j, if_pos rfl, mul_one] at this
  · exact this
  · intro b _ hb; simp [Ne.symm hb]
  · intro hn; exact absurd (Finset.mem_range.2 (by omega)) hn
  · intro b _ hb; exact Finset.sum_eq_zero fun j' _ => by simp [Ne.symm hb]
  · intro hn; exact absurd (Finset.mem_range.2 (by omega)) hn

end Verif.FullMap
