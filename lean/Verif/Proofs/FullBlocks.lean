import Verif.Model.FullWeights
import Verif.Props.Walk
import Mathlib.Algebra.Order.Field.Basic
import Mathlib.Data.List.GetD

/-!
# The columns of blocks at a vertex of four patches (used for C70)
-/

set_option autoImplicit false
namespace Verif.FullMap
open Verif Verif.Walk Verif.Regions

/-! ## Vertices seen from their patches -/

private theorem step_h {T : Net} (U V : Vtx T) {α β : Bool} (hp : U.p α β = V.p α β) (hh : U.h α β = V.h α β) (hv : U.v α β = V.v α β) :
    U.p (!α) β = V.p (!α) β ∧ U.h (!α) β = V.h (!α) β ∧ U.v (!α) β = V.v (!α) β ∧ U.oh α β = V.oh α β := by
  have e := U.nbh α β
  rw [hp, hh, V.nbh α β] at e
  simp only [Option.some.injEq, Prod.mk.injEq] at e
  obtain ⟨e1, e2, e3⟩ := e
  refine ⟨e1.symm, e2.symm, ?_, e3.symm⟩
  rw [← U.th α β, ← V.th α β, hh, hv, e2, e3]

private theorem step_v {T : Net} (U V : Vtx T) {α β : Bool} (hp : U.p α β = V.p α β) (hh : U.h α β = V.h α β) (hv : U.v α β = V.v α β) :
    U.p α (!β) = V.p α (!β) ∧ U.h α (!β) = V.h α (!β) ∧ U.v α (!β) = V.v α (!β) ∧ U.ov α β = V.ov α β := by
  obtain ⟨h1, h2, h3, h4⟩ := step_h U.swap V.swap (α := β) (β := α) hp hv hh
  exact ⟨h1, h3, h2, h4⟩

/-- A vertex is determined by one of its patches and the two sides there. -/
theorem vtx_eq {T : Net} (U V : Vtx T) (hp : U.p false false = V.p false false) (hh : U.h false false = V.h false false) (hv : U.v false false = V.v false false) : U = V := by
  obtain ⟨a1, a2, a3, a4⟩ := step_h U V hp hh hv
  obtain ⟨b1, b2, b3, b4⟩ := step_v U V hp hh hv
  obtain ⟨c1, c2, c3, c4⟩ := step_h U V b1 b2 b3
  have e4 := (step_v U V a1 a2 a3).2.2.2
  have f4 := (step_h U V a1 a2 a3).2.2.2
  have g4 := (step_v U V b1 b2 b3).2.2.2
  have h4 := (step_h U V c1 c2 c3).2.2.2
  have i4 := (step_v U V c1 c2 c3).2.2.2
  simp only [Bool.not_false] at *
  have p : U.p = V.p := by funext α β; cases α <;> cases β <;> assumption
  have h : U.h = V.h := by funext α β; cases α <;> cases β <;> assumption
  have v : U.v = V.v := by funext α β; cases α <;> cases β <;> assumption
  have oh : U.oh = V.oh := by funext α β; cases α <;> cases β <;> assumption
  have ov : U.ov = V.ov := by funext α β; cases α <;> cases β <;> assumption
  cases U; cases V
  simp only at p h v oh ov
  subst p h v oh ov
  rfl

/-- The vertex seen from its patch `(α,β)`. -/
def _root_.Verif.Walk.Vtx.re {T : Net} (V : Vtx T) (α β : Bool) : Vtx T where
  p γ δ := V.p (xor α γ) (xor β δ)
  h γ δ := V.h (xor α γ) (xor β δ)
  v γ δ := V.v (xor α γ) (xor β δ)
  oh γ δ := V.oh (xor α γ) (xor β δ)
  ov γ δ := V.ov (xor α γ) (xor β δ)
  perp γ δ := V.perp _ _
  nbh γ δ := by rw [Bool.xor_not]; exact V.nbh _ _
  nbv γ δ := by rw [Bool.xor_not]; exact V.nbv _ _
  th γ δ := by rw [Bool.xor_not]; exact V.th _ _
  tv γ δ := by rw [Bool.xor_not]; exact V.tv _ _

/-- The vertex with the side in the first place that is a south or north side. -/
def _root_.Verif.Walk.Vtx.sort {T : Net} (V : Vtx T) : Vtx T := if (V.h false false).dir then V else V.swap

theorem sort_dir {T : Net} (V : Vtx T) : (V.sort.h false false).dir = true ∧ (V.sort.v false false).dir = false := by
  unfold Vtx.sort
  have := V.perp false false
  split_ifs with h
  · rw [h] at this
    exact ⟨h, by simpa using this⟩
  · have h' : (V.h false false).dir = false := by simpa using h
    rw [h'] at this
    exact ⟨by simpa [Vtx.swap] using this, h'⟩

/-! ## The column of a block -/

section
variable {K : Type} [Field K] [LinearOrder K]

theorem weightLoop_eq (ws : List (List K)) (lens : List ℕ) (n : ℕ) (pt : List ℕ) (h : Bd lens pt) (hn : val lens pt + n = gridSize lens) :
    weightLoop ws lens n pt = (visited lens n pt).mapM (pointWeight ws) := by
  induction n generalizing pt with
  | zero => have := val_lt h; omega
  | succ n ih =>
    rw [weightLoop, visited]
    rcases e : nextPoint lens pt with _ | pt'
    · simp only [List.mapM_cons, List.mapM_nil]
      rcases pointWeight ws pt with _ | y <;> rfl
    · obtain ⟨b, v⟩ := next_some h e
      have hlt := val_lt b
      simp only [List.mapM_cons, ih pt' b (by omega)]
      rcases pointWeight ws pt with _ | y
      · rfl
      · rcases (visited lens n pt').mapM (pointWeight ws) with _ | l <;> rfl

omit [LinearOrder K] in
theorem entry_spec (col : List (Pos × K)) (y : Pos) (c : K) (h : ∀ e ∈ col, e.1 = y → e.2 = c) : ((∃ e ∈ col, e.1 = y) → entry col y = c) ∧ ((¬ ∃ e ∈ col, e.1 = y) → entry col y = 0) := by
  have key : ∀ (col : List (Pos × K)), (∀ e ∈ col, e.1 = y → e.2 = c) → ∀ v : K,
      ((∃ e ∈ col, e.1 = y) → col.foldl (fun v e => if e.1 = y then e.2 else v) v = c) ∧ ((¬ ∃ e ∈ col, e.1 = y) → col.foldl (fun v e => if e.1 = y then e.2 else v) v = v) := by
    intro col
    induction col with
    | nil => intro _ v; simp
    | cons a l ih =>
      intro h v
      have ih := fun v => ih (fun e he => h e (List.mem_cons_of_mem _ he)) v
      rw [List.foldl_cons]
      by_cases ha : a.1 = y
      · rw [if_pos ha, h a List.mem_cons_self ha]
        refine ⟨fun _ => ?_, fun hn => absurd ⟨a, List.mem_cons_self, ha⟩ hn⟩
        by_cases hl : ∃ e ∈ l, e.1 = y
        · exact (ih c).1 hl
        · exact (ih c).2 hl
      · rw [if_neg ha]
        constructor
        · rintro ⟨e, he, hy⟩
          rcases List.mem_cons.1 he with rfl | he
          · exact absurd hy ha
          · exact (ih v).1 ⟨e, he, hy⟩
        · intro hn
          exact (ih v).2 fun ⟨e, he, hy⟩ => hn ⟨e, List.mem_cons_of_mem _ he, hy⟩
  exact key col h 0

/-- The weight, in one direction, of a function at distance `i` for the call from distance `a`, on the same side (`γ` false) or on the other one. -/
def coef (w : List K) (γ : Bool) (a i : ℕ) : K := if γ then w.getD (a + 1 + i) 0 else if i ≤ a then w.getD (a - i) 0 else 0

/-- The column of the call for a block. -/
theorem column_block (W : Wts K) {T : Net} (hc : T.Conform) (ht : T.NoTwist) (V : Vtx T) (hp : ∀ α β α' β', V.p α β = V.p α' β' → α = α' ∧ β = β') {d : ℕ}
    (hr : ∀ α β, d ≤ T.parMax (V.p α β) (V.h α β).dir + 1 ∧ d ≤ T.parMax (V.p α β) (V.v α β).dir + 1) {x : Pos} {a b : ℕ} (hx : At V x false false a b) (ha : a < d) (hb : b < d)
    (cornerList : PCorner → List PCorner) {w1 w2 : List K} (hw1 : weights1D W T x.p (V.h false false) d a = some w1) (hw2 : weights1D W T x.p (V.v false false) d b = some w2)
    (hl1 : w1.length = d + 1) (hl2 : w2.length = d + 1) :
    ((∀ α β, x.p ≤ V.p α β) → ∃ col, addCallW W T cornerList x (.block (V.h false false) (V.v false false) d d a b) = some (some col) ∧
      (∀ e ∈ col, ∃ u ∈ w1, ∃ v ∈ w2, e.2 = u * v) ∧
      (∀ y, entry col y ≠ 0 → ∃ γ δ i j, At V y γ δ i j ∧ i < d ∧ j < d) ∧
      ∀ y γ δ i j, At V y γ δ i j → i < d → j < d → entry col y = coef w1 γ a i * coef w2 δ b j) ∧
    ((¬ ∀ α β, x.p ≤ V.p α β) → addCallW W T cornerList x (.block (V.h false false) (V.v false false) d d a b) = some none) := by
  have hroom : Room V a (d - 1 - a) b (d - 1 - b) := by
    intro α β
    have := hr α β
    cases α <;> cases β <;> simp <;> omega
  have hex : ∀ m n, ∃ y, m ≤ d → n ≤ d → travel T x [stepsTo (V.h false false) m, stepsTo (V.v false false) n] = some y ∧
      At V y (if m ≤ a then false else true) (if n ≤ b then false else true) (if m ≤ a then a - m else m - 1 - a) (if n ≤ b then b - n else n - 1 - b) := by
    intro m n
    by_cases h : m ≤ d ∧ n ≤ d
    · obtain ⟨y, h1, -, h3⟩ := travel_block hc ht V hroom (α := false) (β := false) hx (m := m) (n := n) (by omega) (by omega)
      exact ⟨y, fun _ _ => ⟨h1, h3⟩⟩
    · exact ⟨x, fun h1 h2 => absurd ⟨h1, h2⟩ h⟩
  choose y hy using hex
  set G := visited [d, d] (gridSize [d, d]) ([d, d].map fun _ => 0) with hG
  have hloc : blockLocals T x [V.h false false, V.v false false] [d, d] = some (G.map fun q => y (q.getD 0 0) (q.getD 1 0)) := by
    rw [C40_locals, ← hG, mapM_iff]
    refine ⟨by simp, fun i q hq => ?_⟩
    obtain ⟨m, n, rfl, h1, h2⟩ := mem_grid.1 (List.mem_of_getElem? hq)
    rw [List.getElem?_map, hq]
    exact (hy m n h1 h2).1
  have hwt : weightLoop [w1, w2] [d, d] (([d, d].map (· + 1)).foldr (· * ·) 1) ([d, d].map fun _ => 0) = some (G.map fun q => w1.getD (q.getD 0 0) 0 * w2.getD (q.getD 1 0) 0) := by
    obtain ⟨bz, v⟩ := bd_zero [d, d]
    rw [gridSize_eq, weightLoop_eq _ _ _ _ bz (by rw [v, Nat.zero_add]), ← hG, mapM_iff]
    refine ⟨by simp, fun i q hq => ?_⟩
    obtain ⟨m, n, rfl, h1, h2⟩ := mem_grid.1 (List.mem_of_getElem? hq)
    rw [List.getElem?_map, hq]
    have e1 : w1[m]? = some (w1.getD m 0) := by rw [List.getElem?_eq_getElem (by omega), List.getD_eq_getElem _ _ (by omega)]
    have e2 : w2[n]? = some (w2.getD n 0) := by rw [List.getElem?_eq_getElem (by omega), List.getD_eq_getElem _ _ (by omega)]
    simp only [pointWeight, e1, e2, Option.bind_eq_bind, Option.bind_some, mul_one, Option.map_some, List.getD_cons_zero, List.getD_cons_succ]
  have hadd : addCallW W T cornerList x (.block (V.h false false) (V.v false false) d d a b) =
      some (if alreadyHandled (G.map fun q => y (q.getD 0 0) (q.getD 1 0)) x.p then none else some (G.map fun q => (y (q.getD 0 0) (q.getD 1 0), w1.getD (q.getD 0 0) 0 * w2.getD (q.getD 1 0) 0))) := by
    unfold addCallW addBlockW
    simp only [List.zip_cons_cons, List.zip_nil_right, List.mapM_cons, List.mapM_nil, hw1, hw2, hwt, hloc, Option.bind_eq_bind, Option.bind_some, Option.pure_def, List.zip_map']
  -- the grid point of a function
  have hit : ∀ z γ δ i j, At V z γ δ i j → ∀ m n, m ≤ d → n ≤ d → (y m n = z ↔ (if γ then m = a + 1 + i else m + i = a) ∧ (if δ then n = b + 1 + j else n + j = b)) := by
    intro z γ δ i j hz m n hm hn
    have h := (hy m n hm hn).2
    constructor
    · intro e
      rw [e] at h
      obtain ⟨p1, p2⟩ := hp _ _ _ _ (hz.1.symm.trans h.1)
      have h2 := hz.2.2.1
      have h3 := hz.2.2.2
      have k2 := h.2.2.1
      have k3 := h.2.2.2
      rw [← p1, ← p2] at k2 k3
      rw [h2] at k2
      rw [h3] at k3
      constructor
      · by_cases c : m ≤ a <;> simp only [c, if_true, if_false] at p1 k2 <;> subst p1 <;> simp <;> omega
      · by_cases c : n ≤ b <;> simp only [c, if_true, if_false] at p2 k3 <;> subst p2 <;> simp <;> omega
    · rintro ⟨e1, e2⟩
      have p1 : (if m ≤ a then false else true) = γ ∧ (if m ≤ a then a - m else m - 1 - a) = i := by
        cases γ <;> simp at e1 ⊢
        · constructor
          · omega
          · rw [if_pos (by omega)]; omega
        · constructor
          · omega
          · rw [if_neg (by omega)]; omega
      have p2 : (if n ≤ b then false else true) = δ ∧ (if n ≤ b then b - n else n - 1 - b) = j := by
        cases δ <;> simp at e2 ⊢
        · constructor
          · omega
          · rw [if_pos (by omega)]; omega
        · constructor
          · omega
          · rw [if_neg (by omega)]; omega
      rw [p1.1, p1.2, p2.1, p2.2] at h
      exact dist_unique h.2.1 hz.2.1 (h.1.trans hz.1.symm) (V.perp γ δ) (h.2.2.1.trans hz.2.2.1.symm) (h.2.2.2.trans hz.2.2.2.symm)
  constructor
  · intro hmin
    have hno : ¬ alreadyHandled (G.map fun q => y (q.getD 0 0) (q.getD 1 0)) x.p = true := by
      intro h
      obtain ⟨z, z1, z2⟩ := List.any_eq_true.1 h
      obtain ⟨q, hq, rfl⟩ := List.mem_map.1 z1
      obtain ⟨m, n, rfl, h1, h2⟩ := mem_grid.1 hq
      have z2 := of_decide_eq_true z2
      simp only [List.getD_cons_zero, List.getD_cons_succ] at z2
      rw [(hy m n h1 h2).2.1] at z2
      exact absurd z2 (Nat.not_lt.2 (hmin _ _))
    rw [if_neg hno] at hadd
    refine ⟨_, hadd, ?_, ?_, ?_⟩
    · intro e he
      obtain ⟨q, hq, rfl⟩ := List.mem_map.1 he
      obtain ⟨m, n, rfl, h1, h2⟩ := mem_grid.1 hq
      refine ⟨w1.getD m 0, ?_, w2.getD n 0, ?_, rfl⟩
      · rw [List.getD_eq_getElem _ _ (by omega)]; exact List.getElem_mem _
      · rw [List.getD_eq_getElem _ _ (by omega)]; exact List.getElem_mem _
    · intro z hne
      by_contra hcon
      refine hne ((entry_spec _ z 0 ?_).2 ?_)
      · intro e he hez
        exfalso
        obtain ⟨q, hq, rfl⟩ := List.mem_map.1 he
        obtain ⟨m, n, rfl, h1, h2⟩ := mem_grid.1 hq
        simp only [List.getD_cons_zero, List.getD_cons_succ] at hez
        have := (hy m n h1 h2).2
        rw [hez] at this
        exact hcon ⟨_, _, _, _, this, by split_ifs <;> omega, by split_ifs <;> omega⟩
      · rintro ⟨e, he, hez⟩
        obtain ⟨q, hq, rfl⟩ := List.mem_map.1 he
        obtain ⟨m, n, rfl, h1, h2⟩ := mem_grid.1 hq
        simp only [List.getD_cons_zero, List.getD_cons_succ] at hez
        have := (hy m n h1 h2).2
        rw [hez] at this
        exact hcon ⟨_, _, _, _, this, by split_ifs <;> omega, by split_ifs <;> omega⟩
    · intro z γ δ i j hz hi hj
      have val : ∀ m n, m ≤ d → n ≤ d → y m n = z → w1.getD m 0 * w2.getD n 0 = coef w1 γ a i * coef w2 δ b j := by
        intro m n hm hn e
        obtain ⟨e1, e2⟩ := (hit z γ δ i j hz m n hm hn).1 e
        have c1 : coef w1 γ a i = w1.getD m 0 := by
          unfold coef
          cases γ <;> simp at e1 ⊢
          · rw [if_pos (by omega), show a - i = m by omega]
          · rw [e1]
        have c2 : coef w2 δ b j = w2.getD n 0 := by
          unfold coef
          cases δ <;> simp at e2 ⊢
          · rw [if_pos (by omega), show b - j = n by omega]
          · rw [e2]
        rw [c1, c2]
      have spec := entry_spec (G.map fun q => (y (q.getD 0 0) (q.getD 1 0), w1.getD (q.getD 0 0) 0 * w2.getD (q.getD 1 0) 0)) z (coef w1 γ a i * coef w2 δ b j) (by
        intro e he hez
        obtain ⟨q, hq, rfl⟩ := List.mem_map.1 he
        obtain ⟨m, n, rfl, h1, h2⟩ := mem_grid.1 hq
        exact val m n h1 h2 hez)
      by_cases hex : ∃ e ∈ G.map fun q => (y (q.getD 0 0) (q.getD 1 0), w1.getD (q.getD 0 0) 0 * w2.getD (q.getD 1 0) 0), e.1 = z
      · exact spec.1 hex
      · rw [spec.2 hex]
        have miss : coef w1 γ a i = 0 ∨ coef w2 δ b j = 0 := by
          by_contra hcon
          rw [not_or] at hcon
          obtain ⟨n1, n2⟩ := hcon
          have m1 : ∃ m ≤ d, if γ then m = a + 1 + i else m + i = a := by
            unfold coef at n1
            cases γ <;> simp at n1 ⊢
            · exact ⟨a - i, by omega, by omega⟩
            · by_contra hc
              exact n1 (by rw [List.getElem?_eq_none (by omega)]; rfl)
          have m2 : ∃ n ≤ d, if δ then n = b + 1 + j else n + j = b := by
            unfold coef at n2
            cases δ <;> simp at n2 ⊢
            · exact ⟨b - j, by omega, by omega⟩
            · by_contra hc
              exact n2 (by rw [List.getElem?_eq_none (by omega)]; rfl)
          obtain ⟨m, hm, k1⟩ := m1
          obtain ⟨n, hn, k2⟩ := m2
          exact hex ⟨_, List.mem_map.2 ⟨[m, n], mem_grid.2 ⟨m, n, rfl, hm, hn⟩, rfl⟩, (hit z γ δ i j hz m n hm hn).2 ⟨k1, k2⟩⟩
        rcases miss with h | h <;> rw [h] <;> simp
  · intro hmin
    rw [hadd, if_pos]
    simp only [not_forall, not_le] at hmin
    obtain ⟨α, β, hlt⟩ := hmin
    refine List.any_eq_true.2 ⟨y (if α then a + 1 else a) (if β then b + 1 else b), List.mem_map.2 ⟨[if α then a + 1 else a, if β then b + 1 else b], mem_grid.2 ⟨_, _, rfl, by split_ifs <;> omega, by split_ifs <;> omega⟩, rfl⟩, decide_eq_true ?_⟩
    rw [(hy _ _ (by split_ifs <;> omega) (by split_ifs <;> omega)).2.1]
    have e1 : (if (if α then a + 1 else a) ≤ a then false else true) = α := by cases α <;> simp
    have e2 : (if (if β then b + 1 else b) ≤ b then false else true) = β := by cases β <;> simp
    rw [e1, e2]
    exact hlt
end
end Verif.FullMap
