import Verif.Model.HIndex
import Verif.Model.RefBox
import Verif.Props.Index
import Mathlib.Tactic.IntervalCases
/-!
# Property C53: functions counted from a corner of a hierarchical basis are the intended ones
-/
set_option autoImplicit false
namespace Verif.HIndex
open Verif Verif.Index

/-! ## Specification -/

/-- Number of the first function that does not vanish on element `e`. -/
def first (M : List ℕ) (e : ℕ) : ℕ := (M.take e).sum

/-- Function `i` does not vanish on element `e`. -/
def Touch (p : ℕ) (M : List ℕ) (i e : ℕ) : Prop := e ≤ M.length ∧ first M e ≤ i ∧ i ≤ first M e + p

/-- The refined part `om` is a set of elements of level 0; there the functions of level `top` are used, elsewhere those of level 0. Each element of level 0 has `r l` times `r l` elements of level `l`. -/
structure Desc where
  om : ℕ → ℕ → Bool
  top : ℕ
  r : ℕ → ℕ

/-- Rule of hierarchical bases: a function of the finest level is active if it vanishes outside the refined part, one of level 0 if it does not; between them no function is active, since all levels are refined in the same part. -/
def Active (B : HB) (D : Desc) (l i j : ℕ) : Prop :=
  if l = D.top then ∀ x y, Touch B.p0 (B.M0 l) i x → Touch B.p1 (B.M1 l) j y → D.om (x / D.r l) (y / D.r l) = true
  else if l = 0 then ∃ x y, Touch B.p0 (B.M0 l) i x ∧ Touch B.p1 (B.M1 l) j y ∧ D.om x y = false
  else False

/-- Element of level 0 at a corner. -/
def cornerElem (B : HB) (c : Corner) : ℕ × ℕ := (if c.pu then (B.M0 0).length else 0, if c.pv then (B.M1 0).length else 0)

/-- The basis is the hierarchical basis described by `D`. -/
structure Wf (B : HB) (D : Desc) : Prop where
  top : 0 < D.top
  r : ∀ l, 0 < D.r l
  len0 : ∀ l, l ≤ D.top → (B.M0 l).length + 1 = D.r l * ((B.M0 0).length + 1)
  len1 : ∀ l, l ≤ D.top → (B.M1 l).length + 1 = D.r l * ((B.M1 0).length + 1)
  r0 : D.r 0 = 1
  active : ∀ l i j, i < dim B.p0 (B.M0 l) → j < dim B.p1 (B.M1 l) → ((B.hidx l (i + dim B.p0 (B.M0 l) * j)).isSome = true ↔ Active B D l i j)
  inj : ∀ l f l' f' a, B.hidx l f = some a → B.hidx l' f' = some a → l = l' ∧ f = f'
  lvl : ∀ c, B.lvl c = if D.om (cornerElem B c).1 (cornerElem B c).2 then D.top else 0

/-- Number of elements of level 0 in a direction. -/
def el (M : List ℕ) : ℕ := M.length + 1

/-- The element that is `x` steps along side `s` and `y` steps across from the corner `c`: refined? -/
def Desc.loc (D : Desc) (B : HB) (c : Corner) (s : Side) (x y : ℕ) : Bool :=
  D.om (position (el (B.M0 0)) (el (B.M1 0)) c s x y).1 (position (el (B.M0 0)) (el (B.M1 0)) c s x y).2

/-- Degrees and knots along and across the side, seen from the corner. -/
def dAlong (B : HB) (s : Side) : ℕ := if s.dir then B.p0 else B.p1
def dAcross (B : HB) (s : Side) : ℕ := if s.dir then B.p1 else B.p0
def kAlong (B : HB) (c : Corner) (s : Side) (l : ℕ) : List ℕ := if s.dir then (if c.pu then (B.M0 l).reverse else B.M0 l) else (if c.pv then (B.M1 l).reverse else B.M1 l)
def kAcross (B : HB) (c : Corner) (s : Side) (l : ℕ) : List ℕ := if s.dir then (if c.pv then (B.M1 l).reverse else B.M1 l) else (if c.pu then (B.M0 l).reverse else B.M0 l)

/-! ## Knots from the other end -/

private theorem first_rev (M : List ℕ) (e : ℕ) : first M.reverse e + first M (M.length - e) = M.sum := by
  unfold first
  rw [List.take_reverse, List.sum_reverse, add_comm, ← List.sum_append, List.take_append_drop]

private theorem first_le (M : List ℕ) (e : ℕ) : first M e ≤ M.sum := by
  unfold first
  conv_rhs => rw [← List.take_append_drop e M, List.sum_append]
  omega

private theorem touch_rev {p : ℕ} {M : List ℕ} {i e : ℕ} (hi : i < dim p M) (he : e ≤ M.length) : Touch p M (dim p M - 1 - i) (M.length - e) ↔ Touch p M.reverse i e := by
  unfold Touch
  have h1 := first_rev M e
  unfold dim at hi ⊢
  rw [List.length_reverse]
  constructor
  · rintro ⟨_, a, b⟩; exact ⟨he, by omega, by omega⟩
  · rintro ⟨_, a, b⟩; exact ⟨by omega, by omega, by omega⟩

/-- The knots seen from one of the ends. -/
def rv (far : Bool) (M : List ℕ) : List ℕ := if far then M.reverse else M

private theorem rv_length (far : Bool) (M : List ℕ) : (rv far M).length = M.length := by cases far <;> simp [rv]
private theorem rv_dim (p : ℕ) (far : Bool) (M : List ℕ) : dim p (rv far M) = dim p M := by cases far <;> simp [rv, dim]

private theorem touch_fc {p : ℕ} {M : List ℕ} {far : Bool} {k e : ℕ} (hk : k < dim p M) (he : e ≤ M.length) :
    Touch p M (fromCorner (dim p M) far k) (fromCorner (M.length + 1) far e) ↔ Touch p (rv far M) k e := by
  cases far
  · simp [fromCorner, rv]
  · simp only [fromCorner, rv, if_true, Nat.add_sub_cancel]
    exact touch_rev hk he

private theorem all_touch {p : ℕ} {M : List ℕ} {far : Bool} {k : ℕ} (hk : k < dim p M) (P : ℕ → Prop) :
    (∀ x, Touch p M (fromCorner (dim p M) far k) x → P x) ↔ ∀ e, Touch p (rv far M) k e → P (fromCorner (M.length + 1) far e) := by
  constructor
  · intro h e he
    have : e ≤ M.length := rv_length far M ▸ he.1
    exact h _ ((touch_fc hk this).2 he)
  · intro h x hx
    have hl := hx.1
    have e1 : fromCorner (M.length + 1) far (fromCorner (M.length + 1) far x) = x := by cases far <;> simp [fromCorner]; omega
    have h2 : fromCorner (M.length + 1) far x ≤ M.length := by cases far <;> simp [fromCorner]; exact hl
    rw [← e1] at hx ⊢
    exact h _ ((touch_fc hk h2).1 hx)

private theorem fc_div {r N e : ℕ} {far : Bool} (hr : 0 < r) (he : e < r * N) : fromCorner (r * N) far e / r = fromCorner N far (e / r) := by
  cases far
  · rfl
  · simp only [fromCorner, if_true]
    have h1 : e / r < N := Nat.div_lt_of_lt_mul he
    have h3 := Nat.div_add_mod e r
    have h2 := Nat.mod_lt e hr
    obtain ⟨t, rfl⟩ : ∃ t, N = e / r + 1 + t := ⟨N - (e / r + 1), by omega⟩
    generalize e / r = q at *
    generalize e % r = f at *
    have e1 : r * (q + 1 + t) = r * q + r + r * t := by ring
    have e2 : q + 1 + t - 1 - q = t := by omega
    rw [e1, e2]
    apply Nat.div_eq_of_lt_le
    · rw [mul_comm t r]; omega
    · rw [show (t + 1) * r = r * t + r by ring]; omega

/-- The rule of hierarchical bases in steps from the corner. -/
def Loc (B : HB) (D : Desc) (c : Corner) (s : Side) (l k o : ℕ) : Prop :=
  if l = D.top then ∀ x y, Touch (dAlong B s) (kAlong B c s l) k x → Touch (dAcross B s) (kAcross B c s l) o y → D.loc B c s (x / D.r l) (y / D.r l) = true
  else if l = 0 then ∃ x y, Touch (dAlong B s) (kAlong B c s l) k x ∧ Touch (dAcross B s) (kAcross B c s l) o y ∧ D.loc B c s x y = false
  else False

private theorem active_loc {B : HB} {D : Desc} (h : Wf B D) (c : Corner) (s : Side) {l k o : ℕ} (hl : l ≤ D.top) (hk : k < along (dim B.p0 (B.M0 l)) (dim B.p1 (B.M1 l)) s) (ho : o < across (dim B.p0 (B.M0 l)) (dim B.p1 (B.M1 l)) s) :
    Active B D l (position (dim B.p0 (B.M0 l)) (dim B.p1 (B.M1 l)) c s k o).1 (position (dim B.p0 (B.M0 l)) (dim B.p1 (B.M1 l)) c s k o).2 ↔ Loc B D c s l k o := by
  -- one statement for the refined part, with any property of the elements
  have key : ∀ P : ℕ → ℕ → Prop, (∀ x y, Touch B.p0 (B.M0 l) (position (dim B.p0 (B.M0 l)) (dim B.p1 (B.M1 l)) c s k o).1 x →
      Touch B.p1 (B.M1 l) (position (dim B.p0 (B.M0 l)) (dim B.p1 (B.M1 l)) c s k o).2 y → P (x / D.r l) (y / D.r l)) ↔
      ∀ x y, Touch (dAlong B s) (kAlong B c s l) k x → Touch (dAcross B s) (kAcross B c s l) o y →
        P (position (el (B.M0 0)) (el (B.M1 0)) c s (x / D.r l) (y / D.r l)).1 (position (el (B.M0 0)) (el (B.M1 0)) c s (x / D.r l) (y / D.r l)).2 := by
    intro P
    have g : ∀ (k o : ℕ), k < dim B.p0 (B.M0 l) → o < dim B.p1 (B.M1 l) →
        ((∀ x y, Touch B.p0 (B.M0 l) (fromCorner (dim B.p0 (B.M0 l)) c.pu k) x → Touch B.p1 (B.M1 l) (fromCorner (dim B.p1 (B.M1 l)) c.pv o) y → P (x / D.r l) (y / D.r l)) ↔
        ∀ x y, Touch B.p0 (rv c.pu (B.M0 l)) k x → Touch B.p1 (rv c.pv (B.M1 l)) o y → P (fromCorner (el (B.M0 0)) c.pu (x / D.r l)) (fromCorner (el (B.M1 0)) c.pv (y / D.r l))) := by
      intro k o hk ho
      have q : ∀ x y, Touch B.p0 (rv c.pu (B.M0 l)) k x → Touch B.p1 (rv c.pv (B.M1 l)) o y →
          fromCorner ((B.M0 l).length + 1) c.pu x / D.r l = fromCorner (el (B.M0 0)) c.pu (x / D.r l) ∧ fromCorner ((B.M1 l).length + 1) c.pv y / D.r l = fromCorner (el (B.M1 0)) c.pv (y / D.r l) := by
        intro x y hx hy
        have hx := hx.1; have hy := hy.1
        rw [rv_length] at hx hy
        have a0 := h.len0 l hl; have a1 := h.len1 l hl
        rw [a0, a1]
        exact ⟨fc_div (h.r l) (by omega), fc_div (h.r l) (by omega)⟩
      constructor
      · intro H x y hx hy
        obtain ⟨q1, q2⟩ := q x y hx hy
        rw [← q1, ← q2]
        exact H _ _ ((touch_fc hk (rv_length c.pu _ ▸ hx.1)).2 hx) ((touch_fc ho (rv_length c.pv _ ▸ hy.1)).2 hy)
      · intro H x y hx hy
        revert y
        rw [all_touch ho]
        revert x
        rw [all_touch hk (fun x => ∀ e, Touch B.p1 (rv c.pv (B.M1 l)) o e → P (x / D.r l) (fromCorner ((B.M1 l).length + 1) c.pv e / D.r l))]
        intro x hx y hy
        obtain ⟨q1, q2⟩ := q x y hx hy
        rw [q1, q2]
        exact H x y hx hy
    unfold position dAlong dAcross kAlong kAcross
    unfold along at hk; unfold across at ho
    cases hs : s.dir
    · simp only [hs, Bool.false_eq_true, if_false] at hk ho ⊢
      rw [g o k ho hk]
      exact ⟨fun H x y hx hy => H y x hy hx, fun H x y hx hy => H y x hy hx⟩
    · simp only [hs, if_true] at hk ho ⊢
      exact g k o hk ho
  unfold Active Loc
  by_cases h1 : l = D.top
  · rw [if_pos h1, if_pos h1]
    exact key fun x y => D.om x y = true
  · rw [if_neg h1, if_neg h1]
    by_cases h2 : l = 0
    · rw [if_pos h2, if_pos h2]
      subst h2
      have := key fun x y => D.om x y = true
      rw [h.r0] at this
      simp only [Nat.div_one] at this
      rw [← not_iff_not]
      push Not
      simpa only [Desc.loc, ne_eq, Bool.not_eq_false] using this
    · rw [if_neg h2, if_neg h2]

/-! ## What the code returns -/

private theorem along_eq (B : HB) (c : Corner) (s : Side) (l : ℕ) : along (dim B.p0 (B.M0 l)) (dim B.p1 (B.M1 l)) s = dim (dAlong B s) (kAlong B c s l) := by
  unfold along dAlong kAlong; cases s.dir <;> simp only [if_true, if_false, Bool.false_eq_true]
  · exact (rv_dim _ c.pv _).symm
  · exact (rv_dim _ c.pu _).symm
private theorem across_eq (B : HB) (c : Corner) (s : Side) (l : ℕ) : across (dim B.p0 (B.M0 l)) (dim B.p1 (B.M1 l)) s = dim (dAcross B s) (kAcross B c s l) := by
  unfold across dAcross kAcross; cases s.dir <;> simp only [if_true, if_false, Bool.false_eq_true]
  · exact (rv_dim _ c.pu _).symm
  · exact (rv_dim _ c.pv _).symm

/-- The function of level `l` that is `k` steps along the side and `o` steps across from the corner, as a number of the tensor basis of the level. -/
def flat (B : HB) (c : Corner) (s : Side) (l k o : ℕ) : ℕ :=
  (position (dim B.p0 (B.M0 l)) (dim B.p1 (B.M1 l)) c s k o).1 + dim B.p0 (B.M0 l) * (position (dim B.p0 (B.M0 l)) (dim B.p1 (B.M1 l)) c s k o).2

private theorem at_eq {B : HB} {c : Corner} {s : Side} (hc : adjacent c s) {l k o : ℕ} (hk : k < dim (dAlong B s) (kAlong B c s l)) (ho : o < dim (dAcross B s) (kAcross B c s l)) :
    at' B c s o l k = some (B.hidx l (flat B c s l k o)) := by
  unfold at' flat
  rw [C05_address _ _ _ _ hc k o (by rwa [along_eq B c s l]) (by rwa [across_eq B c s l])]
  rfl

private theorem isSome_iff {B : HB} {D : Desc} (h : Wf B D) {c : Corner} {s : Side} {l k o : ℕ} (hl : l ≤ D.top) (hk : k < dim (dAlong B s) (kAlong B c s l)) (ho : o < dim (dAcross B s) (kAcross B c s l)) :
    (B.hidx l (flat B c s l k o)).isSome = true ↔ Loc B D c s l k o := by
  rw [← along_eq] at hk
  rw [← across_eq] at ho
  obtain ⟨a, b⟩ := position_lt (c := c) hk ho
  unfold flat
  rw [h.active l _ _ a b]
  exact active_loc h c s hl hk ho

private theorem search_eq {f : ℕ → Option (Option ℕ)} {on : Bool} {n : ℕ} (hn : ∃ r, f n = some r ∧ r.isSome = on) : ∀ (d k fuel : ℕ), k + d = n → d < fuel →
    (∀ i, k ≤ i → i < n → ∃ r, f i = some r ∧ r.isSome ≠ on) → search f on fuel k = some n := by
  intro d
  induction d with
  | zero =>
    intro k fuel hk hf _
    obtain ⟨fuel, rfl⟩ : ∃ g, fuel = g + 1 := ⟨fuel - 1, by omega⟩
    obtain ⟨r, h1, h2⟩ := hn
    simp only [add_zero] at hk
    rw [search, hk, h1]
    simp [h2]
  | succ d ih =>
    intro k fuel hk hf h
    obtain ⟨fuel, rfl⟩ : ∃ g, fuel = g + 1 := ⟨fuel - 1, by omega⟩
    obtain ⟨r, h1, h2⟩ := h k le_rfl (by omega)
    rw [search, h1]
    simp only [Option.bind_some, if_neg h2]
    exact ih (k + 1) fuel (by omega) (by omega) fun i a b => h i (by omega) b

private theorem first_mono (M : List ℕ) {a b : ℕ} (h : a ≤ b) : first M a ≤ first M b := by
  unfold first
  have : M.take a = (M.take b).take a := by rw [List.take_take, min_eq_left h]
  rw [this]
  exact first_le (M.take b) a

private theorem touch_lt {p : ℕ} {M : List ℕ} {i x E : ℕ} (h : Touch p M i x) (hi : i < first M E) : x < E := by
  by_contra hc
  have := first_mono M (not_lt.1 hc)
  have := h.2.1
  omega

private theorem touch_last {p : ℕ} {M : List ℕ} (hM : ∀ m ∈ M, m ≤ p + 1) {i : ℕ} : ∀ E, i < first M E → ∃ x, x < E ∧ Touch p M i x ∧ i < first M (x + 1) := by
  intro E
  induction E with
  | zero => intro h; simp [first] at h
  | succ E ih =>
    intro h
    by_cases h1 : i < first M E
    · obtain ⟨x, a, b⟩ := ih h1
      exact ⟨x, by omega, b⟩
    · have hE : E < M.length := by
        by_contra hc
        apply h1
        unfold first at h ⊢
        rwa [List.take_of_length_le (by omega)] at h ⊢
      refine ⟨E, by omega, ⟨hE.le, not_lt.1 h1, ?_⟩, h⟩
      have : first M (E + 1) = first M E + M[E] := by
        unfold first
        rw [List.take_succ_eq_append_getElem hE, List.sum_append]
        simp
      have := hM M[E] (List.getElem_mem hE)
      omega

private theorem el_loc (B : HB) (c : Corner) (s : Side) (l : ℕ) : (kAlong B c s l).length = (if s.dir then B.M0 l else B.M1 l).length ∧ (kAcross B c s l).length = (if s.dir then B.M1 l else B.M0 l).length := by
  unfold kAlong kAcross
  cases s.dir <;> cases c.pu <;> cases c.pv <;> simp

private theorem lvl_top {B : HB} {D : Desc} (h : Wf B D) {c : Corner} {s : Side} (h0 : D.loc B c s 0 0 = true) : B.lvl c = D.top := by
  rw [h.lvl]
  have : D.loc B c s 0 0 = D.om (cornerElem B c).1 (cornerElem B c).2 := by
    unfold Desc.loc cornerElem position fromCorner el
    cases s.dir <;> simp
  rw [← this, h0, if_pos rfl]

/-- C53. Functions near the corner: if the refined part contains a box of `m0` times `m1` elements at the corner, every function of the finest level that vanishes outside the box is found under its number. (If the box has all elements in one
direction, that means every function in that direction.) -/
theorem C53_fine {B : HB} {D : Desc} (h : Wf B D) {c : Corner} {s : Side} (hc : adjacent c s) {m0 m1 : ℕ} (h0 : 0 < m0) (h1 : 0 < m1) (hb : ∀ x y, x < m0 → y < m1 → D.loc B c s x y = true) {k o : ℕ}
    (hk : k < dim (dAlong B s) (kAlong B c s D.top)) (ho : o < dim (dAcross B s) (kAcross B c s D.top))
    (hk' : k < first (kAlong B c s D.top) (D.r D.top * m0) ∨ (kAlong B c s 0).length < m0) (ho' : o < first (kAcross B c s D.top) (D.r D.top * m1) ∨ (kAcross B c s 0).length < m1) :
    ∃ a, indexFromVertH B k c s o = some a ∧ B.hidx D.top (flat B c s D.top k o) = some a := by
  have hl := lvl_top h (hb 0 0 h0 h1)
  have ha : (B.hidx D.top (flat B c s D.top k o)).isSome = true := by
    rw [isSome_iff h le_rfl hk ho]
    unfold Loc
    rw [if_pos rfl]
    intro x y hx hy
    obtain ⟨a1, a2⟩ := el_loc B c s D.top
    obtain ⟨b1, b2⟩ := el_loc B c s 0
    have l0 := h.len0 D.top le_rfl
    have l1 := h.len1 D.top le_rfl
    apply hb
    · rcases hk' with hk' | hk'
      · exact Nat.div_lt_of_lt_mul (touch_lt hx hk')
      · apply Nat.div_lt_of_lt_mul
        have := hx.1
        have := Nat.mul_le_mul_left (D.r D.top) hk'
        revert a1 b1; cases s.dir <;> simp only [if_true, if_false, Bool.false_eq_true] <;> intro a1 b1 <;> simp only [Nat.succ_eq_add_one, a1, b1] at * <;> omega
    · rcases ho' with ho' | ho'
      · exact Nat.div_lt_of_lt_mul (touch_lt hy ho')
      · apply Nat.div_lt_of_lt_mul
        have := hy.1
        have := Nat.mul_le_mul_left (D.r D.top) ho'
        revert a2 b2; cases s.dir <;> simp only [if_true, if_false, Bool.false_eq_true] <;> intro a2 b2 <;> simp only [Nat.succ_eq_add_one, a2, b2] at * <;> omega
  obtain ⟨a, ha⟩ := Option.isSome_iff_exists.1 ha
  refine ⟨a, ?_, ha⟩
  unfold indexFromVertH
  simp only [hl, at_eq hc hk ho, ha, Option.bind_some]

/-- C53. Functions further away, with two levels: beyond the refined box they are those of level 0, and the numbers go on without a gap. -/
theorem C53_coarse {B : HB} {D : Desc} (h : Wf B D) (ht : D.top = 1) {c : Corner} {s : Side} (hc : adjacent c s) {m0 m1 M : ℕ} (h0 : 0 < m0) (h1 : 0 < m1) (hb : ∀ x y, x < m0 → y < m1 → D.loc B c s x y = true)
    (hM : m0 < M) (hMl : M ≤ (kAlong B c s 0).length + 1) (hn : ∀ x y, m0 ≤ x → x < M → y < m1 → D.loc B c s x y = false)
    (hp0 : ∀ l, ∀ m ∈ kAlong B c s l, m ≤ dAlong B s + 1) (hp1 : ∀ l, ∀ m ∈ kAcross B c s l, m ≤ dAcross B s + 1)
    {k o : ℕ} (ho0 : o < first (kAcross B c s 0) m1) (ho1 : o < first (kAcross B c s 1) (D.r 1 * m1)) (hk : k < first (kAlong B c s 1) (D.r 1 * M))
    (hk1 : first (kAlong B c s 1) (D.r 1 * m0) ≤ k) (hk2 : k - first (kAlong B c s 1) (D.r 1 * m0) + first (kAlong B c s 0) m0 < first (kAlong B c s 0) M) :
    ∃ a, indexFromVertH B k c s o = some a ∧ B.hidx 0 (flat B c s 0 (k - first (kAlong B c s 1) (D.r 1 * m0) + first (kAlong B c s 0) m0) o) = some a := by
  have hl := lvl_top h (hb 0 0 h0 h1)
  rw [ht] at hl
  have r1 := h.r 1
  have d0 : ∀ {p : ℕ} {M : List ℕ} {i e : ℕ}, i ≤ first M e → i < dim p M := fun {p M i e} hi => by
    have := first_le M e; unfold dim; omega
  have o0 : o < dim (dAcross B s) (kAcross B c s 0) := d0 ho0.le
  have o1 : o < dim (dAcross B s) (kAcross B c s 1) := d0 ho1.le
  -- level 1
  have L1 : ∀ i, i < dim (dAlong B s) (kAlong B c s 1) → ((B.hidx 1 (flat B c s 1 i o)).isSome = true ↔ Loc B D c s 1 i o) := fun i hi => isSome_iff h (by omega) hi o1
  have L0 : ∀ i, i < dim (dAlong B s) (kAlong B c s 0) → ((B.hidx 0 (flat B c s 0 i o)).isSome = true ↔ Loc B D c s 0 i o) := fun i hi => isSome_iff h (by omega) hi o0
  obtain ⟨y1, hy1, ty1, _⟩ := touch_last (hp1 1) _ ho1
  obtain ⟨y0, hy0, ty0, _⟩ := touch_last (hp1 0) _ ho0
  have hy1' : y1 / D.r 1 < m1 := Nat.div_lt_of_lt_mul hy1
  have lenA : (kAlong B c s 1).length + 1 = D.r 1 * ((kAlong B c s 0).length + 1) := by
    rw [(el_loc B c s 1).1, (el_loc B c s 0).1]
    cases s.dir
    · exact h.len1 1 (by omega)
    · exact h.len0 1 (by omega)
  have on1 : ∀ i, i < first (kAlong B c s 1) (D.r 1 * m0) → (B.hidx 1 (flat B c s 1 i o)).isSome = true := by
    intro i hi
    rw [L1 i (d0 hi.le)]
    unfold Loc
    rw [if_pos ht.symm]
    intro x y hx hy
    exact hb _ _ (Nat.div_lt_of_lt_mul (touch_lt hx hi)) (Nat.div_lt_of_lt_mul (touch_lt hy ho1))
  have off1 : ∀ i, i < dim (dAlong B s) (kAlong B c s 1) → (∃ x, Touch (dAlong B s) (kAlong B c s 1) i x ∧ m0 ≤ x / D.r 1 ∧ x / D.r 1 < M) → (B.hidx 1 (flat B c s 1 i o)).isSome = false := by
    rintro i hi ⟨x, hx, hx1, hx2⟩
    rw [Bool.eq_false_iff, Ne, L1 i hi]
    unfold Loc
    rw [if_pos ht.symm]
    intro H
    have := H x y1 hx ty1
    rw [hn _ _ hx1 hx2 hy1'] at this
    cases this
  have nf : search (at' B c s o 1) false (dim B.p0 (B.M0 1) + dim B.p1 (B.M1 1) + 1) 0 = some (first (kAlong B c s 1) (D.r 1 * m0)) := by
    have hd : first (kAlong B c s 1) (D.r 1 * m0) < dim (dAlong B s) (kAlong B c s 1) := d0 le_rfl
    refine search_eq ⟨_, at_eq hc hd o1, off1 _ hd ⟨D.r 1 * m0, ⟨?_, le_rfl, by omega⟩, ?_, ?_⟩⟩ (first (kAlong B c s 1) (D.r 1 * m0)) 0 _ (Nat.zero_add _) ?_ ?_
    · have : D.r 1 * (m0 + 1) ≤ D.r 1 * ((kAlong B c s 0).length + 1) := Nat.mul_le_mul_left _ (by omega)
      rw [← lenA, Nat.mul_add, Nat.mul_one] at this
      omega
    · rw [Nat.mul_div_cancel_left _ r1]
    · rw [Nat.mul_div_cancel_left _ r1]; exact hM
    · have := along_eq B c s 1
      have h2 : along (dim B.p0 (B.M0 1)) (dim B.p1 (B.M1 1)) s ≤ dim B.p0 (B.M0 1) + dim B.p1 (B.M1 1) := by unfold along; split <;> omega
      omega
    · intro i _ hi
      exact ⟨_, at_eq hc (d0 hi.le) o1, by rw [on1 i hi]; decide⟩
  -- level 0
  have off0 : ∀ i, i < first (kAlong B c s 0) m0 → (B.hidx 0 (flat B c s 0 i o)).isSome = false := by
    intro i hi
    rw [Bool.eq_false_iff, Ne, L0 i (d0 hi.le)]
    unfold Loc
    rw [if_neg (by omega), if_pos rfl]
    rintro ⟨x, y, hx, hy, H⟩
    rw [hb x y (touch_lt hx hi) (touch_lt hy ho0)] at H
    cases H
  have on0 : ∀ i, first (kAlong B c s 0) m0 ≤ i → i < first (kAlong B c s 0) M → (B.hidx 0 (flat B c s 0 i o)).isSome = true := by
    intro i hi1 hi2
    obtain ⟨x, x1, x2, x3⟩ := touch_last (hp0 0) _ hi2
    rw [L0 i (d0 hi2.le)]
    unfold Loc
    rw [if_neg (by omega), if_pos rfl]
    refine ⟨x, y0, x2, ty0, hn x y0 ?_ x1 hy0⟩
    by_contra hc
    have := first_mono (kAlong B c s 0) (by omega : x + 1 ≤ m0)
    omega
  have nc : search (at' B c s o 0) true (dim B.p0 (B.M0 0) + dim B.p1 (B.M1 0) + 1) 0 = some (first (kAlong B c s 0) m0) := by
    have hd : first (kAlong B c s 0) m0 < dim (dAlong B s) (kAlong B c s 0) := d0 le_rfl
    refine search_eq ⟨_, at_eq hc hd o0, on0 _ le_rfl (by omega)⟩ (first (kAlong B c s 0) m0) 0 _ (Nat.zero_add _) ?_ ?_
    · have := along_eq B c s 0
      have h2 : along (dim B.p0 (B.M0 0)) (dim B.p1 (B.M1 0)) s ≤ dim B.p0 (B.M0 0) + dim B.p1 (B.M1 0) := by unfold along; split <;> omega
      omega
    · intro i _ hi
      exact ⟨_, at_eq hc (d0 hi.le) o0, by rw [off0 i hi]; decide⟩
  have hr := on0 _ (by omega) hk2
  obtain ⟨a, ha⟩ := Option.isSome_iff_exists.1 hr
  -- the function asked for
  by_cases hs : (B.hidx 1 (flat B c s 1 k o)).isSome = true
  · exfalso
    obtain ⟨x, x1, x2, x3⟩ := touch_last (hp0 1) _ hk
    have hx : D.r 1 * m0 ≤ x := by
      by_contra hc
      have := first_mono (kAlong B c s 1) (by omega : x + 1 ≤ D.r 1 * m0)
      omega
    rw [off1 k (d0 hk.le) ⟨x, x2, (Nat.le_div_iff_mul_le r1).2 (by rw [mul_comm]; exact hx), Nat.div_lt_of_lt_mul x1⟩] at hs
    cases hs
  · refine ⟨a, ?_, ha⟩
    have hn : B.hidx 1 (flat B c s 1 k o) = none := by simpa using hs
    unfold indexFromVertH
    simp only [hl, at_eq hc (d0 hk.le) o1, hn, Option.bind_some, Nat.sub_self]
    rw [if_neg one_ne_zero, nf, nc]
    simp only [Option.bind_some]
    rw [at_eq hc (d0 hk2.le) o0, ha]
    rfl

/-- C53. Different functions for different requests. -/
theorem C53_distinct {B : HB} {D : Desc} (h : Wf B D) {c : Corner} {s : Side} (hc : adjacent c s) {l l' k k' o o' a : ℕ}
    (hk : k < dim (dAlong B s) (kAlong B c s l)) (ho : o < dim (dAcross B s) (kAcross B c s l)) (hk' : k' < dim (dAlong B s) (kAlong B c s l')) (ho' : o' < dim (dAcross B s) (kAcross B c s l'))
    (e : B.hidx l (flat B c s l k o) = some a) (e' : B.hidx l' (flat B c s l' k' o') = some a) : l = l' ∧ k = k' ∧ o = o' := by
  obtain ⟨rfl, hf⟩ := h.inj _ _ _ _ _ e e'
  rw [← along_eq] at hk hk'
  rw [← across_eq] at ho ho'
  have := (C05_valid_injective_symmetric _ _ c s hc k o hk ho).2.1 k' o' hk' ho' (by
    rw [C05_address _ _ c s hc k o hk ho, C05_address _ _ c s hc k' o' hk' ho']
    exact congrArg some hf.symm)
  exact ⟨rfl, this.1.symm, this.2.symm⟩

/-! ## The levels of a D-Patch -/

/-- C53. Level 1 exists exactly if the basis is C1: all inner knots have at most `p - 1` copies. Then they get `p - 1` copies. -/
theorem C53_level1_iff (p : ℕ) (M : List ℕ) : (∀ M', level1 p M = some M' ↔ (∀ m ∈ M, m + 1 ≤ p) ∧ M' = List.replicate M.length (p - 1)) := by
  unfold level1
  induction M with
  | nil => intro M'; simp [eq_comm]
  | cons m M ih =>
    intro M'
    rw [List.mapM_cons]
    by_cases h : m + 1 ≤ p
    · rw [if_pos h]
      simp only [Option.bind_eq_bind, Option.bind_some, Option.pure_def]
      rw [Option.bind_eq_some_iff]
      constructor
      · rintro ⟨N, h1, h2⟩
        obtain ⟨h3, rfl⟩ := (ih N).1 h1
        simp only [Option.some.injEq] at h2
        refine ⟨by simpa [h] using h3, ?_⟩
        rw [← h2, List.length_cons, List.replicate_succ]
        congr 1
        omega
      · rintro ⟨h1, rfl⟩
        refine ⟨_, (ih _).2 ⟨fun x hx => h1 x (List.mem_cons_of_mem _ hx), rfl⟩, ?_⟩
        rw [List.length_cons, List.replicate_succ]
        congr 2
        omega
    · rw [if_neg h]
      simp only [Option.bind_eq_bind, Option.bind_none]
      constructor
      · intro h'; cases h'
      · rintro ⟨h1, _⟩; exact absurd (h1 m List.mem_cons_self) h

private theorem level2_eq (p n : ℕ) : level2 p (List.replicate n (p - 1)) = List.replicate (2 * n + 1) (p - 1) := by
  unfold level2
  rw [List.replicate_succ]
  congr 1
  induction n with
  | zero => rfl
  | succ n ih =>
    rw [List.replicate_succ, List.flatMap_cons, ih, show 2 * (n + 1) = 2 * n + 1 + 1 by ring, List.replicate_succ, List.replicate_succ]
    rfl

/-- The bases of a D-Patch (`_initTHB`). -/
structure DP (B : HB) : Prop where
  d0 : 2 ≤ B.p0
  d1 : 2 ≤ B.p1
  l0 : level1 B.p0 (B.M0 0) = some (B.M0 1)
  l1 : level1 B.p1 (B.M1 0) = some (B.M1 1)
  m0 : B.M0 2 = level2 B.p0 (B.M0 1)
  m1 : B.M1 2 = level2 B.p1 (B.M1 1)

private theorem sum_rep (n q : ℕ) : (List.replicate n q).sum = n * q := by
  induction n with
  | zero => simp
  | succ n ih => rw [List.replicate_succ, List.sum_cons, ih]; ring

private theorem first_rep (n q e : ℕ) : first (List.replicate n q) e = min e n * q := by
  unfold first; rw [List.take_replicate, sum_rep]

private theorem dp_along {B : HB} (dp : DP B) (c : Corner) (s : Side) : 2 ≤ dAlong B s ∧ 2 ≤ dAcross B s ∧
    kAlong B c s 1 = List.replicate (kAlong B c s 0).length (dAlong B s - 1) ∧ kAcross B c s 1 = List.replicate (kAcross B c s 0).length (dAcross B s - 1) ∧
    kAlong B c s 2 = List.replicate (2 * (kAlong B c s 0).length + 1) (dAlong B s - 1) ∧ kAcross B c s 2 = List.replicate (2 * (kAcross B c s 0).length + 1) (dAcross B s - 1) := by
  have e0 := ((C53_level1_iff _ _ _).1 dp.l0).2
  have e1 := ((C53_level1_iff _ _ _).1 dp.l1).2
  have f0 := dp.m0
  have f1 := dp.m1
  rw [e0, level2_eq] at f0
  rw [e1, level2_eq] at f1
  have a := dp.d0
  have b := dp.d1
  unfold dAlong dAcross kAlong kAcross
  cases s.dir <;> cases c.pu <;> cases c.pv <;> simp [e0, e1, f0, f1, a, b]

private theorem nD_pos (p L : ℕ) : 1 ≤ RefBox.nDPatch p L ∧ (p < 4 → 2 ≤ RefBox.nDPatch p L) := by
  unfold RefBox.nDPatch
  have := Nat.one_le_two_pow (n := L)
  constructor
  · split <;> omega
  · intro h; rw [if_pos h]; omega

/-- C53. The refined bases of a D-Patch (after `_makeTHB`): the sixteen functions at an extraordinary vertex that `_computeEVs` asks for (numbers 0 to 3 along, 0 and 1 across; `gsDPatch.hpp:445-449`, `:508-518`, `:541-553`) are functions of the
finest level at that place, for all degrees, all multiplicities of the knots, all options `RefLevel`, whatever else is refined. The number of elements is that of `_refBoxes`. -/
theorem C53_dpatch_refined {B : HB} {D : Desc} (h : Wf B D) (dp : DP B) (ht : D.top = 2) (hr : D.r 2 = 2) {c : Corner} {s : Side} (hc : adjacent c s) {L : ℕ}
    (hb : ∀ x y, x < RefBox.nDPatch (dAlong B s) L → y < RefBox.nDPatch (dAcross B s) L → D.loc B c s x y = true)
    {k o : ℕ} (hk : k ≤ 3) (ho : o ≤ 3) : ∃ a, indexFromVertH B k c s o = some a ∧ B.hidx 2 (flat B c s 2 k o) = some a := by
  obtain ⟨q1, q2, _, _, q3, q4⟩ := dp_along dp c s
  have key : ∀ (p n len i : ℕ), 2 ≤ p → 1 ≤ n → (p < 4 → 2 ≤ n) → i ≤ 3 → (i < min (2 * n) (2 * len + 1) * (p - 1) ∨ len < n) ∧ i < p + 1 + (2 * len + 1) * (p - 1) := by
    intro p n len i hp hn hn' hi
    obtain ⟨t, rfl⟩ : ∃ t, p = t + 2 := ⟨p - 2, by omega⟩
    constructor
    · by_cases hl : len < n
      · exact Or.inr hl
      · left
        rw [min_eq_left (by omega)]
        simp only [show t + 2 - 1 = t + 1 by omega]
        by_cases ht : t < 2
        · have := hn' (by omega)
          nlinarith
        · nlinarith
    · rw [show t + 2 - 1 = t + 1 by omega]
      nlinarith [Nat.zero_le (len * (t + 1))]
  have a0 := key _ _ (kAlong B c s 0).length k q1 (nD_pos (dAlong B s) L).1 (nD_pos (dAlong B s) L).2 hk
  have a1 := key _ _ (kAcross B c s 0).length o q2 (nD_pos (dAcross B s) L).1 (nD_pos (dAcross B s) L).2 ho
  have := C53_fine h hc (nD_pos (dAlong B s) L).1 (nD_pos (dAcross B s) L).1 hb (k := k) (o := o)
  rw [ht, hr, q3, q4, first_rep, first_rep] at this
  unfold dim at this
  rw [sum_rep, sum_rep] at this
  exact this a0.2 a1.2 a0.1 a1.1

/-- C53. The bases before that (`m_bases0`): the functions with numbers 0 to 2 along and 0, 1 across (`gsDPatch.hpp:113-115`, `:452-456`) are functions of level 1, if the degree along the side is at least three. -/
theorem C53_dpatch_base {B : HB} {D : Desc} (h : Wf B D) (dp : DP B) (ht : D.top = 1) (hr : D.r 1 = 1) {c : Corner} {s : Side} (hc : adjacent c s) {L : ℕ}
    (hb : ∀ x y, x < RefBox.nDPatch (dAlong B s) L → y < RefBox.nDPatch (dAcross B s) L → D.loc B c s x y = true)
    {k o : ℕ} (hk : k ≤ 2) (ho : o ≤ 1) (hp : 3 ≤ dAlong B s ∨ k ≤ 1) : ∃ a, indexFromVertH B k c s o = some a ∧ B.hidx 1 (flat B c s 1 k o) = some a := by
  obtain ⟨q1, q2, q3, q4, _⟩ := dp_along dp c s
  have key : ∀ (p n len i : ℕ), 2 ≤ p → 1 ≤ n → (p < 4 → 2 ≤ n) → i ≤ 2 → (3 ≤ p ∨ i ≤ 1) → (i < min (1 * n) len * (p - 1) ∨ len < n) ∧ i < p + 1 + len * (p - 1) := by
    intro p n len i hp hn hn' hi hi'
    obtain ⟨t, rfl⟩ : ∃ t, p = t + 2 := ⟨p - 2, by omega⟩
    constructor
    · by_cases hl : len < n
      · exact Or.inr hl
      · left
        rw [one_mul, min_eq_left (by omega)]
        simp only [show t + 2 - 1 = t + 1 by omega]
        by_cases ht : t < 2
        · have := hn' (by omega)
          rcases hi' with h1 | h1
          · nlinarith
          · nlinarith
        · nlinarith
    · omega
  have a0 := key _ _ (kAlong B c s 0).length k q1 (nD_pos (dAlong B s) L).1 (nD_pos (dAlong B s) L).2 hk hp
  have a1 := key _ _ (kAcross B c s 0).length o q2 (nD_pos (dAcross B s) L).1 (nD_pos (dAcross B s) L).2 (by omega) (Or.inr ho)
  have := C53_fine h hc (nD_pos (dAlong B s) L).1 (nD_pos (dAcross B s) L).1 hb (k := k) (o := o)
  rw [ht, hr, q3, q4, first_rep, first_rep] at this
  unfold dim at this
  rw [sum_rep, sum_rep] at this
  exact this a0.2 a1.2 a0.1 a1.1

/-- C53. Degree two: the levels 0 and 1 have the same functions, and the third function is found on one of them. -/
theorem C53_dpatch_quadratic {B : HB} {D : Desc} (h : Wf B D) (dp : DP B) (ht : D.top = 1) (hr : D.r 1 = 1) {c : Corner} {s : Side} (hc : adjacent c s) {L : ℕ} (h0 : B.p0 = 2) (h1 : B.p1 = 2)
    (hm : (∀ m ∈ B.M0 0, 1 ≤ m) ∧ ∀ m ∈ B.M1 0, 1 ≤ m) (hb : ∀ x y, x < RefBox.nDPatch 2 L → y < RefBox.nDPatch 2 L → D.loc B c s x y = true) {o : ℕ} (ho : o ≤ 1) :
    B.M0 1 = B.M0 0 ∧ B.M1 1 = B.M1 0 ∧ ∃ a l, l ≤ 1 ∧ indexFromVertH B 2 c s o = some a ∧ B.hidx l (flat B c s l 2 o) = some a := by
  have e : ∀ M : List ℕ, (∀ m ∈ M, 1 ≤ m) → (∀ m ∈ M, m + 1 ≤ 2) → List.replicate M.length (2 - 1) = M := fun M a b => by
    symm; rw [List.eq_replicate_iff]; exact ⟨rfl, fun m hm => by have := a m hm; have := b m hm; omega⟩
  have i0 := (C53_level1_iff _ _ _).1 dp.l0
  have i1 := (C53_level1_iff _ _ _).1 dp.l1
  rw [h0] at i0
  rw [h1] at i1
  have e0 : B.M0 1 = B.M0 0 := by rw [i0.2, e _ hm.1 i0.1]
  have e1 : B.M1 1 = B.M1 0 := by rw [i1.2, e _ hm.2 i1.1]
  refine ⟨e0, e1, ?_⟩
  have ka : kAlong B c s 1 = kAlong B c s 0 := by unfold kAlong; rw [e0, e1]
  have kc : kAcross B c s 1 = kAcross B c s 0 := by unfold kAcross; rw [e0, e1]
  have da : dAlong B s = 2 := by unfold dAlong; rw [h0, h1]; simp
  have dc : dAcross B s = 2 := by unfold dAcross; rw [h0, h1]; simp
  have n2 : 2 ≤ RefBox.nDPatch 2 L := (nD_pos 2 L).2 (by norm_num)
  have kin : ∀ l i, i ≤ 2 → i < dim (dAlong B s) (kAlong B c s l) := fun l i hi => by unfold dim; omega
  have oin : ∀ l, o < dim (dAcross B s) (kAcross B c s l) := fun l => by unfold dim; omega
  have hl : B.lvl c = 1 := by rw [lvl_top h (hb 0 0 (by omega) (by omega)), ht]
  by_cases hs : (B.hidx 1 (flat B c s 1 2 o)).isSome = true
  · obtain ⟨a, ha⟩ := Option.isSome_iff_exists.1 hs
    refine ⟨a, 1, le_rfl, ?_, ha⟩
    unfold indexFromVertH
    simp only [hl, at_eq hc (kin 1 2 le_rfl) (oin 1), ha, Option.bind_some]
  · -- the first two are active on level 1 and not on level 0
    have s1 : ∀ i, i ≤ 2 → ((B.hidx 1 (flat B c s 1 i o)).isSome = true ↔ (B.hidx 0 (flat B c s 0 i o)).isSome = false) := by
      intro i hi
      rw [← Bool.not_eq_true, isSome_iff h (by omega) (kin 1 i hi) (oin 1), isSome_iff h (by omega) (kin 0 i hi) (oin 0)]
      unfold Loc
      rw [if_pos ht.symm, if_neg (by omega), if_pos rfl, hr, ka, kc]
      simp only [Nat.div_one]
      push Not
      simp only [ne_eq, Bool.not_eq_false]
    have on1 : ∀ i, i < 2 → (B.hidx 1 (flat B c s 1 i o)).isSome = true := by
      intro i hi
      obtain ⟨a, _, ha⟩ := C53_dpatch_base h dp ht hr hc (L := L) (by rw [da, dc]; exact hb) (k := i) (o := o) (by omega) ho (Or.inr (by omega))
      rw [ha]; rfl
    have off2 : (B.hidx 1 (flat B c s 1 2 o)).isSome = false := by simpa using hs
    have on2 : (B.hidx 0 (flat B c s 0 2 o)).isSome = true := by
      by_contra hc
      exact hs ((s1 2 le_rfl).2 (by simpa using hc))
    have nf : search (at' B c s o 1) false (dim B.p0 (B.M0 1) + dim B.p1 (B.M1 1) + 1) 0 = some 2 :=
      search_eq ⟨_, at_eq hc (kin 1 2 le_rfl) (oin 1), off2⟩ 2 0 _ rfl (by unfold dim; omega) fun i _ hi => ⟨_, at_eq hc (kin 1 i (by omega)) (oin 1), by rw [on1 i hi]; decide⟩
    have nc : search (at' B c s o 0) true (dim B.p0 (B.M0 0) + dim B.p1 (B.M1 0) + 1) 0 = some 2 :=
      search_eq ⟨_, at_eq hc (kin 0 2 le_rfl) (oin 0), on2⟩ 2 0 _ rfl (by unfold dim; omega) fun i _ hi => ⟨_, at_eq hc (kin 0 i (by omega)) (oin 0), by rw [(s1 i (by omega)).1 (on1 i hi)]; decide⟩
    obtain ⟨a, ha⟩ := Option.isSome_iff_exists.1 on2
    refine ⟨a, 0, by omega, ?_, ha⟩
    have hn : B.hidx 1 (flat B c s 1 2 o) = none := by simpa using hs
    unfold indexFromVertH
    simp only [hl, at_eq hc (kin 1 2 le_rfl) (oin 1), hn, Option.bind_some, Nat.sub_self]
    rw [if_neg one_ne_zero, nf, nc]
    simp only [Option.bind_some]
    rw [at_eq hc (kin 0 2 le_rfl) (oin 0), ha]
    rfl

/-- C53. Almost-C1: one element is refined at the corner (`gsAlmostC1.hpp:464`), every element is split into two, and the functions with numbers 0 and 1 are used (`:122-124`). -/
theorem C53_almost {B : HB} {D : Desc} (h : Wf B D) (ht : D.top = 1) (hr : D.r 1 = 2) (hp : 1 ≤ B.p0 ∧ 1 ≤ B.p1) (hm : (∀ m ∈ B.M0 1, 1 ≤ m) ∧ ∀ m ∈ B.M1 1, 1 ≤ m) {c : Corner} {s : Side} (hc : adjacent c s)
    (hb : D.loc B c s 0 0 = true) {k o : ℕ} (hk : k ≤ 1) (ho : o ≤ 1) : ∃ a, indexFromVertH B k c s o = some a ∧ B.hidx 1 (flat B c s 1 k o) = some a := by
  have key : ∀ (M M' : List ℕ), (∀ m ∈ M', 1 ≤ m) → M'.length + 1 = 2 * (M.length + 1) → ∀ i, i ≤ 1 → i < first M' (2 * 1) ∨ M.length < 1 := by
    intro M M' h1 h2 i hi
    rcases M' with _ | ⟨a, _ | ⟨b, M'⟩⟩
    · simp at h2; omega
    · right; simp only [List.length_cons, List.length_nil] at h2; omega
    · left
      have := h1 a (by simp)
      have := h1 b (by simp)
      simp [first]; omega
  have mem : (∀ m ∈ kAlong B c s 1, 1 ≤ m) ∧ ∀ m ∈ kAcross B c s 1, 1 ≤ m := by
    unfold kAlong kAcross
    cases s.dir <;> cases c.pu <;> cases c.pv <;> simpa [and_comm] using hm
  have len : (kAlong B c s 1).length + 1 = 2 * ((kAlong B c s 0).length + 1) ∧ (kAcross B c s 1).length + 1 = 2 * ((kAcross B c s 0).length + 1) := by
    rw [(el_loc B c s 1).1, (el_loc B c s 0).1, (el_loc B c s 1).2, (el_loc B c s 0).2]
    have a := h.len0 1 (by omega)
    have b := h.len1 1 (by omega)
    rw [hr] at a b
    cases s.dir <;> simp only [if_true, if_false, Bool.false_eq_true] <;> exact ⟨by assumption, by assumption⟩
  have dd : 1 ≤ dAlong B s ∧ 1 ≤ dAcross B s := by unfold dAlong dAcross; cases s.dir <;> simp [hp.1, hp.2]
  have := C53_fine h hc (m0 := 1) (m1 := 1) Nat.one_pos Nat.one_pos (fun x y hx hy => by
    obtain rfl : x = 0 := by omega
    obtain rfl : y = 0 := by omega
    exact hb) (k := k) (o := o)
  rw [ht, hr] at this
  exact this (by unfold dim; omega) (by unfold dim; omega) (key _ _ mem.1 len.1 k hk) (key _ _ mem.2 len.2 o ho)

/-! ## Bases of this kind exist -/

/-- `Touch`, computed. -/
def touchB (p : ℕ) (M : List ℕ) (i e : ℕ) : Bool := decide (e ≤ M.length ∧ first M e ≤ i ∧ i ≤ first M e + p)

/-- `Active`, computed. -/
def activeB (p0 p1 : ℕ) (M0 M1 : ℕ → List ℕ) (D : Desc) (l i j : ℕ) : Bool :=
  if l = D.top then (List.range ((M0 l).length + 1)).all fun x => (List.range ((M1 l).length + 1)).all fun y => !(touchB p0 (M0 l) i x && touchB p1 (M1 l) j y) || D.om (x / D.r l) (y / D.r l)
  else if l = 0 then (List.range ((M0 l).length + 1)).any fun x => (List.range ((M1 l).length + 1)).any fun y => touchB p0 (M0 l) i x && touchB p1 (M1 l) j y && !D.om x y
  else false

/-- The hierarchical basis of a description; the functions are numbered by level and place (with gaps, which plays no role here). -/
def build (p0 p1 : ℕ) (M0 M1 : ℕ → List ℕ) (D : Desc) : HB where
  p0 := p0
  p1 := p1
  M0 := M0
  M1 := M1
  hidx := fun l f => if l ≤ D.top ∧ activeB p0 p1 M0 M1 D l (f % dim p0 (M0 l)) (f / dim p0 (M0 l)) then some (f * (D.top + 1) + l) else none
  lvl := fun c => if D.om (if c.pu then (M0 0).length else 0) (if c.pv then (M1 0).length else 0) then D.top else 0

private theorem touchB_iff (p : ℕ) (M : List ℕ) (i e : ℕ) : touchB p M i e = true ↔ Touch p M i e := by unfold touchB Touch; simp

/-- C53. Every description with matching numbers of elements belongs to a basis, so `Wf` can be met for all degrees, knots and refined parts. -/
theorem C53_exists (p0 p1 : ℕ) (M0 M1 : ℕ → List ℕ) (D : Desc) (top : 0 < D.top) (r : ∀ l, 0 < D.r l) (r0 : D.r 0 = 1)
    (len0 : ∀ l, l ≤ D.top → (M0 l).length + 1 = D.r l * ((M0 0).length + 1)) (len1 : ∀ l, l ≤ D.top → (M1 l).length + 1 = D.r l * ((M1 0).length + 1)) : Wf (build p0 p1 M0 M1 D) D where
  top := top
  r := r
  len0 := len0
  len1 := len1
  r0 := r0
  active := by
    intro l i j hi hj
    change i < dim p0 (M0 l) at hi
    change ((build p0 p1 M0 M1 D).hidx l (i + dim p0 (M0 l) * j)).isSome = true ↔ _
    have e1 : (i + dim p0 (M0 l) * j) % dim p0 (M0 l) = i := by rw [Nat.add_mul_mod_self_left, Nat.mod_eq_of_lt hi]
    have e2 : (i + dim p0 (M0 l) * j) / dim p0 (M0 l) = j := by rw [Nat.add_mul_div_left _ _ (by omega), Nat.div_eq_of_lt hi, zero_add]
    have key : activeB p0 p1 M0 M1 D l i j = true ↔ Active (build p0 p1 M0 M1 D) D l i j := by
      unfold activeB Active
      change _ ↔ if l = D.top then ∀ x y, Touch p0 (M0 l) i x → Touch p1 (M1 l) j y → D.om (x / D.r l) (y / D.r l) = true
        else if l = 0 then ∃ x y, Touch p0 (M0 l) i x ∧ Touch p1 (M1 l) j y ∧ D.om x y = false else False
      by_cases h1 : l = D.top
      · rw [if_pos h1, if_pos h1]
        simp only [List.all_eq_true, List.mem_range, Bool.or_eq_true, Bool.not_eq_true', Bool.and_eq_false_iff]
        simp only [← Bool.not_eq_true, touchB_iff]
        constructor
        · intro h x y hx hy
          rcases h x (by have := hx.1; omega) y (by have := hy.1; omega) with (h | h) | h
          · exact absurd hx h
          · exact absurd hy h
          · exact h
        · intro h x _ y _
          by_cases hx : Touch p0 (M0 l) i x
          · by_cases hy : Touch p1 (M1 l) j y
            · exact Or.inr (h x y hx hy)
            · exact Or.inl (Or.inr hy)
          · exact Or.inl (Or.inl hx)
      · rw [if_neg h1, if_neg h1]
        by_cases h2 : l = 0
        · rw [if_pos h2, if_pos h2]
          simp only [List.any_eq_true, List.mem_range, Bool.and_eq_true, Bool.not_eq_true', touchB_iff]
          constructor
          · rintro ⟨x, _, y, _, ⟨a, b⟩, c⟩; exact ⟨x, y, a, b, c⟩
          · rintro ⟨x, y, a, b, c⟩; exact ⟨x, by have := a.1; omega, y, by have := b.1; omega, ⟨a, b⟩, c⟩
        · rw [if_neg h2, if_neg h2]; simp
    rw [← key]
    unfold build
    simp only [e1, e2]
    by_cases hl : l ≤ D.top
    · cases activeB p0 p1 M0 M1 D l i j <;> simp [hl]
    · have : activeB p0 p1 M0 M1 D l i j = false := by
        unfold activeB
        rw [if_neg (by omega), if_neg (by omega)]
      simp [this]
  inj := by
    intro l f l' f' a h h'
    unfold build at h h'
    simp only at h h'
    split_ifs at h with c1
    split_ifs at h' with c2
    simp only [Option.some.injEq] at h h'
    have hl := c1.1
    have hl' := c2.1
    have e1 : (f * (D.top + 1) + l) % (D.top + 1) = l := by rw [Nat.mul_add_mod_of_lt (by omega)]
    have e2 : (f' * (D.top + 1) + l') % (D.top + 1) = l' := by rw [Nat.mul_add_mod_of_lt (by omega)]
    have e3 : l = l' := by rw [← e1, ← e2, h, h']
    refine ⟨e3, ?_⟩
    subst e3
    have : f * (D.top + 1) = f' * (D.top + 1) := by omega
    exact Nat.eq_of_mul_eq_mul_right (by omega) this
  lvl := fun _ => rfl

/-! ## Examples -/

/-- The levels of a D-Patch over `n` elements of degree `p` with single inner knots. -/
def dpLevels (p n : ℕ) : ℕ → List ℕ
  | 0 => List.replicate (n - 1) 1
  | 1 => List.replicate (n - 1) (p - 1)
  | _ => level2 p (List.replicate (n - 1) (p - 1))

/-- Degree 3, four elements in each direction, an extraordinary vertex at the corner 1: the box has two elements in each direction. -/
def exBox (top r : ℕ) : Desc := ⟨fun x y => decide (x < 2 ∧ y < 2), top, fun l => if l = 2 then r else 1⟩
def exBase : HB := build 3 3 (dpLevels 3 4) (dpLevels 3 4) (exBox 1 1)
def exRefined : HB := build 3 3 (dpLevels 3 4) (dpLevels 3 4) (exBox 2 2)

private theorem exBase_wf : Wf exBase (exBox 1 1) := C53_exists _ _ _ _ _ Nat.one_pos (fun l => by unfold exBox; simp only; split <;> omega) rfl
  (fun l hl => by have : l = 0 ∨ l = 1 := by simp only [exBox] at hl; omega
                  rcases this with rfl | rfl <;> rfl)
  (fun l hl => by have : l = 0 ∨ l = 1 := by simp only [exBox] at hl; omega
                  rcases this with rfl | rfl <;> rfl)

private theorem exRefined_wf : Wf exRefined (exBox 2 2) := C53_exists _ _ _ _ _ Nat.two_pos (fun l => by unfold exBox; simp only; split <;> omega) rfl
  (fun l hl => by have : l = 0 ∨ l = 1 ∨ l = 2 := by simp only [exBox] at hl; omega
                  rcases this with rfl | rfl | rfl <;> rfl)
  (fun l hl => by have : l = 0 ∨ l = 1 ∨ l = 2 := by simp only [exBox] at hl; omega
                  rcases this with rfl | rfl | rfl <;> rfl)

/-- The conditions of `C53_dpatch_refined` and `C53_dpatch_base` can be met; the functions are those of the level of the corner. -/
example : DP exRefined ∧ (∃ a, indexFromVertH exRefined 3 .sw .south 1 = some a ∧ exRefined.hidx 2 (flat exRefined .sw .south 2 3 1) = some a) ∧
    ∃ a, indexFromVertH exBase 2 .sw .west 1 = some a ∧ exBase.hidx 1 (flat exBase .sw .west 1 2 1) = some a := by
  have dp : DP exRefined := ⟨by decide, by decide, by decide, by decide, by decide, by decide⟩
  have dp' : DP exBase := ⟨by decide, by decide, by decide, by decide, by decide, by decide⟩
  refine ⟨dp, C53_dpatch_refined exRefined_wf dp rfl rfl (c := .sw) (s := .south) (by decide) (L := 0) ?_ le_rfl (by norm_num), C53_dpatch_base exBase_wf dp' rfl rfl (c := .sw) (s := .west) (by decide) (L := 0) ?_ le_rfl le_rfl (Or.inl (by decide))⟩
  · intro x y hx hy; change x < 2 at hx; change y < 2 at hy
    interval_cases x <;> interval_cases y <;> decide
  · intro x y hx hy; change x < 2 at hx; change y < 2 at hy
    interval_cases x <;> interval_cases y <;> decide

/-- Beyond the box the numbers go on with the functions of level 0 (`C53_coarse`): on the base of degree 3 there are four functions of level 1 along the side, then those of level 0 from number 2 on. -/
example : (List.range 6).map (fun k => indexFromVertH exBase k .sw .south 0 == exBase.hidx 1 (flat exBase .sw .south 1 k 0)) = [true, true, true, true, false, false] ∧
    indexFromVertH exBase 4 .sw .south 0 = exBase.hidx 0 (flat exBase .sw .south 0 2 0) ∧ indexFromVertH exBase 5 .sw .south 0 = exBase.hidx 0 (flat exBase .sw .south 0 3 0) := by decide +kernel

/-- Degree 2, two elements split into four, the element at the corner 4 refined. -/
def exAlmost : HB := build 2 2 (fun l => if l = 0 then [1] else [1, 1, 1]) (fun l => if l = 0 then [1] else [1, 1, 1]) ⟨fun x y => decide (x = 1 ∧ y = 1), 1, fun l => if l = 0 then 1 else 2⟩

/-- The conditions of `C53_almost` can be met. -/
example : ∃ a, indexFromVertH exAlmost 1 .ne .north 1 = some a ∧ exAlmost.hidx 1 (flat exAlmost .ne .north 1 1 1) = some a :=
  C53_almost (C53_exists _ _ _ _ _ Nat.one_pos (fun l => by simp only; split <;> omega) rfl
    (fun l hl => by simp only at hl; rcases (by omega : l = 0 ∨ l = 1) with rfl | rfl <;> rfl) (fun l hl => by simp only at hl; rcases (by omega : l = 0 ∨ l = 1) with rfl | rfl <;> rfl))
    rfl rfl (by decide) (by decide) (by decide) (by decide) le_rfl le_rfl

/-- Degree 2, one vertex: the box has two of the three elements, and the third function lives on the third element; it is taken from level 0 (`C53_dpatch_quadratic`). -/
example : let B := build 2 2 (dpLevels 2 3) (dpLevels 2 3) (exBox 1 1)
    indexFromVertH B 2 .sw .south 0 = B.hidx 0 (flat B .sw .south 0 2 0) ∧ indexFromVertH B 1 .sw .south 0 = B.hidx 1 (flat B .sw .south 1 1 0) ∧ (B.hidx 0 (flat B .sw .south 0 2 0)).isSome = true := by decide +kernel

/-! ## What the function does not do -/

/-- Degree 4, three elements in each direction; the box of a D-Patch has one element. -/
def thin : HB := build 4 4 (dpLevels 4 3) (dpLevels 4 3) ⟨fun x y => decide (x < 1 ∧ y < 1), 1, fun _ => 1⟩

/-- C53. On the second row (offset 1) the fourth function along the side is the second function on the first row of the other side: behind the box the rows mix, since on that row no function of level 0 has been replaced, and the counting begins with the function at the side. In
the classes no function behind the box is asked for with an offset (`C53_dpatch_base`). -/
theorem C53_row_violation : indexFromVertH thin 3 .sw .south 1 = indexFromVertH thin 3 .sw .west 0 ∧ (indexFromVertH thin 3 .sw .south 1).isSome = true ∧
    indexFromVertH thin 3 .sw .south 1 = thin.hidx 0 (flat thin .sw .south 0 0 1) := by decide +kernel

/-- C53. On the refined bases of a D-Patch the numbers do not go on behind the box: the function looks one level below, where nothing is active. -/
theorem C53_refined_violation : (List.range 9).map (fun k => (indexFromVertH exRefined k .sw .south 0).isSome) = [true, true, true, true, true, true, true, true, false] := by decide +kernel

/-- C53. At a corner that is not refined only functions that have not been replaced are found: from the other corner of the side the numbers end at the box. -/
theorem C53_unrefined_violation : (List.range 7).map (fun k => (indexFromVertH exBase k .se .south 0).isSome) = [true, true, true, true, true, false, false] := by decide +kernel

/-- C53. A basis with an inner knot of multiplicity `p` (only continuous there) has no level 1: the number of copies to insert is negative. -/
theorem C53_c0_violation (p : ℕ) (M : List ℕ) (h : p ∈ M) : level1 p M = none := by
  cases e : level1 p M with
  | none => rfl
  | some M' =>
    have := ((C53_level1_iff p M M').1 e).1 p h
    omega

end Verif.HIndex
