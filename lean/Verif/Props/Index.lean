import Verif.Proofs.Index
/-!
# Properties C05, C06, C07, C30
-/
namespace Verif.Index
open Verif

/-! ## C05 — specification: which control point is meant -/

/-- The corner lies on the side. -/
def adjacent (c : Corner) (s : Side) : Prop :=
  match s with | .west => c.pu = false | .east => c.pu = true | .south => c.pv = false | .north => c.pv = true
instance (c : Corner) (s : Side) : Decidable (adjacent c s) := by unfold adjacent; split <;> infer_instance

/-- Number of control points along a side, and number of lines parallel to it. -/
def along (n0 n1 : ℕ) (s : Side) : ℕ := if s.dir then n0 else n1
def across (n0 n1 : ℕ) (s : Side) : ℕ := if s.dir then n1 else n0

/-- Column (u-position) `a` steps away from the corner in u. -/
def fromCorner (n : ℕ) (far : Bool) (a : ℕ) : ℕ := if far then n - 1 - a else a

/-- The control point `k` steps along side `s` from corner `c` and `l` steps inward, as a position (column, line). -/
def position (n0 n1 : ℕ) (c : Corner) (s : Side) (k l : ℕ) : ℕ × ℕ :=
  if s.dir then (fromCorner n0 c.pu k, fromCorner n1 c.pv l) else (fromCorner n0 c.pu l, fromCorner n1 c.pv k)

theorem position_lt {n0 n1 : ℕ} {c : Corner} {s : Side} {k l : ℕ} (hk : k < along n0 n1 s) (hl : l < across n0 n1 s) :
    (position n0 n1 c s k l).1 < n0 ∧ (position n0 n1 c s k l).2 < n1 := by
  unfold position fromCorner
  cases s <;> simp [along, across, Side.dir] at hk hl ⊢ <;> cases c <;> simp [Corner.pu, Corner.pv] <;> omega

/-- C05. For a corner on the side and admissible step counts the address is that of the intended control point. -/
theorem C05_address (n0 n1 : ℕ) (c : Corner) (s : Side) (h : adjacent c s) (k l : ℕ)
    (hk : k < along n0 n1 s) (hl : l < across n0 n1 s) :
    indexFromVert n0 n1 k c s l =
      some ((position n0 n1 c s k l).1 + n0 * (position n0 n1 c s k l).2) := by
  unfold indexFromVert
  split_ifs with h0
  · obtain ⟨rfl, rfl⟩ := h0
    cases s <;> cases c <;> simp [adjacent, Corner.pu, Corner.pv] at h <;>
      simp [functionAtCorner, position, fromCorner, Side.dir, Corner.pu, Corner.pv, tidx]
  · unfold indexFromVertImpl
    cases s <;> cases c <;> simp [adjacent, Corner.pu, Corner.pv] at h <;>
      simp [along, across, Side.dir] at hk hl <;>
      simp [position, fromCorner, Side.dir, Corner.pu, Corner.pv, tidx, hk, hl]

/-- C05. Addresses are valid, distinct for distinct steps, and the same from either side of the corner. -/
theorem C05_valid_injective_symmetric (n0 n1 : ℕ) (c : Corner) (s : Side) (h : adjacent c s) (k l : ℕ)
    (hk : k < along n0 n1 s) (hl : l < across n0 n1 s) :
    (∃ a, indexFromVert n0 n1 k c s l = some a ∧ a < n0 * n1) ∧
    (∀ k' l', k' < along n0 n1 s → l' < across n0 n1 s →
      indexFromVert n0 n1 k' c s l' = indexFromVert n0 n1 k c s l → k' = k ∧ l' = l) ∧
    (∀ s', adjacent c s' → s' ≠ s → indexFromVert n0 n1 l c s' k = indexFromVert n0 n1 k c s l) := by
  refine ⟨?_, ?_, ?_⟩
  · exact ⟨_, C05_address n0 n1 c s h k l hk hl, tidx_lt (position_lt hk hl).1 (position_lt hk hl).2⟩
  · intro k' l' hk' hl' e
    rw [C05_address n0 n1 c s h k l hk hl, C05_address n0 n1 c s h k' l' hk' hl', Option.some.injEq] at e
    have := tidx_inj (position_lt hk' hl').1 (position_lt hk hl).1 e
    revert this
    unfold position fromCorner
    cases s <;> simp [along, across, Side.dir] at hk hl hk' hl' ⊢ <;> cases c <;> simp [Corner.pu, Corner.pv] <;> omega
  · intro s' h' hne
    have hk2 : l < along n0 n1 s' ∧ k < across n0 n1 s' := by
      cases s <;> cases s' <;> cases c <;> simp [adjacent, Corner.pu, Corner.pv] at h h' hne <;>
        simp [along, across, Side.dir] at hk hl ⊢ <;> omega
    rw [C05_address n0 n1 c s h k l hk hl, C05_address n0 n1 c s' h' l k hk2.1 hk2.2]
    cases s <;> cases s' <;> cases c <;> simp [adjacent, Corner.pu, Corner.pv] at h h' hne <;> rfl

/-- C05. A corner that does not lie on the side is rejected, unless the corner function itself is asked for. -/
theorem C05_rejects_partial (n0 n1 : ℕ) (c : Corner) (s : Side) (h : ¬ adjacent c s) (k l : ℕ)
    (hkl : ¬ (k = 0 ∧ l = 0)) : indexFromVert n0 n1 k c s l = none := by
  unfold indexFromVert
  rw [if_neg hkl]
  unfold indexFromVertImpl
  cases s <;> cases c <;> simp [adjacent, Corner.pu, Corner.pv] at h <;> simp

/-- C05 fails for the corner function itself: the side is not looked at. -/
theorem C05_corner_request_not_rejected :
    ¬ ∀ (c : Corner) (s : Side), ¬ adjacent c s → indexFromVert 3 3 0 c s 0 = none := by
  intro H
  have := H .sw .east (by decide)
  revert this
  decide

/-- C05. Steps beyond the patch are rejected (by assertion). -/
theorem C05_out_of_range (n0 n1 : ℕ) (c : Corner) (s : Side) (k l : ℕ) (h : along n0 n1 s ≤ k ∨ across n0 n1 s ≤ l)
    (hkl : ¬ (k = 0 ∧ l = 0)) : indexFromVert n0 n1 k c s l = none := by
  unfold indexFromVert
  rw [if_neg hkl]
  unfold indexFromVertImpl
  cases s <;> simp [along, across, Side.dir] at h <;> simp <;> omega

/-- The corner where two sides of different direction meet. -/
def meet (s1 s2 : Side) : Corner :=
  let east := (s1 = .east) ∨ (s2 = .east)
  let north := (s1 = .north) ∨ (s2 = .north)
  if east then (if north then .ne else .se) else (if north then .nw else .sw)

/-- C05. `_indexFromSides(i1,s1,i2,s2)` is the control point `i1` steps along `s1` from the corner with `s2`, and `i2` steps
inward from `s1`; i.e. the same as asking from the vertex. -/
theorem C05_from_sides (n0 n1 : ℕ) (s1 s2 : Side) (hd : s1.dir ≠ s2.dir) (i1 i2 : ℕ)
    (h1 : i1 < along n0 n1 s1) (h2 : i2 < across n0 n1 s1) :
    indexFromSides n0 n1 i1 s1 i2 s2 = indexFromVert n0 n1 i1 (meet s1 s2) s1 i2 := by
  have ha : adjacent (meet s1 s2) s1 := by
    cases s1 <;> cases s2 <;> simp [Side.dir] at hd <;> decide
  rw [C05_address n0 n1 _ s1 ha i1 i2 h1 h2]
  unfold indexFromSides
  cases s1 <;> cases s2 <;> simp [Side.dir] at hd <;>
    simp [along, across, Side.dir] at h1 h2 <;>
    simp [boundaryOffset, Side.par, meet, position, fromCorner, Side.dir, Corner.pu, Corner.pv, tidx, h1]
  · exact ⟨n1 - 1 - i1, List.getElem?_range (by omega), Or.inl rfl⟩
  · exact ⟨n1 - 1 - i1, List.getElem?_range (by omega), Or.inl rfl⟩
  · exact List.getElem?_range (by omega)
  · exact List.getElem?_range (by omega)

/-- C05. The numbers of patch corners and patch sides used for the bookkeeping flags are distinct and in range. -/
theorem C05_flag_numbers (np p p' : ℕ) (c c' : Corner) (s s' : Side) (hp : p < np) :
    vertIndex p c < 4 * np ∧ sideIndex p s < 4 * np ∧
    (vertIndex p c = vertIndex p' c' → p = p' ∧ c = c') ∧ (sideIndex p s = sideIndex p' s' → p = p' ∧ s = s') := by
  unfold vertIndex sideIndex
  refine ⟨?_, ?_, ?_, ?_⟩
  · cases c <;> simp [Corner.idx] <;> omega
  · cases s <;> simp [Side.idx] <;> omega
  · cases c <;> cases c' <;> simp [Corner.idx] <;> omega
  · cases s <;> cases s' <;> simp [Side.idx] <;> omega

example : indexFromVert 5 4 2 .ne .east 1 = some 8 := by decide
example : adjacent .ne .east ∧ 2 < along 5 4 .east ∧ 1 < across 5 4 .east := by decide
example : indexFromSides 5 4 2 .east 1 .north = some 8 := by decide

/-! ## C30 -/

/-- C30. Every local number in range lies in exactly one patch, at a valid place, and is recovered from it. -/
theorem C30_decode (sz : List ℕ) (l : ℕ) (h : l < sz.sum) :
    getPatch sz l < sz.length ∧ 0 ≤ patchIndex sz l ∧ patchIndex sz l < sz.getD (getPatch sz l) 0 ∧
    (localIndex sz (getPatch sz l) (patchIndex sz l).toNat : ℕ) = l := by
  obtain ⟨h1, h2, h3⟩ := getPatch_spec sz l h
  have e : patchIndex sz l = (l : ℤ) - (sz.take (getPatch sz l)).sum := by
    unfold patchIndex; rw [foldl_sub, firstLocal_eq]
  refine ⟨h1, by rw [e]; omega, by rw [e]; omega, ?_⟩
  unfold localIndex
  rw [firstLocal_eq, e]; omega

/-- C30. Conversely the number formed from a patch and a place in it is in range and decodes to them. -/
theorem C30_encode (sz : List ℕ) (p k : ℕ) (hp : p < sz.length) (hk : k < sz.getD p 0) :
    localIndex sz p k < sz.sum ∧ getPatch sz (localIndex sz p k) = p ∧ patchIndex sz (localIndex sz p k) = k := by
  unfold localIndex
  rw [firstLocal_eq]
  have hg := getPatch_local sz p k hp hk
  refine ⟨local_lt sz p k hp hk, hg, ?_⟩
  unfold patchIndex
  rw [foldl_sub, firstLocal_eq, hg]; push_cast; ring

/-- C30. The last number of a patch is one before the first of the next patch. -/
theorem C30_ranges_contiguous (sz : List ℕ) (p : ℕ) (hp : p < sz.length) :
    lastLocal sz p + 1 = firstLocal sz (p + 1) ∧ firstLocal sz 0 = 0 ∧ firstLocal sz sz.length = sz.sum := by
  refine ⟨?_, rfl, by rw [firstLocal_eq, List.take_length]⟩
  unfold lastLocal
  rw [firstLocal_eq, firstLocal_eq, List.take_add_one, List.sum_append, List.getD_eq_getElem?_getD,
    List.getElem?_eq_getElem hp]
  simp only [Option.getD_some, Option.toList_some, List.sum_cons, List.sum_nil]
  push_cast; ring

/-- C30. Tensor coordinates: the (u,v) of a local number are recovered from the number, and conversely. -/
theorem C30_tensor (dims : List (ℕ × ℕ)) (p u v : ℕ) (hp : p < dims.length) (hu : u < (dims.getD p (0, 0)).1)
    (hv : v < (dims.getD p (0, 0)).2) :
    let l := localIndexUV dims p u v
    getPatch (dims.map fun d => d.1 * d.2) l = p ∧ getPar dims l false = u ∧ getPar dims l true = v := by
  intro l
  have hs : (dims.map fun d => d.1 * d.2).getD p 0 = (dims.getD p (0, 0)).1 * (dims.getD p (0, 0)).2 := by
    simp only [List.getD_eq_getElem?_getD, List.getElem?_map, List.getElem?_eq_getElem hp]; rfl
  obtain ⟨_, h2, h3⟩ := C30_encode (dims.map fun d => d.1 * d.2) p (tidx (dims.getD p (0, 0)).1 u v)
    (by simpa using hp) (by rw [hs]; exact tidx_lt hu hv)
  have h2' : getPatch (dims.map fun d => d.1 * d.2) l = p := h2
  have h3' : patchIndex (dims.map fun d => d.1 * d.2) l = (tidx (dims.getD p (0, 0)).1 u v : ℕ) := h3
  refine ⟨h2', ?_, ?_⟩
  · unfold getPar; simp only [h2', h3', Int.toNat_natCast]; exact tidx_mod hu
  · unfold getPar; simp only [h2', h3', Int.toNat_natCast]; exact tidx_div hu

example : getPatch [4, 0, 3] 5 = 2 ∧ patchIndex [4, 0, 3] 5 = 1 ∧ localIndex [4, 0, 3] 2 1 = 5 := by decide
example : getPar [(2, 2), (3, 4)] (localIndexUV [(2, 2), (3, 4)] 1 2 3) true = 3 := by decide

/-! ## C06 -/

/-- C06. The splitting loop cuts the vector into consecutive blocks of the right sizes; nothing is lost. -/
theorem C06_split {α : Type} (sz : List ℕ) (coefs : List α) (h : coefs.length = sz.sum) :
    (splitLoop coefs (-1) sz).flatten = coefs ∧ (splitLoop coefs (-1) sz).map List.length = sz := by
  have e := splitLoop_eq coefs sz 0
  simp only [Nat.cast_zero, zero_sub, List.drop_zero] at e
  rw [e]
  exact ⟨pieces_flatten sz coefs h, pieces_lengths sz coefs h.ge⟩

/-- C06. Splitting, refining each block and joining gives the concatenation of the refined blocks: every row of the
result is written exactly with the row of that concatenation, and no other row is written. -/
theorem C06_refine {α : Type} (f : ℕ → List α → List α) (sz : List ℕ) (coefs : List α) (i : ℕ) :
    refineCoefs f sz coefs i = ((splitLoop coefs (-1) sz).mapIdx f).flatten[i]? := by
  unfold refineCoefs
  have e := joinLoop_eq ((splitLoop coefs (-1) sz).mapIdx f) (fun _ => none) 0 i
  simp only [Nat.cast_zero, zero_sub] at e
  rw [e]
  by_cases h : i < ((splitLoop coefs (-1) sz).mapIdx f).flatten.length
  · rw [if_pos ⟨Nat.zero_le _, by omega⟩, Nat.sub_zero]
  · rw [if_neg (by omega), List.getElem?_eq_none (by omega)]

/-- C06. In particular splitting and joining without change returns the vector. -/
theorem C06_roundtrip {α : Type} (sz : List ℕ) (coefs : List α) (h : coefs.length = sz.sum) (i : ℕ) :
    refineCoefs (fun _ b => b) sz coefs i = coefs[i]? := by
  rw [C06_refine]
  have : (splitLoop coefs (-1) sz).mapIdx (fun _ b => b) = splitLoop coefs (-1) sz := by
    apply List.ext_getElem <;> simp
  rw [this, (C06_split sz coefs h).1]

/-- C06. Exporting patch by patch and concatenating returns the whole vector, and each exported block is the block of the
splitting loop. -/
theorem C06_export {α : Type} (sz : List ℕ) (coefs : List α) (h : coefs.length = sz.sum) :
    (List.range sz.length).map (exportBlock sz coefs) = splitLoop coefs (-1) sz ∧
    ((List.range sz.length).map (exportBlock sz coefs)).flatten = coefs := by
  have e := splitLoop_eq coefs sz 0
  simp only [Nat.cast_zero, zero_sub, List.drop_zero] at e
  have h1 : (List.range sz.length).map (exportBlock sz coefs) = splitLoop coefs (-1) sz := by
    rw [e]
    apply List.ext_getElem?
    intro p
    by_cases hp : p < sz.length
    · rw [pieces_get sz coefs p hp]
      simp [hp, exportBlock, firstLocal_eq]
    · rw [List.getElem?_eq_none (by simpa using hp), List.getElem?_eq_none (by rw [pieces_length]; omega)]
  exact ⟨h1, by rw [h1]; exact (C06_split sz coefs h).1⟩

example : splitLoop ['a', 'b', 'c'] (-1) [2, 0, 1] = [['a', 'b'], [], ['c']] := by decide
example : exportBlock [2, 0, 1] ['a', 'b', 'c'] 2 = ['c'] := by decide

/-! ## C07 -/

/-- C07 (indices). For `n ≤ length`: the kept and the remaining pairs together are the input, each kept pair is not larger
than each remaining one, and both results depend only on the multiset of inputs. -/
theorem C07_indices (l : List (ℕ × ℕ)) (n : ℕ) (hn : n ≤ l.length) :
    ∃ rest, removeLowestIndices l n = some rest ∧ (getLowestIndices l n).length = n ∧
      (getLowestIndices l n ++ rest).Perm l ∧
      (∀ a ∈ getLowestIndices l n, ∀ b ∈ rest, a.1 < b.1 ∨ (a.1 = b.1 ∧ a.2 ≤ b.2)) ∧
      ∀ l', l.Perm l' → getLowestIndices l' n = getLowestIndices l n ∧ removeLowestIndices l' n = some rest := by
  have hlen : (l.mergeSort idxLe).length = l.length := (List.mergeSort_perm l idxLe).length_eq
  have e1 : getLowestIndices l n = (l.mergeSort idxLe).take n := resize_take _ _ _ (by omega)
  have e2 : removeLowestIndices l n = some (((l.mergeSort idxLe).drop n).reverse) := by
    unfold removeLowestIndices
    rw [if_pos hn, idx_sort_rev, resize_take _ _ _ (by simp), ← hlen, reverse_take _ _ (by omega)]
  refine ⟨_, e2, by rw [e1]; simp; omega, ?_, ?_, ?_⟩
  · rw [e1]
    refine (List.Perm.append_left _ (List.reverse_perm _)).trans ?_
    rw [List.take_append_drop]
    exact List.mergeSort_perm l idxLe
  · intro a ha b hb
    rw [e1] at ha
    have := sorted_split (List.pairwise_mergeSort idxLe_trans idxLe_total l) n a ha b (List.mem_reverse.1 hb)
    simpa [idxLe] using this
  · intro l' hp
    rw [← e2]
    unfold getLowestIndices removeLowestIndices
    rw [idx_sort_rev, idx_sort_rev, idx_sort_eq hp, hp.length_eq]
    exact ⟨rfl, rfl⟩

/-- C07 (corners, partial: needs the patch numbers at the vertex to be distinct). Same statement, for any sorting functions the
C++ library may use. -/
theorem C07_corners_partial (f f' g g' : List (ℕ × Corner) → List (ℕ × Corner)) (hf : SortsUp f) (hf' : SortsUp f')
    (hg : SortsDown g) (hg' : SortsDown g') (l : List (ℕ × Corner)) (n : ℕ) (hn : n ≤ l.length)
    (hd : (l.map Prod.fst).Nodup) :
    ∃ rest, removeLowestCorners g l n = some rest ∧ (getLowestCorners f l n).length = n ∧
      (getLowestCorners f l n ++ rest).Perm l ∧
      (∀ a ∈ getLowestCorners f l n, ∀ b ∈ rest, a.1 < b.1) ∧
      ∀ l', l.Perm l' → getLowestCorners f' l' n = getLowestCorners f l n ∧ removeLowestCorners g' l' n = some rest := by
  have hlen : (f l).length = l.length := (hf l).1.length_eq
  have e1 : getLowestCorners f l n = (f l).take n := resize_take _ _ _ (by omega)
  have e2 : removeLowestCorners g l n = some (((f l).drop n).reverse) := by
    unfold removeLowestCorners
    rw [if_pos hn, down_eq hf hg hd, resize_take _ _ _ (by simp; omega), ← hlen, reverse_take _ _ (by omega)]
  refine ⟨_, e2, by rw [e1]; simp; omega, ?_, ?_, ?_⟩
  · rw [e1]
    refine (List.Perm.append_left _ (List.reverse_perm _)).trans ?_
    rw [List.take_append_drop]
    exact (hf l).1
  · intro a ha b hb
    rw [e1] at ha
    have hb := List.mem_reverse.1 hb
    have hnd : ((f l).map Prod.fst).Nodup := (((hf l).1.map Prod.fst).nodup_iff).2 hd
    have hlt : (f l).Pairwise (fun a b => a.1 < b.1) := by
      have hne : (f l).Pairwise (fun a b => a.1 ≠ b.1) := List.pairwise_map.1 hnd
      exact ((hf l).2.and hne).imp fun h => by omega
    exact sorted_split hlt n a ha b hb
  · intro l' hp
    have hd' : (l'.map Prod.fst).Nodup := ((hp.map Prod.fst).nodup_iff).1 hd
    rw [← e2]
    unfold getLowestCorners removeLowestCorners
    rw [down_eq hf hg hd, down_eq hf' hg' hd', up_eq hf hf' hp hd, hp.length_eq]
    exact ⟨rfl, rfl⟩

/-- C07 (corners, no assumption). The patch numbers of kept and remaining corners are always complementary and ordered. -/
theorem C07_corner_patches (f g : List (ℕ × Corner) → List (ℕ × Corner)) (hf : SortsUp f)
    (hg : SortsDown g) (l : List (ℕ × Corner)) (n : ℕ) (hn : n ≤ l.length) :
    ∃ rest, removeLowestCorners g l n = some rest ∧
      ((getLowestCorners f l n).map Prod.fst ++ rest.map Prod.fst).Perm (l.map Prod.fst) ∧
      ∀ a ∈ getLowestCorners f l n, ∀ b ∈ rest, a.1 ≤ b.1 := by
  have hlen : (f l).length = l.length := (hf l).1.length_eq
  have hlen' : (g l).length = l.length := (hg l).1.length_eq
  have e1 : getLowestCorners f l n = (f l).take n := resize_take _ _ _ (by omega)
  have e2 : removeLowestCorners g l n = some ((g l).take (l.length - n)) := by
    unfold removeLowestCorners
    rw [if_pos hn, resize_take _ _ _ (by omega)]
  have e3 : ((g l).take (l.length - n)).map Prod.fst = (((f l).map Prod.fst).drop n).reverse := by
    rw [List.map_take, up_map hf hg, ← hlen, ← List.length_map (f := Prod.fst) (as := f l),
      reverse_take _ _ (by simp; omega)]
  refine ⟨_, e2, ?_, ?_⟩
  · rw [e1, e3, List.map_take]
    refine (List.Perm.append_left _ (List.reverse_perm _)).trans ?_
    rw [List.take_append_drop]
    exact (hf l).1.map _
  · intro a ha b hb
    rw [e1] at ha
    have hb' : b.1 ∈ ((f l).map Prod.fst).drop n := by
      rw [← List.mem_reverse, ← e3]; exact List.mem_map_of_mem hb
    have ha' : a.1 ∈ ((f l).map Prod.fst).take n := by
      rw [← List.map_take]; exact List.mem_map_of_mem ha
    exact sorted_split (r := fun x y => x ≤ y) (List.Pairwise.map _ (fun _ _ h => h) (hf l).2) n _ ha' _ hb'

/-- C07 fails for corners when a patch occurs twice at the vertex: with stable sorting, one corner is both kept and left as
"rest", the other is lost. -/
theorem C07_corners_not_complementary :
    ¬ ∀ (f g : List (ℕ × Corner) → List (ℕ × Corner)), SortsUp f → SortsDown g → ∀ (l : List (ℕ × Corner)) (n : ℕ),
      n ≤ l.length → ∀ rest, removeLowestCorners g l n = some rest → (getLowestCorners f l n ++ rest).Perm l := by
  intro H
  have hf : SortsUp (fun l => l.mergeSort (fun a b => decide (a.1 ≤ b.1))) := fun l =>
    ⟨List.mergeSort_perm l _, by
      have := List.pairwise_mergeSort (le := fun (a b : ℕ × Corner) => decide (a.1 ≤ b.1))
        (fun a b c h1 h2 => by simp at *; omega) (fun a b => by simp; omega) l
      simpa using this⟩
  have hg : SortsDown (fun l => l.mergeSort (fun a b => decide (b.1 ≤ a.1))) := fun l =>
    ⟨List.mergeSort_perm l _, by
      have := List.pairwise_mergeSort (le := fun (a b : ℕ × Corner) => decide (b.1 ≤ a.1))
        (fun a b c h1 h2 => by simp at *; omega) (fun a b => by simp; omega) l
      simpa using this⟩
  have := H _ _ hf hg [(0, .sw), (0, .ne)] 1 (by decide) [(0, .sw)]
    (by simp [removeLowestCorners, List.mergeSort, resize, List.MergeSort.Internal.splitInTwo])
  simp [getLowestCorners, List.mergeSort, resize, List.MergeSort.Internal.splitInTwo] at this

/-- C07. Asking for more corners than exist silently invents default entries. -/
theorem C07_too_many_invents (f : List (ℕ × Corner) → List (ℕ × Corner)) (hf : SortsUp f) (l : List (ℕ × Corner)) (n : ℕ)
    (h : l.length < n) : getLowestCorners f l n = f l ++ List.replicate (n - l.length) (0, Corner.sw) := by
  have hlen : (f l).length = l.length := (hf l).1.length_eq
  unfold getLowestCorners resize
  rw [List.take_of_length_le (by omega), hlen]

example : getLowestIndices [(2, 1), (0, 7), (0, 3)] 2 = [(0, 3), (0, 7)] := by
  simp [getLowestIndices, List.mergeSort, resize, List.MergeSort.Internal.splitInTwo, idxLe]
example : ∃ f, SortsUp f := ⟨fun l => l.mergeSort (fun a b => decide (a.1 ≤ b.1)), fun l =>
    ⟨List.mergeSort_perm l _, by
      have := List.pairwise_mergeSort (le := fun (a b : ℕ × Corner) => decide (a.1 ≤ b.1))
        (fun a b c h1 h2 => by simp at *; omega) (fun a b => by simp; omega) l
      simpa using this⟩⟩

end Verif.Index
