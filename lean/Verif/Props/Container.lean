import Verif.Model.Container
import Verif.Proofs.Index
import Mathlib.Data.List.Nodup
/-!
# Properties C21, C36: container basis
-/
namespace Verif.Container
open Verif

/-- Specification: the first number of piece `k`. -/
def start (ps : List Piece) (k : ℕ) : ℕ := ((ps.take k).map Piece.size).sum

theorem foldl_size (ps : List Piece) (a : ℕ) :
    ps.foldl (fun sz b => sz + b.size) a = a + (ps.map Piece.size).sum := by
  induction ps generalizing a with
  | nil => simp
  | cons b ps ih => simp [ih]; omega

theorem size_eq (ps : List Piece) : size ps = (ps.map Piece.size).sum := by
  unfold size; rw [foldl_size]; simp

theorem start_succ (ps : List Piece) (k : ℕ) (hk : k < ps.length) :
    start ps (k + 1) = start ps k + (ps[k]).size := by
  unfold start
  rw [List.take_add_one, List.getElem?_eq_getElem hk, List.map_append, List.sum_append]
  rfl

theorem shiftTo_eq (ps : List Piece) (k : ℕ) (hk : k ≤ ps.length) : shiftTo ps k = some (start ps k) := by
  unfold shiftTo
  induction k with
  | zero => simp [start]
  | succ k ih =>
    rw [List.range_succ, List.foldl_append, ih (by omega)]
    have hk' : k < ps.length := by omega
    rw [start_succ ps k hk', List.foldl_cons, List.foldl_nil, List.getElem?_eq_getElem hk']
    rfl

/-- C21. Every function number of the container belongs to exactly one piece, at exactly one position in it; conversely every
function of every piece has a number. -/
theorem C21_unique_piece (ps : List Piece) (n : ℕ) :
    n < size ps ↔ ∃! kl : ℕ × ℕ, ∃ b, ps[kl.1]? = some b ∧ kl.2 < b.size ∧ n = start ps kl.1 + kl.2 := by
  rw [size_eq]
  set sz := ps.map Piece.size with hsz
  have hst : ∀ k, start ps k = (sz.take k).sum := by intro k; simp [start, hsz]
  have hget : ∀ k b, ps[k]? = some b → k < sz.length ∧ sz.getD k 0 = b.size := by
    intro k b h
    rw [List.getElem?_eq_some_iff] at h
    obtain ⟨h1, h2⟩ := h
    refine ⟨by simpa [hsz], ?_⟩
    simp [hsz, List.getD_eq_getElem?_getD, h1, h2]
  constructor
  · intro h
    obtain ⟨h1, h2, h3⟩ := Index.getPatch_spec sz n h
    have h1' : Index.getPatch sz n < ps.length := by simpa [hsz] using h1
    refine ⟨(Index.getPatch sz n, n - start ps (Index.getPatch sz n)), ?_, ?_⟩
    · refine ⟨ps[Index.getPatch sz n], by simp [h1'], ?_, ?_⟩
      · have := (hget (Index.getPatch sz n) ps[Index.getPatch sz n] (by simp [h1'])).2
        rw [← this]; simp only [hst]; omega
      · simp only [hst]; omega
    · rintro ⟨k, l⟩ ⟨b, hb, hl, hn⟩
      obtain ⟨g1, g2⟩ := hget k b hb
      have := Index.getPatch_local sz k l g1 (by rw [g2]; exact hl)
      simp only [hst] at hn
      rw [← hn] at this
      simp only [Prod.mk.injEq]
      refine ⟨this.symm, ?_⟩
      rw [this, hst]; omega
  · rintro ⟨⟨k, l⟩, ⟨b, hb, hl, hn⟩, -⟩
    obtain ⟨g1, g2⟩ := hget k b hb
    have := Index.local_lt sz k l g1 (by rw [g2]; exact hl)
    simp only [hst] at hn
    omega

theorem activeLoop_mem (ps : List Piece) (sh n : ℕ) : n ∈ activeLoop sh ps ↔
    ∃ k b, ps[k]? = some b ∧ ∃ a ∈ b.active, n = sh + start ps k + a := by
  induction ps generalizing sh with
  | nil => simp [activeLoop]
  | cons b ps ih =>
    unfold activeLoop
    rw [List.mem_append, ih, List.mem_map]
    constructor
    · rintro (⟨a, ha, rfl⟩ | ⟨k, b', hb, a, ha, rfl⟩)
      · exact ⟨0, b, rfl, a, ha, by simp [start]; omega⟩
      · exact ⟨k + 1, b', by simpa using hb, a, ha, by simp [start]; omega⟩
    · rintro ⟨k, b', hb, a, ha, rfl⟩
      cases k with
      | zero =>
        simp at hb; subst hb
        exact Or.inl ⟨a, ha, by simp [start]; omega⟩
      | succ k =>
        exact Or.inr ⟨k, b', by simpa using hb, a, ha, by simp [start]; omega⟩

theorem activeLoop_ge (ps : List Piece) (sh n : ℕ) (h : n ∈ activeLoop sh ps) : sh ≤ n := by
  rw [activeLoop_mem] at h
  obtain ⟨k, b, -, a, -, rfl⟩ := h; omega

/-- C21. The active functions reported at a point are exactly the active functions of the pieces, each under its own number. -/
theorem C21_active (ps : List Piece) (n : ℕ) :
    n ∈ active ps ↔ ∃ k b, ps[k]? = some b ∧ ∃ a ∈ b.active, n = start ps k + a := by
  unfold active; rw [activeLoop_mem]; simp

/-- C21. They are valid numbers and no number is reported twice. -/
theorem C21_active_valid_nodup (ps : List Piece) (hok : ∀ b ∈ ps, b.Ok) :
    (active ps).Nodup ∧ ∀ n ∈ active ps, n < size ps := by
  constructor
  · unfold active
    generalize 0 = sh
    induction ps generalizing sh with
    | nil => simp [activeLoop]
    | cons b ps ih =>
      unfold activeLoop
      rw [List.nodup_append]
      refine ⟨?_, ih (fun b' hb => hok b' (by simp [hb])) _, ?_⟩
      · exact (hok b (by simp)).active_nodup.map (fun a a' h => by simpa using h)
      · intro x hx y hy
        have h1 := activeLoop_ge _ _ _ hy
        rw [List.mem_map] at hx
        obtain ⟨a, ha, rfl⟩ := hx
        have := (hok b (by simp)).active_lt a ha
        omega
  · intro n hn
    rw [C21_active] at hn
    obtain ⟨k, b, hb, a, ha, rfl⟩ := hn
    have hb' := hok b (List.mem_of_getElem? hb)
    have hlt := hb'.active_lt a ha
    rw [List.getElem?_eq_some_iff] at hb
    obtain ⟨h1, h2⟩ := hb
    rw [size_eq]
    have := Index.local_lt (ps.map Piece.size) k a (by simpa using h1)
      (by simpa [List.getD_eq_getElem?_getD, h1, h2] using hlt)
    simpa [start] using this

theorem foldl_eval (ps : List Piece) (r : List ℤ) :
    ps.foldl (fun r b => r ++ b.value) r = r ++ (ps.map Piece.value).flatten := by
  induction ps generalizing r with
  | nil => simp
  | cons b ps ih => simp [ih]

/-- C21. Values and active functions are listed in the same order: the pairs (number, value) of the container are the pairs of
the pieces, shifted, piece after piece. -/
theorem C21_values_match (ps : List Piece) (hok : ∀ b ∈ ps, b.Ok) :
    (active ps).length = (eval ps).length ∧
    (active ps).zip (eval ps) =
      (ps.mapIdx fun k b => (b.active.zip b.value).map fun av => (start ps k + av.1, av.2)).flatten := by
  have key : ∀ (ps : List Piece) (sh : ℕ), (∀ b ∈ ps, b.Ok) →
      (activeLoop sh ps).length = ((ps.map Piece.value).flatten).length ∧
      (activeLoop sh ps).zip ((ps.map Piece.value).flatten) =
      (ps.mapIdx fun k b => (b.active.zip b.value).map fun av => (sh + start ps k + av.1, av.2)).flatten := by
    intro ps
    induction ps with
    | nil => intro sh _; simp [activeLoop]
    | cons b ps ih =>
      intro sh hok
      obtain ⟨i1, i2⟩ := ih (sh + b.size) (fun b' hb => hok b' (by simp [hb]))
      have hl := (hok b (by simp)).value_len
      unfold activeLoop
      constructor
      · simp only [List.length_append, List.length_map, List.map_cons, List.flatten_cons, i1, hl]
      · rw [List.map_cons, List.flatten_cons, List.zip_append (by simp [hl]), i2, List.mapIdx_cons, List.flatten_cons]
        congr 1
        · rw [List.zip_map_left]
          apply List.map_congr_left
          rintro ⟨a, v⟩ _
          simp [start, Nat.add_comm]
        · congr 1
          congr 1
          funext k b'
          apply List.map_congr_left
          rintro ⟨a, v⟩ _
          simp [start, Nat.add_assoc]
  have h0 : eval ps = (ps.map Piece.value).flatten := by unfold eval; rw [foldl_eval]; simp
  obtain ⟨k1, k2⟩ := key ps 0 hok
  rw [h0]
  refine ⟨k1, ?_⟩
  unfold active
  rw [k2]; simp

/-- The pieces asked on behalf of a side: the edge piece and the two vertex pieces (specification, numbers as in
`gsApproxC1Spline`: piece 0 interior, 1–4 edges, 5–8 vertices). -/
def sidePieces : Side → List ℕ
  | .west => [1, 5, 7] | .east => [2, 6, 8] | .south => [3, 5, 6] | .north => [4, 7, 8]

theorem bndOf_eq (ps : List Piece) (k : ℕ) (hk : k < ps.length) (s : Side) (o : ℕ) :
    bndOf ps k s o = some (((ps[k]).bnd s o).map fun a => a + start ps k) := by
  unfold bndOf
  rw [shiftTo_eq _ _ (by omega)]
  simp [List.getElem?_eq_getElem hk]

/-- C21. A side query on a nine-piece container never leaves the container, and returns exactly the side functions of the edge
piece of that side and of the two vertex pieces at its ends, each under its own number. -/
theorem C21_side (ps : List Piece) (h9 : ps.length = 9) (s : Side) (o : ℕ) :
    ∃ l, boundaryOffset ps s o = some l ∧
      (∀ n, n ∈ l ↔ ∃ k ∈ sidePieces s, ∃ b, ps[k]? = some b ∧ ∃ a ∈ b.bnd s o, n = start ps k + a) ∧
      ((∀ b ∈ ps, b.Ok) → l.Nodup ∧ ∀ n ∈ l, n < size ps) := by
  have h : ∃ k0 k1 k2, sidePieces s = [k0, k1, k2] ∧ k0 < k1 ∧ k1 < k2 ∧ k2 < 9 ∧
      boundaryOffset ps s o = ((bndOf ps k0 s o).bind fun l => (bndOf ps k1 s o).map fun l' => l ++ l').bind
        fun l => (bndOf ps k2 s o).map fun l' => l ++ l' := by
    cases s
    · exact ⟨1, 5, 7, rfl, by omega, by omega, by omega, by simp [boundaryOffset, h9, containedCorners, Side.idx, Corner.idx]⟩
    · exact ⟨2, 6, 8, rfl, by omega, by omega, by omega, by simp [boundaryOffset, h9, containedCorners, Side.idx, Corner.idx]⟩
    · exact ⟨3, 5, 6, rfl, by omega, by omega, by omega, by simp [boundaryOffset, h9, containedCorners, Side.idx, Corner.idx]⟩
    · exact ⟨4, 7, 8, rfl, by omega, by omega, by omega, by simp [boundaryOffset, h9, containedCorners, Side.idx, Corner.idx]⟩
  obtain ⟨k0, k1, k2, hs, h01, h12, h29, hb⟩ := h
  have g0 : k0 < ps.length := by omega
  have g1 : k1 < ps.length := by omega
  have g2 : k2 < ps.length := by omega
  rw [bndOf_eq ps k0 g0, bndOf_eq ps k1 g1, bndOf_eq ps k2 g2] at hb
  simp only [Option.bind_some, Option.map_some] at hb
  refine ⟨_, hb, ?_, ?_⟩
  · intro n
    rw [hs]
    have e0 := List.getElem?_eq_getElem g0
    have e1 := List.getElem?_eq_getElem g1
    have e2 := List.getElem?_eq_getElem g2
    simp only [List.mem_append, List.mem_map, List.mem_cons, List.not_mem_nil, or_false, exists_eq_or_imp,
      exists_eq_left, e0, e1, e2, Option.some.injEq, exists_eq_left']
    constructor
    · rintro ((⟨a, ha, rfl⟩ | ⟨a, ha, rfl⟩) | ⟨a, ha, rfl⟩)
      · exact Or.inl ⟨a, ha, by omega⟩
      · exact Or.inr (Or.inl ⟨a, ha, by omega⟩)
      · exact Or.inr (Or.inr ⟨a, ha, by omega⟩)
    · rintro (⟨a, ha, rfl⟩ | ⟨a, ha, rfl⟩ | ⟨a, ha, rfl⟩)
      · exact Or.inl (Or.inl ⟨a, ha, by omega⟩)
      · exact Or.inl (Or.inr ⟨a, ha, by omega⟩)
      · exact Or.inr ⟨a, ha, by omega⟩
  · intro hok
    have hend : ∀ k (hk : k < ps.length), start ps (k + 1) = start ps k + (ps[k]).size := start_succ ps
    have hmono : ∀ i j, i ≤ j → start ps i ≤ start ps j := by
      intro i j hij
      obtain ⟨d, rfl⟩ := Nat.le.dest hij
      unfold start
      rw [List.take_add, List.map_append, List.sum_append]; omega
    have hlt : ∀ k (hk : k < ps.length), ∀ x ∈ ((ps[k]).bnd s o).map (fun a => a + start ps k),
        start ps k ≤ x ∧ x < start ps (k + 1) := by
      intro k hk x hx
      rw [List.mem_map] at hx
      obtain ⟨a, ha, rfl⟩ := hx
      have := (hok _ (List.getElem_mem hk)).bnd_lt s o a ha
      rw [hend k hk]; omega
    have hnd : ∀ k (hk : k < ps.length), (((ps[k]).bnd s o).map fun a => a + start ps k).Nodup := by
      intro k hk
      exact ((hok _ (List.getElem_mem hk)).bnd_nodup s o).map (fun a a' h => by simpa using h)
    constructor
    · rw [List.nodup_append, List.nodup_append]
      refine ⟨⟨hnd k0 g0, hnd k1 g1, ?_⟩, hnd k2 g2, ?_⟩
      · intro x hx y hy
        have := hlt _ g0 _ hx; have := hlt _ g1 _ hy; have := hmono (k0 + 1) k1 (by omega); omega
      · intro x hx y hy
        have := hlt _ g2 _ hy
        rw [List.mem_append] at hx
        rcases hx with hx | hx
        · have := hlt _ g0 _ hx; have := hmono (k0 + 1) k2 (by omega); omega
        · have := hlt _ g1 _ hx; have := hmono (k1 + 1) k2 (by omega); omega
    · have hsz : size ps = start ps ps.length := by rw [size_eq]; simp [start]
      intro n hn
      rw [hsz]
      rw [List.mem_append, List.mem_append] at hn
      rcases hn with (hn | hn) | hn
      · have := hlt _ g0 _ hn; have := hmono (k0 + 1) ps.length (by omega); omega
      · have := hlt _ g1 _ hn; have := hmono (k1 + 1) ps.length (by omega); omega
      · have := hlt _ g2 _ hn; have := hmono (k2 + 1) ps.length (by omega); omega

/-- The piece asked on behalf of a corner (specification). -/
def cornerPiece : Corner → ℕ | .sw => 5 | .se => 6 | .nw => 7 | .ne => 8

/-- C21. A corner query on a nine-piece container returns the corner function of the vertex piece of that corner. -/
theorem C21_corner (ps : List Piece) (h9 : ps.length = 9) (c : Corner) :
    ∃ b, ps[cornerPiece c]? = some b ∧
      functionAtCorner ps c = some (start ps (cornerPiece c) + b.atCorner c) ∧
      ((∀ b ∈ ps, b.Ok) → start ps (cornerPiece c) + b.atCorner c < start ps (cornerPiece c) + b.size) := by
  have e : c.idx + 4 = cornerPiece c := by cases c <;> rfl
  have hl : cornerPiece c < ps.length := by rw [h9]; cases c <;> decide
  refine ⟨ps[cornerPiece c], List.getElem?_eq_getElem hl, ?_, ?_⟩
  · unfold functionAtCorner
    rw [e, shiftTo_eq _ _ (by omega), List.getElem?_eq_getElem hl, if_neg (by omega)]
    simp [Nat.add_comm]
  · intro hok
    have := (hok _ (List.getElem_mem hl)).corner_lt c
    omega

/-- C21. A one-piece container answers like the piece. -/
theorem C21_single (b : Piece) (s : Side) (o : ℕ) (c : Corner) :
    boundaryOffset [b] s o = some (b.bnd s o) ∧ functionAtCorner [b] c = some (b.atCorner c) ∧ active [b] = b.active ∧
    size [b] = b.size := by
  simp [boundaryOffset, functionAtCorner, active, activeLoop, size]

/-- A small concrete piece: `n` functions on a line, all active. -/
def demo (n : ℕ) : Piece where
  size := n + 1
  active := List.range (n + 1)
  value := (List.range (n + 1)).map fun i => (i : ℤ)
  bnd := fun _ o => [o % (n + 1)]
  atCorner := fun c => if c.pu then n else 0
  supp := fun i => if i < n + 1 then some i else none

theorem demo_ok (n : ℕ) : (demo n).Ok where
  active_lt := by intro a h; simpa [demo] using h
  active_nodup := List.nodup_range
  value_len := by simp [demo]
  bnd_lt := by intro s o a h; simp [demo] at h; simp only [demo]; rw [h]; exact Nat.mod_lt _ (by omega)
  bnd_nodup := by intro s o; simp [demo]
  corner_lt := by intro c; cases c <;> simp [demo, Corner.pu]
  supp_ok := by intro i h; simp [demo] at h ⊢; simp [h]

/-- A nine-piece container meets the hypotheses; its side query is computed. -/
def demo9 : List Piece := [demo 3, demo 1, demo 1, demo 1, demo 1, demo 2, demo 2, demo 2, demo 2]
example : demo9.length = 9 ∧ (∀ b ∈ demo9, b.Ok) ∧ boundaryOffset demo9 .west 1 = some [5, 13, 19] ∧
    functionAtCorner demo9 .ne = some 23 ∧ size demo9 = 24 := by
  refine ⟨rfl, ?_, by decide, by decide, by decide⟩
  intro b hb
  simp [demo9] at hb
  rcases hb with rfl | rfl | rfl <;> exact demo_ok _

/-! ## C36: support of a function -/

/-- Specification: the support reported for number `start k + l` is that of function `l` of piece `k`. -/
def SupportCorrect (ps : List Piece) : Prop :=
  ∀ k b l, ps[k]? = some b → l < b.size → support ps (start ps k + l) = b.supp l

/-- C36 fails for the code: beyond the first piece the wrong piece is asked (and the request is out of range there). -/
theorem C36_support_wrong : ¬ ∀ ps : List Piece, (∀ b ∈ ps, b.Ok) → SupportCorrect ps := by
  intro H
  have := H [demo 1, demo 1] (by intro b hb; simp at hb; subst hb; exact demo_ok 1) 1 (demo 1) 0 rfl (by decide)
  simp [support, start, demo] at this

/-- C36 holds for the functions of the first piece. -/
theorem C36_first_piece_partial (b : Piece) (ps : List Piece) (l : ℕ) :
    support (b :: ps) (start (b :: ps) 0 + l) = b.supp l := by
  simp [support, start]

/-- C36, whole-container version: correct for one-piece containers. -/
theorem C36_single_piece_partial (b : Piece) : SupportCorrect [b] := by
  intro k b' l hk hl
  cases k with
  | zero => simp at hk; subst hk; simp [support, start]
  | succ k => simp at hk

end Verif.Container
