import Verif.Model.MPBESState
import Verif.Model.MPBES
import Verif.Props.Repair
import Mathlib.Tactic.Ring
import Mathlib.Tactic.FieldSimp
import Mathlib.Logic.Relation
/-!
# C49: after every operation on an MPBES basis the interfaces conform and the mapping is that of the basis
-/
set_option autoImplicit false
namespace Verif.MPBESState
open Verif Repair

variable {V D M : Type}

/-- Knot vectors agree along all interfaces, with multiplicities. -/
def Conform (T : Topo) (N : Ends) (K : Knots) : Prop := ∀ p s q s' o, T.nb p s = some (q, s', o) → Agree N K p s q s' o

/-- The knot vectors of all patches are increasing, on the given intervals and with the given multiplicity of their ends. -/
def AllClamped (T : Topo) (N : Ends) (K : Knots) : Prop := ∀ p < T.n, ∀ d, Clamped (N.mult p d) (N.lo p d) (N.hi p d) (K p d)

/-- Inner knots are not repeated. -/
def Simple (T : Topo) (N : Ends) (K : Knots) : Prop := ∀ p < T.n, ∀ d z, z ≠ N.lo p d → z ≠ N.hi p d → (K p d).count z ≤ 1

/-- The mapping is that of the present knots, marks, distances and weights. -/
def Current (E : Env V D M) (s : St V D M) : Prop := s.mapper = some (E.make s.cfg)

/-- What a user of the object relies on. -/
structure Sound (E : Env V D M) (N : Ends) (s : St V D M) : Prop where
  current : Current E s
  clamped : AllClamped E.T N s.cfg.K
  conform : Conform E.T N s.cfg.K

/-! ### Uniform refinement -/

private theorem span_mem {nk mul : ℕ} {x y z : ℚ} (h : z ∈ spanKnots nk mul x y) : x < z ∧ z < y := by
  unfold spanKnots at h
  split_ifs at h with hxy
  · obtain ⟨i, hi, hz⟩ := List.mem_flatMap.1 h
    have hz := List.eq_of_mem_replicate hz
    have hi : (i : ℚ) + 1 ≤ nk := by exact_mod_cast List.mem_range.1 hi
    have hn : (0 : ℚ) < (nk : ℚ) + 1 := by positivity
    have hd : 0 < (y - x) / ((nk : ℚ) + 1) := div_pos (by linarith) hn
    have h0 : (0 : ℚ) ≤ i := Nat.cast_nonneg i
    have he : ((nk : ℚ) + 1) * ((y - x) / ((nk : ℚ) + 1)) = y - x := by field_simp
    subst hz
    constructor
    · have := mul_pos (show (0 : ℚ) < (i : ℚ) + 1 by linarith) hd
      linarith
    · have := mul_lt_mul_of_pos_right (show (i : ℚ) + 1 < (nk : ℚ) + 1 by linarith) hd
      linarith
  · simp at h

private theorem span_sorted (nk mul : ℕ) (x y : ℚ) : (spanKnots nk mul x y).Pairwise (· ≤ ·) := by
  unfold spanKnots
  split_ifs with hxy
  · rw [List.pairwise_flatMap]
    refine ⟨fun i _ => ?_, ?_⟩
    · rw [List.pairwise_replicate]; exact Or.inr (le_refl _)
    · refine List.pairwise_lt_range.imp fun {i j} hij a ha b hb => ?_
      rw [List.eq_of_mem_replicate ha, List.eq_of_mem_replicate hb]
      have hn : (0 : ℚ) < (nk : ℚ) + 1 := by positivity
      have hd : 0 < (y - x) / ((nk : ℚ) + 1) := div_pos (by linarith) hn
      have hij : (i : ℚ) ≤ j := by exact_mod_cast hij.le
      have := mul_le_mul_of_nonneg_right (show (i : ℚ) + 1 ≤ (j : ℚ) + 1 by linarith) hd.le
      linarith
  · exact List.Pairwise.nil

private theorem span_mirror (nk mul : ℕ) (c x y : ℚ) : spanKnots nk mul (c - y) (c - x) = ((spanKnots nk mul x y).map (c - ·)).reverse := by
  unfold spanKnots
  by_cases h : x < y
  · rw [if_pos h, if_pos (by linarith), List.map_flatMap, List.reverse_flatMap, List.range_eq_range', List.reverse_range', List.flatMap_map]
    rw [← List.range_eq_range']
    refine List.flatMap_congr fun i hi => ?_
    have hi := List.mem_range.1 hi
    simp only [Function.comp, List.map_replicate, List.reverse_replicate]
    congr 1
    have e : ((0 + nk - 1 - i : ℕ) : ℚ) = (nk : ℚ) - 1 - i := by
      rw [show 0 + nk - 1 - i = nk - (1 + i) by omega, Nat.cast_sub (by omega)]; push_cast; ring
    rw [e]
    have hn : (nk : ℚ) + 1 ≠ 0 := by positivity
    field_simp
    ring
  · rw [if_neg h, if_neg (by linarith)]; rfl

private theorem uniform_concat (nk mul : ℕ) (l : List ℚ) (y x : ℚ) :
    uniformKnots nk mul (l ++ [y, x]) = uniformKnots nk mul (l ++ [y]) ++ (spanKnots nk mul y x ++ [x]) := by
  induction l with
  | nil => simp [uniformKnots]
  | cons a l ih =>
    rcases l with _ | ⟨b, l⟩
    · simp [uniformKnots]
    · simp only [List.cons_append, uniformKnots] at ih ⊢
      rw [ih]; simp

theorem uniform_mirror (nk mul : ℕ) (c : ℚ) (l : List ℚ) :
    uniformKnots nk mul ((l.map (c - ·)).reverse) = ((uniformKnots nk mul l).map (c - ·)).reverse := by
  induction l with
  | nil => rfl
  | cons x l ih =>
    rcases l with _ | ⟨y, l⟩
    · rfl
    · simp only [List.map_cons, List.reverse_cons, List.append_assoc, List.singleton_append, uniformKnots, List.map_append, List.reverse_append] at ih ⊢
      rw [uniform_concat, ih, span_mirror]

/-- Old knots, and new ones strictly between two old ones. -/
private theorem uniform_mem {nk mul : ℕ} {l : List ℚ} {z : ℚ} (h : z ∈ uniformKnots nk mul l) : z ∈ l ∨ ∃ x ∈ l, ∃ y ∈ l, x < z ∧ z < y := by
  induction l with
  | nil => exact Or.inl h
  | cons x l ih =>
    rcases l with _ | ⟨y, l⟩
    · exact Or.inl h
    · simp only [uniformKnots, List.mem_cons, List.mem_append] at h
      rcases h with h | h | h
      · exact Or.inl (by simp [h])
      · exact Or.inr ⟨x, by simp, y, by simp, span_mem h⟩
      · rcases ih h with h | ⟨a, ha, b, hb, h⟩
        · exact Or.inl (List.mem_cons_of_mem _ h)
        · exact Or.inr ⟨a, List.mem_cons_of_mem _ ha, b, List.mem_cons_of_mem _ hb, h⟩

private theorem uniform_count (nk mul : ℕ) (l : List ℚ) (z : ℚ) (h : ∀ x ∈ l, ∀ y ∈ l, ¬ (x < z ∧ z < y)) :
    (uniformKnots nk mul l).count z = l.count z := by
  induction l with
  | nil => rfl
  | cons x l ih =>
    rcases l with _ | ⟨y, l⟩
    · rfl
    · have h0 : (spanKnots nk mul x y).count z = 0 := List.count_eq_zero.2 fun hm => h x (by simp) y (by simp) (span_mem hm)
      simp only [uniformKnots, List.count_cons, List.count_append] at ih ⊢
      rw [h0, ih fun a ha b hb => h a (List.mem_cons_of_mem _ ha) b (List.mem_cons_of_mem _ hb)]
      omega

private theorem uniform_count_le (nk mul : ℕ) (l : List ℚ) (z : ℚ) : l.count z ≤ (uniformKnots nk mul l).count z := by
  induction l with
  | nil => exact le_refl _
  | cons x l ih =>
    rcases l with _ | ⟨y, l⟩
    · exact le_refl _
    · simp only [uniformKnots, List.count_cons, List.count_append] at ih ⊢
      omega

private theorem uniform_sorted (nk mul : ℕ) (l : List ℚ) (h : l.Pairwise (· ≤ ·)) : (uniformKnots nk mul l).Pairwise (· ≤ ·) := by
  induction l with
  | nil => exact h
  | cons x l ih =>
    rcases l with _ | ⟨y, l⟩
    · exact h
    · rw [List.pairwise_cons] at h
      have hxy : x ≤ y := h.1 y (by simp)
      have hy : ∀ z ∈ uniformKnots nk mul (y :: l), y ≤ z := by
        have h2 := List.pairwise_cons.1 h.2
        have h3 : ∀ a ∈ y :: l, y ≤ a := by
          intro a ha
          rcases List.mem_cons.1 ha with rfl | ha
          · exact le_refl _
          · exact h2.1 a ha
        intro z hz
        rcases uniform_mem hz with hz | ⟨a, ha, b, hb, h4, h5⟩
        · exact h3 z hz
        · exact (h3 a ha).trans h4.le
      simp only [uniformKnots]
      rw [List.pairwise_cons, List.pairwise_append]
      refine ⟨?_, span_sorted _ _ _ _, ih h.2, fun a ha b hb => (span_mem ha).2.le.trans (hy b hb)⟩
      intro z hz
      rcases List.mem_append.1 hz with hz | hz
      · exact (span_mem hz).1.le
      · exact hxy.trans (hy z hz)

theorem uniform_clamped (nk mul : ℕ) {k : ℕ} {a b : ℚ} {l : List ℚ} (h : Clamped k a b l) : Clamped k a b (uniformKnots nk mul l) := by
  refine ⟨uniform_sorted nk mul l h.sorted, h.pos, h.lt, ?_, ?_, ?_⟩
  · rw [uniform_count, h.countLo]
    intro x hx y hy e
    have := (h.range x hx).1
    linarith [e.1]
  · rw [uniform_count, h.countHi]
    intro x hx y hy e
    have := (h.range y hy).2
    linarith [e.2]
  · intro z hz
    rcases uniform_mem hz with hz | ⟨x, hx, y, hy, h1, h2⟩
    · exact h.range z hz
    · have := h.range x hx; have := h.range y hy
      constructor <;> linarith

private theorem eq_of_counts {l l' : List ℚ} (h : l.Pairwise (· ≤ ·)) (h' : l'.Pairwise (· ≤ ·)) (hc : ∀ z, l.count z = l'.count z) : l = l' :=
  (List.perm_iff_count.2 hc).eq_of_pairwise (fun _ _ _ _ h1 h2 => le_antisymm h1 h2) h h'

private theorem count_mirror (c : ℚ) (l : List ℚ) (z : ℚ) : ((l.map (c - ·)).reverse).count z = l.count (c - z) := by
  rw [List.count_reverse]
  have : z = (fun t => c - t) (c - z) := by simp
  conv_lhs => rw [this]
  rw [List.count_map_of_injective]
  intro s t e
  have e : c - s = c - t := e
  linarith

private theorem sorted_mirror (c : ℚ) (l : List ℚ) (h : l.Pairwise (· ≤ ·)) : ((l.map (c - ·)).reverse).Pairwise (· ≤ ·) := by
  rw [List.pairwise_reverse, List.pairwise_map]
  exact h.imp fun {s t} e => by linarith

private theorem lt_n {T : Topo} {N : Ends} (hg : T.Good N) {p : ℕ} {s : Side} {q : ℕ} {s' : Side} {o : Bool} (h : T.nb p s = some (q, s', o)) : p < T.n :=
  hg.lt _ _ _ _ _ (hg.sym _ _ _ _ _ h)

private theorem uniform_conform {T : Topo} {N : Ends} (hg : T.Good N) (nk mul : ℕ) {K : Knots} (hc : AllClamped T N K) (hf : Conform T N K) :
    Conform T N fun p d => uniformKnots nk mul (K p d) := by
  intro p s q s' o h z
  have ha := hf p s q s' o h
  have h1 := (hc p (lt_n hg h) (!s.dir)).sorted
  have h2 := (hc q (hg.lt _ _ _ _ _ h) (!s'.dir)).sorted
  unfold Agree at ha
  cases o
  · simp only [mirror, Bool.false_eq_true, if_false] at ha ⊢
    have e := eq_of_counts h1 (sorted_mirror (N.lo p (!s.dir) + N.hi p (!s.dir)) _ h2) fun z => by rw [ha, count_mirror]
    rw [e, uniform_mirror, count_mirror]
  · simp only [mirror, if_true] at ha ⊢
    rw [eq_of_counts h1 h2 ha]

/-- C49, uniform refinement. For every topology with equal degrees and intervals along interfaces, both orientations, every number of new knots in a span and every multiplicity of these:
after `uniformRefine` of the spline, from an object as it should be, the interfaces conform, the mapping is that of the refined basis, and no knot is lost. -/
theorem C49_uniform_refine (E : Env V D M) (N : Ends) (hg : E.T.Good N) (nk mul : ℕ) (s : St V D M) (hs : Sound E N s) :
    ∃ s', splineUniform E nk mul s = some s' ∧ Sound E N s' ∧ ∀ p d z, (s.cfg.K p d).count z ≤ (s'.cfg.K p d).count z := by
  have hm : s.mapper = some (E.make s.cfg) := hs.current
  refine ⟨uniformRefine E nk mul true s, by simp [splineUniform, useMapper, hm, uniformRefine, upd, updateTopol], ⟨rfl, ?_, ?_⟩, fun p d z => uniform_count_le nk mul _ z⟩
  · exact fun p hp d => uniform_clamped nk mul (hs.clamped p hp d)
  · exact uniform_conform hg nk mul hs.clamped hs.conform

/-! ### Refinement of patches -/

theorem loop_mono (T : Topo) (eps : ℚ) (j : ℕ) : ∀ (m : ℕ) (K : Knots) (c : List ℕ) (L : Knots), repairLoop T eps m K c = .done L → repairLoop T eps (m + j) K c = .done L := by
  intro m
  induction m with
  | zero =>
    intro K c L h
    rcases c with _ | ⟨p, c⟩
    · simp only [repairLoop] at h ⊢
      exact h
    · simp [repairLoop] at h
  | succ m ih =>
    intro K c L h
    rcases c with _ | ⟨p, c⟩
    · simp only [repairLoop] at h ⊢
      exact h
    · rw [show m + 1 + j = (m + j) + 1 by omega]
      rw [repairLoop] at h ⊢
      rcases hk : knotsMatchNeighbours T eps K p with _ | ⟨ins, chk⟩
      · simp [hk] at h
      · simp only [hk] at h ⊢
        exact ih _ _ _ h

private theorem repair_spec {T : Topo} {N : Ends} (hg : T.Good N) {eps : ℚ} {K : Knots} (hv : Valid T N eps K) (start : Option ℕ) (hb : Before T N K start) (h1 : Simple T N K) :
    ∃ m K', (∀ t, m ≤ t → repairPatches T eps t K start = .done K') ∧ (∀ t L, repairPatches T eps t K start = .done L → L = K') ∧
      AllClamped T N K' ∧ Conform T N K' ∧ ∀ p d z, (K p d).count z ≤ (K' p d).count z := by
  obtain ⟨m, K', hd, hv', hc, -, -, ha⟩ := C34_repair_partial T N hg eps K hv start hb
  refine ⟨m, K', fun t ht => ?_, fun t L hL => ?_, hv'.clamped, fun p s q s' o h => ha h1 p s q s' o (lt_n hg h) h, hc⟩
  · obtain ⟨j, rfl⟩ := Nat.exists_eq_add_of_le ht
    exact hd j
  · have e1 : repairPatches T eps (t + m) K start = .done L := loop_mono T eps m t _ _ L hL
    have e2 := hd t
    rw [Nat.add_comm, e1] at e2
    injection e2

private theorem repair_sound {E : Env V D M} {N : Ends} (hg : E.T.Good N) (start : Option ℕ) (s : St V D M) (hv : Valid E.T N E.eps s.cfg.K)
    (hb : Before E.T N s.cfg.K start) (h1 : Simple E.T N s.cfg.K) :
    ∃ m, (∀ t, m ≤ t → ∃ s', (repair E t start s).map (updateTopol E) = some s') ∧
      ∀ t s', (repair E t start s).map (updateTopol E) = some s' → Sound E N s' ∧ ∀ p d z, (s.cfg.K p d).count z ≤ (s'.cfg.K p d).count z := by
  obtain ⟨m, K', hd, hu, hc, hf, hk⟩ := repair_spec hg hv start hb h1
  refine ⟨m, fun t ht => ⟨updateTopol E { s with cfg := { s.cfg with K := K' } }, by simp [repair, hd t ht]⟩, fun t s' h => ?_⟩
  unfold repair at h
  split at h
  next L hL =>
    have := hu t L hL
    subst this
    simp only [Option.map_some, Option.some.injEq] at h
    subst h
    exact ⟨⟨rfl, hc, hf⟩, hk⟩
  next => simp at h

/-- C49, `refine` of the basis with update, as far as it is true: whatever the mapping was before, if the knots after the insertion are at least `eps` apart and no inner knot is repeated,
the call ends, and the interfaces conform, the mapping is that of the refined basis and no knot is lost.

Without the hypothesis on repeated knots it is false, see `C34_repeated_violated`. -/
theorem C49_refine_partial (E : Env V D M) (N : Ends) (hg : E.T.Good N) (p : ℕ) (ins : Bool → List ℚ) (s : St V D M)
    (hv : Valid E.T N E.eps (insertKnots s.cfg.K p ins)) (h1 : Simple E.T N (insertKnots s.cfg.K p ins)) :
    ∃ m, (∀ t, m ≤ t → ∃ s', refine E t p ins true s = some s') ∧
      ∀ t s', refine E t p ins true s = some s' → Sound E N s' ∧ ∀ q d z, (insertKnots s.cfg.K p ins q d).count z ≤ (s'.cfg.K q d).count z := by
  have := repair_sound (E := E) hg none (insert p ins s) hv trivial h1
  simpa only [refine, if_true, insert] using this

/-- C49, `refine` and `refineElements` of the spline, where the repair starts from the refined patch: the same, if the object was as it should be. -/
theorem C49_spline_refine_partial (E : Env V D M) (N : Ends) (hg : E.T.Good N) (p : ℕ) (hp : p < E.T.n) (ins : Bool → List ℚ) (s : St V D M) (hs : Sound E N s)
    (hv : Valid E.T N E.eps (insertKnots s.cfg.K p ins)) (h1 : Simple E.T N (insertKnots s.cfg.K p ins)) :
    ∃ m, (∀ t, m ≤ t → ∃ s', splineRefine E t p ins s = some s') ∧
      ∀ t s', splineRefine E t p ins s = some s' → Sound E N s' ∧ ∀ q d z, (insertKnots s.cfg.K p ins q d).count z ≤ (s'.cfg.K q d).count z := by
  have hm : s.mapper = some (E.make s.cfg) := hs.current
  have hb : Before E.T N (insertKnots s.cfg.K p ins) (some p) := by
    refine ⟨hp, fun r x q x' o h hr hq z => ?_⟩
    simp only [insertKnots, if_neg hr, if_neg hq]
    exact hs.conform r x q x' o h z
  obtain ⟨m, ha, hb⟩ := repair_sound (E := E) hg (some p) (insert p ins s) hv hb h1
  have key : ∀ t, splineRefine E t p ins s = (repair E t (some p) (insert p ins s)).map (updateTopol E) := by
    intro t
    simp only [splineRefine, useMapper, hm, Option.map_some, Option.bind_some, refineCoefs, if_true]
    rcases repair E t (some p) (insert p ins s) with _ | s2 <;> rfl
  refine ⟨m, fun t ht => ?_, fun t s' h => ?_⟩
  · rw [key]; exact ha t ht
  · rw [key] at h; exact hb t s' h

/-- Knots after the insertions `l`, one after the other. -/
def insertAll (l : List (ℕ × (Bool → List ℚ))) (K : Knots) : Knots := l.foldl (fun K x => insertKnots K x.1 x.2) K

private theorem foldl_insert (E : Env V D M) (t : ℕ) (l : List (ℕ × (Bool → List ℚ))) (s : St V D M) :
    l.foldlM (fun s x => refineCoefs E t x.1 x.2 false s) s = some { s with cfg := { s.cfg with K := insertAll l s.cfg.K } } := by
  induction l generalizing s with
  | nil => rfl
  | cons x l ih =>
    rw [List.foldlM_cons]
    simp only [refineCoefs, Bool.false_eq_true, if_false, Option.bind_eq_bind, Option.bind_some] at ih ⊢
    rw [ih]
    rfl

/-- C49, `refineElements` of all patches of the spline: the same, from any mapping that is not null and any knots. -/
theorem C49_spline_refine_all_partial (E : Env V D M) (N : Ends) (hg : E.T.Good N) (l : List (ℕ × (Bool → List ℚ))) (s : St V D M) (hm : s.mapper ≠ none)
    (hv : Valid E.T N E.eps (insertAll l s.cfg.K)) (h1 : Simple E.T N (insertAll l s.cfg.K)) :
    ∃ m, (∀ t, m ≤ t → ∃ s', splineRefineAll E t l s = some s') ∧
      ∀ t s', splineRefineAll E t l s = some s' → Sound E N s' ∧ ∀ q d z, (insertAll l s.cfg.K q d).count z ≤ (s'.cfg.K q d).count z := by
  obtain ⟨c, hc⟩ := Option.ne_none_iff_exists'.1 hm
  obtain ⟨m, ha, hb⟩ := repair_sound (E := E) hg none { s with cfg := { s.cfg with K := insertAll l s.cfg.K } } hv trivial h1
  have key : ∀ t, splineRefineAll E t l s = (repair E t none { s with cfg := { s.cfg with K := insertAll l s.cfg.K } }).map (updateTopol E) := by
    intro t
    simp only [splineRefineAll, useMapper, hc, Option.map_some, Option.bind_some, foldl_insert]
    generalize repair E t none _ = r
    cases r <;> rfl
  refine ⟨m, fun t ht => ?_, fun t s' h => ?_⟩
  · rw [key]; exact ha t ht
  · rw [key] at h; exact hb t s' h

/-! ### Smoothing -/

private theorem smooth_fold (E : Env V D M) (l : List (PCorner × Side)) (s : St V D M) :
    (l.foldl (fun s x => smoothCornerEdge E x.1 x.2 false s) s).cfg.K = s.cfg.K := by
  induction l generalizing s with
  | nil => rfl
  | cons x l ih => rw [List.foldl_cons, ih]; rfl

private theorem smooth_knots (E : Env V D M) (s : St V D M) : (smoothEverything E s).cfg.K = s.cfg.K := smooth_fold E _ s

/-- C49, smoothing: the knots stay and the mapping is that of the new distances. -/
theorem C49_smooth (E : Env V D M) (N : Ends) (s : St V D M) (hs : Sound E N s) :
    Sound E N (smoothEverything E s) ∧ ∀ c x, Sound E N (smoothCornerEdge E c x true s) := by
  refine ⟨⟨rfl, ?_, ?_⟩, fun c x => ⟨rfl, hs.clamped, hs.conform⟩⟩
  · rw [smooth_knots]; exact hs.clamped
  · rw [smooth_knots]; exact hs.conform

/-! ### Sequences of calls -/

/-- A call of a public function of the spline. -/
inductive Step (E : Env V D M) (N : Ends) : St V D M → St V D M → Prop
  | uniform (nk mul : ℕ) (s s' : St V D M) : splineUniform E nk mul s = some s' → Step E N s s'
  | refine (t p : ℕ) (ins : Bool → List ℚ) (s s' : St V D M) : p < E.T.n → Valid E.T N E.eps (insertKnots s.cfg.K p ins) → Simple E.T N (insertKnots s.cfg.K p ins) →
      splineRefine E t p ins s = some s' → Step E N s s'
  | refineAll (t : ℕ) (l : List (ℕ × (Bool → List ℚ))) (s s' : St V D M) : Valid E.T N E.eps (insertAll l s.cfg.K) → Simple E.T N (insertAll l s.cfg.K) →
      splineRefineAll E t l s = some s' → Step E N s s'
  | smoothEdge (c : PCorner) (x : Side) (s : St V D M) : Step E N s (smoothCornerEdge E c x true s)
  | smoothAll (s : St V D M) : Step E N s (smoothEverything E s)

/-- C49, as far as it is true: in any sequence, of any length, of uniform refinements, refinements of patches and smoothing, the object stays as it should be, and no knot is ever lost.

The full claim is about all public functions; the others violate it: `C49_refine_smooth_violation`, `C49_uniform_smooth_violation`, `C49_corner_violation`, `C49_weight_violation`,
`C49_assign_violation`, `C49_copy_violation`, `C49_delayed_violation`. -/
theorem C49_run_partial (E : Env V D M) (N : Ends) (hg : E.T.Good N) (s s' : St V D M) (hs : Sound E N s) (h : Relation.ReflTransGen (Step E N) s s') :
    Sound E N s' ∧ ∀ p d z, (s.cfg.K p d).count z ≤ (s'.cfg.K p d).count z := by
  have hins : ∀ (K : Knots) p ins q d z, (K q d).count z ≤ (insertKnots K p ins q d).count z := by
    intro K p ins q d z
    unfold insertKnots
    split_ifs
    · rw [(List.perm_insertionSort _ _).count_eq, List.count_append]; omega
    · exact le_refl _
  have hall : ∀ (l : List (ℕ × (Bool → List ℚ))) (K : Knots) q d z, (K q d).count z ≤ (insertAll l K q d).count z := by
    intro l
    induction l with
    | nil => exact fun _ _ _ _ => le_refl _
    | cons x l ih => exact fun K q d z => (hins K x.1 x.2 q d z).trans (ih _ q d z)
  induction h with
  | refl => exact ⟨hs, fun _ _ _ => le_refl _⟩
  | @tail s1 s2 _ hst ih =>
    obtain ⟨h1, h2⟩ := ih
    suffices h : Sound E N s2 ∧ ∀ p d z, (s1.cfg.K p d).count z ≤ (s2.cfg.K p d).count z from ⟨h.1, fun p d z => (h2 p d z).trans (h.2 p d z)⟩
    cases hst with
    | uniform nk mul _ _ e =>
      obtain ⟨s3, e3, hs3⟩ := C49_uniform_refine E N hg nk mul s1 h1
      rw [e] at e3
      injection e3 with e3
      subst e3
      exact hs3
    | refine t p ins _ _ hp hv h1' e =>
      obtain ⟨m, -, hb⟩ := C49_spline_refine_partial E N hg p hp ins s1 h1 hv h1'
      exact ⟨(hb t s2 e).1, fun q d z => (hins _ p ins q d z).trans ((hb t s2 e).2 q d z)⟩
    | refineAll t l _ _ hv h1' e =>
      obtain ⟨m, -, hb⟩ := C49_spline_refine_all_partial E N hg l s1 (by rw [show s1.mapper = _ from h1.current]; simp) hv h1'
      exact ⟨(hb t s2 e).1, fun q d z => (hall l _ q d z).trans ((hb t s2 e).2 q d z)⟩
    | smoothEdge c x _ => exact ⟨(C49_smooth E N s1 h1).2 c x, fun _ _ _ => le_refl _⟩
    | smoothAll _ => exact ⟨(C49_smooth E N s1 h1).1, fun p d z => by rw [smooth_knots]⟩

/-! ### Two patches -/

/-- An object with the knots `K`; the mapping remembers what it was built from. -/
def obj (K : Knots) : St Unit ℕ (Cfg Unit ℕ) := ⟨⟨K, (), 0, [], 1, 1⟩, some ⟨K, (), 0, [], 1, 1⟩⟩

/-- The mapping is the configuration it was built from; `smoothCornerEdge` adds 1 to the distance and `setC0` makes it 7. -/
def env (T : Topo) : Env Unit ℕ (Cfg Unit ℕ) := ⟨T, 1/1000, fun c => c, fun c _ _ => c.dists + 1, fun _ _ => ((), 7), [((0, 2), .east)]⟩

private theorem clamped_plain : Clamped 2 0 1 [0, 0, 1, 1] :=
  ⟨by decide +kernel, by decide, by norm_num, by decide +kernel, by decide +kernel, by decide +kernel⟩

private theorem clamped_quarter : Clamped 2 0 1 [0, 0, 1/4, 1, 1] :=
  ⟨by decide +kernel, by decide, by norm_num, by decide +kernel, by decide +kernel, by decide +kernel⟩

private theorem plain_clamped (T : Topo) : AllClamped T unitEnds plainKnots := by
  exact fun p _ d => clamped_plain

private theorem plain_agree (T : Topo) : Conform T unitEnds plainKnots := by
  intro p s q s' o _
  have e : ((plainKnots q (!s'.dir)).map ((0 + 1 : ℚ) - ·)).reverse = plainKnots q (!s'.dir) := by unfold plainKnots; decide +kernel
  intro z
  unfold mirror
  split_ifs
  · rfl
  · show (plainKnots p (!s.dir)).count z = (plainKnots q (!s'.dir)).count ((0 + 1 : ℚ) - z)
    rw [← count_mirror, e]
    rfl

private theorem obj_sound (o : Bool) : Sound (env (two o)) unitEnds (obj plainKnots) := ⟨rfl, plain_clamped _, plain_agree _⟩

/-- Patch 0 of two patches glued in opposite direction gets the knot 1/4 in both directions. -/
def quarter : Bool → List ℚ := fun _ => [1/4]

private theorem quarter_simple (o : Bool) : Simple (two o) unitEnds (insertKnots plainKnots 0 quarter) := by
  intro p hp d z h0 h1
  have h0 : z ≠ 0 := h0
  have h1 : z ≠ 1 := h1
  have e : ∀ q, insertKnots plainKnots 0 quarter q d = if q = 0 then [0, 0, 1/4, 1, 1] else [0, 0, 1, 1] := by
    intro q
    unfold insertKnots
    split_ifs
    · unfold plainKnots quarter; decide +kernel
    · rfl
  rw [e]
  split_ifs <;> simp only [List.count_cons, List.count_nil] <;> simp [h0.symm, h1.symm] <;> split_ifs <;> simp

private theorem quarter_valid : Valid (two false) unitEnds (1/1000) (insertKnots plainKnots 0 quarter) := by
  have e : ∀ q d, insertKnots plainKnots 0 quarter q d = if q = 0 then [0, 0, 1/4, 1, 1] else [0, 0, 1, 1] := by
    intro q d
    unfold insertKnots
    split_ifs
    · unfold plainKnots quarter; decide +kernel
    · rfl
  refine ⟨by norm_num, ?_, ?_⟩
  · intro p _ d
    rw [e]
    split_ifs
    · exact clamped_quarter
    · exact clamped_plain
  · have hv : ∀ x, Value (two false) unitEnds (insertKnots plainKnots 0 quarter) x → x ∈ ([0, 1/4, 3/4, 1] : List ℚ) := by
      rintro x ⟨p, _, d, o, hx⟩
      rw [e] at hx
      have hx : mirror o (0 + 1) x ∈ ([0, 0, 1/4, 1, 1] : List ℚ) := by
        split_ifs at hx
        · exact hx
        · simp only [List.mem_cons, List.not_mem_nil, or_false] at hx ⊢
          exact by rcases hx with h | h | h | h <;> first | exact Or.inl h | exact Or.inr (Or.inr (Or.inr (Or.inl h)))
      cases o
      · simp only [mirror, Bool.false_eq_true, if_false, List.mem_cons, List.not_mem_nil, or_false] at hx ⊢
        rcases hx with h | h | h | h | h
        · exact Or.inr (Or.inr (Or.inr (by linarith)))
        · exact Or.inr (Or.inr (Or.inr (by linarith)))
        · exact Or.inr (Or.inr (Or.inl (by linarith)))
        · exact Or.inl (by linarith)
        · exact Or.inl (by linarith)
      · simp only [mirror, if_true, List.mem_cons, List.not_mem_nil, or_false] at hx ⊢
        rcases hx with h | h | h | h | h <;> simp [h]
    have hd : ∀ x ∈ ([0, 1/4, 3/4, 1] : List ℚ), ∀ y ∈ ([0, 1/4, 3/4, 1] : List ℚ), x = y ∨ 1/1000 ≤ |x - y| := by decide +kernel
    exact fun x y hx hy => hd x (hv x hx) y (hv y hy)

/-- The hypotheses of the theorems hold for two patches glued in opposite direction. -/
example : (two false).Good unitEnds ∧ Sound (env (two false)) unitEnds (obj plainKnots) ∧
    Valid (env (two false)).T unitEnds (env (two false)).eps (insertKnots (obj plainKnots).cfg.K 0 quarter) ∧
    Simple (env (two false)).T unitEnds (insertKnots (obj plainKnots).cfg.K 0 quarter) :=
  ⟨two_good false, obj_sound false, quarter_valid, quarter_simple false⟩

/-- Refinement of patch 0 at 1/4 gives patch 1 the knot 3/4. -/
example : ((splineRefine (env (two false)) 5 0 quarter (obj plainKnots)).map fun s => (s.cfg.K 0 true, s.cfg.K 1 true, s.cfg.K 1 false)) =
    some ([0, 0, 1/4, 1, 1], [0, 0, 3/4, 1, 1], [0, 0, 1, 1]) := by decide +kernel

/-- A uniform refinement with two knots in each span. -/
example : ((splineUniform (env (two false)) 2 1 (obj fun _ _ => [0, 0, 1/4, 1, 1])).map fun s => s.cfg.K 1 true) =
    some [0, 0, 1/12, 1/6, 1/4, 1/2, 3/4, 1, 1] := by decide +kernel

/-! ### Functions that violate the claim -/

/-- `refineAndSmooth` and `refineElementsAndSmooth` do not repair the neighbours: for every way to build the mapping and all distances, after refinement of one of two patches the
knots along the interface differ, though the object was as it should be. -/
theorem C49_refine_smooth_violation (E : Env V D M) (hT : E.T = two true) (s : St V D M) (hs : s.cfg.K = plainKnots) (hm : Current E s) (t : ℕ) :
    Sound E unitEnds s ∧ ∃ s', refineAndSmooth E t 0 quarter s = some s' ∧ Current E s' ∧ ¬ Conform E.T unitEnds s'.cfg.K := by
  have hm' : s.mapper = some (E.make s.cfg) := hm
  refine ⟨⟨hm, by rw [hs]; exact plain_clamped _, by rw [hs]; exact plain_agree _⟩, smoothEverything E (insert 0 quarter s), ?_, rfl, ?_⟩
  · simp [refineAndSmooth, useMapper, hm', refineCoefs, smoothEverything, updateTopol]
  · rw [smooth_knots, hT]
    intro h
    have := h 0 .east 1 .west true (by decide) (1/4)
    simp only [insert, hs] at this
    exact absurd this (by unfold mirror; decide +kernel)

/-- `uniformRefineAndSmooth` never refines: for every argument and every object the knots stay as they are. -/
theorem C49_uniform_smooth_violation (E : Env V D M) (nk : ℕ) (s s' : St V D M) (h : uniformRefineAndSmooth E nk s = some s') : s'.cfg.K = s.cfg.K := by
  have h0 : ∀ l : List ℚ, uniformKnots nk 0 l = l := by
    intro l
    induction l with
    | nil => rfl
    | cons x l ih =>
      rcases l with _ | ⟨y, l⟩
      · rfl
      · have : spanKnots nk 0 x y = [] := by
          unfold spanKnots
          split_ifs <;> simp
        rw [uniformKnots, this, ih]; rfl
  unfold uniformRefineAndSmooth useMapper at h
  rcases hm : s.mapper with _ | m
  · simp [hm] at h
  · simp only [hm, Option.map_some, Option.bind_some, smoothEverything, updateTopol, Option.some.injEq] at h
    subst h
    show (smoothEverything E (uniformRefine E nk 0 true s)).cfg.K = s.cfg.K
    rw [smooth_knots]
    funext p d
    exact h0 _

/-- The call is defined for an object as it should be. -/
example : (uniformRefineAndSmooth (env (two true)) 3 (obj plainKnots)).isSome = true := by decide +kernel

/-- `setC0` of the basis and `setCornerC0` of the spline keep the old mapping: it is right only if the marked corner and the new distances make no difference to the mapping. -/
theorem C49_corner_violation (E : Env V D M) (c : PCorner) (s : St V D M) (h : Current E s) :
    setCornerC0 E c s = some (setC0 E c s) ∧ (Current E (setC0 E c s) ↔ E.make (setC0 E c s).cfg = E.make s.cfg) := by
  have hm : s.mapper = some (E.make s.cfg) := h
  refine ⟨by simp [setCornerC0, useMapper, setC0, hm], ?_⟩
  simp only [Current, setC0, hm, Option.some.injEq]
  exact eq_comm

example : Current (env (two true)) (obj plainKnots) ∧ ¬ Current (env (two true)) (setC0 (env (two true)) (0, 2) (obj plainKnots)) := by
  refine ⟨rfl, ?_⟩
  intro h
  have : (obj plainKnots).cfg.dists = 7 := congrArg (fun o => (o.map (·.dists)).getD 7) h
  simp [obj] at this

/-- What `getWeight` (`gsMPBESBasis.hpp:268-276`) finds after `setWeight`: the new weight for the side, if it is an interface or had a weight already; all other weights are as before. -/
theorem C49_weight (E : Env V D M) (x y : ℕ × Side) (w : ℚ) (s : St V D M) :
    _root_.Verif.MPBES.getWeight 1 (setWeight E x w s).cfg.weights y =
      if y = x ∧ ((E.T.nb x.1 x.2).isSome ∨ x ∈ s.cfg.weights.map (·.1)) then w else _root_.Verif.MPBES.getWeight 1 s.cfg.weights y := by
  simp only [setWeight]
  generalize s.cfg.weights = l
  have hmap : ∀ l : List ((ℕ × Side) × ℚ), _root_.Verif.MPBES.getWeight 1 (l.map fun y => if y.1 = x then (x, w) else y) y =
      if y = x ∧ x ∈ l.map (·.1) then w else _root_.Verif.MPBES.getWeight 1 l y := by
    intro l
    induction l with
    | nil => simp
    | cons z l ih =>
      obtain ⟨z, c⟩ := z
      by_cases hz : z = x
      · by_cases hy : y = x
        · simp [_root_.Verif.MPBES.getWeight, hz, hy]
        · have hx : ¬ x = y := fun h => hy h.symm
          simp only [List.map_cons, hz, if_true, _root_.Verif.MPBES.getWeight, hx, if_false, hy, false_and] at ih ⊢
          exact ih
      · by_cases hy : z = y
        · have : ¬ y = x := fun h => hz (hy.trans h)
          simp [_root_.Verif.MPBES.getWeight, hy, this]
        · simp only [List.map_cons, hz, if_false, _root_.Verif.MPBES.getWeight, hy, List.mem_cons, ih]
          have hx : (x = z) = False := eq_false fun h => hz h.symm
          simp only [hx, false_or]
  have happ : ∀ l : List ((ℕ × Side) × ℚ), x ∉ l.map (·.1) → _root_.Verif.MPBES.getWeight 1 (l ++ [(x, w)]) y =
      if y = x then w else _root_.Verif.MPBES.getWeight 1 l y := by
    intro l
    induction l with
    | nil => intro _; simp [_root_.Verif.MPBES.getWeight, eq_comm]
    | cons z l ih =>
      obtain ⟨z, c⟩ := z
      intro h
      simp only [List.map_cons, List.mem_cons, not_or] at h
      simp only [List.cons_append, _root_.Verif.MPBES.getWeight, ih h.2]
      by_cases hy : z = y
      · have : ¬ y = x := fun e => h.1 (hy.trans e).symm
        simp [hy, this]
      · simp [hy]
  have hany : (l.any fun y => decide (y.1 = x)) = true ↔ x ∈ l.map (·.1) := by simp
  split_ifs with h1 h2 h3 h4 h5
  · rw [hmap]; simp [h2.1, hany.1 h1]
  · rw [hmap]
    rw [if_neg]
    rintro ⟨ha, hb⟩
    exact h2 ⟨ha, Or.inr hb⟩
  · rw [happ l (fun h => h1 (hany.2 h))]; simp [h4.1]
  · rw [happ l (fun h => h1 (hany.2 h)), if_neg]
    exact fun ha => h4 ⟨ha, Or.inl h3⟩
  · rcases h5.2 with h | h
    · exact absurd h h3
    · exact absurd (hany.2 h) h1
  · rfl

example : _root_.Verif.MPBES.getWeight 1 (setWeight (env (two true)) (0, .east) 3 (obj plainKnots)).cfg.weights (0, .east) = 3 ∧
    _root_.Verif.MPBES.getWeight 1 (setWeight (env (two true)) (0, .west) 3 (obj plainKnots)).cfg.weights (0, .west) = 1 := by
  rw [C49_weight, C49_weight]; decide +kernel

/-- `setWeight` keeps the old mapping. -/
theorem C49_weight_violation (E : Env V D M) (x : ℕ × Side) (w : ℚ) (s : St V D M) (h : Current E s) :
    Current E (setWeight E x w s) ↔ E.make (setWeight E x w s).cfg = E.make s.cfg := by
  have hm : s.mapper = some (E.make s.cfg) := h
  simp only [Current, setWeight, hm, Option.some.injEq]
  exact eq_comm

example : ¬ Current (env (two true)) (setWeight (env (two true)) (0, .east) 3 (obj plainKnots)) := by
  intro h
  have : (obj plainKnots).cfg.weights = [((0, .east), 3)] := congrArg (fun o => (o.map (·.weights)).getD []) h
  simp [obj] at this

/-- After an assignment the mapping is null: copying the object and every function of a spline with it dereferences a null pointer, until the mapping is built again. -/
theorem C49_assign_violation (E : Env V D M) (s other : St V D M) :
    copy (assign s other) = none ∧ (∀ nk mul, splineUniform E nk mul (assign s other) = none) ∧ (∀ t p ins, splineRefine E t p ins (assign s other) = none) ∧
      (∀ t l, splineRefineAll E t l (assign s other) = none) ∧ (∀ c, setCornerC0 E c (assign s other) = none) ∧ Current E (updateTopol E (assign s other)) :=
  ⟨rfl, fun _ _ => rfl, fun _ _ _ => rfl, fun _ _ => rfl, fun _ => rfl, rfl⟩

/-- A copy has the mapping of the original but not its weights: building the mapping again gives that of a basis without weights. -/
theorem C49_copy_violation (E : Env V D M) (s s' : St V D M) (h : copy s = some s') :
    s'.mapper = s.mapper ∧ s'.cfg.weights = [] ∧ (updateTopol E s').mapper = some (E.make { s.cfg with weights := [] }) := by
  unfold copy at h
  rcases hm : s.mapper with _ | m
  · simp [hm] at h
  · simp only [hm, Option.map_some, Option.some.injEq] at h
    subst h
    exact ⟨rfl, rfl, rfl⟩

/-- A copy of an object with a weight is no longer as it should be. -/
example : let s := updateTopol (env (two true)) (setWeight (env (two true)) (0, .east) 3 (obj plainKnots))
    Current (env (two true)) s ∧ ∃ s', copy s = some s' ∧ ¬ Current (env (two true)) s' := by
  refine ⟨rfl, _, rfl, ?_⟩
  intro h
  have := congrArg (fun o => (o.map (·.weights)).getD []) h
  exact absurd this (by decide +kernel)

/-- Three patches in a row. -/
def row : Topo :=
  ⟨3, fun p s => if p = 0 ∧ s = .east then some (1, .west, true) else if p = 1 ∧ s = .west then some (0, .east, true)
    else if p = 1 ∧ s = .east then some (2, .west, true) else if p = 2 ∧ s = .west then some (1, .east, true) else none⟩

/-- `refine_withCoefs` with update repairs only what can be reached from its patch: if another patch was refined before without update, as the argument `updateBasis` allows, its
interface stays broken, with a new mapping built on it. -/
theorem C49_delayed_violation :
    let r := (refineCoefs (env row) 0 0 quarter false (obj plainKnots)).bind (refineCoefs (env row) 9 2 (fun d => if d then [] else [1/4]) true)
    ∃ s, r = some s ∧ Current (env row) s ∧ ¬ Conform row unitEnds s.cfg.K := by
  intro r
  have hr : r.map (fun s => (s.cfg.K 0 true, s.cfg.K 1 true)) = some ([0, 0, 1/4, 1, 1], [0, 0, 1, 1]) := by decide +kernel
  rcases hs : r with _ | s
  · rw [hs] at hr; simp at hr
  · refine ⟨s, rfl, ?_, ?_⟩
    · simp only [r, refineCoefs, Bool.false_eq_true, if_false, Option.bind_some, if_true] at hs
      obtain ⟨s1, -, rfl⟩ := Option.map_eq_some_iff.1 hs
      rfl
    · intro h
      rw [hs] at hr
      simp only [Option.map_some, Option.some.injEq, Prod.mk.injEq] at hr
      have := h 0 .east 1 .west true (by decide) (1/4)
      rw [show (!Side.dir .east) = true from rfl, show (!Side.dir .west) = true from rfl, hr.1, hr.2] at this
      exact absurd this (by unfold mirror; decide +kernel)

end Verif.MPBESState
