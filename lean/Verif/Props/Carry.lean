import Verif.Proofs.Carry
import Verif.Props.MPBESState
import Mathlib.Algebra.BigOperators.Group.List.Lemmas
/-!
# C61: control points carried along by refinement and repair describe the same surfaces
-/
set_option autoImplicit false
namespace Verif.Carry
open Polynomial Finset
open Boehm (insertKnot insertCoefs knotAt)
open Index (tidx splitLoop exportBlock firstLocal)
open Repair (Clamped Knots Topo Ends Valid Before Agree mirror knotsMatchNeighbours insertKnots insertSet startSet repairLoop repairPatches C34_repair_partial two unitEnds two_good)
open MPBESState (spanKnots uniformKnots AllClamped Conform)
open _root_.Verif.BSpline (bs)

/-- The surface (one coordinate of it) of a patch with the given degrees, knots and coefficients, at the parameters `(x,y)`: the sum of the tensor products of B-splines, evaluated on the elements of the parameters. -/
noncomputable def surface (deg : Bool → ℕ) (K : Bool → List ℚ) (l : List ℚ) (x y : ℝ) : ℝ :=
  ∑ i ∈ range ((K false).length - (deg false + 1)), ∑ j ∈ range ((K true).length - (deg true + 1)),
    ((l.getD (i + ((K false).length - (deg false + 1)) * j) 0 : ℚ) : ℝ) *
      ((bs (knotAt (reals (K false))) (elem (reals (K false)) x) (deg false) i).eval x * (bs (knotAt (reals (K true))) (elem (reals (K true)) y) (deg true) j).eval y)

private theorem surface_eq (deg : Bool → ℕ) (K : Bool → List ℚ) (l : List ℚ) (x y : ℝ) :
    surface deg K l x y = curve (deg false) (reals (K false)) (fun i => qcurve (deg true) (K true) (fun j => net (size (deg false) (K false)) l i j) y) x := by
  have e : ∀ d, (reals (K d)).length = (K d).length := fun d => by simp [reals]
  unfold surface qcurve curve
  rw [e]
  refine sum_congr rfl fun i _ => ?_
  rw [e, sum_mul]
  refine sum_congr rfl fun j _ => ?_
  simp only [net, tidx, size]
  ring

private theorem net_column {n0 n1 i j : ℕ} (c : ℕ → ℕ → ℚ) (hi : i < n0) (hj : j < n1) : net n0 (column n0 n1 c) i j = c i j := by
  have h := Index.tidx_lt hi hj
  rw [net, column, List.getD_eq_getElem _ _ (by simpa using h), List.getElem_map, List.getElem_range, Index.tidx_mod hi, Index.tidx_div hi]

private theorem size_new {p : ℕ} {a b : ℚ} {L ins M : List ℚ} (h : Clamped (p + 1) a b L) (hp : M.Perm (L ++ ins)) : size p M = size p L + ins.length := by
  have : p + 1 ≤ L.length := h.countHi ▸ List.count_le_length
  unfold size
  rw [hp.length_eq, List.length_append]
  omega

/-- C61, one patch: after knots inside the intervals of the patch are inserted, the coefficients are as many as the functions, and the surface is the same at every parameter. -/
theorem C61_insert (deg : Bool → ℕ) (K ins K' : Bool → List ℚ) (a b : Bool → ℚ) (l : List ℚ) (hK : ∀ d, Clamped (deg d + 1) (a d) (b d) (K d)) (hi : ∀ d, ∀ s ∈ ins d, a d < s ∧ s < b d)
    (h' : ∀ d, (K' d).Pairwise (· ≤ ·) ∧ (K' d).Perm (K d ++ ins d)) :
    (refineNet deg K ins l).length = ((K' false).length - (deg false + 1)) * ((K' true).length - (deg true + 1)) ∧
      ∀ x y : ℝ, (a false : ℝ) ≤ x → (a true : ℝ) ≤ y → surface deg K' (refineNet deg K ins l) x y = surface deg K l x y := by
  have s0 := size_new (hK false) (h' false).2
  have s1 := size_new (hK true) (h' true).2
  refine ⟨?_, fun x y hx hy => ?_⟩
  · change _ = size _ _ * size _ _
    rw [s0, s1]; simp [refineNet, column]
  · have e0 := newKnots_eq (ins false) (hK false) (hi false) (h' false).1 (h' false).2
    have e1 := newKnots_eq (ins true) (hK true) (hi true) (h' true).1 (h' true).2
    rw [surface_eq, surface_eq]
    set c : ℕ → ℕ → ℚ := fun i j => insertAll (deg false) (ins false) (K false) (fun a => net (size (deg false) (K false)) l a j) i with hc
    have inner : ∀ i < size (deg false) (K' false), qcurve (deg true) (K' true) (fun j => net (size (deg false) (K' false)) (refineNet deg K ins l) i j) y = qcurve (deg true) (K true) (fun j => c i j) y := by
      intro i hi'
      rw [← qcurve_insertAll (ins true) (hK true) (hi true) (fun j => c i j) hy, e1]
      unfold qcurve curve
      refine sum_congr rfl fun j hj => ?_
      have hj' : j < size (deg true) (K' true) := by simpa [reals, size] using hj
      congr 1
      rw [s0] at hi' ⊢
      rw [s1] at hj'
      change ((net _ (refineNet deg K ins l) i j : ℚ) : ℝ) = _
      rw [refineNet, net_column _ hi' hj']
    have e : ∀ d, (reals (K d)).length = (K d).length := fun d => by simp [reals]
    have step1 : curve (deg false) (reals (K' false)) (fun i => qcurve (deg true) (K' true) (fun j => net (size (deg false) (K' false)) (refineNet deg K ins l) i j) y) x =
        curve (deg false) (reals (K' false)) (fun i => qcurve (deg true) (K true) (fun j => c i j) y) x := by
      unfold curve
      refine sum_congr rfl fun i hi' => ?_
      have := inner i (by simpa [reals, size] using hi')
      exact congrArg (· * _) this
    rw [step1]
    have swap : ∀ (L : List ℝ) (f : ℕ → ℕ → ℚ), curve (deg false) L (fun i => qcurve (deg true) (K true) (fun j => f i j) y) x =
        ∑ j ∈ range ((K true).length - (deg true + 1)), curve (deg false) L (fun i => (f i j : ℝ)) x * (bs (knotAt (reals (K true))) (elem (reals (K true)) y) (deg true) j).eval y := by
      intro L f
      unfold qcurve curve
      simp_rw [sum_mul]
      rw [sum_comm, e]
      refine sum_congr rfl fun j _ => sum_congr rfl fun i _ => ?_
      ring
    rw [swap, swap]
    refine sum_congr rfl fun j _ => ?_
    congr 1
    have := qcurve_insertAll (ins false) (hK false) (hi false) (fun a => net (size (deg false) (K false)) l a j) hx
    rw [e0] at this
    exact this

/-! ### The loop -/

/-- The same outcome without the coefficients. -/
def erase : Outcome → Repair.Outcome
  | .undefined => .undefined
  | .running K _ c => .running K c
  | .done K _ => .done K

theorem erase_loop (T : Topo) (eps : ℚ) (deg : ℕ → Bool → ℕ) (m : ℕ) (K : Knots) (C : ℕ → Option (List ℚ)) (c : List ℕ) : erase (loop T eps deg m K C c) = repairLoop T eps m K c := by
  induction m generalizing K C c with
  | zero => cases c <;> rfl
  | succ m ih =>
    rcases c with _ | ⟨p, c⟩
    · rfl
    · rw [loop, repairLoop]
      rcases knotsMatchNeighbours T eps K p with _ | ⟨ins, chk⟩
      · rfl
      · dsimp only
        split_ifs <;> exact ih _ _ _

private theorem insert_sorted (K : Knots) (r : ℕ) (ins : Bool → List ℚ) (d : Bool) : (insertKnots K r ins r d).Pairwise (· ≤ ·) ∧ (insertKnots K r ins r d).Perm (K r d ++ ins d) := by
  unfold insertKnots
  rw [if_pos rfl]
  exact ⟨List.pairwise_insertionSort _ _, List.perm_insertionSort _ _⟩

private theorem count_insert (K : Knots) (r : ℕ) (ins : Bool → List ℚ) (p : ℕ) (d : Bool) (z : ℚ) : (K p d).count z ≤ (insertKnots K r ins p d).count z := by
  by_cases c : p = r
  · subst c; rw [(insert_sorted K p ins d).2.count_eq, List.count_append]; omega
  · rw [insertKnots, if_neg c]

private theorem loop_count {T : Topo} {eps : ℚ} {deg : ℕ → Bool → ℕ} {m : ℕ} {K K' : Knots} {C C' : ℕ → Option (List ℚ)} {c : List ℕ} (h : loop T eps deg m K C c = .done K' C') (p : ℕ) (d : Bool) (z : ℚ) :
    (K p d).count z ≤ (K' p d).count z := by
  induction m generalizing K C c with
  | zero =>
    rcases c with _ | ⟨r, c⟩
    · rw [loop] at h; injection h with h1 _; rw [h1]
    · rw [loop] at h; cases h
      intro hc; cases hc
  | succ m ih =>
    rcases c with _ | ⟨r, c⟩
    · rw [loop] at h; injection h with h1 _; rw [h1]
    · rw [loop] at h
      rcases hk : knotsMatchNeighbours T eps K r with _ | ⟨ins, chk⟩
      · rw [hk] at h; cases h
      · rw [hk] at h
        dsimp only at h
        split_ifs at h
        · exact ih h
        · exact (count_insert K r ins p d z).trans (ih h)

/-- Knots between those of two clamped knot vectors. -/
private theorem between {k : ℕ} {a b : ℚ} {L M N : List ℚ} (hL : Clamped k a b L) (hN : Clamped k a b N) (hM : M.Pairwise (· ≤ ·)) (h1 : ∀ z, L.count z ≤ M.count z) (h2 : ∀ z, M.count z ≤ N.count z) : Clamped k a b M := by
  refine ⟨hM, hL.pos, hL.lt, ?_, ?_, fun x hx => hN.range x (List.count_pos_iff.1 ((List.count_pos_iff.2 hx).trans_le (h2 x)))⟩
  · have := h1 a; have := h2 a; rw [hL.countLo] at *; rw [hN.countLo] at *; omega
  · have := h1 b; have := h2 b; rw [hL.countHi] at *; rw [hN.countHi] at *; omega

private theorem inside {k : ℕ} {a b : ℚ} {L M ins : List ℚ} (hL : Clamped k a b L) (hM : Clamped k a b M) (hp : M.Perm (L ++ ins)) : ∀ s ∈ ins, a < s ∧ s < b := by
  intro s hs
  have hc : ∀ z, M.count z = L.count z + ins.count z := fun z => by rw [hp.count_eq, List.count_append]
  have hs' := List.count_pos_iff.2 hs
  have hr := hM.range s (hp.mem_iff.2 (by simp [hs]))
  refine ⟨lt_of_le_of_ne hr.1 fun e => ?_, lt_of_le_of_ne hr.2 fun e => ?_⟩
  · have := hc a; rw [hL.countLo, hM.countLo, e] at this; omega
  · have := hc b; rw [hL.countHi, hM.countHi, ← e] at this; omega

/-- The coefficients `l'` with the knots `K'` describe the surface that `l` describes with the knots `K`, on the rectangle `[a,b]`, and if `l` had one coefficient for every function, so has `l'`. -/
structure Keeps (deg : Bool → ℕ) (a b : Bool → ℚ) (K : Bool → List ℚ) (l : List ℚ) (K' : Bool → List ℚ) (l' : List ℚ) : Prop where
  length : l.length = patchSize deg K → l'.length = patchSize deg K'
  surface : ∀ x y : ℝ, (a false : ℝ) ≤ x → x ≤ b false → (a true : ℝ) ≤ y → y ≤ b true → surface deg K' l' x y = surface deg K l x y

private theorem Keeps.refl (deg : Bool → ℕ) (a b : Bool → ℚ) (K : Bool → List ℚ) (l : List ℚ) : Keeps deg a b K l K l := ⟨id, fun _ _ _ _ _ _ => rfl⟩

private theorem Keeps.trans {deg : Bool → ℕ} {a b : Bool → ℚ} {K K' K'' : Bool → List ℚ} {l l' l'' : List ℚ} (h : Keeps deg a b K l K' l') (h' : Keeps deg a b K' l' K'' l'') : Keeps deg a b K l K'' l'' :=
  ⟨fun e => h'.length (h.length e), fun x y h1 h2 h3 h4 => (h'.surface x y h1 h2 h3 h4).trans (h.surface x y h1 h2 h3 h4)⟩

private theorem keeps_insert {deg : Bool → ℕ} {K ins K' : Bool → List ℚ} {a b : Bool → ℚ} {l : List ℚ} (hK : ∀ d, Clamped (deg d + 1) (a d) (b d) (K d)) (hi : ∀ d, ∀ s ∈ ins d, a d < s ∧ s < b d)
    (h' : ∀ d, (K' d).Pairwise (· ≤ ·) ∧ (K' d).Perm (K d ++ ins d)) : Keeps deg a b K l K' (refineNet deg K ins l) := by
  obtain ⟨h1, h2⟩ := C61_insert deg K ins K' a b l hK hi h'
  exact ⟨fun _ => h1, fun x y hx _ hy _ => h2 x y hx hy⟩

/-- Degrees fit to the multiplicity of the ends. -/
def Degrees (T : Topo) (E : Ends) (deg : ℕ → Bool → ℕ) : Prop := ∀ p < T.n, ∀ d, E.mult p d = deg p d + 1

private theorem clamped_deg {T : Topo} {E : Ends} {deg : ℕ → Bool → ℕ} (hd : Degrees T E deg) {K : Knots} (h : AllClamped T E K) {p : ℕ} (hp : p < T.n) (d : Bool) : Clamped (deg p d + 1) (E.lo p d) (E.hi p d) (K p d) :=
  hd p hp d ▸ h p hp d

/-- C61, the loop of `repairPatches`: however often it turns, if the knot vectors are clamped at first and at last, then the coefficients of every patch describe the same surface as before;
missing coefficients stay missing. -/
theorem C61_loop (T : Topo) (E : Ends) (eps : ℚ) (deg : ℕ → Bool → ℕ) (hd : Degrees T E deg) (m : ℕ) (K K' : Knots) (C C' : ℕ → Option (List ℚ)) (c : List ℕ) (h : loop T eps deg m K C c = .done K' C')
    (hK : AllClamped T E K) (hK' : AllClamped T E K') : ∀ p < T.n, (C p = none → C' p = none) ∧ ∀ l, C p = some l → ∃ l', C' p = some l' ∧ Keeps (deg p) (E.lo p) (E.hi p) (K p) l (K' p) l' := by
  induction m generalizing K C c with
  | zero =>
    rcases c with _ | ⟨r, c⟩
    · rw [loop] at h; injection h with h1 h2; subst h1; subst h2
      exact fun p _ => ⟨id, fun l hl => ⟨l, hl, Keeps.refl _ _ _ _ _⟩⟩
    · rw [loop] at h; cases h
      intro hc; cases hc
  | succ m ih =>
    rcases c with _ | ⟨r, c⟩
    · rw [loop] at h; injection h with h1 h2; subst h1; subst h2
      exact fun p _ => ⟨id, fun l hl => ⟨l, hl, Keeps.refl _ _ _ _ _⟩⟩
    · rw [loop] at h
      rcases hk : knotsMatchNeighbours T eps K r with _ | ⟨ins, chk⟩
      · rw [hk] at h; cases h
      · rw [hk] at h
        dsimp only at h
        split_ifs at h
        · exact ih K C _ h hK
        · have hM : AllClamped T E (insertKnots K r ins) := by
            intro p hp d
            refine between (hK p hp d) (hK' p hp d) ?_ (fun z => count_insert K r ins p d z) fun z => loop_count h p d z
            by_cases c : p = r
            · subst c; exact (insert_sorted K p ins d).1
            · rw [insertKnots, if_neg c]; exact (hK p hp d).sorted
          have := ih _ _ _ h hM
          intro p hp
          obtain ⟨t1, t2⟩ := this p hp
          by_cases c : p = r
          · subst c
            rw [if_pos rfl] at t1 t2
            refine ⟨fun h0 => t1 (by rw [h0]; rfl), fun l hl => ?_⟩
            obtain ⟨l', e, k⟩ := t2 (refineNet (deg p) (K p) ins l) (by rw [hl]; rfl)
            refine ⟨l', e, Keeps.trans (keeps_insert (fun d => clamped_deg hd hK hp d) (fun d => ?_) fun d => insert_sorted K p ins d) k⟩
            exact inside (hK p hp d) (hM p hp d) (insert_sorted K p ins d).2
          · rw [if_neg c] at t1 t2
            have e : insertKnots K r ins p = K p := funext fun d => by rw [insertKnots, if_neg c]
            rw [e] at t2
            exact ⟨t1, t2⟩

/-! ### All patches in one matrix -/

private theorem join_eq (C : ℕ → Option (List ℚ)) (b : ℕ → List ℚ) (sz : ℕ → ℕ) (n p : ℕ) (h : ∀ i < n, C (p + i) = some (b (p + i)) ∧ (b (p + i)).length = sz (p + i)) :
    joinFrom C p ((List.range n).map fun i => sz (p + i)) = some ((List.range n).map fun i => b (p + i)).flatten := by
  induction n generalizing p with
  | zero => rfl
  | succ n ih =>
    rw [List.range_succ_eq_map, List.map_cons, List.map_map, List.map_cons, List.map_map, joinFrom]
    obtain ⟨h1, h2⟩ := h 0 (by omega)
    rw [add_zero] at h1 h2
    rw [add_zero, h1, Option.bind_some, if_pos h2]
    have := ih (p + 1) fun i hi => by simpa [add_assoc, add_comm 1 i] using h (i + 1) (by omega)
    have e1 : ((fun i => sz (p + i)) ∘ Nat.succ) = fun i => sz (p + 1 + i) := by funext i; simp [Function.comp]; congr 1; omega
    have e2 : ((fun i => b (p + i)) ∘ Nat.succ) = fun i => b (p + 1 + i) := by funext i; simp [Function.comp]; congr 1; omega
    rw [e1, this, e2]; rfl

private theorem export_flatten (b : ℕ → List ℚ) (sz : ℕ → ℕ) (n p : ℕ) (hp : p < n) (h : ∀ i < n, (b i).length = sz i) : exportBlock ((List.range n).map sz) ((List.range n).map b).flatten p = b p := by
  have hm : (List.range n).map sz = ((List.range n).map b).map List.length := by
    rw [List.map_map]; exact List.map_congr_left fun i hi => (h i (List.mem_range.1 hi)).symm
  rw [exportBlock, Index.firstLocal_eq, hm, ← List.map_take, List.map_take, List.drop_sum_flatten]
  rw [List.drop_eq_getElem_cons (by simpa using hp), List.flatten_cons]
  simp [hp]

private theorem split_eq (deg : ℕ → Bool → ℕ) (K : Knots) (n : ℕ) (l : List ℚ) (hl : l.length = (sizes deg K n).sum) (p : ℕ) (hp : p < n) :
    split deg K n l p = some (exportBlock (sizes deg K n) l p) ∧ (exportBlock (sizes deg K n) l p).length = patchSize (deg p) (K p) := by
  obtain ⟨h1, _⟩ := Index.C06_export (sizes deg K n) l hl
  obtain ⟨_, h3⟩ := Index.C06_split (sizes deg K n) l hl
  have e : split deg K n l p = some (exportBlock (sizes deg K n) l p) := by
    rw [split, ← h1, List.getElem?_map, List.getElem?_range (by simpa [sizes] using hp)]; rfl
  refine ⟨e, ?_⟩
  have := congrArg (fun L => L[p]?) h3
  simp only [List.getElem?_map] at this
  rw [split] at e
  rw [e] at this
  simp [sizes, hp] at this
  exact this

private theorem sum_sizes (b : ℕ → List ℚ) (deg : ℕ → Bool → ℕ) (K : Knots) (n : ℕ) (h : ∀ i < n, (b i).length = patchSize (deg i) (K i)) : ((List.range n).map b).flatten.length = (sizes deg K n).sum := by
  rw [List.length_flatten, List.map_map, sizes]
  congr 1
  exact List.map_congr_left fun i hi => h i (List.mem_range.1 hi)

/-- What becomes of one column of the local coefficients: it has one entry for every function, and the block of every patch describes the same surface as before on the rectangle of the patch. -/
structure Same (T : Topo) (E : Ends) (deg : ℕ → Bool → ℕ) (K : Knots) (l : List ℚ) (K' : Knots) (l' : List ℚ) : Prop where
  length : l'.length = (sizes deg K' T.n).sum
  surface : ∀ p < T.n, ∀ x y : ℝ, (E.lo p false : ℝ) ≤ x → x ≤ E.hi p false → (E.lo p true : ℝ) ≤ y → y ≤ E.hi p true →
    surface (deg p) (K' p) (exportBlock (sizes deg K' T.n) l' p) x y = surface (deg p) (K p) (exportBlock (sizes deg K T.n) l p) x y

private theorem finish_same {T : Topo} {E : Ends} {deg : ℕ → Bool → ℕ} {K K' : Knots} {l : List ℚ} {C' : ℕ → Option (List ℚ)} (b : ℕ → List ℚ) (hb : ∀ p < T.n, (b p).length = patchSize (deg p) (K p))
    (hbe : ∀ p < T.n, exportBlock (sizes deg K T.n) l p = b p)
    (h : ∀ p < T.n, ∃ l', C' p = some l' ∧ Keeps (deg p) (E.lo p) (E.hi p) (K p) (b p) (K' p) l') : ∃ l', finish deg T.n (.done K' C') = some (K', l') ∧ Same T E deg K l K' l' := by
  have : ∀ p, ∃ x, p < T.n → C' p = some x ∧ Keeps (deg p) (E.lo p) (E.hi p) (K p) (b p) (K' p) x := by
    intro p
    by_cases hp : p < T.n
    · obtain ⟨x, hx⟩ := h p hp; exact ⟨x, fun _ => hx⟩
    · exact ⟨[], fun c => absurd c hp⟩
  choose g hg using this
  have hlen : ∀ p < T.n, (g p).length = patchSize (deg p) (K' p) := fun p hp => (hg p hp).2.length (hb p hp)
  refine ⟨((List.range T.n).map g).flatten, ?_, sum_sizes g deg K' T.n hlen, fun p hp x y h1 h2 h3 h4 => ?_⟩
  · have := join_eq C' g (fun p => patchSize (deg p) (K' p)) T.n 0 fun i hi => by rw [zero_add]; exact ⟨(hg i hi).1, hlen i hi⟩
    simp only [zero_add] at this
    rw [finish, join, sizes, this]; rfl
  · rw [sizes, export_flatten g _ T.n p hp hlen, hbe p hp]
    exact (hg p hp).2.surface x y h1 h2 h3 h4

/-- C61, `repairPatches(localCoef)`: under the conditions of C34, with one coefficient for every function, the repair ends with the knots of C34, the coefficients fill the new matrix, and every patch
is the same surface as before. -/
theorem C61_repair (T : Topo) (E : Ends) (hg : T.Good E) (eps : ℚ) (deg : ℕ → Bool → ℕ) (hd : Degrees T E deg) (K : Knots) (hv : Valid T E eps K) (start : Option ℕ) (hs : Before T E K start)
    (l : List ℚ) (hl : l.length = (sizes deg K T.n).sum) :
    ∃ m K', Valid T E eps K' ∧ ∀ j, repairPatches T eps (m + j) K start = .done K' ∧ ∃ l', repairCoefs T eps deg (m + j) K start l = some (K', l') ∧ Same T E deg K l K' l' := by
  obtain ⟨m, K', hm, hv', -⟩ := C34_repair_partial T E hg eps K hv start hs
  refine ⟨m, K', hv', fun j => ⟨hm j, ?_⟩⟩
  have e := erase_loop T eps deg (m + j) K (split deg K T.n l) (startSet T start)
  rw [show repairLoop T eps (m + j) K (startSet T start) = .done K' from hm j] at e
  rcases hL : loop T eps deg (m + j) K (split deg K T.n l) (startSet T start) with _ | _ | ⟨K1, C'⟩
  · rw [hL] at e; cases e
  · rw [hL] at e; cases e
  · rw [hL] at e
    have : K1 = K' := by injection e
    subst this
    have key := C61_loop T E eps deg hd _ _ _ _ _ _ hL hv.clamped hv'.clamped
    rw [repairCoefs, hL]
    refine finish_same (fun p => exportBlock (sizes deg K T.n) l p) (fun p hp => (split_eq deg K T.n l hl p hp).2) (fun _ _ => rfl) fun p hp => ?_
    exact (key p hp).2 _ (split_eq deg K T.n l hl p hp).1

/-- C61, `refine_withCoefs(localCoef,patch,knots_u,knots_v,updateBasis)`: the same for the refinement of a patch with knots inside its intervals, without repair … -/
theorem C61_refine_only (T : Topo) (E : Ends) (eps : ℚ) (deg : ℕ → Bool → ℕ) (hd : Degrees T E deg) (turns : ℕ) (K : Knots) (hK : AllClamped T E K) (r : ℕ) (ins : Bool → List ℚ)
    (hi : ∀ d, ∀ s ∈ ins d, E.lo r d < s ∧ s < E.hi r d) (l : List ℚ) (hl : l.length = (sizes deg K T.n).sum) :
    ∃ l', refineCoefs T eps deg turns K r ins false l = some (insertKnots K r ins, l') ∧ Same T E deg K l (insertKnots K r ins) l' := by
  rw [refineCoefs]
  refine finish_same (fun p => exportBlock (sizes deg K T.n) l p) (fun p hp => (split_eq deg K T.n l hl p hp).2) (fun _ _ => rfl) fun p hp => ?_
  have hs := (split_eq deg K T.n l hl p hp).1
  by_cases c : p = r
  · subst c
    exact ⟨_, by rw [if_pos rfl, hs]; rfl, keeps_insert (fun d => clamped_deg hd hK hp d) hi fun d => insert_sorted K p ins d⟩
  · exact ⟨_, by rw [if_neg c]; exact hs, by
      have e : insertKnots K r ins p = K p := funext fun d => by rw [insertKnots, if_neg c]
      rw [e]; exact Keeps.refl _ _ _ _ _⟩

/-- … and with the repair that starts from this patch. -/
theorem C61_refine (T : Topo) (E : Ends) (hg : T.Good E) (eps : ℚ) (deg : ℕ → Bool → ℕ) (hd : Degrees T E deg) (K : Knots) (hK : AllClamped T E K) (r : ℕ) (ins : Bool → List ℚ)
    (hv : Valid T E eps (insertKnots K r ins)) (hs : Before T E (insertKnots K r ins) (some r)) (l : List ℚ) (hl : l.length = (sizes deg K T.n).sum) :
    ∃ m K', Valid T E eps K' ∧ ∀ j, repairPatches T eps (m + j) (insertKnots K r ins) (some r) = .done K' ∧
      ∃ l', refineCoefs T eps deg (m + j) K r ins true l = some (K', l') ∧ Same T E deg K l K' l' := by
  obtain ⟨m, K', hm, hv', -⟩ := C34_repair_partial T E hg eps _ hv (some r) hs
  refine ⟨m, K', hv', fun j => ⟨hm j, ?_⟩⟩
  set C1 : ℕ → Option (List ℚ) := fun q => if q = r then (split deg K T.n l q).map (refineNet (deg r) (K r) ins) else split deg K T.n l q with hC1
  have e := erase_loop T eps deg (m + j) (insertKnots K r ins) C1 [r]
  rw [show repairLoop T eps (m + j) (insertKnots K r ins) [r] = .done K' from hm j] at e
  have er : refineCoefs T eps deg (m + j) K r ins true l = finish deg T.n (loop T eps deg (m + j) (insertKnots K r ins) C1 [r]) := by rw [refineCoefs]; simp [hC1]
  rw [er]
  rcases hL : loop T eps deg (m + j) (insertKnots K r ins) C1 [r] with _ | _ | ⟨K1, C'⟩
  · rw [hL] at e; cases e
  · rw [hL] at e; cases e
  · rw [hL] at e
    have : K1 = K' := by injection e
    subst this
    have key := C61_loop T E eps deg hd _ _ _ _ _ _ hL hv.clamped hv'.clamped
    refine finish_same (fun p => exportBlock (sizes deg K T.n) l p) (fun p hp => (split_eq deg K T.n l hl p hp).2) (fun _ _ => rfl) fun p hp => ?_
    have hsp := (split_eq deg K T.n l hl p hp).1
    by_cases c : p = r
    · subst c
      obtain ⟨l', h1, h2⟩ := (key p hp).2 (refineNet (deg p) (K p) ins (exportBlock (sizes deg K T.n) l p)) (by rw [hC1]; simp [hsp])
      exact ⟨l', h1, Keeps.trans (keeps_insert (fun d => clamped_deg hd hK hp d) (fun d => inside (hK p hp d) (hv.clamped p hp d) (insert_sorted K p ins d).2) fun d => insert_sorted K p ins d) h2⟩
    · obtain ⟨l', h1, h2⟩ := (key p hp).2 (exportBlock (sizes deg K T.n) l p) (by rw [hC1]; simp only [if_neg c]; exact hsp)
      have e : insertKnots K r ins p = K p := funext fun d => by rw [insertKnots, if_neg c]
      rw [e] at h2
      exact ⟨l', h1, h2⟩

private theorem uniform_perm (nk mul : ℕ) (L : List ℚ) : (uniformKnots nk mul L).Perm (L ++ uniformIns nk mul L) := by
  match L with
  | [] => simp [uniformKnots, uniformIns]
  | [x] => simp [uniformKnots, uniformIns]
  | x :: y :: L =>
    rw [uniformKnots, uniformIns, List.cons_append]
    refine List.Perm.cons _ ?_
    refine ((uniform_perm nk mul (y :: L)).append_left _).trans ?_
    rw [← List.append_assoc, ← List.append_assoc]
    exact List.perm_append_comm.append_right _

/-- C61, `uniformRefine_withCoefs`: the same for uniform refinement of all patches. -/
theorem C61_uniform (T : Topo) (E : Ends) (deg : ℕ → Bool → ℕ) (hd : Degrees T E deg) (K : Knots) (hK : AllClamped T E K) (nk mul : ℕ) (l : List ℚ) (hl : l.length = (sizes deg K T.n).sum) :
    Same T E deg K l (uniformCoefs deg T.n K nk mul l).1 (uniformCoefs deg T.n K nk mul l).2 := by
  set b : ℕ → List ℚ := fun p => refineNet (deg p) (K p) (fun d => uniformIns nk mul (K p d)) ((split deg K T.n l p).getD []) with hb
  have hk : ∀ p < T.n, Keeps (deg p) (E.lo p) (E.hi p) (K p) (exportBlock (sizes deg K T.n) l p) (fun d => uniformKnots nk mul (K p d)) (b p) := by
    intro p hp
    have hsp := (split_eq deg K T.n l hl p hp).1
    have e : b p = refineNet (deg p) (K p) (fun d => uniformIns nk mul (K p d)) (exportBlock (sizes deg K T.n) l p) := by rw [hb]; simp only [hsp]; rfl
    rw [e]
    have hc : ∀ d, Clamped (E.mult p d) (E.lo p d) (E.hi p d) (uniformKnots nk mul (K p d)) := fun d => MPBESState.uniform_clamped nk mul (hK p hp d)
    exact keeps_insert (fun d => clamped_deg hd hK hp d) (fun d => inside (hK p hp d) (hc d) (uniform_perm nk mul _)) fun d => ⟨(hc d).sorted, uniform_perm nk mul _⟩
  have hlen : ∀ p < T.n, (b p).length = patchSize (deg p) (fun d => uniformKnots nk mul (K p d)) := fun p hp => (hk p hp).length (split_eq deg K T.n l hl p hp).2
  refine ⟨sum_sizes b deg (fun p d => uniformKnots nk mul (K p d)) T.n hlen, fun p hp x y h1 h2 h3 h4 => ?_⟩
  have := export_flatten b (fun p => patchSize (deg p) (fun d => uniformKnots nk mul (K p d))) T.n p hp hlen
  refine Eq.trans ?_ ((hk p hp).surface x y h1 h2 h3 h4)
  exact congrArg (fun l => surface (deg p) (fun d => uniformKnots nk mul (K p d)) l x y) this

/-! ### The constructors of the spline -/

/-- C61, the constructor from a multi-patch: the local coefficients of every patch describe the patch. -/
theorem C61_construct (T : Topo) (E : Ends) (hg : T.Good E) (eps : ℚ) (deg : ℕ → Bool → ℕ) (hd : Degrees T E deg) (K : Knots) (hv : Valid T E eps K) (C : ℕ → List ℚ)
    (hC : ∀ p < T.n, (C p).length = patchSize (deg p) (K p)) :
    ∃ m K', Valid T E eps K' ∧ ∀ j, ∃ l', construct T eps deg (m + j) K C = some (K', l') ∧ l'.length = (sizes deg K' T.n).sum ∧
      ∀ p < T.n, ∀ x y : ℝ, (E.lo p false : ℝ) ≤ x → x ≤ E.hi p false → (E.lo p true : ℝ) ≤ y → y ≤ E.hi p true →
        surface (deg p) (K' p) (exportBlock (sizes deg K' T.n) l' p) x y = surface (deg p) (K p) (C p) x y := by
  obtain ⟨m, K', hm, hv', -⟩ := C34_repair_partial T E hg eps K hv none trivial
  refine ⟨m, K', hv', fun j => ?_⟩
  have e := erase_loop T eps deg (m + j) K (fun p => some (C p)) (startSet T none)
  rw [show repairLoop T eps (m + j) K (startSet T none) = .done K' from hm j] at e
  rcases hL : loop T eps deg (m + j) K (fun p => some (C p)) (startSet T none) with _ | _ | ⟨K1, C'⟩
  · rw [hL] at e; cases e
  · rw [hL] at e; cases e
  · rw [hL] at e
    have : K1 = K' := by injection e
    subst this
    have key := C61_loop T E eps deg hd _ _ _ _ _ _ hL hv.clamped hv'.clamped
    rw [construct, hL]
    have hx : ∀ p < T.n, exportBlock (sizes deg K T.n) ((List.range T.n).map C).flatten p = C p := fun p hp => export_flatten C _ T.n p hp hC
    obtain ⟨l', h1, h2⟩ := finish_same (E := E) (l := ((List.range T.n).map C).flatten) C hC hx fun p hp => (key p hp).2 _ rfl
    exact ⟨l', h1, h2.length, fun p hp x y a b c d => by rw [h2.surface p hp x y a b c d, hx p hp]⟩

private theorem count_add {L : List ℚ} {a b : ℚ} (h : a ≠ b) : L.count a + L.count b ≤ L.length := by
  induction L with
  | nil => simp
  | cons x L ih =>
    rw [List.count_cons, List.count_cons, List.length_cons]
    by_cases c : x = a
    · subst c; simp [h]; omega
    · by_cases c' : x = b
      · subst c'; simp [c]; omega
      · simp [c, c']; omega

private theorem size_pos {p : ℕ} {a b : ℚ} {L : List ℚ} (h : Clamped (p + 1) a b L) : 0 < size p L := by
  have := count_add (L := L) h.lt.ne
  rw [h.countLo, h.countHi] at this
  unfold size; omega

private theorem join_lengths {C : ℕ → Option (List ℚ)} {p : ℕ} {sz l : _} (h : joinFrom C p sz = some l) : ∀ i (hi : i < sz.length), ∃ b, C (p + i) = some b ∧ b.length = sz[i] := by
  induction sz generalizing p l with
  | nil => intro i hi; simp at hi
  | cons n sz ih =>
    intro i hi
    rw [joinFrom, Option.bind_eq_some_iff] at h
    obtain ⟨b, h1, h2⟩ := h
    split_ifs at h2 with hb
    · rw [Option.map_eq_some_iff] at h2
      obtain ⟨l', h3, -⟩ := h2
      cases i with
      | zero => exact ⟨b, h1, hb⟩
      | succ i =>
        have := ih h3 i (by simpa using hi)
        rwa [show p + 1 + i = p + (i + 1) by omega] at this

private theorem join_blocks {C : ℕ → List ℚ} {p : ℕ} {sz l : _} (h : joinFrom (fun q => some (C q)) p sz = some l) : l = ((List.range sz.length).map fun i => C (p + i)).flatten := by
  induction sz generalizing p l with
  | nil => simpa [joinFrom] using h.symm
  | cons n sz ih =>
    rw [joinFrom, Option.bind_some] at h
    split_ifs at h with hb
    rw [Option.map_eq_some_iff] at h
    obtain ⟨l', h3, rfl⟩ := h
    rw [ih h3, List.length_cons, List.range_succ_eq_map, List.map_cons, List.map_map, List.flatten_cons, add_zero]
    congr 3
    funext i; simp [Function.comp]; congr 1; omega

/-- C61, the constructor with a list of corners, as far as it is true: under the conditions of C34, if it succeeds, then no knots were inserted and the local coefficients of every patch are those of the patch.

The full claim is that of `C61_construct`, that it succeeds; it is false, see `C61_corners_fail` and `C61_violated`. -/
theorem C61_corners_partial (T : Topo) (E : Ends) (hg : T.Good E) (eps : ℚ) (deg : ℕ → Bool → ℕ) (hd : Degrees T E deg) (K : Knots) (hv : Valid T E eps K) (C : ℕ → List ℚ)
    (hC : ∀ p < T.n, (C p).length = patchSize (deg p) (K p)) (turns : ℕ) (K' : Knots) (l : List ℚ) (h : constructC0 T eps deg turns K C = some (K', l)) :
    repairPatches T eps turns K none = .done K' ∧ ∀ p < T.n, (∀ d, K' p d = K p d) ∧ exportBlock (sizes deg K' T.n) l p = C p := by
  obtain ⟨m, K2, hm, hv', hcnt, -⟩ := C34_repair_partial T E hg eps K hv none trivial
  rw [constructC0] at h
  rcases hL : loop T eps deg turns K (fun _ => none) (startSet T none) with _ | _ | ⟨K1, C'⟩
  · rw [hL] at h; cases h
  · rw [hL] at h; cases h
  · have e := erase_loop T eps deg turns K (fun _ => none) (startSet T none)
    rw [hL] at e
    have e1 := MPBESState.loop_mono T eps m turns K (startSet T none) K1 e.symm
    have e2 : repairLoop T eps (turns + m) K (startSet T none) = .done K2 := by rw [add_comm]; exact hm turns
    rw [e1] at e2
    have : K1 = K2 := by injection e2
    subst this
    rw [hL] at h
    dsimp only at h
    rw [finish, Option.map_eq_some_iff] at h
    obtain ⟨l', hj, h⟩ := h
    injection h with h1 h2
    subst h1; subst h2
    have same : ∀ r < T.n, ∀ d, K1 r d = K r d := by
      intro r hr
      obtain ⟨b, h1, h2⟩ := join_lengths hj r (by simpa [sizes] using hr)
      have hb : b = C r := by simpa using h1.symm
      have h2 : (C r).length = patchSize (deg r) (K1 r) := by rw [← hb, h2]; simp [sizes]
      rw [hC r hr] at h2
      have len : ∀ d, (K r d).length ≤ (K1 r d).length := fun d => (List.subperm_ext_iff.2 fun x _ => hcnt r d x).length_le
      have l0 := len false
      have l1 := len true
      have p0 := size_pos (clamped_deg hd hv.clamped hr false)
      have p1 := size_pos (clamped_deg hd hv.clamped hr true)
      have eq : (K1 r false).length = (K r false).length ∧ (K1 r true).length = (K r true).length := by
        unfold patchSize at h2
        have m0 : size (deg r false) (K r false) ≤ size (deg r false) (K1 r false) := by unfold size; omega
        have m1 : size (deg r true) (K r true) ≤ size (deg r true) (K1 r true) := by unfold size; omega
        have q0 : size (deg r false) (K r false) = size (deg r false) (K1 r false) := by
          by_contra hc
          have : size (deg r false) (K r false) * size (deg r true) (K r true) < size (deg r false) (K1 r false) * size (deg r true) (K1 r true) := Nat.mul_lt_mul_of_lt_of_le (by omega) m1 (by omega)
          omega
        have q1 : size (deg r true) (K r true) = size (deg r true) (K1 r true) := by
          rw [q0] at h2 p0
          exact Nat.eq_of_mul_eq_mul_left p0 h2
        unfold size at q0 q1 p0 p1
        omega
      intro d
      have hperm : (K r d).Perm (K1 r d) := (List.subperm_ext_iff.2 fun x _ => hcnt r d x).perm_of_length_le (by cases d <;> omega)
      exact (hperm.eq_of_pairwise (fun _ _ _ _ h1 h2 => le_antisymm h1 h2) (hv.clamped r hr d).sorted (hv'.clamped r hr d).sorted).symm
    refine ⟨e.symm, fun p hp => ⟨same p hp, ?_⟩⟩
    have hb := join_blocks hj
    have hn : (sizes deg K1 T.n).length = T.n := by simp [sizes]
    rw [hn] at hb
    simp only [zero_add] at hb
    rw [hb]
    refine export_flatten C (fun p => patchSize (deg p) (K1 p)) T.n p hp fun i hi => ?_
    rw [hC i hi, show K1 i = K i from funext (same i hi)]

/-- C61 is violated by the constructor with a list of corners: under the conditions of C34, whenever the knots of two patches do not match along their interface, the construction does not succeed,
although the constructor without the list does (`C61_construct`). -/
theorem C61_corners_fail (T : Topo) (E : Ends) (hg : T.Good E) (eps : ℚ) (deg : ℕ → Bool → ℕ) (hd : Degrees T E deg) (K : Knots) (hv : Valid T E eps K) (C : ℕ → List ℚ)
    (hC : ∀ p < T.n, (C p).length = patchSize (deg p) (K p)) {p : ℕ} {s : Side} {q : ℕ} {s' : Side} {o : Bool} (hp : p < T.n) (hn : T.nb p s = some (q, s', o)) (z : ℚ)
    (hz : ¬ (z ∈ K p (!s.dir) ↔ mirror o (E.lo p (!s.dir) + E.hi p (!s.dir)) z ∈ K q (!s'.dir))) (turns : ℕ) : constructC0 T eps deg turns K C = none := by
  by_contra hne
  obtain ⟨⟨K', l⟩, h⟩ := Option.ne_none_iff_exists'.1 hne
  obtain ⟨h1, h2⟩ := C61_corners_partial T E hg eps deg hd K hv C hC turns K' l h
  obtain ⟨m, K2, hm, -, -, -, hconf, -⟩ := C34_repair_partial T E hg eps K hv none trivial
  have e1 := MPBESState.loop_mono T eps m turns K (startSet T none) K' h1
  have e2 : repairLoop T eps (turns + m) K (startSet T none) = .done K2 := by rw [add_comm]; exact hm turns
  rw [e1] at e2
  have : K' = K2 := by injection e2
  subst this
  have := hconf p s q s' o hp hn z
  rw [(h2 p hp).1, (h2 q (hg.lt p s q s' o hn)).1] at this
  exact hz this

/-! ### Concrete cases -/

/-- Bilinear patches. -/
def bilinear : ℕ → Bool → ℕ := fun _ _ => 1

theorem bilinear_degrees (o : Bool) : Degrees (two o) unitEnds bilinear := fun _ _ _ => rfl

/-- The heights of the control points are their parameters in direction v, in patch 1 seven times as much. -/
def heights : List ℚ := [0, 0, 1/4, 1/4, 1, 1, 0, 0, 7/3, 7/3, 7, 7]

example : heights.length = (sizes bilinear Repair.quarterThird (two false).n).sum := by decide +kernel

/-- After the repair the heights are again the parameters. -/
example : ((repairCoefs (two false) (1/1000) bilinear 10 Repair.quarterThird none heights).map fun r => (r.1 0 true, r.1 1 true, r.2)) =
    some ([0, 0, 1/4, 2/3, 1, 1], [0, 0, 1/3, 3/4, 1, 1], [0, 0, 1/4, 1/4, 2/3, 2/3, 1, 1, 0, 0, 7/3, 7/3, 21/4, 21/4, 7, 7]) := by decide +kernel

/-- The hypotheses of `C61_repair` hold for two patches glued in opposite direction, with the knots 1/4 and 1/3. -/
example : ∃ m K', Valid (two false) unitEnds (1/1000) K' ∧ ∀ j, repairPatches (two false) (1/1000) (m + j) Repair.quarterThird none = .done K' ∧
    ∃ l', repairCoefs (two false) (1/1000) bilinear (m + j) Repair.quarterThird none heights = some (K', l') ∧ Same (two false) unitEnds bilinear Repair.quarterThird heights K' l' :=
  C61_repair (two false) unitEnds (two_good false) (1/1000) bilinear (bilinear_degrees false) Repair.quarterThird Repair.quarterThird_valid none trivial heights (by decide +kernel)

/-- Patch 0 has no inner knots, patch 1 has the knot 1/3 in direction v. -/
def onlyThird : Knots := fun p d => if d then (if p = 0 then [0, 0, 1, 1] else [0, 0, 1/3, 1, 1]) else [0, 0, 1, 1]

theorem onlyThird_clamped : AllClamped (two false) unitEnds onlyThird := by
  intro p hp d
  have hp : p = 0 ∨ p = 1 := by simp only [two] at hp; omega
  rcases hp with rfl | rfl <;> cases d <;>
    exact ⟨by decide +kernel, by decide, by simp [unitEnds], by decide +kernel, by decide +kernel, by decide +kernel⟩

theorem onlyThird_insert : insertKnots onlyThird 0 (fun d => if d then [1/4] else []) = Repair.quarterThird := by
  funext p d
  unfold insertKnots
  split_ifs with hp
  · subst hp; cases d <;> decide +kernel
  · cases d <;> simp [onlyThird, Repair.quarterThird, hp]

/-- The hypotheses of `C61_refine` hold for the insertion of 1/4 into patch 0. -/
example (l : List ℚ) (hl : l.length = 10) : ∃ m K', Valid (two false) unitEnds (1/1000) K' ∧
    ∀ j, repairPatches (two false) (1/1000) (m + j) (insertKnots onlyThird 0 fun d => if d then [1/4] else []) (some 0) = .done K' ∧
      ∃ l', refineCoefs (two false) (1/1000) bilinear (m + j) onlyThird 0 (fun d => if d then [1/4] else []) true l = some (K', l') ∧ Same (two false) unitEnds bilinear onlyThird l K' l' := by
  refine C61_refine (two false) unitEnds (two_good false) (1/1000) bilinear (bilinear_degrees false) onlyThird onlyThird_clamped 0 _ ?_ ⟨by decide, ?_⟩ l (by rw [hl]; decide +kernel)
  · rw [onlyThird_insert]; exact Repair.quarterThird_valid
  · intro p s q s' o h hp hq
    have := (two_good false).lt p s q s' o h
    have := (two_good false).lt q s' p s o ((two_good false).sym p s q s' o h)
    simp only [two] at *
    have : p = 1 := by omega
    have : q = 1 := by omega
    subst_vars
    cases s <;> simp at h

example : ((refineCoefs (two false) (1/1000) bilinear 10 Repair.plainKnots 0 (fun d => if d then [1/5, 2/5] else [1/2]) true [0, 0, 1, 1, 0, 0, 7, 7]).map fun r => (r.1 0 true, r.1 1 true, r.2)) =
    some ([0, 0, 1/5, 2/5, 1, 1], [0, 0, 3/5, 4/5, 1, 1], [0, 0, 0, 1/5, 1/5, 1/5, 2/5, 2/5, 2/5, 1, 1, 1, 0, 0, 21/5, 21/5, 28/5, 28/5, 7, 7]) := by decide +kernel

example : (uniformCoefs bilinear 1 Repair.plainKnots 1 1 [0, 2, 4, 10]).2 = [0, 1, 2, 2, 4, 6, 4, 7, 10] := by decide +kernel

/-- The control points of the two patches. -/
def patchHeights : ℕ → List ℚ := fun p => if p = 0 then [0, 0, 1/4, 1/4, 1, 1] else [0, 0, 7/3, 7/3, 7, 7]

/-- C61 is violated: two patches whose knots do not match can be made a spline, but not with a list of corners (not even an empty one). -/
theorem C61_violated : (construct (two false) (1/1000) bilinear 10 Repair.quarterThird patchHeights).isSome = true ∧
    ∀ turns, constructC0 (two false) (1/1000) bilinear turns Repair.quarterThird patchHeights = none := by
  refine ⟨by decide +kernel, fun turns => ?_⟩
  exact C61_corners_fail (two false) unitEnds (two_good false) (1/1000) bilinear (bilinear_degrees false) Repair.quarterThird Repair.quarterThird_valid patchHeights
    (by decide +kernel) (p := 0) (s := .east) (by decide) rfl (1/4) (by decide +kernel) turns

end Verif.Carry
