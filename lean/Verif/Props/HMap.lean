import Verif.Model.HMap
import Verif.Props.Walk
import Verif.Props.Regions
import Verif.Props.HRepair
import Mathlib.Data.List.GetD
/-!
# C55: the mapping of a hierarchical multi-patch basis
-/
set_option autoImplicit false
namespace Verif.HMap
open Verif Walk

/-! ## Running numbers -/

/-- What G+Smo ensures for the lists of active functions: they are functions of the level, without repetition. -/
structure Wf (bs : List HB) : Prop where
  nodup : ∀ p l, ((basis bs p).cm.getD l []).Nodup
  lt : ∀ p l, ∀ f ∈ (basis bs p).cm.getD l [], f < (basis bs p).size l false * (basis bs p).size l true

/-- The function is one of the patch and active on level `l`. -/
structure Act (bs : List HB) (l : ℕ) (y : Pos) : Prop where
  p : y.p < bs.length
  u : y.u < (basis bs y.p).size l false
  v : y.v < (basis bs y.p).size l true
  mem : y.u + (basis bs y.p).size l false * y.v ∈ (basis bs y.p).cm.getD l []

theorem first_succ (b : HB) (bs : List HB) (p : ℕ) : first (b :: bs) (p + 1) = b.total + first bs p := by simp [first]

theorem getPatch_first (bs : List HB) {p : ℕ} (hp : p < bs.length) {i : ℤ} (h0 : 0 ≤ i) (h1 : i < (basis bs p).total) : getPatch bs (first bs p + i) = p := by
  induction bs generalizing p with
  | nil => simp at hp
  | cons b bs ih =>
    cases p with
    | zero => rw [getPatch, if_neg]; simp [first, basis] at *; omega
    | succ p =>
      rw [getPatch, first_succ, if_pos (by push_cast; omega)]
      have : ((b.total + first bs p : ℕ) : ℤ) + i - b.total = first bs p + i := by push_cast; omega
      rw [this, ih (by simpa using hp) (by simpa [basis] using h1)]

theorem offset_succ (b : HB) (l : ℕ) : b.offset (l + 1) = b.offset l + (b.cm.getD l []).length := by
  unfold HB.offset
  rcases Nat.lt_or_ge l b.cm.length with h | h
  · rw [List.take_succ_eq_append_getElem h, List.map_append, List.sum_append, List.getD_eq_getElem _ _ h]; simp
  · rw [List.take_of_length_le h, List.take_of_length_le (by omega), List.getD_eq_default _ _ h]; simp

theorem offset_mono (b : HB) {l m : ℕ} (h : l ≤ m) : b.offset l ≤ b.offset m := by
  induction h with
  | refl => exact le_rfl
  | step _ ih => rw [offset_succ]; omega

theorem offset_le (b : HB) (l : ℕ) : b.offset l ≤ b.total := by
  have := offset_mono b (Nat.le_max_left l b.cm.length)
  have e : b.offset (max l b.cm.length) = b.total := by unfold HB.offset HB.total; rw [List.take_of_length_le (Nat.le_max_right _ _)]
  omega

theorem toHier_act (b : HB) {f l : ℕ} (h : f ∈ b.cm.getD l []) : b.toHier f l = ((b.offset l + (b.cm.getD l []).idxOf f : ℕ) : ℤ) ∧ b.offset l + (b.cm.getD l []).idxOf f < b.offset (l + 1) := by
  refine ⟨if_pos h, ?_⟩
  rw [offset_succ]; have := List.idxOf_lt_length_of_mem h; omega

theorem flatOf_toHier (b : HB) {f l : ℕ} (h : f ∈ b.cm.getD l []) : b.flatOf (b.toHier f l) l = some f := by
  obtain ⟨h1, -⟩ := toHier_act b h
  have hl := List.idxOf_lt_length_of_mem h
  rw [h1, HB.flatOf, if_neg (by push_cast; omega)]
  rw [show (((b.offset l + (b.cm.getD l []).idxOf f : ℕ) : ℤ) - (b.offset l : ℤ)).toNat = (b.cm.getD l []).idxOf f by push_cast; omega, List.getElem?_eq_getElem hl, List.getElem_idxOf hl]

theorem Act.hIndex {bs : List HB} {l : ℕ} {y : Pos} (h : Act bs l y) : 0 ≤ HMap.hIndex bs l y ∧ HMap.hIndex bs l y < (basis bs y.p).total := by
  obtain ⟨h1, h2⟩ := toHier_act _ h.mem
  have := offset_le (basis bs y.p) (l + 1)
  unfold HMap.hIndex
  rw [h1]; constructor <;> omega

theorem Act.getPatch {bs : List HB} {l : ℕ} {y : Pos} (h : Act bs l y) : HMap.getPatch bs (encode bs l y) = y.p := getPatch_first bs h.p h.hIndex.1 h.hIndex.2

/-- C55: from the number of an active function the function is found again. -/
theorem C55_decode {bs : List HB} {l : ℕ} {y : Pos} (h : Act bs l y) : decode bs l (encode bs l y) = some y := by
  have hg := h.getPatch
  have hi : patchIndex bs (encode bs l y) = HMap.hIndex bs l y := by unfold patchIndex; rw [hg]; unfold encode; omega
  unfold decode
  simp only [hg, hi]
  rw [HMap.hIndex, flatOf_toHier _ h.mem]
  have hu := h.u
  have hv := h.v
  have e1 : (y.u + (basis bs y.p).size l false * y.v) / (basis bs y.p).size l false = y.v := by
    rw [Nat.add_mul_div_left _ _ (by omega), Nat.div_eq_of_lt hu, Nat.zero_add]
  have e2 : (y.u + (basis bs y.p).size l false * y.v) % (basis bs y.p).size l false = y.u := by
    rw [Nat.add_mul_mod_self_left, Nat.mod_eq_of_lt hu]
  simp only [e1, e2]
  rw [if_pos ⟨hv, by omega⟩]

theorem first_mono (bs : List HB) {p q : ℕ} (h : p < q) (hp : p < bs.length) : first bs p + (basis bs p).total ≤ first bs q := by
  induction bs generalizing p q with
  | nil => simp at hp
  | cons b bs ih =>
    cases q with
    | zero => omega
    | succ q =>
      rw [first_succ]
      cases p with
      | zero => simp [first, basis]
      | succ p => rw [first_succ]; have := ih (p := p) (q := q) (by omega) (by simpa using hp); simp [basis] at this ⊢; omega

/-- C55: active functions of all levels and patches have different numbers, and the numbers are the natural numbers below the number of all functions. -/
theorem C55_numbers {bs : List HB} (hw : Wf bs) :
    (∀ l y, Act bs l y → 0 ≤ encode bs l y ∧ encode bs l y < first bs bs.length) ∧
    (∀ l y l' y', Act bs l y → Act bs l' y' → encode bs l y = encode bs l' y' → l = l' ∧ y = y') ∧
    ∀ n < first bs bs.length, ∃ l y, Act bs l y ∧ encode bs l y = n := by
  refine ⟨fun l y h => ?_, fun l y l' y' h h' e => ?_, fun n hn => ?_⟩
  · have := h.hIndex
    have := first_mono bs h.p h.p
    unfold encode; constructor <;> omega
  · have hp : y.p = y'.p := by rw [← h.getPatch, e, h'.getPatch]
    have he : HMap.hIndex bs l y = HMap.hIndex bs l' y' := by unfold encode at e; rw [hp] at e; omega
    have hl : l = l' := by
      by_contra hne
      have key : ∀ {l l' : ℕ} {y y' : Pos}, Act bs l y → Act bs l' y' → y.p = y'.p → l < l' → HMap.hIndex bs l y ≠ HMap.hIndex bs l' y' := by
        intro l l' y y' h h' hp hlt e
        obtain ⟨a1, a2⟩ := toHier_act _ h.mem
        obtain ⟨b1, b2⟩ := toHier_act _ h'.mem
        unfold HMap.hIndex at e
        rw [a1, b1, ← hp] at e
        have := offset_mono (basis bs y.p) (show l + 1 ≤ l' by omega)
        omega
      rcases Nat.lt_or_gt_of_ne hne with c | c
      · exact key h h' hp c he
      · exact key h' h hp.symm c he.symm
    subst hl
    refine ⟨rfl, ?_⟩
    have := C55_decode h
    rw [e, C55_decode h'] at this
    exact (Option.some.inj this).symm
  · have hpatch : ∀ (cs : List HB) (n : ℕ), n < first cs cs.length → ∃ p < cs.length, ∃ i, i < (basis cs p).total ∧ n = first cs p + i := by
      intro cs
      induction cs with
      | nil => intro n hn; simp [first] at hn
      | cons b cs ih =>
        intro n hn
        rcases Nat.lt_or_ge n b.total with c | c
        · exact ⟨0, by simp, n, by simpa [basis] using c, by simp [first]⟩
        · rw [List.length_cons, first_succ] at hn
          obtain ⟨p, hp, i, hi, e⟩ := ih (n - b.total) (by omega)
          exact ⟨p + 1, by simpa using hp, i, by simpa [basis] using hi, by rw [first_succ]; omega⟩
    obtain ⟨p, hp, i, hi, rfl⟩ := hpatch bs n hn
    have hlev : ∀ m, i < (basis bs p).offset m → ∃ l, (basis bs p).offset l ≤ i ∧ i < (basis bs p).offset (l + 1) := by
      intro m
      induction m with
      | zero => intro h; simp [HB.offset] at h
      | succ m ih => intro h; rcases Nat.lt_or_ge i ((basis bs p).offset m) with c | c; exacts [ih c, ⟨m, c, h⟩]
    obtain ⟨l, l1, l2⟩ := hlev (basis bs p).cm.length (by unfold HB.offset; rw [List.take_length]; exact hi)
    rw [offset_succ] at l2
    have hk : i - (basis bs p).offset l < ((basis bs p).cm.getD l []).length := by omega
    set f := ((basis bs p).cm.getD l [])[i - (basis bs p).offset l] with hf
    have hm : f ∈ (basis bs p).cm.getD l [] := List.getElem_mem hk
    have hlt := hw.lt p l f hm
    have hpos : 0 < (basis bs p).size l false := Nat.pos_of_ne_zero fun e => by rw [e, Nat.zero_mul] at hlt; omega
    have hmod := Nat.mod_add_div f ((basis bs p).size l false)
    refine ⟨l, ⟨p, f % (basis bs p).size l false, f / (basis bs p).size l false⟩, ⟨hp, Nat.mod_lt _ hpos, Nat.div_lt_of_lt_mul hlt, by simp only [hmod]; exact hm⟩, ?_⟩
    simp only [encode, HMap.hIndex, hmod]
    rw [(toHier_act _ hm).1, hf, (hw.nodup p l).idxOf_getElem]
    push_cast; omega

/-! ## Walking -/

/-- The step `a` is a part of the step `b`. -/
def Below (a b : Step) : Prop := a.2 = b.2 ∧ (0 ≤ a.1 ∧ a.1 ≤ b.1 ∨ b.1 ≤ a.1 ∧ a.1 ≤ 0)

theorem stepTo_below (s s' : Side) (o : Bool) (b c : Step) (h : Below c (stepToNeighbour s s' o b)) : ∃ a, Below a b ∧ stepToNeighbour s s' o a = c := by
  have lin : ∀ (d : Bool) (k : ℤ), stepToNeighbour s s' o (k, d) = ((stepToNeighbour s s' o (1, d)).1 * k, (stepToNeighbour s s' o (1, d)).2) := by
    intro d k
    cases s <;> cases s' <;> cases o <;> cases d <;> simp [stepToNeighbour, Side.dir]
  have sgn : ∀ d : Bool, (stepToNeighbour s s' o (1, d)).1 = 1 ∨ (stepToNeighbour s s' o (1, d)).1 = -1 := by
    intro d
    have := natAbs_stepToNeighbour s s' o (1, d)
    simp only [Int.natAbs_one] at this
    omega
  obtain ⟨k, d⟩ := b
  obtain ⟨c1, c2⟩ := c
  rw [lin] at h
  obtain ⟨h1, h2⟩ := h
  simp only at h1 h2
  rcases sgn d with e | e <;> rw [e] at h2
  · exact ⟨(c1, d), ⟨rfl, by simpa using h2⟩, by rw [lin, h1, e]; simp⟩
  · exact ⟨(-c1, d), ⟨rfl, by simp only; omega⟩, by rw [lin, h1, e]; simp⟩

theorem travel_zeros (T : Net) (x : Pos) (hx : T.In x) (rest : List Step) : travel T x (rest.map fun b => (0, b.2)) = some x := by
  induction rest with
  | nil => simp [travel]
  | cons b rest ih => rw [List.map_cons, travel_zero T x hx, ih]

theorem below_zeros (rest : List Step) : List.Forall₂ Below (rest.map fun b => (0, b.2)) rest := by
  induction rest with
  | nil => exact .nil
  | cons b rest ih => exact .cons ⟨rfl, by simp only; omega⟩ ih

/-- `travelInside` on a part of the step. -/
theorem inside_spec (T : Net) (x : Pos) (hx : T.In x) (d : Bool) (k : ℤ) : T.In (travelInside T x d k).1 ∧ (travelInside T x d k).1.p = x.p ∧
    Below (k - (travelInside T x d k).2, d) (k, d) ∧ travelInside T x d (k - (travelInside T x d k).2) = ((travelInside T x d k).1, 0) ∧
    ((travelInside T x d k).2 ≠ 0 → ∀ a : ℤ, Below (a, d) ((travelInside T x d k).2, d) → a ≠ 0 → travelInside T x d (k - (travelInside T x d k).2 + a) = ((travelInside T x d k).1, a)) := by
  obtain ⟨p, u, v⟩ := x
  obtain ⟨h1, h2⟩ := hx
  simp only at h1 h2
  cases d
  · simp only [travelInside, Pos.par, Bool.false_eq_true, if_false, Bool.not_false, if_true, Below, Net.In]
    refine ⟨⟨?_, by simpa using h2⟩, trivial, ⟨trivial, ?_⟩, ?_, ?_⟩
    · split_ifs <;> simp only <;> omega
    · split_ifs <;> simp only <;> omega
    · split_ifs <;> simp only [Prod.mk.injEq, Pos.mk.injEq, true_and, and_true] at * <;> omega
    · intro hne a ha ha0
      split_ifs at * <;> simp only [Prod.mk.injEq, Pos.mk.injEq, true_and, and_true] at * <;> omega
  · simp only [travelInside, Pos.par, Bool.false_eq_true, if_false, Bool.not_true, if_true, Below, Net.In]
    refine ⟨⟨by simpa using h1, ?_⟩, trivial, ⟨trivial, ?_⟩, ?_, ?_⟩
    · split_ifs <;> simp only <;> omega
    · split_ifs <;> simp only <;> omega
    · split_ifs <;> simp only [Prod.mk.injEq, Pos.mk.injEq, true_and, and_true] at * <;> omega
    · intro hne a ha ha0
      split_ifs at * <;> simp only [Prod.mk.injEq, Pos.mk.injEq, true_and] at * <;> omega

theorem toNeighbour_some (T : Net) (hc : T.Conform) {x : Pos} (hx : T.In x) {k : ℤ} {d : Bool} {rest : List Step} {y : Pos} {st : Step} {rest' : List Step} (h : toNeighbour T x (k, d) rest = some (y, st, rest')) :
    T.In y ∧ ∃ s' o, k ≠ 0 ∧ st = stepToNeighbour (stepSide (k, d)) s' o (dec k, d) ∧ rest' = rest.map (stepToNeighbour (stepSide (k, d)) s' o) ∧
      ∀ (k' : ℤ) (σ : List Step), k' ≠ 0 → stepSide (k', d) = stepSide (k, d) →
        toNeighbour T x (k', d) σ = some (y, stepToNeighbour (stepSide (k, d)) s' o (dec k', d), σ.map (stepToNeighbour (stepSide (k, d)) s' o)) := by
  unfold toNeighbour at h
  simp only at h
  split at h
  · simp at h
  · rename_i q s' o e
    have e2 : (if d = true then x.u else x.v) = along x (stepSide (k, d)) := by unfold along; rw [side_dir]
    rw [show (if k > 0 then k - 1 else k + 1) = dec k from rfl, e2] at h
    split_ifs at h with h1
    simp only [Option.some.injEq, Prod.mk.injEq] at h
    obtain ⟨rfl, rfl, rfl⟩ := h
    refine ⟨?_, s', o, h1.2, rfl, rfl, fun k' σ hk' hs => ?_⟩
    · have := in_cross hc hx e
      rw [indexTo_eq]
      exact this
    · unfold toNeighbour
      simp only [hs, e]
      rw [if_pos ⟨h1.1, hk'⟩, e2]
      rfl

/-- The walk on running numbers is the walk on positions, if all functions on the way are active. -/
theorem walk_num {bs : List HB} {T : Net} (hc : T.Conform) (l : ℕ) (n : ℕ) : ∀ (steps : List Step), steps.length = n → ∀ x, T.In x → Act bs l x →
    (∀ σ, List.Forall₂ Below σ steps → ∀ z, travel T x σ = some z → Act bs l z) → ∀ y, travel T x steps = some y → travelNum bs T l (encode bs l x) steps = some (encode bs l y) := by
  induction n with
  | zero =>
    intro steps h x _ _ _ y hy
    obtain rfl := List.length_eq_zero_iff.1 h
    rw [travel] at hy
    rw [travelNum, Option.some.inj hy]
  | succ n ih =>
    intro steps h
    obtain ⟨⟨k, d⟩, rest, rfl⟩ := List.exists_cons_of_length_eq_add_one h
    have hr : rest.length = n := by simpa using h
    clear h
    induction hm : k.natAbs using Nat.strong_induction_on generalizing k d rest with
    | _ m ihm =>
      intro x hx ha hp y hy
      obtain ⟨i1, i2, i3, i4, i5⟩ := inside_spec T x hx d k
      set r := travelInside T x d k with hrdef
      have ar : Act bs l r.1 := by
        refine hp _ (.cons i3 (below_zeros rest)) _ ?_
        rw [travel_cons T x hx, i4]
        simpa using travel_zeros T r.1 i1 rest
      rw [travelNum, C55_decode ha]
      rw [travel_cons T x hx] at hy
      simp only [inPar hx d, dif_pos]
      by_cases h0 : r.2 = 0
      · rw [if_pos h0] at hy
        rw [if_pos h0]
        refine ih rest hr r.1 i1 ar (fun σ hσ z hz => ?_) y hy
        refine hp ((k, d) :: σ) (.cons ⟨rfl, by simp only; omega⟩ hσ) z ?_
        rw [travel_cons T x hx, if_pos h0]; exact hz
      · rw [if_neg h0] at hy
        rw [if_neg h0, C55_decode ar]
        simp only
        rcases hn : toNeighbour T r.1 (r.2, d) rest with _ | ⟨w, st, rest'⟩
        · rw [hn] at hy; simp at hy
        · rw [hn] at hy
          simp only at hy
          obtain ⟨w1, s', o, w2, rfl, rfl, w3⟩ := toNeighbour_some T hc i1 hn
          have hk : r.2.natAbs ≤ k.natAbs := natAbs_travelInside T x d k (inPar hx d)
          have hd := dec_natAbs w2
          -- parts of the remaining walk are parts of the whole walk
          have back : ∀ σ', List.Forall₂ Below σ' (stepToNeighbour (stepSide (r.2, d)) s' o (dec r.2, d) :: rest.map (stepToNeighbour (stepSide (r.2, d)) s' o)) → ∃ σ, List.Forall₂ Below σ ((k, d) :: rest) ∧ travel T x σ = travel T w σ' := by
            intro σ' hσ'
            have lift : ∀ (l1 : List Step) (l2 : List Step), List.Forall₂ Below l1 (l2.map (stepToNeighbour (stepSide (r.2, d)) s' o)) → ∃ l0, List.Forall₂ Below l0 l2 ∧ l1 = l0.map (stepToNeighbour (stepSide (r.2, d)) s' o) := by
              intro l1 l2
              induction l2 generalizing l1 with
              | nil => intro hh; cases hh; exact ⟨[], .nil, rfl⟩
              | cons b l2 ihl =>
                intro hh
                rw [List.map_cons] at hh
                rcases hh with _ | ⟨ha, hb⟩
                obtain ⟨a, a1, a2⟩ := stepTo_below _ _ _ _ _ ha
                obtain ⟨l0, b1, b2⟩ := ihl _ hb
                exact ⟨a :: l0, .cons a1 b1, by rw [List.map_cons, a2, b2]⟩
            obtain ⟨σ0, c1, c2⟩ := lift σ' ((dec r.2, d) :: rest) hσ'
            rcases c1 with _ | ⟨ca, cb⟩
            rename_i a σr
            obtain ⟨ak, ad⟩ := a
            obtain ⟨e1, e2⟩ := ca
            simp only at e1 e2
            subst e1
            -- one step over the interface and then `ak`
            obtain ⟨A, hA0, hAs, hAd, hAb⟩ : ∃ A : ℤ, A ≠ 0 ∧ stepSide (A, ad) = stepSide (r.2, ad) ∧ dec A = ak ∧ Below (A, ad) (r.2, ad) := by
              unfold dec at e2
              by_cases hpos : r.2 > 0
              · rw [if_pos hpos] at e2
                refine ⟨ak + 1, by omega, ?_, ?_, rfl, by simp only; omega⟩
                · unfold stepSide; simp only [if_pos hpos, if_pos (show ak + 1 > 0 by omega)]
                · unfold dec; rw [if_pos (by omega)]; omega
              · rw [if_neg hpos] at e2
                refine ⟨ak - 1, by omega, ?_, ?_, rfl, by simp only; omega⟩
                · unfold stepSide; simp only [if_neg hpos, if_neg (show ¬ ak - 1 > 0 by omega)]
                · unfold dec; rw [if_neg (by omega)]; omega
            refine ⟨(k - r.2 + A, ad) :: σr, .cons ⟨rfl, ?_⟩ cb, ?_⟩
            · obtain ⟨-, q1⟩ := i3
              obtain ⟨-, q2⟩ := hAb
              simp only at q1 q2 ⊢
              have sg : (0 ≤ k ∧ 0 ≤ r.2) ∨ (k ≤ 0 ∧ r.2 ≤ 0) := by
                have : r = travelInside T x ad k := rfl
                have h2 := inPar hx ad
                rw [this]; unfold travelInside; simp only
                split_ifs <;> simp only <;> omega
              omega
            · rw [travel_cons T x hx, i5 h0 A hAb hA0]
              simp only [if_neg hA0]
              rw [w3 A σr hA0 hAs, hAd, c2]
              simp
          have aw : Act bs l w := by
            obtain ⟨σ, s1, s2⟩ := back _ (below_zeros _)
            exact hp σ s1 w (by rw [s2]; exact travel_zeros T w w1 _)
          have hlt : (stepToNeighbour (stepSide (r.2, d)) s' o (dec r.2, d)).1.natAbs < m := by rw [natAbs_stepToNeighbour]; simp only; omega
          refine ihm _ hlt (stepToNeighbour (stepSide (r.2, d)) s' o (dec r.2, d)).1 (stepToNeighbour (stepSide (r.2, d)) s' o (dec r.2, d)).2 _ (by simpa using hr) rfl w w1 aw (fun σ' hσ' z hz => ?_) y hy
          obtain ⟨σ, s1, s2⟩ := back _ hσ'
          exact hp σ s1 z (by rw [s2]; exact hz)

/-! ## Blocks -/

private theorem blockLoopNum_eq (bs : List HB) (T : Net) (l : ℕ) (x : ℤ) (sides : List Side) (lens : List ℕ) (n : ℕ) (pt : List ℕ) (h : Bd lens pt) (hn : val lens pt + n = gridSize lens) :
    blockLoopNum bs T l x sides lens n pt = (visited lens n pt).mapM fun q => travelNum bs T l x (blockSteps sides q) := by
  induction n generalizing pt with
  | zero => have := val_lt h; omega
  | succ n ih =>
    rw [blockLoopNum, visited]
    rcases e : nextPoint lens pt with _ | pt'
    · simp only [List.mapM_cons, List.mapM_nil]
      rcases travelNum bs T l x (blockSteps sides pt) with _ | y <;> rfl
    · obtain ⟨b, v⟩ := next_some h e
      have hlt := val_lt b
      simp only [List.mapM_cons, ih pt' b (by omega)]
      rcases travelNum bs T l x (blockSteps sides pt) with _ | y
      · rfl
      · rcases (visited lens n pt').mapM fun q => travelNum bs T l x (blockSteps sides q) with _ | r <;> rfl

private theorem below_block (sides : List Side) (pt : List ℕ) (σ : List Step) (h : List.Forall₂ Below σ (blockSteps sides pt)) : ∃ pt', List.Forall₂ (· ≤ ·) pt' pt ∧ blockSteps sides pt' = σ := by
  induction sides generalizing pt σ with
  | nil => rw [blockSteps] at h; cases h; exact ⟨pt, List.forall₂_same.2 fun _ _ => le_rfl, by rw [blockSteps]; simp⟩; simp
  | cons s ss ih =>
    cases pt with
    | nil => rw [blockSteps] at h; cases h; exact ⟨[], .nil, by rw [blockSteps]; simp⟩; simp
    | cons n ns =>
      rw [blockSteps] at h
      rcases h with _ | ⟨h1, h2⟩
      rename_i a σ'
      obtain ⟨pt', q1, q2⟩ := ih ns σ' h2
      obtain ⟨k, d⟩ := a
      obtain ⟨e1, e2⟩ := h1
      simp only at e1 e2
      refine ⟨k.natAbs :: pt', .cons ?_ q1, ?_⟩
      · split_ifs at e2 <;> omega
      · rw [blockSteps, q2, e1]
        congr 2
        split_ifs at e2 ⊢ <;> omega

private theorem le_trans₂ {a b c : List ℕ} (h : List.Forall₂ (· ≤ ·) a b) (h' : List.Forall₂ (fun p l => p ≤ l) b c) : List.Forall₂ (fun p l => p ≤ l) a c := by
  induction h generalizing c with
  | nil => exact h'
  | cons h1 _ ih => rcases h' with _ | ⟨h2, h3⟩; exact .cons (le_trans h1 h2) (ih h3)

/-- C55: if all functions of a line or a block are active on the level, the functions that the code collects are those with their numbers, and the function is added or left out as for a tensor-product basis (C40).

The full claim drops the hypothesis `ha` for states after the repair; it is false, see `C55_inactive_violated`. -/
theorem C55_block_partial {bs : List HB} {T : Net} (hc : T.Conform) {l : ℕ} {x : Pos} (hx : T.In x) {sides : List Side} {lens : List ℕ} {ls : List Pos} (h : blockLocals T x sides lens = some ls)
    (ha : ∀ y ∈ ls, Act bs l y) :
    blockNums bs T l (encode bs l x) sides lens = some (ls.map (encode bs l)) ∧
      addBlockNum bs T l (encode bs l x) sides lens = some (if alreadyHandled ls x.p then none else some (ls.map (encode bs l))) := by
  have h' := h
  rw [C40_locals, mapM_iff] at h'
  obtain ⟨h1, h2⟩ := h'
  have hmem : ∀ pt z, List.Forall₂ (fun p l => p ≤ l) pt lens → travel T x (blockSteps sides pt) = some z → Act bs l z := by
    intro pt z hpt hz
    obtain ⟨i, hi, e⟩ := List.getElem_of_mem (((C40_points lens).2 pt).2 hpt)
    have := h2 i pt (by rw [List.getElem?_eq_getElem hi, e])
    rw [hz] at this
    exact ha z (List.mem_of_getElem? this.symm)
  have hax : Act bs l x := by
    refine hmem (lens.map fun _ => 0) x (bd_zero lens).1 ?_
    have : ∀ (sides : List Side) (lens : List ℕ), travel T x (blockSteps sides (lens.map fun _ => 0)) = some x := by
      intro sides
      induction sides with
      | nil => intro lens; rw [blockSteps]; · simp [travel]
               · simp
      | cons s ss ih =>
        intro lens
        cases lens with
        | nil => rw [List.map_nil, blockSteps]; · simp [travel]
                 · simp
        | cons n ns => rw [List.map_cons, blockSteps]; simp only [Nat.cast_zero, neg_zero, ite_self]; rw [travel_zero T x hx, ih]
    exact this sides lens
  have key : blockNums bs T l (encode bs l x) sides lens = some (ls.map (encode bs l)) := by
    obtain ⟨b, v⟩ := bd_zero lens
    unfold blockNums
    rw [gridSize_eq, blockLoopNum_eq bs T l _ sides lens _ _ b (by rw [v, Nat.zero_add]), mapM_iff]
    refine ⟨by simpa using h1, fun i pt hi => ?_⟩
    have hpt := ((C40_points lens).2 pt).1 (List.mem_of_getElem? hi)
    have hlen : i < ls.length := by rw [h1]; exact (List.getElem?_eq_some_iff.1 hi).1
    have hz := h2 i pt hi
    rw [List.getElem?_eq_getElem hlen] at hz
    rw [List.getElem?_map, List.getElem?_eq_getElem hlen]
    refine walk_num hc l _ _ rfl x hx hax (fun σ hσ z hz' => ?_) _ hz
    obtain ⟨pt', q1, rfl⟩ := below_block sides pt σ hσ
    refine hmem pt' z ?_ hz'
    exact le_trans₂ q1 hpt
  refine ⟨key, ?_⟩
  unfold addBlockNum
  rw [key, Option.map_some]
  congr 1
  have : (ls.map (encode bs l)).any (fun y => decide (getPatch bs y < getPatch bs (encode bs l x))) = alreadyHandled ls x.p := by
    unfold alreadyHandled
    rw [List.any_map, hax.getPatch, Bool.eq_iff_iff]
    simp only [List.any_eq_true, Function.comp, decide_eq_true_eq]
    exact exists_congr fun y => and_congr_right fun hy => by rw [(ha y hy).getPatch]
  rw [this]

/-! ## After the repair -/

/-- The functions on the line from `x` over the interface `s`. -/
theorem line_pos {T : Net} (hc : T.Conform) {x : Pos} (hx : T.In x) {s : Side} {q : ℕ} {s' : Side} {o : Bool} (hnb : T.nb x.p s = some (q, s', o)) (i : ℕ) (hq : i ≤ dist T x s + 1 + T.parMax q s'.dir) :
    ∃ y φ, line T i x id s = some (y, φ) ∧ T.In y ∧
      ((i ≤ dist T x s ∧ φ s = s ∧ y.p = x.p ∧ dist T y s = dist T x s - i ∧ along y s = along x s) ∨
        (dist T x s < i ∧ φ s = opp s' ∧ y.p = q ∧ dist T y s' = i - 1 - dist T x s ∧ along y s' = if o then along x s else T.parMax q (!s'.dir) - along x s)) := by
  induction i with
  | zero => exact ⟨x, id, rfl, hx, Or.inl ⟨Nat.zero_le _, rfl, rfl, rfl, rfl⟩⟩
  | succ i ih =>
    obtain ⟨y, φ, e, hy, h⟩ := ih (by omega)
    rw [line_add, e, Option.bind_some]
    simp only [line]
    rcases h with ⟨h1, h2, h3, h4, h5⟩ | ⟨h1, h2, h3, h4, h5⟩
    · rw [h2]
      by_cases hi : 0 < dist T y s
      · refine ⟨move y s, φ, by simp only [one, if_pos hi]; rfl, in_move hy hi, Or.inl ⟨by omega, h2, ?_, ?_, ?_⟩⟩
        · rw [← h3]; cases s <;> rfl
        · have : dist T (move y s) s = dist T y s - 1 := by cases s <;> simp only [dist, move] <;> omega
          omega
        · rw [← h5]; cases s <;> rfl
      · have hnb' : T.nb y.p s = some (q, s', o) := by rw [h3]; exact hnb
        refine ⟨_, _, by simp only [one, if_neg hi, hnb']; rfl, in_cross hc hy hnb', Or.inr ⟨by omega, ?_, ?_, ?_, ?_⟩⟩
        · simp only [Function.comp, h2, turn_self]
        · cases s' <;> rfl
        · have : dist T (atSide T q s' (if o then along y s else T.parMax q (!s'.dir) - along y s)) s' = 0 := by cases s' <;> simp [dist, atSide]
          rw [this]; omega
        · rw [← h5]; cases s' <;> rfl
    · rw [h2]
      have hd := dist_opp T y hy s'
      have hpos : 0 < dist T y (opp s') := by rw [h3] at hd; omega
      refine ⟨move y (opp s'), φ, by simp only [one, if_pos hpos]; rfl, in_move hy hpos, Or.inr ⟨by omega, h2, ?_, ?_, ?_⟩⟩
      · rw [← h3]; cases s' <;> rfl
      · have : dist T (move y (opp s')) s' = dist T y s' + 1 := by
          obtain ⟨y1, y2⟩ := hy
          cases s' <;> simp only [dist, move, opp] at hpos ⊢ <;> omega
        omega
      · rw [← h5]; cases s' <;> rfl

section repaired
open HRepair
variable {G : Geo} {st : St}

/-- The hierarchical bases for the levels of cells of `Model/HRepair.lean`. -/
def ofState (G : Geo) (st : St) : List HB := (List.range G.T.n).map fun p =>
  ⟨numFun G p, (List.range (G.L + 1)).map fun l => (List.range (numFun G p l false * numFun G p l true)).filter fun f => active G st p l (f % numFun G p l false) (f / numFun G p l false)⟩

theorem basis_ofState {p : ℕ} (hp : p < G.T.n) : basis (ofState G st) p =
    ⟨numFun G p, (List.range (G.L + 1)).map fun l => (List.range (numFun G p l false * numFun G p l true)).filter fun f => active G st p l (f % numFun G p l false) (f / numFun G p l false)⟩ := by
  unfold basis ofState
  rw [List.getD_eq_getElem _ _ (by simpa using hp), List.getElem_map, List.getElem_range]

theorem cm_ofState {p : ℕ} (hp : p < G.T.n) {l : ℕ} (hl : l ≤ G.L) : (basis (ofState G st) p).cm.getD l [] =
    (List.range (numFun G p l false * numFun G p l true)).filter fun f => active G st p l (f % numFun G p l false) (f / numFun G p l false) := by
  rw [basis_ofState hp]
  simp only
  rw [List.getD_eq_getElem _ _ (by simp; omega), List.getElem_map, List.getElem_range]

theorem ofState_wf (G : Geo) (st : St) : Wf (ofState G st) := by
  have key : ∀ p l, ((basis (ofState G st) p).cm.getD l [] = [] ∨ ∃ _ : p < G.T.n, l ≤ G.L) := by
    intro p l
    by_cases hp : p < G.T.n
    · by_cases hl : l ≤ G.L
      · exact Or.inr ⟨hp, hl⟩
      · left; rw [basis_ofState hp]; simp only; rw [List.getD_eq_default _ _ (by simp; omega)]
    · left
      have e : basis (ofState G st) p = ⟨fun _ _ => 0, []⟩ := by unfold basis; exact List.getD_eq_default _ _ (by unfold ofState; rw [List.length_map, List.length_range]; omega)
      rw [e]; rfl
  refine ⟨fun p l => ?_, fun p l f hf => ?_⟩
  · rcases key p l with e | ⟨hp, hl⟩
    · rw [e]; exact List.nodup_nil
    · rw [cm_ofState hp hl]; exact List.nodup_range.filter _
  · rcases key p l with e | ⟨hp, hl⟩
    · rw [e] at hf; simp at hf
    · rw [cm_ofState hp hl] at hf
      rw [basis_ofState hp]
      exact List.mem_range.1 (List.mem_of_mem_filter hf)

theorem act_ofState {y : Pos} (hp : y.p < G.T.n) {l : ℕ} (hl : l ≤ G.L) : Act (ofState G st) l y ↔ y.u < numFun G y.p l false ∧ y.v < numFun G y.p l true ∧ active G st y.p l y.u y.v = true := by
  have e0 : (basis (ofState G st) y.p).size = numFun G y.p := by rw [basis_ofState hp]
  have e : y.u < numFun G y.p l false → (y.u + numFun G y.p l false * y.v) / numFun G y.p l false = y.v ∧ (y.u + numFun G y.p l false * y.v) % numFun G y.p l false = y.u := by
    intro hu
    rw [Nat.add_mul_div_left _ _ (by omega), Nat.div_eq_of_lt hu, Nat.zero_add, Nat.add_mul_mod_self_left, Nat.mod_eq_of_lt hu]
    exact ⟨rfl, rfl⟩
  constructor
  · rintro ⟨-, h2, h3, h4⟩
    rw [e0] at h2 h3 h4
    rw [cm_ofState hp hl, List.mem_filter, (e h2).1, (e h2).2] at h4
    exact ⟨h2, h3, h4.2⟩
  · rintro ⟨h1, h2, h3⟩
    refine ⟨by simpa [ofState] using hp, by rw [e0]; exact h1, by rw [e0]; exact h2, ?_⟩
    rw [e0, cm_ofState hp hl, List.mem_filter, (e h1).1, (e h1).2, List.mem_range]
    refine ⟨?_, h3⟩
    calc y.u + numFun G y.p l false * y.v < numFun G y.p l false * (y.v + 1) := by rw [Nat.mul_add]; omega
      _ ≤ _ := Nat.mul_le_mul_left _ h2

theorem net_parMax {p : ℕ} (hp : p < G.T.n) (l : ℕ) (d : Bool) : (net (ofState G st) G.T.nb l).parMax p d = numFun G p l d - 1 := by
  unfold net; simp only; rw [basis_ofState hp]

theorem net_conform (hg : Good G) (st : St) (l : ℕ) : (net (ofState G st) G.T.nb l).Conform := by
  intro p s q s' o h
  have h' : G.T.nb p s = some (q, s', o) := h
  rw [net_parMax (hg.lt _ _ _ h'), net_parMax (hg.lt _ _ _ (hg.sym _ _ _ _ _ h'))]
  unfold numFun numCells
  rw [hg.n0 _ _ _ _ _ h', hg.deg _ _ _ _ _ h']

/-- A function is in the layer of its distance. -/
theorem layer_pos {l : ℕ} {y : Pos} (hp : y.p < G.T.n) (hy : (net (ofState G st) G.T.nb l).In y) (s : Side) :
    layerFun G y.p l s (Walk.dist (net (ofState G st) G.T.nb l) y s) (along y s) = (y.u, y.v) := by
  obtain ⟨h1, h2⟩ := hy
  rw [net_parMax hp] at h1 h2
  cases s <;> simp [layerFun, Walk.dist, along, Side.dir, net_parMax hp] <;> omega

theorem act_layer (hg : Good G) {l : ℕ} (hl : l ≤ G.L) {y : Pos} (hp : y.p < G.T.n) (hy : (net (ofState G st) G.T.nb l).In y) (s : Side) :
    Act (ofState G st) l y ↔ active G st y.p l (layerFun G y.p l s (Walk.dist (net (ofState G st) G.T.nb l) y s) (along y s)).1
      (layerFun G y.p l s (Walk.dist (net (ofState G st) G.T.nb l) y s) (along y s)).2 = true := by
  rw [act_ofState hp hl, layer_pos hp hy]
  obtain ⟨h1, h2⟩ := hy
  rw [net_parMax hp] at h1 h2
  have h3 : ∀ d, 0 < numFun G y.p l d := fun d => by have := hg.pos y.p d; unfold numFun; omega
  have h4 := h3 false
  have h5 := h3 true
  exact ⟨fun h => h.2.2, fun h => ⟨by omega, by omega, h⟩⟩

theorem act_in {l : ℕ} {x : Pos} (hx : Act (ofState G st) l x) (hp : x.p < G.T.n) : (net (ofState G st) G.T.nb l).In x := by
  refine ⟨?_, ?_⟩
  · have := hx.u; rw [basis_ofState hp] at this; rw [net_parMax hp]; simp only at this; omega
  · have := hx.v; rw [basis_ofState hp] at this; rw [net_parMax hp]; simp only at this; omega

theorem line_act (hg : Good G) (hb : Bounded G st) (hd : ∀ p < G.T.n, Deep G st p) (hm : ∀ p < G.T.n, ∃ c, matchNeighbours G st p = some ([], c))
    {l : ℕ} (hl : l ≤ G.L) {x : Pos} (hx : Act (ofState G st) l x) {s : Side} {q : ℕ} {s' : Side} {o : Bool} (hnb : G.T.nb x.p s = some (q, s', o)) {a : ℕ} (ha : Walk.dist (net (ofState G st) G.T.nb l) x s = a)
    (h1 : a < min (G.deg x.p s.dir) (G.incr + 1)) (h2 : a < numCells G x.p l s.dir) {len : ℕ} (h3 : len ≤ a + min (G.deg q s'.dir) (G.incr + 1)) (h4 : len ≤ a + numCells G q l s'.dir) :
    ∀ i ≤ len, ∃ y, (line (net (ofState G st) G.T.nb l) i x id s).map Prod.fst = some y ∧ Act (ofState G st) l y := by
  set T := net (ofState G st) G.T.nb l with hT
  have hc : T.Conform := net_conform hg st l
  have hp := hg.lt _ _ _ hnb
  have hnb' := hg.sym _ _ _ _ _ hnb
  have hq := hg.lt _ _ _ hnb'
  have hfun : ∀ p d, 0 < numFun G p l d := fun p d => by have := hg.pos p d; unfold numFun; omega
  have hin : T.In x := act_in hx hp
  have hnbT : T.nb x.p s = some (q, s', o) := hnb
  have hpq : numFun G x.p l (!s.dir) = numFun G q l (!s'.dir) := by
    unfold numFun numCells; rw [hg.n0 _ _ _ _ _ hnb, hg.deg _ _ _ _ _ hnb]
  have hpm : T.parMax q s'.dir = numFun G q l s'.dir - 1 := net_parMax hq l _
  have hpm' : T.parMax q (!s'.dir) = numFun G q l (!s'.dir) - 1 := net_parMax hq l _
  have hnf : numCells G q l s'.dir + G.deg q s'.dir = numFun G q l s'.dir := rfl
  have hpos := hg.pos q s'.dir
  have hcells := pos_cells hg q l s'.dir
  have hk : along x s < numFun G x.p l (!s.dir) := by
    have := along_le hin s
    rw [hT, net_parMax hp] at this
    have := hfun x.p (!s.dir)
    omega
  have hact := (act_layer hg hl hp hin s).1 hx
  rw [← hT, ha] at hact
  have hsome : (G.T.nb x.p s).isSome := by rw [hnb]; rfl
  have hsome' : (G.T.nb q s').isSome := by rw [hnb']; rfl
  have act0 : active G st x.p l (layerFun G x.p l s 0 (along x s)).1 (layerFun G x.p l s 0 (along x s)).2 = true := by
    rw [← C50_layers hg hb (hd _ hp) hsome hl hk h1 h2]; exact hact
  have act0' : active G st q l (layerFun G q l s' 0 (twin G x.p l (!s.dir) o (along x s))).1 (layerFun G q l s' 0 (twin G x.p l (!s.dir) o (along x s))).2 = true := by
    rw [← C50_matched hg hb hd hm hnb hl hk (by omega) (by omega) (by omega) hcells]; exact act0
  have htw : twin G x.p l (!s.dir) o (along x s) < numFun G q l (!s'.dir) := by unfold twin; split_ifs <;> omega
  intro i hi
  obtain ⟨y, φ, e, hy, h⟩ := line_pos hc hin hnbT i (by rw [ha, hpm]; omega)
  refine ⟨y, by rw [e]; rfl, ?_⟩
  rcases h with ⟨e1, -, e3, e4, e5⟩ | ⟨e1, -, e3, e4, e5⟩
  · have hyp : y.p < G.T.n := by rw [e3]; exact hp
    rw [act_layer hg hl hyp hy s, ← hT, e4, e5, e3, ha, C50_layers hg hb (hd _ hp) hsome hl hk (by omega) (by omega)]
    exact act0
  · have hyp : y.p < G.T.n := by rw [e3]; exact hq
    have e6 : along y s' = twin G x.p l (!s.dir) o (along x s) := by
      rw [e5, hpm']; unfold twin; rw [hpq]
    rw [act_layer hg hl hyp hy s', ← hT, e4, e6, e3, ha, C50_layers hg hb (hd _ hq) hsome' hl htw (by omega) (by omega)]
    exact act0'

/-- C55: if neighbours agree and interfaces are refined deeply enough (the end of the repair, C50), then every line over an interface that starts at an active function consists of active functions of the same level, and the running numbers found by the
code are theirs. The line starts at distance `a` from the interface and ends at most as deep in the neighbour as the repair looks.

The full claim, for every state in which the repair ends, is false, see `C55_inactive_violated`. -/
theorem C55_line_partial (hg : Good G) (hb : Bounded G st) (hd : ∀ p < G.T.n, Deep G st p) (hm : ∀ p < G.T.n, ∃ c, matchNeighbours G st p = some ([], c))
    {l : ℕ} (hl : l ≤ G.L) {x : Pos} (hx : Act (ofState G st) l x) {s : Side} {q : ℕ} {s' : Side} {o : Bool} (hnb : G.T.nb x.p s = some (q, s', o)) {a : ℕ} (ha : Walk.dist (net (ofState G st) G.T.nb l) x s = a)
    (h1 : a < min (G.deg x.p s.dir) (G.incr + 1)) (h2 : a < numCells G x.p l s.dir) {len : ℕ} (h3 : len ≤ a + min (G.deg q s'.dir) (G.incr + 1)) (h4 : len ≤ a + numCells G q l s'.dir) :
    ∃ ls, blockLocals (net (ofState G st) G.T.nb l) x [s] [len] = some ls ∧ (∀ y ∈ ls, Act (ofState G st) l y) ∧
      blockNums (ofState G st) (net (ofState G st) G.T.nb l) l (encode (ofState G st) l x) [s] [len] = some (ls.map (encode (ofState G st) l)) := by
  set T := net (ofState G st) G.T.nb l with hT
  have hc : T.Conform := net_conform hg st l
  have hin : T.In x := act_in hx (hg.lt _ _ _ hnb)
  have key := line_act hg hb hd hm hl hx hnb ha h1 h2 h3 h4
  rw [← hT] at key
  have hls : blockLocals T x [s] [len] = some ((List.range (len + 1)).map fun i => ((line T i x id s).map Prod.fst).getD x) := by
    rw [line_locals' T hc x hin]
    refine ⟨by simp, fun i hi => ?_⟩
    obtain ⟨y, e, -⟩ := key i hi
    simp [e, List.getElem?_range (show i < len + 1 by omega)]
  have hall : ∀ y ∈ (List.range (len + 1)).map fun i => ((line T i x id s).map Prod.fst).getD x, Act (ofState G st) l y := by
    intro y hy
    obtain ⟨i, hi, rfl⟩ := List.mem_map.1 hy
    obtain ⟨z, e, hz⟩ := key i (by have := List.mem_range.1 hi; omega)
    rw [e]; exact hz
  exact ⟨_, hls, hall, (C55_block_partial hc hin hls hall).1⟩

/-- C55: the same for blocks at a vertex with four patches: if one function of the block is active, all of them are, on the same level, and the running numbers found by the code are theirs.

The full claim, for every state in which the repair ends, is false, see `C55_inactive_violated`. -/
theorem C55_vertex_partial (hg : Good G) (hb : Bounded G st) (hd : ∀ p < G.T.n, Deep G st p) (hm : ∀ p < G.T.n, ∃ c, matchNeighbours G st p = some ([], c))
    {l : ℕ} (hl : l ≤ G.L) {T : Net} (hT : T = net (ofState G st) G.T.nb l) (ht : T.NoTwist) (V : Vtx T) {a a' b b' : ℕ}
    (hh : ∀ α β, (if α then a' else a) < min (G.deg (V.p α β) (V.h α β).dir) (G.incr + 1) ∧ (if α then a' else a) < numCells G (V.p α β) l (V.h α β).dir)
    (hv : ∀ α β, (if β then b' else b) < min (G.deg (V.p α β) (V.v α β).dir) (G.incr + 1) ∧ (if β then b' else b) < numCells G (V.p α β) l (V.v α β).dir)
    {x : Pos} {α β : Bool} (hx : At V x α β (if α then a' else a) (if β then b' else b)) (ha : Act (ofState G st) l x) :
    ∃ ls, blockLocals T x [V.h α β, V.v α β] [a + a' + 1, b + b' + 1] = some ls ∧ (∀ z, z ∈ ls ↔ InBlock V a a' b b' z) ∧ (∀ y ∈ ls, Act (ofState G st) l y) ∧
      blockNums (ofState G st) T l (encode (ofState G st) l x) [V.h α β, V.v α β] [a + a' + 1, b + b' + 1] = some (ls.map (encode (ofState G st) l)) := by
  have hc : T.Conform := by rw [hT]; exact net_conform hg st l
  have hn : T.nb = G.T.nb := by rw [hT]; rfl
  have hp : ∀ α β, V.p α β < G.T.n := fun α β => hg.lt _ _ _ (hn ▸ V.nbh α β)
  have hpm : ∀ α β d, T.parMax (V.p α β) d = numFun G (V.p α β) l d - 1 := fun α β d => (congrFun (congrFun (congrArg Net.parMax hT) _) _).trans (net_parMax (hp α β) l d)
  have hnf : ∀ p d, numFun G p l d = numCells G p l d + G.deg p d := fun _ _ => rfl
  have hr : Room V a a' b b' := by
    intro α β
    rw [hpm, hpm, hnf, hnf]
    have h1 := hh α β
    have h2 := hv α β
    omega
  obtain ⟨ls, -, e1, -, e2, -⟩ := C40_block_partial hc ht V hr hx
  -- one step over the first interface, then one over the second one
  have goh : ∀ {y : Pos} {β' : Bool} {j : ℕ}, At V y α β' (if α then a' else a) j → Act (ofState G st) l y → ∀ α' i, i ≤ (if α' then a' else a) → ∃ z, At V z α' β' i j ∧ Act (ofState G st) l z := by
    intro y β' j hy hay α' i hi
    have e1 := hh α β'
    have e2 := hh (!α) β'
    obtain ⟨y1, y2, y3, y4⟩ := hy
    have hn1 : G.T.nb y.p (V.h α β') = some (V.p (!α) β', V.h (!α) β', V.oh α β') := by rw [y1, ← hn]; exact V.nbh α β'
    have act := line_act hg hb hd hm hl hay hn1 ((congrArg (fun N => Walk.dist N y (V.h α β')) hT.symm).trans y3) (by rw [y1]; exact e1.1) (by rw [y1]; exact e1.2) (len := (if α then a' else a) + 1 + (if !α then a' else a)) (by omega) (by omega)
    rw [← hT] at act
    have hw : ∀ n ≤ (if α then a' else a) + 1 + (if !α then a' else a), ∃ z, At V z (if n ≤ (if α then a' else a) then α else !α) β' (if n ≤ (if α then a' else a) then (if α then a' else a) - n else n - 1 - (if α then a' else a)) j ∧ Act (ofState G st) l z := by
      intro n hn
      obtain ⟨z, φ', f1, -, f3⟩ := walk_h hc V (n := n) (a := if α then a' else a) (b := j) ⟨y1, y2, y3, y4⟩ (by have := (hr (!α) β').1; omega) id (V.h α β') (V.v α β') rfl
      obtain ⟨z', g1, g2⟩ := act n hn
      rw [f1] at g1
      simp only [Option.map_some, Option.some.injEq] at g1
      subst g1
      exact ⟨z, f3, g2⟩
    by_cases hαα : α' = α
    · subst hαα
      obtain ⟨z, f, g⟩ := hw ((if α' then a' else a) - i) (by omega)
      rw [if_pos (by omega), if_pos (by omega), show (if α' then a' else a) - ((if α' then a' else a) - i) = i by omega] at f
      exact ⟨z, f, g⟩
    · have hαα' : α' = !α := by cases α <;> cases α' <;> simp_all
      subst hαα'
      obtain ⟨z, f, g⟩ := hw ((if α then a' else a) + 1 + i) (by omega)
      rw [if_neg (by omega), if_neg (by omega), show (if α then a' else a) + 1 + i - 1 - (if α then a' else a) = i by omega] at f
      exact ⟨z, f, g⟩
  have gov : ∀ {y : Pos} {α' : Bool} {i : ℕ}, At V y α' β i (if β then b' else b) → Act (ofState G st) l y → ∀ β' j, j ≤ (if β' then b' else b) → ∃ z, At V z α' β' i j ∧ Act (ofState G st) l z := by
    intro y α' i hy hay β' j hj
    have e1 := hv α' β
    have e2 := hv α' (!β)
    obtain ⟨y1, y2, y3, y4⟩ := hy
    have hn1 : G.T.nb y.p (V.v α' β) = some (V.p α' (!β), V.v α' (!β), V.ov α' β) := by rw [y1, ← hn]; exact V.nbv α' β
    have act := line_act hg hb hd hm hl hay hn1 ((congrArg (fun N => Walk.dist N y (V.v α' β)) hT.symm).trans y4) (by rw [y1]; exact e1.1) (by rw [y1]; exact e1.2) (len := (if β then b' else b) + 1 + (if !β then b' else b)) (by omega) (by omega)
    rw [← hT] at act
    have hw : ∀ n ≤ (if β then b' else b) + 1 + (if !β then b' else b), ∃ z, At V z α' (if n ≤ (if β then b' else b) then β else !β) i (if n ≤ (if β then b' else b) then (if β then b' else b) - n else n - 1 - (if β then b' else b)) ∧ Act (ofState G st) l z := by
      intro n hn
      obtain ⟨z, φ', f1, -, f3⟩ := walk_v hc V (n := n) (a := i) (b := if β then b' else b) ⟨y1, y2, y3, y4⟩ (by have := (hr α' (!β)).2; omega) id (V.v α' β) (V.h α' β) rfl
      obtain ⟨z', g1, g2⟩ := act n hn
      rw [f1] at g1
      simp only [Option.map_some, Option.some.injEq] at g1
      subst g1
      exact ⟨z, f3, g2⟩
    by_cases hββ : β' = β
    · subst hββ
      obtain ⟨z, f, g⟩ := hw ((if β' then b' else b) - j) (by omega)
      rw [if_pos (by omega), if_pos (by omega), show (if β' then b' else b) - ((if β' then b' else b) - j) = j by omega] at f
      exact ⟨z, f, g⟩
    · have hββ' : β' = !β := by cases β <;> cases β' <;> simp_all
      subst hββ'
      obtain ⟨z, f, g⟩ := hw ((if β then b' else b) + 1 + j) (by omega)
      rw [if_neg (by omega), if_neg (by omega), show (if β then b' else b) + 1 + j - 1 - (if β then b' else b) = j by omega] at f
      exact ⟨z, f, g⟩
  have hall : ∀ y ∈ ls, Act (ofState G st) l y := by
    intro y hy
    obtain ⟨α', β', i, j, hz, hi, hj⟩ := (e2 y).1 hy
    obtain ⟨z1, f1, g1⟩ := goh hx ha α' i hi
    obtain ⟨z2, f2, g2⟩ := gov f1 g1 β' j hj
    have : y = z2 := dist_unique hz.2.1 f2.2.1 (hz.1.trans f2.1.symm) (V.perp α' β') (hz.2.2.1.trans f2.2.2.1.symm) (hz.2.2.2.trans f2.2.2.2.symm)
    rw [this]; exact g2
  exact ⟨ls, e1, e2, hall, (C55_block_partial hc hx.2.1 e1 hall).1⟩

/-! ## Corners -/

/-- Corner function of level `l` at the ends `a` (in u) and `c` (in v) of the patch. -/
def cornerPos (G : Geo) (p l : ℕ) (a c : Bool) : Pos := ⟨p, if a then numFun G p l false - 1 else 0, if c then numFun G p l true - 1 else 0⟩

/-- The finest cells in the cell of level `l` at a corner. -/
def AtCorner (G : Geo) (p l : ℕ) (a c : Bool) (u v : ℕ) : Prop :=
  (if a then numCells G p G.L false - 2 ^ (G.L - l) ≤ u ∧ u < numCells G p G.L false else u < 2 ^ (G.L - l)) ∧
    (if c then numCells G p G.L true - 2 ^ (G.L - l) ≤ v ∧ v < numCells G p G.L true else v < 2 ^ (G.L - l))

theorem corner_box (hg : Good G) {p l : ℕ} (hl : l ≤ G.L) (a c : Bool) (u v : ℕ) :
    inBox G (supp G p l (cornerPos G p l a c).u (cornerPos G p l a c).v) u v = true ↔ AtCorner G p l a c u v := by
  have hu := cells_pow (p := p) (d := false) hl
  have hv := cells_pow (p := p) (d := true) hl
  have pu := pos_cells hg p l false
  have pv := pos_cells hg p l true
  have du := hg.pos p false
  have dv := hg.pos p true
  have lo0 : ∀ d, supLo G p d 0 = 0 := fun d => Nat.zero_sub _
  have hi0 : ∀ d, 0 < numCells G p l d → supHi G p l d 0 = 1 := fun d h => by unfold supHi; omega
  have lo1 : ∀ d, supLo G p d (numFun G p l d - 1) = numCells G p l d - 1 := fun d => by unfold supLo numFun; omega
  have hi1 : ∀ d, 0 < G.deg p d → supHi G p l d (numFun G p l d - 1) = numCells G p l d := fun d h => by unfold supHi numFun; omega
  have sub : ∀ d, 0 < numCells G p l d → (numCells G p l d - 1) * 2 ^ (G.L - l) = numCells G p l d * 2 ^ (G.L - l) - 2 ^ (G.L - l) := fun d _ => by rw [Nat.sub_mul, Nat.one_mul]
  unfold inBox AtCorner supp cornerPos
  rw [hu, hv]
  cases a <;> cases c <;>
    simp [lo0, hi0 _ pu, hi0 _ pv, lo1, hi1 _ du, hi1 _ dv, sub _ pu, sub _ pv]
  all_goals tauto

theorem corner_active (hg : Good G) {p l : ℕ} (hl : l ≤ G.L) (a c : Bool) : active G st p l (cornerPos G p l a c).u (cornerPos G p l a c).v = true ↔
    (∀ u v, AtCorner G p l a c u v → l ≤ lev G st p u v) ∧ ∃ u v, AtCorner G p l a c u v ∧ lev G st p u v ≤ l := by
  unfold active
  rw [Bool.and_eq_true, Bool.not_eq_true', ← Bool.not_eq_true, inside_iff, inside_iff]
  simp only [corner_box hg hl]
  push Not
  simp only [Nat.lt_succ_iff]

theorem corner_nonempty (hg : Good G) (p l : ℕ) (a c : Bool) : ∃ u v, AtCorner G p l a c u v := by
  have pu := pos_cells hg p G.L false
  have pv := pos_cells hg p G.L true
  have h2 : 0 < 2 ^ (G.L - l) := Nat.pow_pos (by omega)
  refine ⟨if a then numCells G p G.L false - 1 else 0, if c then numCells G p G.L true - 1 else 0, ?_⟩
  cases a <;> cases c <;> simp [AtCorner] <;> omega

theorem corner_mono {p l l' : ℕ} (h : l ≤ l') {a c : Bool} {u v : ℕ} (hc : AtCorner G p l' a c u v) : AtCorner G p l a c u v := by
  have : 2 ^ (G.L - l') ≤ 2 ^ (G.L - l) := Nat.pow_le_pow_right (by omega) (by omega)
  cases a <;> cases c <;> simp [AtCorner] at hc ⊢ <;> omega

theorem corner_exists (hg : Good G) (hb : Bounded G st) (p : ℕ) (a c : Bool) : ∃ l ≤ G.L, active G st p l (cornerPos G p l a c).u (cornerPos G p l a c).v = true := by
  by_contra hn
  push Not at hn
  have h : ∀ l ≤ G.L + 1, ∀ u v, AtCorner G p (min l G.L) a c u v → l ≤ lev G st p u v := by
    intro l
    induction l with
    | zero => intro _ u v _; exact Nat.zero_le _
    | succ l ih =>
      intro hl u v hc
      have hl' : l ≤ G.L := by omega
      have i := ih (by omega)
      rw [Nat.min_eq_left hl'] at i
      have hno := hn l hl'
      rw [Ne, corner_active hg hl'] at hno
      by_contra hlt
      exact hno ⟨i, u, v, corner_mono (by omega) hc, by omega⟩
  obtain ⟨u, v, hc⟩ := corner_nonempty hg p G.L a c
  have := h (G.L + 1) (le_refl _) u v (by rw [Nat.min_eq_right (by omega)]; exact hc)
  have := hb p u v
  omega

theorem cornerFrom_spec (b : HB) (a c : Bool) (n : ℕ) : ∀ k l, k ≤ l → l < k + n → b.toHier ((if a then b.size l false - 1 else 0) + b.size l false * (if c then b.size l true - 1 else 0)) l ≠ -1 →
    (∀ l', k ≤ l' → l' < l → b.toHier ((if a then b.size l' false - 1 else 0) + b.size l' false * (if c then b.size l' true - 1 else 0)) l' = -1) →
    cornerFrom b a c n k = some (l, b.toHier ((if a then b.size l false - 1 else 0) + b.size l false * (if c then b.size l true - 1 else 0)) l) := by
  induction n with
  | zero => intro k l h1 h2; omega
  | succ n ih =>
    intro k l h1 h2 h3 h4
    unfold cornerFrom
    simp only
    rcases Nat.eq_or_lt_of_le h1 with rfl | h
    · rw [if_neg h3]
    · rw [if_pos (h4 k (le_refl _) h)]
      exact ih (k + 1) l h (by omega) h3 fun l' e1 e2 => h4 l' (by omega) e2

theorem toHier_ne (b : HB) (f l : ℕ) : b.toHier f l ≠ -1 ↔ f ∈ b.cm.getD l [] := by
  unfold HB.toHier
  split_ifs with h
  · simp only [h, iff_true]; omega
  · exact ⟨fun h' => absurd rfl h', fun h' => absurd h' h⟩

/-- C55: the search for the function of a corner ends with an active function, that of the lowest level on which the corner has one; the error is never reached. -/
theorem C55_corner (hg : Good G) (hb : Bounded G st) {p : ℕ} (hp : p < G.T.n) (a c : Bool) :
    ∃ l ≤ G.L, cornerIndex (basis (ofState G st) p) a c = some (l, hIndex (ofState G st) l (cornerPos G p l a c)) ∧ Act (ofState G st) l (cornerPos G p l a c) ∧
      ∀ l' < l, ¬ Act (ofState G st) l' (cornerPos G p l' a c) := by
  classical
  have hex := corner_exists hg hb p a c
  have hfun : ∀ l d, 0 < numFun G p l d := fun l d => by have := hg.pos p d; unfold numFun; omega
  have hact : ∀ l ≤ G.L, (Act (ofState G st) l (cornerPos G p l a c) ↔ active G st p l (cornerPos G p l a c).u (cornerPos G p l a c).v = true) := by
    intro l hl
    rw [act_ofState (y := cornerPos G p l a c) hp hl]
    have h1 := hfun l false
    have h2 := hfun l true
    refine ⟨fun h => h.2.2, fun h => ⟨?_, ?_, h⟩⟩
    · simp only [cornerPos]; split_ifs <;> omega
    · simp only [cornerPos]; split_ifs <;> omega
  have hmem : ∀ l ≤ G.L, (Act (ofState G st) l (cornerPos G p l a c) ↔ (basis (ofState G st) p).toHier ((if a then (basis (ofState G st) p).size l false - 1 else 0) + (basis (ofState G st) p).size l false * (if c then (basis (ofState G st) p).size l true - 1 else 0)) l ≠ -1) := by
    intro l hl
    rw [toHier_ne]
    have e0 : (basis (ofState G st) p).size = numFun G p := by rw [basis_ofState hp]
    have h1 := hfun l false
    have h2 := hfun l true
    constructor
    · intro h
      have := h.mem
      simp only [cornerPos] at this
      rw [e0] at this ⊢
      exact this
    · intro h
      refine ⟨by simpa [ofState, cornerPos] using hp, ?_, ?_, ?_⟩
      · simp only [cornerPos]; rw [e0]; split_ifs <;> omega
      · simp only [cornerPos]; rw [e0]; split_ifs <;> omega
      · simp only [cornerPos]; rw [e0] at h ⊢; exact h
  have hlen : (basis (ofState G st) p).cm.length = G.L + 1 := by rw [basis_ofState hp]; simp
  refine ⟨Nat.find hex, (Nat.find_spec hex).1, ?_, (hact _ (Nat.find_spec hex).1).2 (Nat.find_spec hex).2, ?_⟩
  · have h1 := (Nat.find_spec hex).1
    unfold cornerIndex
    rw [hlen, cornerFrom_spec _ a c (G.L + 1) 0 (Nat.find hex) (Nat.zero_le _) (by omega) ((hmem _ h1).1 ((hact _ h1).2 (Nat.find_spec hex).2)) ?_]
    · unfold hIndex cornerPos
      rw [basis_ofState hp]
    · intro l' _ hl'
      by_contra h
      have hL : l' ≤ G.L := by omega
      exact Nat.find_min hex hl' ⟨hL, (hact _ hL).1 ((hmem _ hL).2 h)⟩
  · intro l' hl' h
    have := (Nat.find_spec hex).1
    have hL : l' ≤ G.L := by omega
    exact Nat.find_min hex hl' ⟨hL, (hact _ hL).1 h⟩

/-- At this corner, cells are refined as a whole. -/
def Uncut (G : Geo) (st : St) (p : ℕ) (a c : Bool) : Prop :=
  ∀ l ≤ G.L, ∀ u v, AtCorner G p l a c u v → l + 1 ≤ lev G st p u v → ∀ u' v', AtCorner G p l a c u' v' → l + 1 ≤ lev G st p u' v'

/-- C55: if the cells at the corner are refined as a whole, the corner has only one active function, so the search finds it from every level. The full claim drops `Uncut`; it is false, see `C55_corner_violated`. -/
theorem C55_corner_partial (hg : Good G) {p : ℕ} (hp : p < G.T.n) {a c : Bool} (hu : Uncut G st p a c) {l l' : ℕ} (hl : l ≤ G.L) (hl' : l' ≤ G.L)
    (h : Act (ofState G st) l (cornerPos G p l a c)) (h' : Act (ofState G st) l' (cornerPos G p l' a c)) : l = l' := by
  have key : ∀ l l', l ≤ G.L → l' ≤ G.L → l < l' → Act (ofState G st) l (cornerPos G p l a c) → Act (ofState G st) l' (cornerPos G p l' a c) → False := by
    intro l l' hl hl' hlt h h'
    have e := (corner_active (p := p) hg hl a c).1 ((act_ofState (y := cornerPos G p l a c) hp hl).1 h).2.2
    have e' := (corner_active (p := p) hg hl' a c).1 ((act_ofState (y := cornerPos G p l' a c) hp hl').1 h').2.2
    obtain ⟨u, v, hc⟩ := corner_nonempty hg p l' a c
    obtain ⟨u1, v1, hc1, h1⟩ := e.2
    have := hu l hl u v (corner_mono (by omega) hc) (by have := e'.1 u v hc; omega) u1 v1 hc1
    omega
  rcases Nat.lt_trichotomy l l' with e | e | e
  · exact (key l l' hl hl' e h h').elim
  · exact e
  · exact (key l' l hl' hl e h' h).elim

end repaired

/-! ## Levels -/

/-- C55: if the distances of every level satisfy `Ok` (C32), then exactly one call is made for every active function of every level of the patch. -/
theorem C55_levels_partial (maxLevel own : ℕ) (ho : own ≤ maxLevel) (P : ℕ → Regions.Patch) (hs : ∀ l ≤ own, (P l).single = false) (hk : ∀ l ≤ own, Regions.Ok (P l).clipped) (l i j : ℕ) :
    (levelCalls maxLevel own P).countP (fun c => decide (c.1 = l ∧ c.2.1 = (i, j))) = if l ≤ own ∧ i < (P l).nu ∧ j < (P l).nv ∧ (P l).act i j then 1 else 0 := by
  have e : ∀ n, ((List.range n).flatMap fun l => if l ≤ own then (Regions.calls (P l)).map fun c => (l, c) else []).countP (fun c => decide (c.1 = l ∧ c.2.1 = (i, j))) =
      if l < n ∧ l ≤ own then Regions.times (Regions.calls (P l)) i j else 0 := by
    intro n
    induction n with
    | zero => simp
    | succ n ih =>
      rw [List.range_succ, List.flatMap_append, List.countP_append, ih, List.flatMap_singleton]
      by_cases hn : l = n
      · subst hn
        rw [if_neg (by omega), Nat.zero_add]
        by_cases ho : l ≤ own
        · rw [if_pos ho, if_pos ⟨by omega, ho⟩, List.countP_map]
          unfold Regions.times
          congr 1; funext c; simp
        · rw [if_neg ho, if_neg (by omega)]; rfl
      · have : (if n ≤ own then (Regions.calls (P n)).map fun c => (n, c) else []).countP (fun c => decide (c.1 = l ∧ c.2.1 = (i, j))) = 0 := by
          rw [List.countP_eq_zero]
          intro c hc
          split_ifs at hc
          · obtain ⟨d, -, rfl⟩ := List.mem_map.1 hc
            simp only [decide_eq_true_eq]; omega
          · simp at hc
        rw [this, Nat.add_zero]
        congr 1
        apply propext; omega
  unfold levelCalls
  rw [e]
  by_cases hl : l ≤ own
  · rw [if_pos ⟨by omega, hl⟩, Regions.C32_once_partial _ (hs l hl) (hk l hl)]
    simp only [hl, true_and]
  · rw [if_neg (by omega), if_neg (fun h => hl h.1)]

/-! ## Where it goes wrong -/

section
open HRepair

/-- The bases at the end of the repair of `C50_corner_violation`. -/
def cornerBs : List HB := ofState cornerG corner1

/-- C55 is false without the hypothesis of `C55_block_partial` that the other functions are active. In the state in which the repair ends in `C50_corner_violation`, function `(0,1)` of level 0 of patch 1 is active and next to its interface in the south. The
call for its line of length 2 walks to function `(0,0)`, which is not active, takes the number before the first one of patch 1 for it, and reads outside the vector of the functions of level 0 of patch 0. With length 1, the number is that of the
active function `(7,1)` of level 1 of patch 0, and since patch 0 comes first, no global function is made. -/
theorem C55_inactive_violated :
    Act cornerBs 0 ⟨1, 0, 1⟩ ∧ ¬ Act cornerBs 0 ⟨1, 0, 0⟩ ∧ blockNums cornerBs (net cornerBs cornerG.T.nb 0) 0 (encode cornerBs 0 ⟨1, 0, 1⟩) [.south] [2] = none ∧
      Act cornerBs 1 ⟨0, 7, 1⟩ ∧ blockNums cornerBs (net cornerBs cornerG.T.nb 0) 0 (encode cornerBs 0 ⟨1, 0, 1⟩) [.south] [1] = some [encode cornerBs 0 ⟨1, 0, 1⟩, encode cornerBs 1 ⟨0, 7, 1⟩] ∧
      addBlockNum cornerBs (net cornerBs cornerG.T.nb 0) 0 (encode cornerBs 0 ⟨1, 0, 1⟩) [.south] [1] = some none := by
  have a1 : Act cornerBs 0 ⟨1, 0, 1⟩ := ⟨by decide +kernel, by decide +kernel, by decide +kernel, by decide +kernel⟩
  have a2 : ¬ Act cornerBs 0 ⟨1, 0, 0⟩ := fun h => absurd h.mem (by decide +kernel)
  have a3 : Act cornerBs 1 ⟨0, 7, 1⟩ := ⟨by decide +kernel, by decide +kernel, by decide +kernel, by decide +kernel⟩
  have e1 : encode cornerBs 0 ⟨1, 0, 1⟩ = 34 := by decide +kernel
  have e2 : encode cornerBs 0 ⟨1, 0, 0⟩ = 30 := by decide +kernel
  have e3 : encode cornerBs 1 ⟨0, 7, 1⟩ = 30 := by decide +kernel
  have d1 : decode cornerBs 0 34 = some ⟨1, 0, 1⟩ := by decide +kernel
  have d2 : decode cornerBs 0 30 = none := by decide +kernel
  have m : ∀ d, (net cornerBs cornerG.T.nb 0).parMax 1 d = 4 := by decide +kernel
  have t : ∀ k : ℤ, travelInside (net cornerBs cornerG.T.nb 0) ⟨1, 0, 1⟩ true k = if 0 ≤ 1 + k ∧ 1 + k ≤ 4 then (⟨1, 0, (1 + k).toNat⟩, 0) else if k > 0 then (⟨1, 0, 4⟩, k - 3) else (⟨1, 0, 0⟩, k + 1) := by
    intro k
    unfold travelInside
    simp only [Pos.par, if_true, m]
    split_ifs <;> simp_all
  have t0 : travelNum cornerBs (net cornerBs cornerG.T.nb 0) 0 34 [(0, true)] = some 34 := by
    rw [travelNum]; simp [d1, t, Pos.par, m, e1, travelNum]
  have t1 : travelNum cornerBs (net cornerBs cornerG.T.nb 0) 0 34 [(-1, true)] = some 30 := by
    rw [travelNum]; simp [d1, t, Pos.par, m, e2, travelNum]
  have t2 : travelNum cornerBs (net cornerBs cornerG.T.nb 0) 0 34 [(-2, true)] = none := by
    rw [travelNum]; simp [d1, t, Pos.par, m, e2, d2]
  have b1 : blockNums cornerBs (net cornerBs cornerG.T.nb 0) 0 34 [.south] [1] = some [34, 30] := by
    simp [blockNums, blockLoopNum, blockSteps, Side.dir, Side.par, nextPoint, t0, t1]
  have b2 : blockNums cornerBs (net cornerBs cornerG.T.nb 0) 0 34 [.south] [2] = none := by
    simp [blockNums, blockLoopNum, blockSteps, Side.dir, Side.par, nextPoint, t0, t1, t2]
  refine ⟨a1, a2, by rw [e1, b2], a3, by rw [e1, e3, b1], ?_⟩
  have g1 : getPatch cornerBs 34 = 1 := by decide +kernel
  have g2 : getPatch cornerBs 30 = 0 := by decide +kernel
  rw [e1, addBlockNum, b1]
  simp [g1, g2]

/-- One cell of level 0 in every direction, degree 1; only the finest cell at a corner is refined. -/
def cutG : Geo := ⟨⟨1, fun _ _ => none⟩, 1, fun _ _ => 1, fun _ _ => 1, 0⟩

def cutSt : St := [[1, 0, 0, 0]]

/-- C55: if a cell is cut, a corner may have two active functions, and the search finds the one of level 0 even for the call for the one of level 1: it is taken twice and the other one never. -/
theorem C55_corner_violated : Good cutG ∧ Bounded cutG cutSt ∧ Act (ofState cutG cutSt) 0 (cornerPos cutG 0 0 false false) ∧ Act (ofState cutG cutSt) 1 (cornerPos cutG 0 1 false false) ∧
    cornerIndex (basis (ofState cutG cutSt) 0) false false = some (0, hIndex (ofState cutG cutSt) 0 (cornerPos cutG 0 0 false false)) ∧
      encode (ofState cutG cutSt) 0 (cornerPos cutG 0 0 false false) ≠ encode (ofState cutG cutSt) 1 (cornerPos cutG 0 1 false false) := by
  refine ⟨⟨?_, ?_, ?_, ?_, fun _ _ => Nat.one_pos, fun _ _ => Nat.one_pos⟩, bounded_of_all (by decide +kernel), ⟨?_, ?_, ?_, ?_⟩, ⟨?_, ?_, ?_, ?_⟩, by decide +kernel, by decide +kernel⟩
  · intro p s q s' o h; cases h
  · intro p s x h; cases h
  · intro p s q s' o h; cases h
  · intro p s q s' o h; cases h
  all_goals decide +kernel

/-! ## Examples -/

theorem row1_match : ∀ p < 2, ∃ c, matchNeighbours rowG row1 p = some ([], c) := by
  intro p hp
  interval_cases p
  · exact ⟨[], by decide +kernel⟩
  · exact ⟨[], by decide +kernel⟩

/-- A case of `C55_line_partial`: a function of level 1 at the refined part of the interface of two patches, and its neighbour. -/
example : ∃ ls, blockLocals (net (ofState rowG row1) rowG.T.nb 1) ⟨0, 9, 7⟩ [.east] [1] = some ls ∧ (∀ y ∈ ls, Act (ofState rowG row1) 1 y) ∧
    blockNums (ofState rowG row1) (net (ofState rowG row1) rowG.T.nb 1) 1 (encode (ofState rowG row1) 1 ⟨0, 9, 7⟩) [.east] [1] = some (ls.map (encode (ofState rowG row1) 1)) :=
  C55_line_partial rowG_two.toGood (bounded_of_all (by decide +kernel)) row1_deep row1_match (le_refl 1) ⟨by decide +kernel, by decide +kernel, by decide +kernel, by decide +kernel⟩ (q := 1) (s' := .west) (o := true) rfl (a := 0) (by decide +kernel)
    (by decide) (by decide) (by decide) (by decide)

/-- The four patches of `fourPatches`, two cells of level 0 in every direction, degree 2. -/
def fourG : Geo := ⟨⟨4, fourPatches.nb⟩, 1, fun _ _ => 2, fun _ _ => 2, 0⟩

/-- The cell of level 0 at the vertex is refined in every patch. -/
def four1 : St := refine fourG (refine fourG (refine fourG (refine fourG (uniform fourG 0) 0 [⟨1, 2, 2, 4, 4⟩]) 1 [⟨1, 2, 2, 4, 4⟩]) 2 [⟨1, 2, 0, 4, 2⟩]) 3 [⟨1, 0, 0, 2, 2⟩]

theorem fourG_good : Good fourG := by
  refine { sym := ?_, lt := ?_, n0 := fun _ _ _ _ _ _ => rfl, deg := fun _ _ _ _ _ _ => rfl, pos := fun _ _ => Nat.two_pos, ne := fun _ _ => Nat.two_pos }
  · intro p s q s' o h
    simp only [fourG, fourPatches] at h ⊢
    split_ifs at h with h1 h2 h3 h4 h5 h6 h7 h8 <;> (cases h; rcases ‹_ ∧ _› with ⟨rfl, rfl⟩; rfl)
  · intro p s x h
    simp only [fourG, fourPatches] at h ⊢
    split_ifs at h with h1 h2 h3 h4 h5 h6 h7 h8 <;> omega

/-- The vertex of the four patches. -/
def fourV (l : ℕ) : Vtx (net (ofState fourG four1) fourG.T.nb l) :=
  ⟨fourVtx.p, fourVtx.h, fourVtx.v, fourVtx.oh, fourVtx.ov, fourVtx.perp, fourVtx.nbh, fourVtx.nbv, fourVtx.th, fourVtx.tv⟩

/-- A case of `C55_vertex_partial`: the functions of level 1 at the vertex. -/
example : ∃ ls, blockLocals (net (ofState fourG four1) fourG.T.nb 1) ⟨0, 5, 5⟩ [.east, .north] [1, 1] = some ls ∧ (∀ z, z ∈ ls ↔ InBlock (fourV 1) 0 0 0 0 z) ∧ (∀ y ∈ ls, Act (ofState fourG four1) 1 y) ∧
    blockNums (ofState fourG four1) (net (ofState fourG four1) fourG.T.nb 1) 1 (encode (ofState fourG four1) 1 ⟨0, 5, 5⟩) [.east, .north] [1, 1] = some (ls.map (encode (ofState fourG four1) 1)) := by
  have hd : ∀ p < 4, Deep fourG four1 p := by
    intro p hp s hs l h1 hl a ha h t ht
    have e : l = 1 := Nat.le_antisymm hl h1
    subst e
    have key : ∀ p < 4, ∀ s ∈ Side.all, (fourG.T.nb p s).isSome = true → ∀ a < 4, 1 ≤ levAt fourG four1 p s 0 a → ∀ t < 2, 1 ≤ levAt fourG four1 p s t a := by decide +kernel
    exact key p hp s (Side.mem_all s) hs a ha h t ht
  have hm : ∀ p < 4, ∃ c, matchNeighbours fourG four1 p = some ([], c) := by
    intro p hp
    interval_cases p <;> exact ⟨[], by decide +kernel⟩
  refine C55_vertex_partial fourG_good (bounded_of_all (by decide +kernel)) hd hm (le_refl 1) rfl ?_ (fourV 1) (a := 0) (a' := 0) (b := 0) (b' := 0) (by decide) (by decide) (α := false) (β := false) ⟨rfl, ⟨by decide +kernel, by decide +kernel⟩, by decide +kernel, by decide +kernel⟩
    ⟨by decide +kernel, by decide +kernel, by decide +kernel, by decide +kernel⟩
  intro p s q o h
  rcases p with _ | _ | _ | _ | p <;> cases s <;> simp [net, fourG, fourPatches, opp] at h
  all_goals exact h.2

/-- A case of `C55_corner` and of `C55_corner_partial`: the north-east corner of patch 0 has a function of level 1. -/
example : cornerIndex (basis (ofState rowG row1) 0) true true = some (1, hIndex (ofState rowG row1) 1 (cornerPos rowG 0 1 true true)) ∧ Uncut rowG row1 0 true true := by
  refine ⟨by decide +kernel, ?_⟩
  intro l hl u v h1 h2 u' v' h3
  have hb : lev rowG row1 0 u v ≤ 1 := (bounded_of_all (G := rowG) (st := row1) (by decide +kernel)) 0 u v
  have hl0 : l = 0 := by omega
  subst hl0
  have key : ∀ u' < 8, ∀ v' < 8, 6 ≤ u' → 6 ≤ v' → 1 ≤ lev rowG row1 0 u' v' := by decide +kernel
  unfold AtCorner at h3
  simp only [if_true] at h3
  exact key u' h3.1.2 v' h3.2.2 h3.1.1 h3.2.1

/-- A case of `C55_levels_partial`: two levels with the patch of `C32_once_partial`. -/
example : (levelCalls 2 1 fun _ => Regions.evPatch).length = 128 ∧ Regions.evPatch.single = false ∧ Regions.Ok Regions.evPatch.clipped := by
  refine ⟨by decide +kernel, rfl, by decide, by decide, by decide, by decide, ?_, ?_, ?_, ?_⟩ <;>
    simp [Regions.CornerOk, Regions.evPatch, Regions.Patch.clipped, Regions.clip]

end

end Verif.HMap
