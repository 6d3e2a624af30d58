import Verif.Model.Pieces
import Mathlib.Algebra.Order.Field.Rat
import Mathlib.Data.Finset.Card
import Mathlib.Data.Finset.Range
import Mathlib.Tactic.Linarith
import Mathlib.Tactic.NormNum
/-!
# Property C48: pieces are freed once
-/
set_option autoImplicit false
set_option linter.unusedVariables false
set_option linter.unusedSimpArgs false
namespace Verif.Pieces

/-- What the caller may do: use a reference only while the object it came from exists, finish a call that was started, destroy an object of its own, once, and not during a call. -/
def Allowed (s : St) : Op → Prop
  | .new => True
  | .begin x => x < s.next ∧ s.own x ∈ s.roots
  | .finish x a => (x, a) ∈ s.pend ∧ s.own x ∈ s.roots
  | .clone x => x < s.next ∧ s.own x ∈ s.roots
  | .destroy x => x ∈ s.roots ∧ ∀ y a, (y, a) ∈ s.pend → s.own y ≠ x

/-- Only objects without piece are cloned. -/
def EarlyClone (s : St) : Op → Prop
  | .clone x => s.heap x = some none
  | _ => True

/-- States of programs that keep these rules. -/
inductive Reach : St → Prop
  | init : Reach St.init
  | step {s s' : St} {o : Op} : Reach s → Allowed s o → EarlyClone s o → step s o = some s' → Reach s'

/-- States of programs in which calls of `piece()` do not overlap: a call is finished at once. -/
inductive SeqReach : St → Prop
  | init : SeqReach St.init
  | step {s s' : St} {o : Op} : SeqReach s → Allowed s o → EarlyClone s o → (∀ x, o ≠ .begin x) → (∀ x a, o ≠ .finish x a) → step s o = some s' → SeqReach s'
  | piece {s s1 s' : St} {x : ℕ} : SeqReach s → Allowed s (.begin x) → step s (.begin x) = some s1 → step s1 (.finish x s.next) = some s' → SeqReach s'

private structure Inv (s : St) (rk : ℕ → ℚ) : Prop where
  live : ∀ x, x < s.next → s.own x ∈ s.roots → ∃ p, s.heap x = some p
  fresh : ∀ x, s.next ≤ x → s.heap x = none
  fwd : ∀ x q, s.own x ∈ s.roots → s.heap x = some (some q) → q < s.next ∧ s.own q = s.own x ∧ rk x < rk q
  root : ∀ r ∈ s.roots, r < s.next ∧ s.own r = r
  pnd : ∀ x a, (x, a) ∈ s.pend → s.own x ∈ s.roots → x < s.next ∧ a < s.next ∧ s.own a = s.own x ∧ rk x < rk a
  rnd : s.roots.Nodup
  olt : ∀ x, x < s.next → s.own x < s.next
  pndlt : ∀ x a, (x, a) ∈ s.pend → x < s.next ∧ a < s.next

/-- Objects after `x` in the chain of pointers, `x` included. -/
private inductive Chain (h : Heap) : ℕ → ℕ → Prop
  | refl (x) : Chain h x x
  | head {x q y} : h x = some (some q) → Chain h q y → Chain h x y

open Classical in
private theorem del_ok {s : St} {rk : ℕ → ℚ} (I : Inv s rk) : ∀ (n : ℕ) (x : ℕ), x < s.next → s.own x ∈ s.roots →
    ((Finset.range s.next).filter fun y => rk x < rk y).card < n →
    ∃ h', del n s.heap x = some h' ∧ (∀ y, ¬ Chain s.heap x y → h' y = s.heap y) ∧ (∀ y, Chain s.heap x y → h' y = none ∧ s.own y = s.own x ∧ y < s.next ∧ rk x ≤ rk y)
  | 0, _, _, _, h => absurd h (Nat.not_lt_zero _)
  | n + 1, x, hx, ho, hc => by
    obtain ⟨p, hp⟩ := I.live x hx ho
    unfold del
    cases p with
    | none =>
      rw [hp]
      refine ⟨_, rfl, ?_, ?_⟩
      · intro y hy
        have : y ≠ x := fun e => hy (e ▸ Chain.refl _)
        simp [put, this]
      · intro y hy
        cases hy with
        | refl => exact ⟨by simp [put], rfl, hx, le_rfl⟩
        | head h _ => rw [hp] at h; cases h
    | some q =>
      rw [hp]
      obtain ⟨hq, hoq, hr⟩ := I.fwd x q ho hp
      have hlt : ((Finset.range s.next).filter fun y => rk q < rk y).card < ((Finset.range s.next).filter fun y => rk x < rk y).card := by
        apply Finset.card_lt_card
        rw [Finset.ssubset_iff_of_subset]
        · exact ⟨q, by simp [hq, hr], by simp⟩
        · intro y hy
          rw [Finset.mem_filter] at hy ⊢
          exact ⟨hy.1, hr.trans hy.2⟩
      obtain ⟨h', e, h1, h2⟩ := del_ok I n q hq (hoq ▸ ho) (by omega)
      have hnx : ¬ Chain s.heap q x := fun hh => by have := (h2 x hh).2.2.2; linarith
      simp only [e]
      rw [h1 x hnx, hp]
      refine ⟨_, rfl, ?_, ?_⟩
      · intro y hy
        have e1 : y ≠ x := fun e => hy (e ▸ Chain.refl _)
        have e2 : ¬ Chain s.heap q y := fun hh => hy (Chain.head hp hh)
        simp [put, e1, h1 y e2]
      · intro y hy
        cases hy with
        | refl => exact ⟨by simp [put], rfl, hx, le_rfl⟩
        | head h hh =>
          rw [hp] at h
          cases h
          obtain ⟨a, b, c, d⟩ := h2 y hh
          refine ⟨?_, b.trans hoq, c, hr.le.trans d⟩
          unfold put
          split
          · rfl
          · exact a

open Classical in
private theorem card_lt {s : St} {rk : ℕ → ℚ} {x : ℕ} (hx : x < s.next) : ((Finset.range s.next).filter fun y => rk x < rk y).card < s.next := by
  calc _ < (Finset.range s.next).card := by
        apply Finset.card_lt_card
        rw [Finset.ssubset_iff_of_subset (Finset.filter_subset _ _)]
        exact ⟨x, by simp [hx], by simp⟩
    _ = _ := Finset.card_range _

/-- a new object without piece -/
private theorem inv_new {s : St} {rk : ℕ → ℚ} (I : Inv s rk) :
    Inv { s with heap := put s.heap s.next (some none), next := s.next + 1, roots := s.next :: s.roots, own := fun y => if y = s.next then s.next else s.own y } rk := by
  have hold : ∀ x, x < s.next → s.own x ∈ s.next :: s.roots → s.own x ∈ s.roots := by
    intro x hx h
    rcases List.mem_cons.1 h with h | h
    · have := I.olt x hx; omega
    · exact h
  refine ⟨?_, ?_, ?_, ?_, ?_, ?_, ?_, ?_⟩
  · intro x hx ho
    by_cases e : x = s.next
    · exact ⟨none, by simp [put, e]⟩
    · have hx' : x < s.next := by simp only at hx; omega
      simp only [e, if_false] at ho
      obtain ⟨p, hp⟩ := I.live x hx' (hold x hx' ho)
      exact ⟨p, by simp [put, e, hp]⟩
  · intro x hx
    simp only at hx
    have e : x ≠ s.next := by omega
    simp only [put, e, if_false]
    exact I.fresh x (by omega)
  · intro x q ho hp
    by_cases e : x = s.next
    · simp [put, e] at hp
    · simp only [put, e, if_false] at hp ho
      have hx : x < s.next := by
        by_contra hc
        rw [I.fresh x (by omega)] at hp
        cases hp
      obtain ⟨h1, h2, h3⟩ := I.fwd x q (hold x hx ho) hp
      have e2 : q ≠ s.next := by omega
      refine ⟨by simp only; omega, ?_, h3⟩
      simp [e, e2, h2]
  · intro r hr
    rcases List.mem_cons.1 hr with rfl | hr
    · simp
    · obtain ⟨h1, h2⟩ := I.root r hr
      have e : r ≠ s.next := by omega
      exact ⟨by simp only; omega, by simp [e, h2]⟩
  · intro x a hm ho
    obtain ⟨l1, l2⟩ := I.pndlt x a hm
    have e1 : x ≠ s.next := by omega
    have e2 : a ≠ s.next := by omega
    simp only [e1, e2, if_false] at ho ⊢
    obtain ⟨h1, h2, h3, h4⟩ := I.pnd x a hm (hold x l1 ho)
    exact ⟨by omega, by omega, h3, h4⟩
  · refine List.nodup_cons.2 ⟨fun h => ?_, I.rnd⟩
    have := (I.root _ h).1
    omega
  · intro x hx
    simp only at hx ⊢
    split
    · omega
    · have := I.olt x (by omega); omega
  · intro x a hm
    have := I.pndlt x a hm
    simp only
    omega

private theorem step_ok {s : St} {rk : ℕ → ℚ} (I : Inv s rk) {o : Op} (ha : Allowed s o) (he : EarlyClone s o) :
    ∃ s', step s o = some s' ∧ ∃ rk', Inv s' rk' := by
  cases o with
  | new => exact ⟨_, rfl, rk, inv_new I⟩
  | clone x =>
    have hp : s.heap x = some none := he
    refine ⟨_, ?_, rk, inv_new I⟩
    simp only [step, hp]
  | begin x =>
    obtain ⟨hx, ho⟩ := ha
    obtain ⟨p, hp⟩ := I.live x hx ho
    have hxn : x ≠ s.next := by omega
    refine ⟨_, by simp only [step, hp]; rfl, fun y => if y = s.next then (match p with | none => rk x + 1 | some q => (rk x + rk q) / 2) else rk y, ?_⟩
    have hlt : rk x < (match p with | none => rk x + 1 | some q => (rk x + rk q) / 2) := by
      cases p with
      | none => simp
      | some q =>
        have := (I.fwd x q ho hp).2.2
        simp only
        linarith
    refine ⟨?_, ?_, ?_, ?_, ?_, I.rnd, ?_, ?_⟩
    · intro y hy hoy
      by_cases e : y = s.next
      · exact ⟨p, by simp [put, e]⟩
      · simp only [e, if_false] at hoy
        obtain ⟨p', hp'⟩ := I.live y (by simp only at hy; omega) hoy
        exact ⟨p', by simp [put, e, hp']⟩
    · intro y hy
      simp only at hy
      have e : y ≠ s.next := by omega
      simp only [put, e, if_false]
      exact I.fresh y (by omega)
    · intro y q hoy hpy
      by_cases e : y = s.next
      · simp only [put, e, if_true, Option.some.injEq] at hpy
        subst hpy
        obtain ⟨h1, h2, h3⟩ := I.fwd x q ho hp
        have e2 : q ≠ s.next := by omega
        simp only [e, e2, if_true, if_false]
        exact ⟨by omega, h2, by linarith⟩
      · simp only [put, e, if_false] at hpy hoy
        obtain ⟨h1, h2, h3⟩ := I.fwd y q hoy hpy
        have e2 : q ≠ s.next := by omega
        simp only [e, e2, if_false]
        exact ⟨by omega, h2, h3⟩
    · intro r hr
      obtain ⟨h1, h2⟩ := I.root r hr
      have e : r ≠ s.next := by omega
      exact ⟨by simp only; omega, by simp [e, h2]⟩
    · intro y a hm hoy
      rcases List.mem_cons.1 hm with hm | hm
      · cases hm
        simp only [hxn, if_true, if_false]
        exact ⟨by omega, by omega, trivial, hlt⟩
      · by_cases e : y = s.next
        · exact absurd (I.pndlt y a hm) (by omega)
        · simp only [e, if_false] at hoy
          obtain ⟨h1, h2, h3, h4⟩ := I.pnd y a hm hoy
          have e2 : a ≠ s.next := by omega
          simp only [e, e2, if_false]
          exact ⟨by omega, by omega, h3, h4⟩
    · intro y hy
      simp only at hy ⊢
      split
      · have := I.olt x hx; omega
      · have := I.olt y (by omega); omega
    · intro y a hm
      simp only
      rcases List.mem_cons.1 hm with hm | hm
      · cases hm; omega
      · have := I.pndlt y a hm; omega
  | finish x a =>
    obtain ⟨hm, ho⟩ := ha
    obtain ⟨hx, hax, hoa, hr⟩ := I.pnd x a hm ho
    obtain ⟨p, hp⟩ := I.live x hx ho
    refine ⟨_, by simp only [step, hp]; rfl, rk, ?_⟩
    refine ⟨?_, ?_, ?_, I.root, ?_, I.rnd, I.olt, fun y b hmb => I.pndlt y b (List.mem_of_mem_erase hmb)⟩
    · intro y hy hoy
      by_cases e : y = x
      · exact ⟨some a, by simp [put, e]⟩
      · obtain ⟨p', hp'⟩ := I.live y hy hoy
        exact ⟨p', by simp [put, e, hp']⟩
    · intro y hy
      have e : y ≠ x := by simp only at hy; omega
      simp only [put, e, if_false]
      exact I.fresh y hy
    · intro y q hoy hpy
      by_cases e : y = x
      · subst e
        simp only [put, if_true, Option.some.injEq] at hpy
        subst hpy
        exact ⟨hax, hoa, hr⟩
      · simp only [put, e, if_false] at hpy
        exact I.fwd y q hoy hpy
    · intro y b hmb hoy
      exact I.pnd y b (List.mem_of_mem_erase hmb) hoy
  | destroy x =>
    obtain ⟨hr, hpend⟩ := ha
    obtain ⟨hx, hox⟩ := I.root x hr
    obtain ⟨h', e, h1, h2⟩ := del_ok I s.next x hx (hox.symm ▸ hr) (card_lt hx)
    refine ⟨_, by simp only [step, e]; rfl, rk, ?_⟩
    have hmem : ∀ {y}, y ∈ s.roots.erase x → y ∈ s.roots ∧ y ≠ x := fun hy => ⟨List.mem_of_mem_erase hy, fun e => by subst e; exact I.rnd.not_mem_erase hy⟩
    have hsame : ∀ y, s.own y ∈ s.roots.erase x → h' y = s.heap y := fun y hy => h1 y fun hc => (hmem hy).2 ((h2 y hc).2.1.trans hox)
    refine ⟨?_, ?_, ?_, ?_, ?_, I.rnd.erase _, I.olt, I.pndlt⟩
    · intro y hy hoy
      obtain ⟨p, hp⟩ := I.live y hy (hmem hoy).1
      exact ⟨p, (hsame y hoy).trans hp⟩
    · intro y hy
      by_cases hc : Chain s.heap x y
      · exact (h2 y hc).1
      · exact (h1 y hc).trans (I.fresh y hy)
    · intro y q hoy hpy
      exact I.fwd y q (hmem hoy).1 ((hsame y hoy).symm.trans hpy)
    · intro r hr
      exact I.root r (hmem hr).1
    · intro y b hmb hoy
      exact I.pnd y b hmb (hmem hoy).1

private theorem reach_inv {s : St} (h : Reach s) : ∃ rk, Inv s rk := by
  induction h with
  | init => exact ⟨fun _ => 0, by constructor <;> simp [St.init]⟩
  | step _ ha he e ih =>
    obtain ⟨rk, I⟩ := ih
    obtain ⟨s', e', rk', I'⟩ := step_ok I ha he
    rw [e] at e'
    cases e'
    exact ⟨rk', I'⟩

/-- C48. No step fails: nothing is deleted twice, no freed object is used, and every destructor ends. This holds for all interleavings of calls of `piece()`, on objects and on pieces, if only objects
that never had a piece are cloned. -/
theorem C48_no_double_free_partial {s : St} (h : Reach s) {o : Op} (ha : Allowed s o) (he : EarlyClone s o) : ∃ s', step s o = some s' := by
  obtain ⟨rk, I⟩ := reach_inv h
  obtain ⟨s', e, _⟩ := step_ok I ha he
  exact ⟨s', e⟩

/-- C48. A reference returned by `piece()` stays valid as long as the object of the caller exists, however often `piece()` is called. -/
theorem C48_reference_valid {s : St} (h : Reach s) (x : ℕ) (hx : x < s.next) (ho : s.own x ∈ s.roots) : s.heap x ≠ none := by
  obtain ⟨rk, I⟩ := reach_inv h
  obtain ⟨p, hp⟩ := I.live x hx ho
  rw [hp]
  exact Option.some_ne_none _

private theorem seq_reach {s : St} (h : SeqReach s) : Reach s ∧ s.pend = [] := by
  induction h with
  | init => exact ⟨.init, rfl⟩
  | @step s s' o _ ha he n1 n2 e ih =>
    refine ⟨.step ih.1 ha he e, ?_⟩
    cases o with
    | new => cases e; exact ih.2
    | begin x => exact absurd rfl (n1 x)
    | finish x a => exact absurd rfl (n2 x a)
    | clone x =>
      simp only [step] at e
      split at e
      · cases e
      · cases e; exact ih.2
    | destroy x =>
      simp only [step] at e
      split at e
      · cases e
      · cases e; exact ih.2
  | @piece s s1 s' x _ ha e1 e2 ih =>
    have hr := Reach.step ih.1 ha trivial e1
    have hs : s1.pend = [(x, s.next)] ∧ s1.own x ∈ s1.roots := by
      simp only [step] at e1
      split at e1
      · cases e1
      · cases e1
        have hx : x ≠ s.next := fun e => by have := ha.1; omega
        exact ⟨by simp [ih.2], by simpa [hx] using ha.2⟩
    refine ⟨.step (o := .finish x s.next) hr ⟨by rw [hs.1]; exact List.mem_cons_self, hs.2⟩ trivial e2, ?_⟩
    simp only [step] at e2
    split at e2
    · cases e2
    · cases e2
      simp [hs.1]

private structure SInv (s : St) : Prop where
  pred : ∀ x, x < s.next → s.own x ∈ s.roots → x = s.own x ∨ ∃ y, y < s.next ∧ s.own y = s.own x ∧ s.heap y = some (some x)
  dead : ∀ x p, s.heap x = some p → s.own x ∈ s.roots

private theorem chain_tail {h : Heap} {x y z : ℕ} (c : Chain h x y) (e : h y = some (some z)) : Chain h x z := by
  induction c with
  | refl x => exact .head e (.refl z)
  | head h1 _ ih => exact .head h1 (ih e)

open Classical in
private theorem all_chain {s : St} {rk : ℕ → ℚ} (I : Inv s rk) (S : SInv s) {r : ℕ} (hr : r ∈ s.roots) :
    ∀ (n : ℕ) (x : ℕ), ((Finset.range s.next).filter fun y => rk y < rk x).card < n → x < s.next → s.own x = r → Chain s.heap r x
  | 0, _, h, _, _ => absurd h (Nat.not_lt_zero _)
  | n + 1, x, hc, hx, ho => by
    rcases S.pred x hx (ho ▸ hr) with e | ⟨y, hy, hoy, hp⟩
    · rw [ho] at e; subst e; exact .refl _
    · obtain ⟨_, _, hlt⟩ := I.fwd y x (by rw [hoy, ho]; exact hr) hp
      refine chain_tail (all_chain I S hr n y ?_ hy (hoy.trans ho)) hp
      have : ((Finset.range s.next).filter fun z => rk z < rk y).card < ((Finset.range s.next).filter fun z => rk z < rk x).card := by
        apply Finset.card_lt_card
        rw [Finset.ssubset_iff_of_subset]
        · exact ⟨y, by simp [hy, hlt], by simp⟩
        · intro z hz
          rw [Finset.mem_filter] at hz ⊢
          exact ⟨hz.1, hz.2.trans hlt⟩
      omega

private theorem destroy_spec {s s' : St} {rk : ℕ → ℚ} (I : Inv s rk) (S : SInv s) {r : ℕ} (hr : r ∈ s.roots) (e : step s (.destroy r) = some s') :
    s'.next = s.next ∧ s'.own = s.own ∧ s'.roots = s.roots.erase r ∧ ∀ y, (s.own y = r → y < s.next → s'.heap y = none) ∧ (s.own y ≠ r → s'.heap y = s.heap y) := by
  obtain ⟨hx, hox⟩ := I.root r hr
  obtain ⟨h', e1, h1, h2⟩ := del_ok I s.next r hx (hox.symm ▸ hr) (card_lt hx)
  simp only [step, e1, Option.some.injEq] at e
  subst e
  refine ⟨rfl, rfl, rfl, fun y => ⟨fun ho hy => (h2 y (all_chain I S hr _ y (Nat.lt_succ_self _) hy ho)).1, fun ho => h1 y fun hc => ho ((h2 y hc).2.1.trans hox)⟩⟩

private theorem seq_inv {s : St} (h : SeqReach s) : SInv s := by
  induction h with
  | init => constructor <;> simp [St.init]
  | @step s s' o hs ha he n1 n2 e ih =>
    obtain ⟨rk, I⟩ := reach_inv (seq_reach hs).1
    have hnew : SInv { s with heap := put s.heap s.next (some none), next := s.next + 1, roots := s.next :: s.roots, own := fun y => if y = s.next then s.next else s.own y } := by
      constructor
      · intro x hx ho
        by_cases ex : x = s.next
        · left; simp [ex]
        · have hx' : x < s.next := by simp only at hx; omega
          simp only [ex, if_false] at ho ⊢
          rcases List.mem_cons.1 ho with ho | ho
          · have := I.olt x hx'; omega
          · rcases ih.pred x hx' ho with h | ⟨y, h1, h2, h3⟩
            · left; exact h
            · right
              have ey : y ≠ s.next := by omega
              exact ⟨y, by omega, by simp [ey, h2], by simp [put, ey, h3]⟩
      · intro x p hp
        by_cases ex : x = s.next
        · simp [ex]
        · simp only [put, ex, if_false] at hp ⊢
          exact List.mem_cons_of_mem _ (ih.dead x p hp)
    cases o with
    | new => cases e; exact hnew
    | begin x => exact absurd rfl (n1 x)
    | finish x a => exact absurd rfl (n2 x a)
    | clone x =>
      have hp : s.heap x = some none := he
      simp only [step, hp, Option.some.injEq] at e
      subst e
      exact hnew
    | destroy r =>
      obtain ⟨a1, a2, a3, a4⟩ := destroy_spec I ih ha.1 e
      constructor
      · intro x hx ho
        rw [a1] at hx
        rw [a2, a3] at ho
        have hne : s.own x ≠ r := fun h => I.rnd.not_mem_erase (h ▸ ho)
        rcases ih.pred x hx (List.mem_of_mem_erase ho) with h | ⟨y, h1, h2, h3⟩
        · left; rw [a2]; exact h
        · right
          exact ⟨y, by rw [a1]; exact h1, by rw [a2]; exact h2, ((a4 y).2 (h2 ▸ hne)).trans h3⟩
      · intro x p hp
        have hxn : s.own x ≠ r := by
          intro h
          by_cases hx : x < s.next
          · rw [(a4 x).1 h hx] at hp; cases hp
          · have := I.fresh x (by omega)
            obtain ⟨rk', I'⟩ := reach_inv (Reach.step (seq_reach hs).1 ha he e)
            rw [I'.fresh x (by rw [a1]; omega)] at hp
            cases hp
        rw [(a4 x).2 hxn] at hp
        rw [a2, a3]
        exact (List.mem_erase_of_ne hxn).2 (ih.dead x p hp)
  | @piece s s1 s' x hs ha e1 e2 ih =>
    obtain ⟨rk, I⟩ := reach_inv (seq_reach hs).1
    obtain ⟨hx, ho⟩ := ha
    obtain ⟨p, hp⟩ := I.live x hx ho
    have exn : x ≠ s.next := by omega
    simp only [step, hp, Option.some.injEq] at e1
    subst e1
    simp only [step, put, exn, if_false, hp, Option.some.injEq] at e2
    subst e2
    constructor
    · intro y hy hoy
      by_cases ey : y = s.next
      · right
        exact ⟨x, by simp only; omega, by simp [ey, exn], by simp [ey, put]⟩
      · simp only [ey, if_false] at hoy ⊢
        rcases ih.pred y (by simp only at hy; omega) hoy with h | ⟨z, h1, h2, h3⟩
        · left; exact h
        · right
          by_cases ez : z = x
          · subst ez
            rw [hp] at h3
            cases h3
            exact ⟨s.next, by omega, by simp [h2], by simp [put, exn.symm]⟩
          · have ezn : z ≠ s.next := by omega
            exact ⟨z, by omega, by simp [ezn, h2], by simp [put, ez, ezn, h3]⟩
    · intro y p' hp'
      by_cases ey : y = s.next
      · simp [ey, ho]
      · simp only [ey, if_false]
        by_cases ex : y = x
        · subst ex; exact ho
        · simp only [put, ey, ex, if_false] at hp'
          exact ih.dead y p' hp'

/-- C48. If calls of `piece()` do not overlap, destroying an object frees all pieces that came from it, directly or through other pieces, and nothing else. -/
theorem C48_no_leak_partial {s s' : St} (h : SeqReach s) {r : ℕ} (ha : Allowed s (.destroy r)) (e : step s (.destroy r) = some s') :
    ∀ x < s.next, (s.own x = r → s'.heap x = none) ∧ (s.own x ≠ r → s'.heap x = s.heap x) := by
  obtain ⟨rk, I⟩ := reach_inv (seq_reach h).1
  obtain ⟨_, _, _, a4⟩ := destroy_spec I (seq_inv h) ha.1 e
  exact fun x hx => ⟨fun ho => (a4 x).1 ho hx, (a4 x).2⟩

/-- C48. When the caller has destroyed all its objects, no memory is left. -/
theorem C48_all_freed_partial {s : St} (h : SeqReach s) (hr : s.roots = []) : ∀ x, s.heap x = none := by
  intro x
  cases hp : s.heap x with
  | none => rfl
  | some p =>
    have := (seq_inv h).dead x p hp
    rw [hr] at this
    cases this

/-- Steps that are allowed one after the other. -/
def AllowedRun (s : St) : List Op → Prop
  | [] => True
  | o :: l => Allowed s o ∧ ∀ s', step s o = some s' → AllowedRun s' l

/-- C48 fails for clones: an object is cloned after a call of `piece()`. Both copies delete the same piece. Every step is allowed. -/
theorem C48_clone_violation : AllowedRun .init [.new, .begin 0, .finish 0 1, .clone 0, .destroy 0, .destroy 2] ∧
    run .init [.new, .begin 0, .finish 0 1, .clone 0, .destroy 0, .destroy 2] = none := by
  constructor
  · simp [AllowedRun, Allowed, step, St.init, put, del]
  · rfl

/-- C48 fails for overlapping calls: two threads copy before either of them assigns; one piece is never freed. -/
theorem C48_overlap_leak : AllowedRun .init [.new, .begin 0, .begin 0, .finish 0 1, .finish 0 2, .destroy 0] ∧
    ∃ s, run .init [.new, .begin 0, .begin 0, .finish 0 1, .finish 0 2, .destroy 0] = some s ∧ s.roots = [] ∧ s.heap 1 ≠ none := by
  constructor
  · simp [AllowedRun, Allowed, step, St.init, put, del]
  · exact ⟨_, rfl, rfl, by decide⟩

/-- Two calls for an object, one for a piece, then the object is destroyed: all four objects are freed. -/
example : ∃ s, SeqReach s ∧ s.roots = [] ∧ s.next = 4 ∧ (∀ x, s.heap x = none) := by
  have h0 := SeqReach.step (o := .new) .init trivial trivial (by intro; simp) (by intro; simp) rfl
  have h1 := SeqReach.piece (x := 0) h0 ⟨by decide, by decide⟩ rfl rfl
  have h2 := SeqReach.piece (x := 0) h1 ⟨by decide, by decide⟩ rfl rfl
  have h3 := SeqReach.piece (x := 1) h2 ⟨by decide, by decide⟩ rfl rfl
  have h4 := SeqReach.step (o := .destroy 0) h3 ⟨by decide, fun y a h => absurd h (by simp [St.init])⟩ trivial (by intro; simp) (by intro; simp) rfl
  exact ⟨_, h4, rfl, rfl, C48_all_freed_partial h4 rfl⟩

end Verif.Pieces
