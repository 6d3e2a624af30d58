import Verif.Model.Parallel
import Mathlib.Algebra.BigOperators.Intervals
import Mathlib.Algebra.Order.BigOperators.Group.Multiset
import Mathlib.Data.Finset.Card
import Mathlib.Tactic.Ring
import Mathlib.Data.Int.ModEq
import Mathlib.Data.Nat.ModEq
import Mathlib.Algebra.BigOperators.Ring.Finset
/-!
# Property C26: parallel assembly gives the serial result
-/
set_option autoImplicit false
set_option linter.unusedSimpArgs false
set_option linter.unusedSectionVars false
namespace Verif.Parallel
open Finset
variable {M : Type} [AddCommMonoid M]

/-- What is to be added: the sum of the contributions of all quadrature points of all elements. -/
def total (N : ℕ) (c : ℕ → List M) : M := ∑ e ∈ range N, (c e).sum

/-! ## Proofs -/

theorem foldl_add (l : List M) (v : M) : l.foldl (· + ·) v = v + l.sum := by
  induction l generalizing v with
  | nil => simp
  | cons a l ih => simp [ih, add_assoc]

theorem assemble_eq (c : ℕ → List M) (e : ℕ) (v : M) : assemble c e (evaluate e v) = (c e).sum := by
  simp [assemble, evaluate, foldl_add]

/-- elements below this number in the class of the thread have been added -/
def lim (a : Thread M) : ℕ := if a.phase = .written then a.pos + 1 else a.pos

def inCrit (a : Thread M) : Prop := a.phase = .locked ∨ a.phase = .read ∨ a.phase = .written

/-- Loop invariant. -/
structure Inv (nt N : ℕ) (c : ℕ → List M) (sys0 : M) (s : St M) : Prop where
  cls : ∀ t < nt, (s.th t).pos % nt = t
  lt : ∀ t < nt, (s.th t).phase = .ready ∨ inCrit (s.th t) → (s.th t).pos < N
  fin : ∀ t < nt, (s.th t).phase = .done → N ≤ (s.th t).pos
  vis : ∀ t < nt, (s.th t).phase = .ready ∨ (s.th t).phase = .locked ∨ (s.th t).phase = .read → (s.th t).vis = (c (s.th t).pos).sum
  reg : ∀ t < nt, (s.th t).phase = .read → (s.th t).reg = s.sys
  lock : ∀ t < nt, inCrit (s.th t) ↔ s.lock = some t
  lockr : ∀ t, s.lock = some t → t < nt
  sum : s.sys = sys0 + ∑ e ∈ range N, if e < lim (s.th (e % nt)) then (c e).sum else 0

theorem inv_init {nt : ℕ} (N : ℕ) (c : ℕ → List M) (sys v : M) : Inv nt N c sys (init sys v) where
  cls := fun t ht => Nat.mod_eq_of_lt ht
  lt := by simp [init, inCrit]
  fin := by simp [init]
  vis := by simp [init]
  reg := by simp [init]
  lock := by simp [init, inCrit]
  lockr := by simp [init]
  sum := by
    symm
    have : ∀ e ∈ range N, (if e < lim ((init sys v).th (e % nt)) then (c e).sum else 0) = (0 : M) := by
      intro e _
      rw [if_neg]
      simpa [init, lim] using Nat.mod_le e nt
    rw [sum_congr rfl this]
    simp [init]

theorem no_between {nt p e : ℕ} (h : e % nt = p % nt) (h1 : p < e) : p + nt ≤ e := by
  have h3 : nt ∣ e - p := (Nat.modEq_iff_dvd' h1.le).1 h.symm
  have h2 := Nat.le_of_dvd (by omega) h3
  omega

theorem inv_step {nt N : ℕ} {c : ℕ → List M} {sys0 : M} {s s' : St M} {t : ℕ} (ht : t < nt) (H : Inv nt N c sys0 s) (h : step nt N c s t = some s') :
    Inv nt N c sys0 s' := by
  have hnt : 0 < nt := by omega
  unfold step at h
  have hother : ∀ u < nt, u ≠ t → s.lock = some t → ¬ inCrit (s.th u) := by
    intro u hu hne hl hc
    have := (H.lock u hu).1 hc
    rw [hl] at this
    exact hne (Option.some.inj this).symm
  cases hp : (s.th t).phase with
  | test =>
    simp only [hp] at h
    split_ifs at h with hlt
    · simp only [Option.some.injEq] at h
      subst h
      have hnc : ¬ inCrit (s.th t) := by simp [inCrit, hp]
      refine ⟨?_, ?_, ?_, ?_, ?_, ?_, H.lockr, ?_⟩
      · intro u hu; simp only; split_ifs with e; · subst e; exact H.cls u hu
        · exact H.cls u hu
      · intro u hu; simp only; split_ifs with e; · subst e; intro _; exact hlt
        · exact H.lt u hu
      · intro u hu; simp only; split_ifs with e; · subst e; simp
        · exact H.fin u hu
      · intro u hu; simp only; split_ifs with e; · subst e; intro _; exact assemble_eq ..
        · exact H.vis u hu
      · intro u hu; simp only; split_ifs with e; · subst e; simp
        · exact H.reg u hu
      · intro u hu; simp only; split_ifs with e
        · subst e
          rw [← H.lock u hu]
          simp [inCrit, hp]
        · exact H.lock u hu
      · rw [H.sum]
        congr 1
        apply sum_congr rfl
        intro e _
        simp only
        by_cases he : e % nt = t
        · simp [he, lim, hp]
        · simp [he]
    · simp only [Option.some.injEq] at h
      subst h
      refine ⟨?_, ?_, ?_, ?_, ?_, ?_, H.lockr, ?_⟩
      · intro u hu; simp only; split_ifs with e; · subst e; exact H.cls u hu
        · exact H.cls u hu
      · intro u hu; simp only; split_ifs with e; · subst e; simp [inCrit]
        · exact H.lt u hu
      · intro u hu; simp only; split_ifs with e; · subst e; intro _; simp only; omega
        · exact H.fin u hu
      · intro u hu; simp only; split_ifs with e; · subst e; simp
        · exact H.vis u hu
      · intro u hu; simp only; split_ifs with e; · subst e; simp
        · exact H.reg u hu
      · intro u hu; simp only; split_ifs with e
        · subst e
          rw [← H.lock u hu]
          simp [inCrit, hp]
        · exact H.lock u hu
      · rw [H.sum]
        congr 1
        apply sum_congr rfl
        intro e _
        simp only
        by_cases he : e % nt = t
        · simp [he, lim, hp]
        · simp [he]
  | ready =>
    simp only [hp] at h
    cases hl : s.lock with
    | some u => simp [hl] at h
    | none =>
      simp only [hl, Option.some.injEq] at h
      subst h
      have hnone : ∀ u < nt, ¬ inCrit (s.th u) := by
        intro u hu hc
        have := (H.lock u hu).1 hc
        rw [hl] at this; cases this
      refine ⟨?_, ?_, ?_, ?_, ?_, ?_, ?_, ?_⟩
      · intro u hu; simp only; split_ifs with e; · subst e; exact H.cls u hu
        · exact H.cls u hu
      · intro u hu; simp only; split_ifs with e; · subst e; intro _; exact H.lt u hu (Or.inl hp)
        · exact H.lt u hu
      · intro u hu; simp only; split_ifs with e; · subst e; simp
        · exact H.fin u hu
      · intro u hu; simp only; split_ifs with e; · subst e; intro _; exact H.vis u hu (Or.inl hp)
        · exact H.vis u hu
      · intro u hu; simp only; split_ifs with e; · subst e; simp
        · exact H.reg u hu
      · intro u hu; simp only; split_ifs with e
        · subst e; simp [inCrit]
        · simp only [Option.some.injEq]
          constructor
          · intro hc; exact absurd hc (hnone u hu)
          · intro h; exact absurd h.symm e
      · intro u hu; simp only [Option.some.injEq] at hu; omega
      · rw [H.sum]
        congr 1
        apply sum_congr rfl
        intro e _
        simp only
        by_cases he : e % nt = t
        · simp [he, lim, hp]
        · simp [he]
  | locked =>
    simp only [hp, Option.some.injEq] at h
    subst h
    have hl := (H.lock t ht).1 (Or.inl hp)
    refine ⟨?_, ?_, ?_, ?_, ?_, ?_, H.lockr, ?_⟩
    · intro u hu; simp only; split_ifs with e; · subst e; exact H.cls u hu
      · exact H.cls u hu
    · intro u hu; simp only; split_ifs with e; · subst e; intro _; exact H.lt u hu (Or.inr (Or.inl hp))
      · exact H.lt u hu
    · intro u hu; simp only; split_ifs with e; · subst e; simp
      · exact H.fin u hu
    · intro u hu; simp only; split_ifs with e; · subst e; intro _; exact H.vis u hu (Or.inr (Or.inl hp))
      · exact H.vis u hu
    · intro u hu; simp only; split_ifs with e; · intro _; rfl
      · exact H.reg u hu
    · intro u hu; simp only; split_ifs with e
      · subst e; simp [inCrit, hl]
      · exact H.lock u hu
    · simp only
      rw [H.sum]
      congr 1
      apply sum_congr rfl
      intro e _
      by_cases he : e % nt = t
      · simp [he, lim, hp]
      · simp [he]
  | read =>
    simp only [hp, Option.some.injEq] at h
    subst h
    have hl := (H.lock t ht).1 (Or.inr (Or.inl hp))
    have hpos := H.lt t ht (Or.inr (Or.inr (Or.inl hp)))
    refine ⟨?_, ?_, ?_, ?_, ?_, ?_, H.lockr, ?_⟩
    · intro u hu; simp only; split_ifs with e; · subst e; exact H.cls u hu
      · exact H.cls u hu
    · intro u hu; simp only; split_ifs with e; · subst e; intro _; exact hpos
      · exact H.lt u hu
    · intro u hu; simp only; split_ifs with e; · subst e; simp
      · exact H.fin u hu
    · intro u hu; simp only; split_ifs with e; · subst e; simp
      · exact H.vis u hu
    · intro u hu; simp only; split_ifs with e; · subst e; simp
      · intro hr; exact absurd (Or.inr (Or.inl hr)) (hother u hu e hl)
    · intro u hu; simp only; split_ifs with e
      · subst e; simp [inCrit, hl]
      · exact H.lock u hu
    · simp only
      rw [H.reg t ht hp, H.vis t ht (Or.inr (Or.inr hp)), H.sum, add_assoc]
      congr 1
      rw [← sum_erase_add _ _ (mem_range.2 hpos), ← sum_erase_add (range N) (fun e => if e < lim (if e % nt = t then _ else _) then (c e).sum else 0) (mem_range.2 hpos)]
      have h1 : ¬ (s.th t).pos < lim (s.th t) := by simp [lim, hp]
      simp only [H.cls t ht, if_true, if_neg h1]
      rw [add_zero]
      congr 1
      · apply sum_congr rfl
        intro e he
        have hne := (mem_erase.1 he).1
        by_cases hc : e % nt = t
        · simp only [hc, if_true, lim, hp, reduceCtorEq, if_false]
          have : (e < (s.th t).pos) ↔ (e < (s.th t).pos + 1) := by omega
          simp only [this]
        · simp [hc]
      · simp [lim]
  | written =>
    simp only [hp, Option.some.injEq] at h
    subst h
    have hl := (H.lock t ht).1 (Or.inr (Or.inr hp))
    refine ⟨?_, ?_, ?_, ?_, ?_, ?_, ?_, ?_⟩
    · intro u hu; simp only; split_ifs with e; · subst e; simp only [Nat.add_mod_right]; exact H.cls u hu
      · exact H.cls u hu
    · intro u hu; simp only; split_ifs with e; · subst e; simp [inCrit]
      · exact H.lt u hu
    · intro u hu; simp only; split_ifs with e; · subst e; simp
      · exact H.fin u hu
    · intro u hu; simp only; split_ifs with e; · subst e; simp
      · exact H.vis u hu
    · intro u hu; simp only; split_ifs with e; · subst e; simp
      · exact H.reg u hu
    · intro u hu; simp only; split_ifs with e
      · subst e; simp [inCrit]
      · constructor
        · intro hc; exact absurd hc (hother u hu e hl)
        · intro h; cases h
    · intro u hu; cases hu
    · simp only
      rw [H.sum]
      congr 1
      apply sum_congr rfl
      intro e _
      by_cases he : e % nt = t
      · simp only [he, if_true, lim, hp, reduceCtorEq, if_false]
        have : (e < (s.th t).pos + 1) ↔ (e < (s.th t).pos + nt) := by
          constructor
          · intro h; omega
          · intro h
            by_contra hcon
            have := no_between (nt := nt) (p := (s.th t).pos) (e := e) (by rw [he, H.cls t ht]) (by omega)
            omega
        simp only [this]
      · simp [he]
  | done => simp [hp] at h

theorem inv_exec {nt N : ℕ} {c : ℕ → List M} {sys0 : M} (l : List ℕ) {s s' : St M} (H : Inv nt N c sys0 s) (h : exec nt N c l s = some s') :
    Inv nt N c sys0 s' := by
  induction l generalizing s with
  | nil => simp only [exec, Option.some.injEq] at h; subst h; exact H
  | cons t l ih =>
    simp only [exec] at h
    split_ifs at h with ht
    simp only [Option.bind_eq_some_iff] at h
    obtain ⟨a, h1, h2⟩ := h
    exact ih (inv_step ht H h1) h2

theorem serial_eq (N : ℕ) (c : ℕ → List M) (sys v : M) : (serial N c sys v).1 = sys + total N c := by
  unfold serial total
  induction N with
  | zero => simp
  | succ N ih =>
    rw [List.range_succ, List.foldl_append, sum_range_succ, ← add_assoc, ← ih]
    simp [assemble_eq]

/-- elements left for thread `t` from position `p` on -/
def rem (nt N t p : ℕ) : ℕ := ((range N).filter fun e => e % nt = t ∧ p ≤ e).card

/-- actions left of a thread -/
def work (nt N t : ℕ) (a : Thread M) : ℕ := match a.phase with
  | .test => 5 * rem nt N t a.pos + 1
  | .ready => 5 * rem nt N t a.pos
  | .locked => 5 * rem nt N t a.pos - 1
  | .read => 5 * rem nt N t a.pos - 2
  | .written => 5 * rem nt N t a.pos - 3
  | .done => 0

theorem rem_step {nt N t p : ℕ} (hnt : 0 < nt) (hp : p < N) (hc : p % nt = t) : rem nt N t p = rem nt N t (p + nt) + 1 := by
  unfold rem
  rw [← card_insert_of_notMem (a := p) (s := (range N).filter fun e => e % nt = t ∧ p + nt ≤ e)]
  · congr 1
    ext e
    simp only [mem_insert, mem_filter, mem_range]
    constructor
    · rintro ⟨h1, h2, h3⟩
      rcases Nat.eq_or_lt_of_le h3 with h | h
      · exact Or.inl h.symm
      · exact Or.inr ⟨h1, h2, no_between (by rw [h2, hc]) h⟩
    · rintro (rfl | ⟨h1, h2, h3⟩)
      · exact ⟨hp, hc, le_rfl⟩
      · exact ⟨h1, h2, by omega⟩
  · simp; omega

theorem rem_zero {nt N t p : ℕ} (hp : N ≤ p) : rem nt N t p = 0 := by
  unfold rem
  rw [card_eq_zero, filter_eq_empty_iff]
  intro e he
  rw [mem_range] at he
  omega

theorem work_step {nt N : ℕ} {c : ℕ → List M} {sys0 : M} {s s' : St M} {t : ℕ} (ht : t < nt) (H : Inv nt N c sys0 s) (h : step nt N c s t = some s') :
    ∑ u ∈ range nt, work nt N u (s.th u) = ∑ u ∈ range nt, work nt N u (s'.th u) + 1 := by
  have hnt : 0 < nt := by omega
  rw [← sum_erase_add _ _ (mem_range.2 ht), ← sum_erase_add (range nt) (fun u => work nt N u (s'.th u)) (mem_range.2 ht)]
  have hsame : ∀ u ∈ (range nt).erase t, s'.th u = s.th u := by
    intro u hu
    have hne := (mem_erase.1 hu).1
    unfold step at h
    cases hp : (s.th t).phase <;> simp only [hp] at h
    · split_ifs at h <;> simp only [Option.some.injEq] at h <;> subst h <;> simp [hne]
    · cases hl : s.lock <;> simp [hl] at h; subst h; simp [hne]
    · simp only [Option.some.injEq] at h; subst h; simp [hne]
    · simp only [Option.some.injEq] at h; subst h; simp [hne]
    · simp only [Option.some.injEq] at h; subst h; simp [hne]
    · simp at h
  rw [sum_congr rfl (fun u hu => by rw [← hsame u hu] : ∀ u ∈ (range nt).erase t, work nt N u (s.th u) = work nt N u (s'.th u)), add_assoc]
  congr 1
  have hrem : (s.th t).pos < N → 1 ≤ rem nt N t (s.th t).pos := by
    intro h; rw [rem_step hnt h (H.cls t ht)]; omega
  unfold step at h
  cases hp : (s.th t).phase <;> simp only [hp] at h
  · split_ifs at h with hlt <;> simp only [Option.some.injEq] at h <;> subst h <;> simp [work, hp]
    rw [rem_zero (by omega)]
  · have := hrem (H.lt t ht (Or.inl hp))
    cases hl : s.lock <;> simp [hl] at h; subst h; simp [work, hp]; omega
  · have := hrem (H.lt t ht (Or.inr (Or.inl hp)))
    simp only [Option.some.injEq] at h; subst h; simp [work, hp]; omega
  · have := hrem (H.lt t ht (Or.inr (Or.inr (Or.inl hp))))
    simp only [Option.some.injEq] at h; subst h; simp [work, hp]; omega
  · have h0 := H.lt t ht (Or.inr (Or.inr (Or.inr hp)))
    have := rem_step hnt h0 (H.cls t ht)
    simp only [Option.some.injEq] at h; subst h; simp [work, hp]; omega
  · simp at h

theorem work_exec {nt N : ℕ} {c : ℕ → List M} {sys0 : M} (l : List ℕ) {s s' : St M} (H : Inv nt N c sys0 s) (h : exec nt N c l s = some s') :
    ∑ u ∈ range nt, work nt N u (s.th u) = ∑ u ∈ range nt, work nt N u (s'.th u) + l.length := by
  induction l generalizing s with
  | nil => simp only [exec, Option.some.injEq] at h; subst h; rfl
  | cons t l ih =>
    simp only [exec] at h
    split_ifs at h with ht
    simp only [Option.bind_eq_some_iff] at h
    obtain ⟨a, h1, h2⟩ := h
    rw [work_step ht H h1, ih (inv_step ht H h1) h2, List.length_cons]
    ring

theorem work_init {nt : ℕ} (hnt : 0 < nt) (N : ℕ) (sys v : M) : ∑ u ∈ range nt, work nt N u ((init sys v).th u) = 5 * N + nt := by
  have h1 : ∀ u ∈ range nt, work nt N u ((init sys v).th u) = 5 * ((range N).filter fun e => e % nt = u).card + 1 := by
    intro u _
    simp only [init, work, rem]
    congr 3
    apply filter_congr
    intro e _
    constructor
    · exact fun h => h.1
    · rintro rfl; exact ⟨rfl, Nat.mod_le ..⟩
  rw [sum_congr rfl h1, sum_add_distrib, ← mul_sum, ← card_eq_sum_card_fiberwise (f := fun e => e % nt) (s := range N) (t := range nt)]
  · simp
  · intro e _; exact mem_coe.2 (mem_range.2 (Nat.mod_lt _ hnt))

/-! ## The property -/

/-- C26: for every number of threads and elements and every interleaving, when all threads have finished the system is the one of the serial loop. -/
theorem C26_parallel_eq_serial (nt N : ℕ) (hnt : 0 < nt) (c : ℕ → List M) (sys v : M) (sched : List ℕ) (s : St M)
    (h : exec nt N c sched (init sys v) = some s) (hdone : ∀ t < nt, (s.th t).phase = .done) :
    s.sys = (serial N c sys v).1 ∧ s.sys = sys + total N c := by
  have H := inv_exec sched (inv_init N c sys v) h
  have : s.sys = sys + total N c := by
    rw [H.sum]
    congr 1
    apply sum_congr rfl
    intro e he
    have hm := Nat.mod_lt e hnt
    have h1 := H.fin _ hm (hdone _ hm)
    rw [mem_range] at he
    rw [if_pos]
    simp only [lim, hdone _ hm, reduceCtorEq, if_false]
    omega
  exact ⟨by rw [this, serial_eq], this⟩

/-- C26: every element contributes exactly once (contributions counted in a multiset). -/
theorem C26_each_once (nt N : ℕ) (hnt : 0 < nt) (v : Multiset ℕ) (sched : List ℕ) (s : St (Multiset ℕ))
    (h : exec nt N (fun e => [{e}]) sched (init 0 v) = some s) (hdone : ∀ t < nt, (s.th t).phase = .done) : s.sys = Multiset.range N := by
  rw [(C26_parallel_eq_serial nt N hnt _ _ _ sched s h hdone).2, zero_add]
  unfold total
  have : ∀ N, ∑ e ∈ range N, (([{e}] : List (Multiset ℕ))).sum = Multiset.range N := by
    intro N
    induction N with
    | zero => rfl
    | succ N ih => rw [sum_range_succ, ih]; simp [Multiset.range_succ, ← Multiset.singleton_add, add_comm]
  exact this N

/-- C26, mutual exclusion: never two threads in the critical section. -/
theorem C26_exclusive (nt N : ℕ) (c : ℕ → List M) (sys v : M) (sched : List ℕ) (s : St M) (h : exec nt N c sched (init sys v) = some s)
    (t u : ℕ) (ht : t < nt) (hu : u < nt) (h1 : (s.th t).phase ∈ [Phase.locked, .read, .written]) (h2 : (s.th u).phase ∈ [Phase.locked, .read, .written]) : t = u := by
  have H := inv_exec sched (inv_init N c sys v) h
  have a := (H.lock t ht).1 (by simpa [inCrit] using h1)
  have b := (H.lock u hu).1 (by simpa [inCrit] using h2)
  rw [a] at b
  exact Option.some.inj b

/-- C26, no deadlock: as long as some thread has not finished, some thread can act. -/
theorem C26_progress (nt N : ℕ) (c : ℕ → List M) (sys v : M) (sched : List ℕ) (s : St M) (h : exec nt N c sched (init sys v) = some s)
    (t : ℕ) (ht : t < nt) (hnd : (s.th t).phase ≠ .done) : ∃ u < nt, (step nt N c s u).isSome := by
  have H := inv_exec sched (inv_init N c sys v) h
  cases hl : s.lock with
  | some u =>
    have hu := H.lockr u hl
    refine ⟨u, hu, ?_⟩
    have := (H.lock u hu).2 hl
    unfold step
    rcases this with h | h | h <;> simp [h]
  | none =>
    refine ⟨t, ht, ?_⟩
    unfold step
    cases hp : (s.th t).phase <;> simp only [hp, hl]
    · split_ifs <;> rfl
    · rfl
    · rfl
    · rfl
    · rfl
    · exact absurd hp hnd

/-- C26, termination: no execution has more than `5·N + nt` actions, and one in which all threads have finished has exactly as many. -/
theorem C26_terminates (nt N : ℕ) (hnt : 0 < nt) (c : ℕ → List M) (sys v : M) (sched : List ℕ) (s : St M) (h : exec nt N c sched (init sys v) = some s) :
    sched.length ≤ 5 * N + nt ∧ ((∀ t < nt, (s.th t).phase = .done) → sched.length = 5 * N + nt) := by
  have := work_exec sched (inv_init N c sys v) h
  rw [work_init hnt] at this
  refine ⟨by omega, fun hd => ?_⟩
  rw [this, sum_eq_zero]
  · simp
  · intro u hu
    simp [work, hd u (mem_range.1 hu)]

/-- What happens without the critical section: the same thread program with the lock always free loses an update. -/
def stepRacy (nt N : ℕ) (c : ℕ → List M) (s : St M) (t : ℕ) : Option (St M) := step nt N c { s with lock := none } t

/-- C26: the critical section is needed. Two threads, two elements; reading at the same time, one contribution is lost. -/
theorem C26_race_without_critical : ∃ s : St ℕ, [0, 1, 0, 1, 0, 1, 0, 1, 0, 1, 0, 1].foldlM (stepRacy 2 2 fun e => [e + 1]) (init 0 0) = some s ∧
    (s.th 0).phase = .done ∧ (s.th 1).phase = .done ∧ s.sys = 2 ∧ (serial 2 (fun e => [e + 1]) 0 0).1 = 3 :=
  ⟨_, rfl, rfl, rfl, rfl, rfl⟩

/-- A complete run of two threads on three elements. -/
example : ∃ s : St ℕ, exec 2 3 (fun e => [e + 1, 10]) [0, 1, 0, 0, 0, 0, 1, 0, 1, 1, 1, 1, 0, 0, 0, 0, 0] (init 5 7) = some s ∧ (∀ t < 2, (s.th t).phase = .done) ∧
    s.sys = 5 + (11 + 12 + 13) := ⟨_, rfl, by decide, rfl⟩

end Verif.Parallel
