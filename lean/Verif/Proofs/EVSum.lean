import Verif.Proofs.EVStep
import Mathlib.Algebra.BigOperators.Ring.List
/-! Column sums and the state after all extraordinary vertices. -/
set_option autoImplicit false
set_option linter.unusedSectionVars false
set_option linter.unusedSimpArgs false
set_option linter.unusedVariables false
namespace Verif.EV
open Verif Verif.Smooth

variable {P Q : Type} [DecidableEq P] [DecidableEq Q]

section
variable {T : Topo P} {L : List (PC P)} {a : ℕ → Flag P}

/-- State of the matrix next to a vertex before its step: smooth functions other than those with an inner point at the vertex do not
reach the inner points, and are midpoints along the interfaces. -/
structure Before (T : Topo P) (F : Fine P Q) (L : List (PC P)) (M : Mat P Q) : Prop where
  zero : ∀ r, ¬ Inner (vert T) L r → ∀ y, FL L y → M r (F.at' y.1 y.2 0 0) = 0 ∧ M r (F.at' y.1 y.2 1 0) = 0 ∧
    M r (F.at' y.1 y.2 1 1) = 0 ∧ M r (F.at' y.1 y.2 2 1) = 0
  mid : ∀ r, ¬ Inner (vert T) L r → ∀ y, FL L y → ∀ k, (k = 2 ∨ k = 3) → M r (F.at' y.1 y.2 k 0) = wgt T F M r y k

/-- The properties for all rows. -/
structure Full (T : Topo P) (F : Fine P Q) (Pi : ℕ → ℕ → ℝ) (L : List (PC P)) (a : ℕ → Flag P) (M M' : Mat P Q) : Prop where
  pi : ∀ r, ∀ p < 3 * L.length,
    M' r (adr F.at' a L.length p) = ((List.range (3 * L.length)).map fun y => Pi p y * M r (adr F.at' a L.length y)).sum
  ring0 : ∀ r, ∀ y, FL L y → M' r (F.at' y.1 y.2 0 0) = M' r (F.at' y.1 y.2 1 1)
  ring1 : ∀ r, ∀ y, FL L y → M' r (F.at' y.1 y.2 1 0) = M' r (F.at' y.1 y.2 1 1)
  mid : ∀ r, ∀ y, FL L y → ∀ k, (k = 2 ∨ k = 3) → M' r (F.at' y.1 y.2 k 0) = wgt T F M' r y k

theorem adr_inner (A : Around T L a) (f : PC P → Side → ℕ → ℕ → Q) (p : ℕ) :
    ∃ y, FL L y ∧ (adr f a L.length p = f y.1 y.2 1 1 ∨ adr f a L.length p = f y.1 y.2 2 1) := by
  unfold adr
  split_ifs with h1 h2
  · exact ⟨a p, A.fl p, Or.inl rfl⟩
  · exact ⟨rev (a (p - L.length)), rev_fl (A.fl _), Or.inr rfl⟩
  · exact ⟨a (p - 2 * L.length), A.fl _, Or.inr rfl⟩

theorem smoothed_full (A : Around T L a) {F : Fine P Q} {Pi : ℕ → ℕ → ℝ} {M M' : Mat P Q} (h : Smoothed T F Pi L a M M')
    (hb : Before T F L M) : Full T F Pi L a M M' := by
  have hz : ∀ r, ¬ Inner (vert T) L r → ∀ p, M r (adr F.at' a L.length p) = 0 := by
    intro r hr p
    obtain ⟨y, hy, e | e⟩ := adr_inner A F.at' p
    · rw [e]; exact (hb.zero r hr y hy).2.2.1
    · rw [e]; exact (hb.zero r hr y hy).2.2.2
  refine ⟨?_, ?_, ?_, ?_⟩
  · intro r p hp
    by_cases hr : Inner (vert T) L r
    · exact h.pi r hr p hp
    · rw [h.out_row r _ hr, hz r hr p]
      symm
      apply List.sum_eq_zero
      intro x hx
      rw [List.mem_map] at hx
      obtain ⟨y, -, rfl⟩ := hx
      rw [hz r hr y, mul_zero]
  · intro r y hy
    by_cases hr : Inner (vert T) L r
    · exact h.ring0 r hr y hy
    · rw [h.out_row r _ hr, h.out_row r _ hr, (hb.zero r hr y hy).1, (hb.zero r hr y hy).2.2.1]
  · intro r y hy
    by_cases hr : Inner (vert T) L r
    · exact h.ring1 r hr y hy
    · rw [h.out_row r _ hr, h.out_row r _ hr, (hb.zero r hr y hy).2.1, (hb.zero r hr y hy).2.2.1]
  · intro r y hy k hk
    by_cases hr : Inner (vert T) L r
    · exact h.mid r hr y hy k hk
    · have := hb.mid r hr y hy k hk
      rw [h.out_row r _ hr, this]
      unfold wgt
      rw [h.out_row r _ hr, h.out_row r _ hr]

/-- column sum over a list of rows -/
noncomputable def csum (M : Mat P Q) (rl : List (Dof P)) (q : Q) : ℝ := (rl.map fun r => M r q).sum

theorem csum_lin (rl : List (Dof P)) (f : Dof P → ℕ → ℝ) (w : ℕ → ℝ) (l : List ℕ) :
    (rl.map fun r => (l.map fun y => w y * f r y).sum).sum = (l.map fun y => w y * (rl.map fun r => f r y).sum).sum := by
  induction rl with
  | nil => simp
  | cons r rl ih =>
    simp only [List.map_cons, List.sum_cons, mul_add, ih]
    rw [List.sum_map_add]

theorem full_csum (A : Around T L a) {F : Fine P Q} (hF : FineOk F) {Pi : ℕ → ℕ → ℝ} {M M' : Mat P Q}
    (hs : Smoothed T F Pi L a M M') (h : Full T F Pi L a M M') (rl : List (Dof P)) (h1 : ∀ q, csum M rl q = 1)
    (hPi : ∀ p < 3 * L.length, ((List.range (3 * L.length)).map fun y => Pi p y).sum = 1) (q : Q) : csum M' rl q = 1 := by
  have hadr : ∀ p < 3 * L.length, csum M' rl (adr F.at' a L.length p) = 1 := by
    intro p hp
    unfold csum
    have : (rl.map fun r => M' r (adr F.at' a L.length p)) =
        rl.map fun r => ((List.range (3 * L.length)).map fun y => Pi p y * M r (adr F.at' a L.length y)).sum :=
      List.map_congr_left fun r _ => h.pi r p hp
    rw [this, csum_lin]
    have e : ((List.range (3 * L.length)).map fun y => Pi p y * (rl.map fun r => M r (adr F.at' a L.length y)).sum) =
        (List.range (3 * L.length)).map fun y => Pi p y := by
      apply List.map_congr_left
      intro y _
      have := h1 (adr F.at' a L.length y)
      unfold csum at this
      rw [this, mul_one]
    rw [e, hPi p hp]
  have hin : ∀ y, FL L y → csum M' rl (F.at' y.1 y.2 1 1) = 1 ∧ csum M' rl (F.at' y.1 y.2 2 1) = 1 := by
    intro y hy
    have hm := mem_adr A F.at' (fun c s hs k l => at_swap hF hs k l)
    constructor
    · obtain ⟨p, hp, e⟩ := (hm (F.at' y.1 y.2 1 1)).2 ⟨y, hy, Or.inl rfl⟩
      rw [e]; exact hadr p hp
    · obtain ⟨p, hp, e⟩ := (hm (F.at' y.1 y.2 2 1)).2 ⟨y, hy, Or.inr rfl⟩
      rw [e]; exact hadr p hp
  have h31 : ∀ y, FL L y → csum M' rl (F.at' y.1 y.2 3 1) = 1 := by
    intro y hy
    rw [← h1 (F.at' y.1 y.2 3 1)]
    unfold csum
    congr 1
    apply List.map_congr_left
    intro r _
    apply hs.out_col
    rintro ⟨y', hy', h'⟩
    rcases h' with e | e | e | e | e | e <;>
    · have := (at_inj hF hy.2 hy'.2 (by omega) (by omega) (by omega) (by omega) e).2
      rcases this with ⟨-, h, h'⟩ | ⟨-, h, h'⟩ <;> omega
  have hmidc : ∀ y, FL L y → ∀ k, (k = 2 ∨ k = 3) → csum M' rl (F.at' y.1 y.2 k 0) = 1 := by
    intro y hy k hk
    have hk1 : ∀ y, FL L y → csum M' rl (F.at' y.1 y.2 k 1) = 1 := by
      intro y hy
      rcases hk with rfl | rfl
      · exact (hin y hy).2
      · exact h31 y hy
    have e1 := hk1 y hy
    have e2 := hk1 (opp T y) (rev_fl (nxt_fl A.vtx hy))
    unfold csum at e1 e2 ⊢
    have : (rl.map fun r => M' r (F.at' y.1 y.2 k 0)) = rl.map fun r => wgt T F M' r y k :=
      List.map_congr_left fun r _ => h.mid r y hy k hk
    rw [this]
    unfold wgt
    rw [List.sum_map_mul_left, List.sum_map_add, e1, e2]; norm_num
  by_cases hq : Near F L q
  · obtain ⟨y, hy, e | e | e | e | e | e⟩ := hq
    · rw [e]
      unfold csum
      rw [List.map_congr_left fun r _ => h.ring0 r y hy]
      exact (hin y hy).1
    · rw [e]
      unfold csum
      rw [List.map_congr_left fun r _ => h.ring1 r y hy]
      exact (hin y hy).1
    · rw [e]; exact (hin y hy).1
    · rw [e]; exact (hin y hy).2
    · rw [e]; exact hmidc y hy 2 (Or.inl rfl)
    · rw [e]; exact hmidc y hy 3 (Or.inr rfl)
  · rw [← h1 q]
    unfold csum
    congr 1
    exact List.map_congr_left fun r _ => hs.out_col r q hq

/-! ### Several vertices -/

/-- the addresses of the corners of `L` -/
def Zone (F : Fine P Q) (L : List (PC P)) (q : Q) : Prop := ∃ y : Flag P, FL L y ∧ ∃ k l, k < 4 ∧ l < 4 ∧ q = F.at' y.1 y.2 k l

theorem zone_near {F : Fine P Q} {L : List (PC P)} {q : Q} (h : Near F L q) : Zone F L q := by
  obtain ⟨y, hy, e⟩ := h
  rcases e with e | e | e | e | e | e <;> exact ⟨y, hy, _, _, by omega, by omega, e⟩

theorem zone_disjoint {F : Fine P Q} (hF : FineOk F) {L L' : List (PC P)} (hd : ∀ c ∈ L, c ∉ L') {q : Q}
    (h : Zone F L q) : ¬ Near F L' q := by
  intro h'
  obtain ⟨y, hy, k, l, hk, hl, rfl⟩ := h
  obtain ⟨y', hy', k', l', hk', hl', e⟩ := zone_near h'
  have := (at_inj hF hy.2 hy'.2 hk hl hk' hl' e).1
  exact hd _ hy.1 (this ▸ hy'.1)

theorem before_congr (hv : Vtx T L) {F : Fine P Q} {M M' : Mat P Q} (h : ∀ r q, Zone F L q → M' r q = M r q)
    (hb : Before T F L M) : Before T F L M' := by
  have hz : ∀ r y, FL L y → ∀ k l, k < 4 → l < 4 → M' r (F.at' y.1 y.2 k l) = M r (F.at' y.1 y.2 k l) :=
    fun r y hy k l hk hl => h r _ ⟨y, hy, k, l, hk, hl, rfl⟩
  refine ⟨?_, ?_⟩
  · intro r hr y hy
    rw [hz r y hy 0 0 (by omega) (by omega), hz r y hy 1 0 (by omega) (by omega), hz r y hy 1 1 (by omega) (by omega),
      hz r y hy 2 1 (by omega) (by omega)]
    exact hb.zero r hr y hy
  · intro r hr y hy k hk
    have hy' : FL L (opp T y) := rev_fl (nxt_fl hv hy)
    unfold wgt
    rw [hz r y hy k 0 (by omega) (by omega), hz r y hy k 1 (by omega) (by omega), hz r _ hy' k 1 (by omega) (by omega)]
    exact hb.mid r hr y hy k hk

theorem full_congr (A : Around T L a) {F : Fine P Q} {Pi : ℕ → ℕ → ℝ} {M0 M M' : Mat P Q} (h : ∀ r q, Zone F L q → M' r q = M r q)
    (hf : Full T F Pi L a M0 M) : Full T F Pi L a M0 M' := by
  have hz : ∀ r y, FL L y → ∀ k l, k < 4 → l < 4 → M' r (F.at' y.1 y.2 k l) = M r (F.at' y.1 y.2 k l) :=
    fun r y hy k l hk hl => h r _ ⟨y, hy, k, l, hk, hl, rfl⟩
  refine ⟨?_, ?_, ?_, ?_⟩
  · intro r p hp
    rw [← hf.pi r p hp]
    obtain ⟨y, hy, e | e⟩ := adr_inner A F.at' p
    · rw [e]; exact hz r y hy 1 1 (by omega) (by omega)
    · rw [e]; exact hz r y hy 2 1 (by omega) (by omega)
  · intro r y hy
    rw [hz r y hy 0 0 (by omega) (by omega), hz r y hy 1 1 (by omega) (by omega)]; exact hf.ring0 r y hy
  · intro r y hy
    rw [hz r y hy 1 0 (by omega) (by omega), hz r y hy 1 1 (by omega) (by omega)]; exact hf.ring1 r y hy
  · intro r y hy k hk
    have hy' : FL L (opp T y) := rev_fl (nxt_fl A.vtx hy)
    unfold wgt
    rw [hz r y hy k 0 (by omega) (by omega), hz r y hy k 1 (by omega) (by omega), hz r _ hy' k 1 (by omega) (by omega)]
    exact hf.mid r y hy k hk

end

/-- A vertex on which the step is meant to work: interior, no patch meets it twice. -/
structure GoodEV (T : Topo P) (L : List (PC P)) : Prop where
  vtx : Vtx T L
  dis : Distinct L

/-- State after the vertices `evs`, starting from `base`. -/
theorem fold_spec {T : Topo P} (ori : PS P → Bool) {F : Fine P Q} (hF : FineOk F) (mk : ℕ → Option (ℕ → ℕ → ℝ))
    (evs : List (List (PC P))) (hev : ∀ L ∈ evs, GoodEV T L)
    (hdis : evs.Pairwise fun L L' => ∀ c ∈ L, c ∉ L')
    (hmk : ∀ L ∈ evs, (mk L.length).isSome = true) (M : Mat P Q) (carry : List (REntry P Q))
    (hcarry : ∀ e ∈ carry, M e.1 e.2.1 = e.2.2) (hb : ∀ L ∈ evs, Before T F L M) :
    ∃ M' carry', evs.foldlM (fun (st : Mat P Q × List (REntry P Q)) (L : List (PC P)) =>
        (mk L.length).bind fun Pi => evStep T ori F Pi L st) (M, carry) = some (M', carry') ∧
      (∀ L ∈ evs, ∃ a Pi M0, Around T L a ∧ mk L.length = some Pi ∧ Full T F Pi L a M0 M' ∧
        (∀ r q, Zone F L q → M0 r q = M r q)) ∧
      (∀ r q, M' r q ≠ M r q → ∃ L ∈ evs, Inner (vert T) L r ∧ Near F L q) ∧
      (∀ rl, (∀ q, csum M rl q = 1) → (∀ L ∈ evs, ∀ Pi, mk L.length = some Pi →
        ∀ p < 3 * L.length, ((List.range (3 * L.length)).map fun y => Pi p y).sum = 1) → ∀ q, csum M' rl q = 1) := by
  induction evs generalizing M carry with
  | nil =>
    exact ⟨M, carry, rfl, by simp, fun r q h => absurd rfl h, fun rl h _ => h⟩
  | cons L evs ih =>
    obtain ⟨Pi, hPi⟩ := Option.isSome_iff_exists.1 (hmk L List.mem_cons_self)
    obtain ⟨hv, hd⟩ := hev L List.mem_cons_self
    obtain ⟨a, A, hw⟩ := around_exists hv hd
    obtain ⟨M1, carry1, hs1, hc1, hS⟩ := evStep_spec A hw ori hF Pi M carry hcarry
    have hfull := smoothed_full A hS (hb L List.mem_cons_self)
    rw [List.pairwise_cons] at hdis
    have hkeep : ∀ L' ∈ evs, ∀ r q, Zone F L' q → M1 r q = M r q := by
      intro L' hL' r q hq
      apply hS.out_col
      exact zone_disjoint hF (fun c hc hc' => hdis.1 L' hL' c hc' hc) hq
    obtain ⟨M', carry', hf, h1, h2, h3⟩ := ih (fun L' h => hev L' (List.mem_cons_of_mem _ h)) hdis.2
      (fun L' h => hmk L' (List.mem_cons_of_mem _ h)) M1 carry1 hc1
      (fun L' h => before_congr (hev L' (List.mem_cons_of_mem _ h)).vtx (hkeep L' h) (hb L' (List.mem_cons_of_mem _ h)))
    refine ⟨M', carry', ?_, ?_, ?_, ?_⟩
    · rw [List.foldlM_cons]
      simp only [Option.bind_eq_bind, hPi, Option.bind_some, hs1]
      exact hf
    · intro L' hL'
      rcases List.mem_cons.1 hL' with rfl | hL'
      · refine ⟨a, Pi, M, A, hPi, ?_, fun _ _ _ => rfl⟩
        refine full_congr A ?_ hfull
        intro r q hq
        by_contra hne
        obtain ⟨L2, hL2, -, hn⟩ := h2 r q hne
        exact zone_disjoint hF (fun c hc => hdis.1 L2 hL2 c hc) hq hn
      · obtain ⟨a', Pi', M0, g1, g2, g3, g4⟩ := h1 L' hL'
        exact ⟨a', Pi', M0, g1, g2, g3, fun r q hq => by rw [g4 r q hq, hkeep L' hL' r q hq]⟩
    · intro r q hne
      by_cases hM : M' r q = M1 r q
      · rw [hM] at hne
        refine ⟨L, List.mem_cons_self, ?_, ?_⟩
        · by_contra hc; exact hne (hS.out_row r q hc)
        · by_contra hc; exact hne (hS.out_col r q hc)
      · obtain ⟨L', hL', g⟩ := h2 r q hM
        exact ⟨L', List.mem_cons_of_mem _ hL', g⟩
    · intro rl hrl hrows
      exact h3 rl (full_csum A hF hS hfull rl hrl (hrows L List.mem_cons_self Pi hPi))
        (fun L' h => hrows L' (List.mem_cons_of_mem _ h))

/-! ### The matrix before the vertices: refinement of a smooth coarse matrix -/

/-- What the refinement of the bases has to satisfy next to a corner (G+Smo): the coefficients of the refined functions near a corner are given by a
tensor-product rule involving only functions at most as far from the corner; along an interface both patches use the same rule;
the first function off a side is the average of the first two. -/
structure TransferOk (T : Topo P) (F : Fine P Q) (tm : Q → Dof P → ℝ) (dl : List (Dof P)) : Prop where
  rows : ∀ q, (dl.map fun d => tm q d).sum = 1
  near : ∃ t : PC P → Side → ℕ → ℕ → ℝ,
    (∀ (c : PC P) (s : Side), s ∈ c.2.sides → ∀ k l, k < 4 → l < 4 → ∀ f : Dof P → ℝ,
      (dl.map fun d => f d * tm (F.at' c s k l) d).sum =
        ((List.range (k + 1)).map fun k' => ((List.range (l + 1)).map fun l' =>
          t c s k k' * t c (othS c.2 s) l l' * f (vert T c s k' l')).sum).sum) ∧
    (∀ c s, t c s 0 0 = 1 ∧ t c s 1 0 = 1 / 2 ∧ t c s 1 1 = 1 / 2) ∧
    (∀ (c d : PC P) (s u : Side), s ∈ c.2.sides → cross T c s = some d → T.nb (c.1, s) = some (d.1, u) →
      ∀ k k', t c s k k' = t d u k k')

/-- What the coarse matrix has to satisfy next to an interior vertex. -/
structure CoarseOk (T : Topo P) (L : List (PC P)) (M : Dof P → Dof P → ℝ) : Prop where
  zero : ∀ r, ¬ Inner (vert T) L r → ∀ y, FL L y → M r (vert T y.1 y.2 0 0) = 0 ∧ M r (vert T y.1 y.2 1 0) = 0 ∧
    M r (vert T y.1 y.2 1 1) = 0 ∧ M r (vert T y.1 y.2 2 0) = 0 ∧ M r (vert T y.1 y.2 2 1) = 0
  mid : ∀ r, ∀ y, FL L y →
    M r (vert T y.1 y.2 3 0) = 1 / 2 * (M r (vert T y.1 y.2 3 1) + M r (vert T (opp T y).1 (opp T y).2 3 1))
  same : ∀ r, ∀ y, FL L y → M r (vert T (opp T y).1 (opp T y).2 3 0) = M r (vert T y.1 y.2 3 0)

theorem opp_data {T : Topo P} {L : List (PC P)} (h : Vtx T L) {y : Flag P} (hy : FL L y) :
    ∃ d u, cross T y.1 y.2 = some d ∧ T.nb (y.1.1, y.2) = some (d.1, u) ∧ u ∈ d.2.sides ∧ opp T y = (d, u) := by
  obtain ⟨d, t, h1, h2, h3, h4, h5, h6, -⟩ := fl_cross h hy
  refine ⟨d, t, h1, h2, h3, ?_⟩
  unfold opp
  rw [h6]
  unfold rev
  simp only
  rw [othS_othS h3]

theorem vert_oth (T : Topo P) {c : PC P} {s : Side} (hs : s ∈ c.2.sides) (k l : ℕ) :
    vert T c s k l = vert T c (othS c.2 s) l k := by
  simp only [Corner.sides, List.mem_cons, List.not_mem_nil, or_false] at hs
  rcases hs with rfl | rfl
  · unfold othS; rw [if_pos rfl]; exact vert_swap T c k l
  · have : othS c.2 c.2.vside = c.2.uside := by cases c.2 <;> decide
    rw [this]; exact (vert_swap T c l k).symm

theorem before_of_coarse {T : Topo P} {F : Fine P Q} {tm : Q → Dof P → ℝ} {dl : List (Dof P)} (ht : TransferOk T F tm dl)
    {L : List (PC P)} (hv : Vtx T L) {M : Dof P → Dof P → ℝ} (hc : CoarseOk T L M) : Before T F L (mulT M tm dl) := by
  obtain ⟨t, hten, hone, hsame⟩ := ht.near
  have hval : ∀ r y, FL L y → ∀ k l, k < 4 → l < 4 → mulT M tm dl r (F.at' y.1 y.2 k l) =
      ((List.range (k + 1)).map fun k' => ((List.range (l + 1)).map fun l' =>
          t y.1 y.2 k k' * t y.1 (othS y.1.2 y.2) l l' * M r (vert T y.1 y.2 k' l')).sum).sum :=
    fun r y hy k l hk hl => hten y.1 y.2 hy.2 k l hk hl (fun d => M r d)
  have h01 : ∀ r, ¬ Inner (vert T) L r → ∀ y, FL L y → M r (vert T y.1 y.2 0 1) = 0 := by
    intro r hr y hy
    rw [vert_oth T hy.2]
    exact (hc.zero r hr (y.1, othS y.1.2 y.2) ⟨hy.1, othS_mem _ _⟩).2.1
  refine ⟨?_, ?_⟩
  · intro r hr y hy
    obtain ⟨z00, z10, z11, z20, z21⟩ := hc.zero r hr y hy
    have z01 := h01 r hr y hy
    refine ⟨?_, ?_, ?_, ?_⟩
    · rw [hval r y hy 0 0 (by omega) (by omega)]
      simp [List.range_succ, z00]
    · rw [hval r y hy 1 0 (by omega) (by omega)]
      simp [List.range_succ, z00, z10]
    · rw [hval r y hy 1 1 (by omega) (by omega)]
      simp [List.range_succ, z00, z10, z01, z11]
    · rw [hval r y hy 2 1 (by omega) (by omega)]
      simp [List.range_succ, z00, z10, z01, z11, z20, z21]
  · intro r hr y hy k hk
    obtain ⟨d, u, h1, h2, h3, h4⟩ := opp_data hv hy
    have hy' : FL L (opp T y) := rev_fl (nxt_fl hv hy)
    obtain ⟨z00, z10, z11, z20, z21⟩ := hc.zero r hr y hy
    have z01 := h01 r hr y hy
    obtain ⟨y00, y10, y11, y20, y21⟩ := hc.zero r hr _ hy'
    have y01 := h01 r hr _ hy'
    have hm := hc.mid r y hy
    have hsm := hc.same r y hy
    have o1 := hone y.1 (othS y.1.2 y.2)
    have o2 := hone (opp T y).1 (othS (opp T y).1.2 (opp T y).2)
    have ts : ∀ k k', t (opp T y).1 (opp T y).2 k k' = t y.1 y.2 k k' := by
      intro k k'
      rw [h4]
      exact (hsame y.1 d y.2 u hy.2 h1 h2 k k').symm
    unfold wgt
    rw [hval r y hy k 0 (by omega) (by omega), hval r y hy k 1 (by omega) (by omega), hval r _ hy' k 1 (by omega) (by omega)]
    rcases hk with rfl | rfl
    · simp [List.range_succ, z00, z10, z01, z11, z20, z21, y00, y10, y11, y20, y21, y01]
    · simp [List.range_succ, z00, z10, z01, z11, z20, z21, y00, y10, y11, y20, y21, y01, o1, o2, ts, hm, hsm]
      ring

theorem csum_mulT {M : Dof P → Dof P → ℝ} {tm : Q → Dof P → ℝ} {dl rl : List (Dof P)} (ht : ∀ q, (dl.map fun d => tm q d).sum = 1)
    (hM : ∀ d ∈ dl, (rl.map fun r => M r d).sum = 1) (q : Q) : csum (mulT M tm dl) rl q = 1 := by
  unfold csum mulT
  have key : ∀ rl' : List (Dof P), (rl'.map fun r => (dl.map fun d => M r d * tm q d).sum).sum =
      (dl.map fun d => (rl'.map fun r => M r d).sum * tm q d).sum := by
    intro rl'
    induction rl' with
    | nil => simp
    | cons r rl' ih =>
      simp only [List.map_cons, List.sum_cons, add_mul, ih]
      rw [List.sum_map_add]
  rw [key, ← ht q]
  congr 1
  apply List.map_congr_left
  intro d hd
  rw [hM d hd, one_mul]

end Verif.EV
