import Verif.Proofs.EVSum
import Verif.Proofs.SmoothClosed
/-! The smoothing matrix next to an interior vertex. -/
set_option autoImplicit false
set_option linter.unusedSectionVars false
set_option linter.unusedSimpArgs false
set_option linter.unusedVariables false
namespace Verif.EV
open Verif Verif.Smooth

variable {P Q : Type} [DecidableEq P] [DecidableEq Q]

/-- the smoothing matrix (see `closed_form`) with real entries -/
noncomputable def base (T : Topo P) (M : Dof P → Dof P → ℚ) : Dof P → Dof P → ℝ := fun r c => ((M r c : ℚ) : ℝ)

/-- at least six functions in every direction -/
structure Six (T : Topo P) : Prop where
  n0 : ∀ p, 6 ≤ T.n0 p
  n1 : ∀ p, 6 ≤ T.n1 p

theorem len_six {T : Topo P} (h6 : Six T) (s : PS P) : 6 ≤ len T s := by
  unfold len; split_ifs
  · exact h6.n0 _
  · exact h6.n1 _

theorem vert_sid (T : Topo P) (c : PC P) (s : Side) (k : ℕ) (l : Bool) :
    vert T c s k l.toNat = enc T (.sid (c.1, s) l (fromEnd (len T (c.1, s)) (c.2.tang s) k)) := rfl

theorem sid_valid {T : Topo P} (h6 : Six T) (c : PC P) (s : Side) (k : ℕ) (hk : k = 2 ∨ k = 3) (l : Bool) :
    AValid T (.sid (c.1, s) l (fromEnd (len T (c.1, s)) (c.2.tang s) k)) := by
  have := len_six h6 (c.1, s)
  simp only [AValid, fromEnd]
  split_ifs <;> omega

theorem mt_end {T : Topo P} (ok : Ok T) (h6 : Six T) {c d : PC P} {s t : Side} (hs : s ∈ c.2.sides)
    (h : cross T c s = some d) (ht : T.nb (c.1, s) = some (d.1, t)) (k : ℕ) (hk : k = 2 ∨ k = 3) :
    Smooth.mt T (c.1, s) (fromEnd (len T (c.1, s)) (c.2.tang s) k) = fromEnd (len T (d.1, t)) (d.2.tang t) k := by
  have hl := ok.nb_len _ _ ht
  have h6' := len_six h6 (c.1, s)
  unfold cross at h
  rw [ht] at h
  simp only [Option.map_some, Option.some.injEq] at h
  have htang : d.2.tang t = xor (c.2.tang s) (T.flip (c.1, s)) := by
    rw [← h]; simp only [tang_corner]
  rw [htang, hl]
  unfold Smooth.mt fromEnd
  cases c.2.tang s <;> cases T.flip (c.1, s) <;> simp <;> omega

theorem coarse_ok {T : Topo P} (ok : Ok T) (h6 : Six T) {L : List (PC P)} (hv : Vtx T L) {M : Dof P → Dof P → ℚ}
    (hval : ∀ r x, AValid T x → (∀ e a b, x = .cor e a b → T.interior e = true) → M r (enc T x) = if valid T r then Wa T (dec T r) x else 0) :
    CoarseOk T L (base T M) := by
  have hint : ∀ y, FL L y → T.interior y.1 = true := by
    intro y hy
    obtain ⟨-, c, rfl, hi⟩ := hv
    rw [interior_same ok hy.1]; exact hi
  -- rows which are not inner
  have hind : ∀ r, valid T r → ∀ x, AValid T x → r ≠ enc T x → ind (dec T r) x = 0 := by
    intro r hr x hx hne
    apply ind_ne
    intro e
    apply hne
    rw [← e]; exact (enc_dec hr).2.symm
  have hz : ∀ r (y : Flag P) k (l : Bool), (k = 2 ∨ k = 3) → M r (vert T y.1 y.2 k l.toNat) =
      if valid T r then Wa T (dec T r) (.sid (y.1.1, y.2) l (fromEnd (len T (y.1.1, y.2)) (y.1.2.tang y.2) k)) else 0 := by
    intro r y k l hk
    rw [vert_sid, hval r _ (sid_valid h6 y.1 y.2 k hk l) (by simp)]
  have h20 : ∀ r (y : Flag P), FL L y → ∀ k, (k = 2 ∨ k = 3) → M r (vert T y.1 y.2 k 0) =
      1 / 2 * (M r (vert T y.1 y.2 k 1) + M r (vert T (opp T y).1 (opp T y).2 k 1)) := by
    intro r y hy k hk
    obtain ⟨d, u, h1, h2, h3, h4⟩ := opp_data hv hy
    have e0 := hz r y k false hk
    have e1 := hz r y k true hk
    have e2 := hz r (opp T y) k true hk
    simp only [Bool.toNat_false, Bool.toNat_true] at e0 e1 e2
    rw [e0, e1, e2, h4]
    simp only
    split_ifs
    · simp only [Wa, h2]
      rw [mt_end ok h6 hy.2 h1 h2 k hk]; ring
    · ring
  refine ⟨?_, ?_, ?_⟩
  · intro r hr y hy
    unfold base
    have hy' : FL L (opp T y) := rev_fl (nxt_fl hv hy)
    have n11 : ∀ y, FL L y → r ≠ vert T y.1 y.2 1 1 := fun y hy e => hr ⟨y, hy, Or.inl e⟩
    have n21 : ∀ y, FL L y → r ≠ vert T y.1 y.2 2 1 := fun y hy e => hr ⟨y, hy, Or.inr e⟩
    have z21 : ∀ y, FL L y → M r (vert T y.1 y.2 2 1) = 0 := by
      intro y hy
      have e := hz r y 2 true (Or.inl rfl)
      simp only [Bool.toNat_true] at e
      rw [e]
      split_ifs with hr'
      · simp only [Wa]
        refine hind r hr' _ (sid_valid h6 y.1 y.2 2 (Or.inl rfl) true) ?_
        rw [← vert_sid]; exact n21 y hy
      · rfl
    have i11 : ∀ d ∈ L, valid T r → ind (dec T r) (.cor d true true) = 0 := by
      intro d hd hr'
      refine hind r hr' _ trivial ?_
      have := n11 (d, d.2.uside) ⟨hd, uside_mem _⟩
      rw [vert11 T d (uside_mem _), av_diag] at this
      exact this
    obtain ⟨ok', c, rfl, hi⟩ := hv
    obtain ⟨d, u, h1, h2, h3, h4⟩ := opp_data (T := T) ⟨ok, c, rfl, hi⟩ hy
    have hd : d ∈ T.cl c := by rw [h4] at hy'; exact hy'.1
    refine ⟨?_, ?_, ?_, ?_, ?_⟩
    · rw [vert00 T y.1 hy.2, av_diag, hval r (.cor y.1 false false) trivial (by intro e a b h; simp only [ADof.cor.injEq] at h; rw [← h.1]; exact hint y hy)]
      split_ifs with hr'
      · simp only [Wa, cornW]
        rw [interior_same ok hy.1, hi, if_pos rfl]
        have : ((T.cl y.1).map fun d => ind (dec T r) (.cor d true true : ADof P)).sum = 0 := by
          apply List.sum_eq_zero
          intro x hx
          rw [List.mem_map] at hx
          obtain ⟨d, hd, rfl⟩ := hx
          exact i11 d ((ok.cl_same c _ hy.1 d).1 hd) hr'
        rw [this]; simp
      · simp
    · rw [vert10 T y.1 hy.2, hval r _ (av_valid ..) (by
        intro e a b h
        unfold av at h
        split_ifs at h <;> simp only [ADof.cor.injEq] at h <;> rw [← h.1] <;> exact hint y hy)]
      split_ifs with hr'
      · rw [Wa_edge T y.1 hy.2, edgeW, h1]
        simp only
        rw [i11 _ hy.1 hr', i11 _ hd hr']; simp
      · simp
    · rw [vert11 T y.1 hy.2, av_diag, hval r (.cor y.1 true true) trivial (by intro e a b h; simp only [ADof.cor.injEq] at h; rw [← h.1]; exact hint y hy)]
      split_ifs with hr'
      · simp only [Wa]; rw [i11 _ hy.1 hr']; simp
      · simp
    · rw [h20 r y hy 2 (Or.inl rfl), z21 y hy, z21 _ hy']; simp
    · rw [z21 y hy]; simp
  · intro r y hy
    unfold base
    rw [h20 r y hy 3 (Or.inr rfl)]
    push_cast; ring
  · intro r y hy
    have hy' : FL L (opp T y) := rev_fl (nxt_fl hv hy)
    have hoo : opp T (opp T y) = y := by
      obtain ⟨d, u, h1, h2, h3, h4⟩ := opp_data hv hy
      obtain ⟨d', u', g1, g2, g3, g4⟩ := opp_data hv hy'
      rw [h4] at g1 g2 ⊢
      simp only at g1 g2
      have := ok.nb_symm _ _ h2
      rw [this] at g2
      have hb := cross_back ok hy.2 h1 h2
      rw [hb] at g1
      simp only [Option.some.injEq, Prod.mk.injEq] at g1 g2
      rw [h4] at g4
      rw [g4, ← g1, ← g2.2]
    unfold base
    rw [h20 r y hy 3 (Or.inr rfl), h20 r _ hy' 3 (Or.inr rfl), hoo]
    push_cast; ring

end Verif.EV
