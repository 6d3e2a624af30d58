import Verif.Proofs.SmoothCount
/-! Values of the exported coefficients; interior vertices of valence four. -/
set_option autoImplicit false
set_option linter.unusedSectionVars false
set_option linter.unusedSimpArgs false
set_option linter.unusedVariables false
namespace Verif.Smooth
open Verif

variable {P : Type} [DecidableEq P] {V : Type} [AddCommGroup V] [Module ℚ V]

theorem sum_filter_zero {α : Type} (l : List α) (p : α → Bool) (f : α → V) (h : ∀ a ∈ l, p a = false → f a = 0) :
    ((l.filter p).map f).sum = (l.map f).sum := by
  induction l with
  | nil => rfl
  | cons a l ih =>
    have ih' := ih (fun b hb => h b (by simp [hb]))
    rw [List.filter_cons, List.map_cons, List.sum_cons, ← ih']
    cases hp : p a
    · rw [h a (by simp) hp]; simp
    · simp

theorem closed_reach {T : Topo P} (ok : Ok T) {c : PC P} (A : List (PC P)) (hc : c ∈ A)
    (hA : ∀ x ∈ A, ∀ s ∈ x.2.sides, ∀ y, cross T x s = some y → y ∈ A) : ∀ d ∈ T.cl c, d ∈ A := by
  intro d hd
  have := ok.cl_conn c d hd
  induction this with
  | refl => exact hc
  | tail h1 h2 ih =>
    have hm : ∀ z, Relation.ReflTransGen (Step T) c z → z ∈ A := by
      intro z hz
      induction hz with
      | refl => exact hc
      | tail _ hs ih => obtain ⟨s, hs, he⟩ := hs; exact hA _ ih s hs _ he
    obtain ⟨s, hs, he⟩ := h2
    exact hA _ (hm _ h1) s hs _ he

theorem length_le_of_subset {α : Type} [DecidableEq α] {l A : List α} (hn : l.Nodup) (h : ∀ d ∈ l, d ∈ A) : l.length ≤ A.length := by
  exact (List.subperm_of_subset hn h).length_le

/-- the other side of a corner -/
def oside (c : Corner) (s : Side) : Side := if s.dir then c.uside else c.vside

theorem oside_mem (c : Corner) (s : Side) : oside c s ∈ c.sides := by
  unfold oside; split_ifs
  · exact uside_mem c
  · exact vside_mem c

theorem oside_ne {c : Corner} {s : Side} : oside c s ≠ s := by
  cases c <;> cases s <;> decide

theorem sides_or {c : Corner} {s x : Side} (hs : s ∈ c.sides) (hx : x ∈ c.sides) : x = s ∨ x = oside c s := by
  revert hs hx; cases c <;> cases s <;> cases x <;> decide

theorem av_oside {c : PC P} {s : Side} (hs : s ∈ c.2.sides) : av c s false true = av c (oside c.2 s) true false := by
  obtain ⟨p, c⟩ := c
  revert hs; cases c <;> cases s <;> simp [av, oside, Side.dir, Corner.uside, Corner.vside, Corner.sides, Corner.pu, Corner.pv]

/-- The four corners at an interior vertex of valence four. -/
theorem ring4 {T : Topo P} (ok : Ok T) {c d e f : PC P} (h4 : (T.cl c).length = 4) {s t : Side} (hs : s ∈ c.2.sides)
    (hd : cross T c s = some d) (ht : T.nb (c.1, s) = some (d.1, t))
    (he : cross T c (oside c.2 s) = some e) (hf : cross T d (oside d.2 t) = some f) :
    (T.cl c).Perm [c, d, e, f] := by
  obtain ⟨t0, ht0, htm, -⟩ := cross_data hd
  rw [ht] at ht0
  simp only [Option.some.injEq, Prod.mk.injEq, true_and] at ht0
  subst ht0
  obtain ⟨u, hu, hum, -⟩ := cross_data he
  obtain ⟨w, hw, hwm, -⟩ := cross_data hf
  have hbd := ok.nb_symm _ _ ht
  have hbe := ok.nb_symm _ _ hu
  have hbf := ok.nb_symm _ _ hw
  have cbd := cross_back ok hs hd ht
  have cbe := cross_back ok (oside_mem _ _) he hu
  have cbf := cross_back ok (oside_mem _ _) hf hw
  have hcd : d ≠ c := cross_ne ok hs hd
  have hce : e ≠ c := cross_ne ok (oside_mem _ _) he
  have hdf : f ≠ d := cross_ne ok (oside_mem _ _) hf
  have hself := ok.cl_self c
  have md := ok.cl_cross c s d hs hd
  have me := ok.cl_cross c _ e (oside_mem _ _) he
  have mf : f ∈ T.cl c := (ok.cl_same c d md f).1 (ok.cl_cross d _ f (oside_mem _ _) hf)
  have two : ∀ (A : List (PC P)), c ∈ A → A.length < 4 →
      (∀ x ∈ A, ∀ s ∈ x.2.sides, ∀ y, cross T x s = some y → y ∈ A) → False := by
    intro A h1 h2 h3
    have := length_le_of_subset (ok.cl_nodup c) (closed_reach ok A h1 h3)
    omega
  -- e and d differ
  have hed : e ≠ d := by
    rintro rfl
    have hut : u ≠ t := by
      rintro rfl
      rw [hbd] at hbe
      simp only [Option.some.injEq, Prod.mk.injEq, true_and] at hbe
      exact oside_ne hbe.symm
    have hu' : u = oside e.2 t := (sides_or htm hum).resolve_left hut
    apply two [c, e] (by simp) (by simp)
    intro x hx s' hs' y hy
    simp only [List.mem_cons, List.not_mem_nil, or_false] at hx ⊢
    rcases hx with rfl | rfl
    · rcases sides_or hs hs' with rfl | rfl
      · rw [hd] at hy; cases hy; exact Or.inr rfl
      · rw [he] at hy; cases hy; exact Or.inr rfl
    · rcases sides_or htm hs' with rfl | rfl
      · rw [cbd] at hy; cases hy; exact Or.inl rfl
      · rw [← hu', cbe] at hy; cases hy; exact Or.inl rfl
  have hfc : f ≠ c := by
    rintro rfl
    have hws : w ≠ s := by
      rintro rfl
      rw [ht] at hbf
      simp only [Option.some.injEq, Prod.mk.injEq, true_and] at hbf
      exact oside_ne hbf.symm
    have hw' : w = oside f.2 s := (sides_or hs hwm).resolve_left hws
    rw [← hw'] at hu he
    rw [cbf] at he
    cases he
    exact hed rfl
  have hef : f ≠ e := by
    rintro rfl
    have huw : u ≠ w := by
      rintro rfl
      rw [hbe] at hbf
      simp only [Option.some.injEq, Prod.mk.injEq] at hbf
      obtain ⟨h1, h2⟩ := hbf
      rw [cbe] at cbf
      cases cbf
      exact hcd rfl
    have hw' : w = oside f.2 u := (sides_or hum hwm).resolve_left (Ne.symm huw)
    apply two [c, d, f] (by simp) (by simp)
    intro x hx s' hs' y hy
    simp only [List.mem_cons, List.not_mem_nil, or_false] at hx ⊢
    rcases hx with rfl | rfl | rfl
    · rcases sides_or hs hs' with rfl | rfl
      · rw [hd] at hy; cases hy; exact Or.inr (Or.inl rfl)
      · rw [he] at hy; cases hy; exact Or.inr (Or.inr rfl)
    · rcases sides_or htm hs' with rfl | rfl
      · rw [cbd] at hy; cases hy; exact Or.inl rfl
      · rw [hf] at hy; cases hy; exact Or.inr (Or.inr rfl)
    · rcases sides_or hum hs' with rfl | rfl
      · rw [cbe] at hy; cases hy; exact Or.inl rfl
      · rw [← hw', cbf] at hy; cases hy; exact Or.inr (Or.inl rfl)
  have hnd : [c, d, e, f].Nodup := by
    simp only [List.nodup_cons, List.mem_cons, List.not_mem_nil, or_false, not_or, not_false_eq_true, List.nodup_nil, and_true]
    exact ⟨⟨hcd.symm, hce.symm, hfc.symm⟩, ⟨hed.symm, hdf.symm⟩, hef.symm⟩
  have hsub : List.Subperm [c, d, e, f] (T.cl c) := List.subperm_of_subset hnd (by
    intro x hx
    simp only [List.mem_cons, List.not_mem_nil, or_false] at hx
    rcases hx with rfl | rfl | rfl | rfl
    · exact hself
    · exact md
    · exact me
    · exact mf)
  exact (hsub.perm_of_length_le (by rw [h4]; rfl)).symm

/-- one step from an end of a side: the structural name -/
theorem side_end {T : Topo P} (ok : Ok T) (s : PS P) (far : Bool) (k l : Bool) :
    sideDof T s l.toNat (fromEnd (len T s) far k.toNat) = enc T (av (s.1, s.2.corner far) s.2 k l) := by
  have := vert_enc T (s.1, s.2.corner far) (s := s.2) (mem_sides_corner _ _) k l
  rw [← this]
  unfold vert
  simp only [tang_corner, Prod.mk.eta]

theorem LV_edge (T : Topo P) (y : ADof P → V) (c : PC P) {s : Side} (hs : s ∈ c.2.sides) :
    LV T y (av c s true false) = edgeL T y c s (av c s true false) := by
  simp only [Corner.sides, List.mem_cons, List.not_mem_nil, or_false] at hs
  rcases hs with rfl | rfl
  · simp [av, uside_dir, LV]
  · simp [av, vside_dir, LV]

theorem LV_edge_some {T : Topo P} (y : ADof P → V) {c d : PC P} {s : Side} (hs : s ∈ c.2.sides) (h : cross T c s = some d) :
    LV T y (av c s true false) = (1 / 2 : ℚ) • (y (.cor c true true) + y (.cor d true true)) := by
  rw [LV_edge T y c hs, edgeL, h]

theorem LV_11 (T : Topo P) (y : ADof P → V) (c : PC P) : LV T y (.cor c true true) = y (.cor c true true) := rfl

end Verif.Smooth
