import Verif.Proofs.C1Rows
import Mathlib.Tactic.NormNum
/-!
# Property C22: the rows of the C1 basis matrix

`Fn` names the functions of the C1 space; `rowOf` is the row where a function belongs: inner functions patch by patch, then the
functions of the interfaces, of the boundary edges and of the vertices, in the order of the lists. `value` is the coefficient of a function with respect to
the `k`-th function of piece `s` of patch `p`.
-/
set_option autoImplicit false
set_option linter.unusedSimpArgs false
set_option linter.unusedVariables false
namespace Verif.C1Rows
open Finset

inductive Fn
  /-- function `(i, j)` of the tensor-product basis of patch `p` -/
  | inner (p i j : ℕ)
  | edge (n ii : ℕ)
  | bdy (n ii : ℕ)
  | vert (n ii : ℕ)

/-- Numbers of rows of the four groups. -/
def nInner (D : Data) (p : ℕ) : ℕ := (D.dv p - 4) * (D.du p - 4)
def rowsInner (D : Data) : ℕ := ((List.range D.np).map (nInner D)).sum
def rowsI (K : Cls) (D : Data) : ℕ := (D.ifaces.map fun i => ifaceFuns K i.space).sum
def rowsB (K : Cls) (D : Data) : ℕ := (D.bdys.map fun i => ifaceFuns K i.space).sum

def Fn.Valid (K : Cls) (D : Data) : Fn → Prop
  | .inner p i j => p < D.np ∧ 2 ≤ i ∧ i + 2 < D.du p ∧ 2 ≤ j ∧ j + 2 < D.dv p
  | .edge n ii => ∃ x, D.ifaces[n]? = some x ∧ ii < ifaceFuns K x.space
  | .bdy n ii => ∃ x, D.bdys[n]? = some x ∧ ii < ifaceFuns K x.space
  | .vert n ii => n < D.verts.length ∧ ii < 6

def rowOf (K : Cls) (D : Data) : Fn → ℕ
  | .inner p i j => ((List.range p).map (nInner D)).sum + ((j - 2) * (D.du p - 4) + (i - 2))
  | .edge n ii => rowsInner D + ((D.ifaces.take n).map fun i => ifaceFuns K i.space).sum + ii
  | .bdy n ii => rowsInner D + rowsI K D + ((D.bdys.take n).map fun i => ifaceFuns K i.space).sum + ii
  | .vert n ii => rowsInner D + rowsI K D + rowsB K D + 6 * n + ii

open Classical in
/-- A coefficient that is kept. -/
noncomputable def kept (eps c : ℝ) : ℝ := if c * c > eps then c else 0

open Classical in
/-- The coefficients the matrix is to contain. `sp`, `cp`: the piece holding the functions of a side, of a corner; `eI`, `eB`, `eV`: thresholds. -/
noncomputable def coefOf (sp cp : ℕ → ℕ) (eI eB eV : ℝ) (D : Data) (f : Fn) (p s k : ℕ) : ℝ :=
  match f with
  | .inner p' i j => if p = p' ∧ s = 0 ∧ k = j * D.du p + i then 1 else 0
  | .edge n ii => (D.ifaces[n]?).elim 0 fun x =>
      if p = x.first.1 ∧ s = sp x.first.2 then kept eI (x.coef false ii k)
      else if p = x.second.1 ∧ s = sp x.second.2 then kept eI (x.coef true ii k) else 0
  | .bdy n ii => (D.bdys[n]?).elim 0 fun x => if p = x.side.1 ∧ s = sp x.side.2 then kept eB (x.coef ii k) else 0
  | .vert n ii => (D.verts[n]?).elim 0 fun x => ((x.corners.find? fun c => p = c.1.1 ∧ s = cp c.1.2).map fun c => kept eV (c.2 ii k)).getD 0

/-- The same with the pieces and thresholds of the class. -/
noncomputable abbrev value (K : Cls) (D : Data) (f : Fn) (p s k : ℕ) : ℝ := coefOf K.sidePiece K.cornerPiece K.epsI K.epsB K.epsV D f p s k

/-- What is required of the multi-patch: at least four functions per direction, piece 0 holds the tensor-product basis, sides and corners name
existing pieces, the two sides of an interface and the corners of a vertex are stored in different pieces, degree at least one. -/
structure WF (K : Cls) (D : Data) : Prop where
  du : ∀ p < D.np, 4 ≤ D.du p
  dv : ∀ p < D.np, 4 ≤ D.dv p
  piece0 : ∀ p < D.np, D.piece p 0 = D.du p * D.dv p
  pieces : 0 < K.nPieces
  iface : ∀ i ∈ D.ifaces, i.first.1 < D.np ∧ i.second.1 < D.np ∧ K.sidePiece i.first.2 < K.nPieces ∧ K.sidePiece i.second.2 < K.nPieces ∧
    ¬ (i.first.1 = i.second.1 ∧ K.sidePiece i.first.2 = K.sidePiece i.second.2) ∧ 1 ≤ i.space.p
  bdy : ∀ b ∈ D.bdys, b.side.1 < D.np ∧ K.sidePiece b.side.2 < K.nPieces ∧ 1 ≤ b.space.p
  vert : ∀ v ∈ D.verts, (∀ c ∈ v.corners, c.1.1 < D.np ∧ K.cornerPiece c.1.2 < K.nPieces) ∧
    v.corners.Pairwise fun c c' => ¬ (c.1.1 = c'.1.1 ∧ K.cornerPiece c.1.2 = K.cornerPiece c'.1.2)

/-! ### entries in closed form -/

noncomputable def wIface (K : Cls) (D : Data) (i : Iface) (s : ℕ) : List Entry :=
  coefEntries K D K.epsI s (ifaceFuns K i.space) i.first.1 (K.sidePiece i.first.2) (i.coef false)
    ++ coefEntries K D K.epsI s (ifaceFuns K i.space) i.second.1 (K.sidePiece i.second.2) (i.coef true)
noncomputable def wBdy (K : Cls) (D : Data) (b : Bdy) (s : ℕ) : List Entry :=
  coefEntries K D K.epsB s (ifaceFuns K b.space) b.side.1 (K.sidePiece b.side.2) b.coef
noncomputable def wVert (K : Cls) (D : Data) (v : Vert) (s : ℕ) : List Entry :=
  v.corners.flatMap fun c => coefEntries K D K.epsV s 6 c.1.1 (K.cornerPiece c.1.2) c.2

theorem run_eq (K : Cls) (D : Data) : run K D =
    (rowsInner D + rowsI K D + rowsB K D + (D.verts.map fun _ => 6).sum,
     allE (nInner D) (fun p s => innerEntries K D s p) 0 (List.range D.np) ++
     allE (fun i : Iface => ifaceFuns K i.space) (wIface K D) (rowsInner D) D.ifaces ++
     allE (fun i : Bdy => ifaceFuns K i.space) (wBdy K D) (rowsInner D + rowsI K D) D.bdys ++
     allE (fun _ : Vert => 6) (wVert K D) (rowsInner D + rowsI K D + rowsB K D) D.verts) := by
  simp only [run]
  rw [fold_eq (nInner D) (fun p s => innerEntries K D s p) (patchStep K D) (by intro st x; simp [patchStep, innerPairs_length, nInner])]
  rw [fold_eq (fun i : Iface => ifaceFuns K i.space) (wIface K D) (ifaceStep K D) (by intro st x; simp [ifaceStep, wIface])]
  rw [fold_eq (fun i : Bdy => ifaceFuns K i.space) (wBdy K D) (bdyStep K D) (by intro st x; simp [bdyStep, wBdy])]
  rw [fold_eq (fun _ : Vert => 6) (wVert K D) (vertStep K D) (by intro st x; simp [vertStep, wVert])]
  simp only [Nat.zero_add, List.nil_append]
  rfl

theorem wIface_range (K : Cls) (D : Data) : ∀ (i : Iface) s, ∀ e ∈ wIface K D i s, s ≤ e.1 ∧ e.1 < s + ifaceFuns K i.space := by
  intro i s e he
  rcases List.mem_append.1 he with h | h <;> exact coef_range _ _ _ _ _ _ _ _ e h
theorem wBdy_range (K : Cls) (D : Data) : ∀ (i : Bdy) s, ∀ e ∈ wBdy K D i s, s ≤ e.1 ∧ e.1 < s + ifaceFuns K i.space := by
  intro i s e he
  exact coef_range _ _ _ _ _ _ _ _ e he
theorem wVert_range (K : Cls) (D : Data) : ∀ (i : Vert) s, ∀ e ∈ wVert K D i s, s ≤ e.1 ∧ e.1 < s + 6 := by
  intro i s e he
  obtain ⟨c, hc, h⟩ := List.mem_flatMap.1 he
  exact coef_range _ _ _ _ _ _ _ _ e h
theorem wInner_range (K : Cls) (D : Data) : ∀ p s, ∀ e ∈ innerEntries K D s p, s ≤ e.1 ∧ e.1 < s + nInner D p := by
  intro p s e he
  have := inner_range K D p s e he
  rwa [innerPairs_length] at this

theorem coef_disj {K : Cls} {D : Data} {eps eps' : ℝ} {s n n' p q p' q' : ℕ} {coef coef' : ℕ → ℕ → ℝ} (hq : q < K.nPieces) (hq' : q' < K.nPieces)
    (hne : ¬ (p = p' ∧ q = q')) : ∀ e ∈ coefEntries K D eps s n p q coef, ∀ e' ∈ coefEntries K D eps' s n' p' q' coef', ¬ (e.1 = e'.1 ∧ e.2.1 = e'.2.1) := by
  intro e he e' he' h
  obtain ⟨ii, jj, h1, h2, h3, rfl⟩ := (mem_coefEntries ..).1 he
  obtain ⟨ii', jj', h1', h2', h3', rfl⟩ := (mem_coefEntries ..).1 he'
  have := colOf_inj K D hq h2 hq' h2' h.2
  exact hne ⟨this.1, this.2.1⟩

theorem wIface_nodup {K : Cls} {D : Data} (H : WF K D) {i : Iface} (hi : i ∈ D.ifaces) (s : ℕ) : ((wIface K D i s).map fun e => (e.1, e.2.1)).Nodup := by
  obtain ⟨h1, h2, h3, h4, h5, -⟩ := H.iface i hi
  unfold wIface
  rw [List.map_append, List.nodup_append]
  refine ⟨coef_nodup .., coef_nodup .., ?_⟩
  rintro a ha b hb rfl
  obtain ⟨e, he, rfl⟩ := List.mem_map.1 ha
  obtain ⟨e', he', h⟩ := List.mem_map.1 hb
  simp only [Prod.mk.injEq] at h
  exact coef_disj h3 h4 h5 e he e' he' ⟨h.1.symm, h.2.symm⟩

theorem wVert_nodup {K : Cls} {D : Data} (H : WF K D) {v : Vert} (hv : v ∈ D.verts) (s : ℕ) : ((wVert K D v s).map fun e => (e.1, e.2.1)).Nodup := by
  obtain ⟨h1, h2⟩ := H.vert v hv
  unfold wVert
  apply nodup_flatMap_rows
  · intro c _; exact coef_nodup ..
  · refine List.Pairwise.imp_of_mem ?_ h2
    intro c c' hc hc' hne
    exact coef_disj (h1 c hc).2 (h1 c' hc').2 hne

theorem run_nodup {K : Cls} {D : Data} (H : WF K D) : ((run K D).2.map fun e => (e.1, e.2.1)).Nodup := by
  rw [run_eq]
  refine nodup_append_rows (rowsInner D + rowsI K D + rowsB K D) (nodup_append_rows (rowsInner D + rowsI K D)
    (nodup_append_rows (rowsInner D) (allE_nodup (wInner_range K D) ?_) (allE_nodup (wIface_range K D) ?_) ?_ ?_)
    (allE_nodup (wBdy_range K D) ?_) ?_ ?_) (allE_nodup (wVert_range K D) ?_) ?_ ?_
  · intro p _ s; exact inner_nodup K D p s
  · intro i hi s; exact wIface_nodup H hi s
  · intro e he; have := (allE_range (wInner_range K D) he).2; simpa [rowsInner] using this
  · intro e he; exact (allE_range (wIface_range K D) he).1
  · intro b _ s; exact coef_nodup ..
  · intro e he
    rcases List.mem_append.1 he with he | he
    · have := (allE_range (wInner_range K D) he).2
      simp only [rowsInner]; omega
    · have := (allE_range (wIface_range K D) he).2
      simpa [rowsI] using this
  · intro e he; exact (allE_range (wBdy_range K D) he).1
  · intro v hv s; exact wVert_nodup H hv s
  · intro e he
    rcases List.mem_append.1 he with he | he
    · rcases List.mem_append.1 he with he | he
      · have := (allE_range (wInner_range K D) he).2
        simp only [rowsInner]; omega
      · have := (allE_range (wIface_range K D) he).2
        simp only [rowsI]; omega
    · have := (allE_range (wBdy_range K D) he).2
      simpa [rowsB] using this
  · intro e he; exact (allE_range (wVert_range K D) he).1

theorem take_range {a b : ℕ} (h : a ≤ b) : (List.range b).take a = List.range a := by
  rw [List.take_range, Nat.min_eq_left h]

theorem find_first {β : Type} (l : List β) (P : β → Prop) [DecidablePred P] (R : β → β → Prop) (hR : l.Pairwise R) (hRP : ∀ a b, R a b → P a → P b → False)
    (c : β) (hc : c ∈ l) (hP : P c) : l.find? (fun c => P c) = some c := by
  induction l with
  | nil => simp at hc
  | cons a l ih =>
    rw [List.pairwise_cons] at hR
    rw [List.find?_cons]
    rcases List.mem_cons.1 hc with rfl | hc'
    · simp [hP]
    · have : ¬ P a := fun h => hRP _ _ (hR.1 c hc') h hP
      simp only [this, decide_false]
      exact ih hR.2 hc'

/-- every entry belongs to a function and has the right value -/
theorem run_sound {K : Cls} {D : Data} (H : WF K D) (e : Entry) (he : e ∈ (run K D).2) :
    ∃ f : Fn, f.Valid K D ∧ ∃ p s k, p < D.np ∧ s < K.nPieces ∧ k < D.piece p s ∧ e = (rowOf K D f, colOf K D p s k, value K D f p s k) := by
  rw [run_eq] at he
  rcases List.mem_append.1 he with he | he
  · rcases List.mem_append.1 he with he | he
    · rcases List.mem_append.1 he with he | he
      · obtain ⟨n, p, h1, h2⟩ := (mem_allE ..).1 he
        rw [List.getElem?_eq_some_iff] at h1
        obtain ⟨hn, h1⟩ := h1
        rw [List.getElem_range] at h1
        subst h1
        rw [List.length_range] at hn
        obtain ⟨a, b, ha, hb, rfl⟩ := (mem_innerEntries ..).1 h2
        refine ⟨.inner n (2 + b) (2 + a), ⟨hn, by omega, by omega, by omega, by omega⟩, n, 0, (2 + a) * D.du n + (2 + b), hn, H.pieces, ?_, ?_⟩
        · rw [H.piece0 n hn, Nat.mul_comm (D.du n)]
          exact idx_lt (by omega) (by omega)
        · simp only [rowOf, value, coefOf, start, take_range hn.le, Nat.zero_add, and_self, if_true, Nat.add_sub_cancel_left]
      · obtain ⟨n, x, h1, h2⟩ := (mem_allE ..).1 he
        obtain ⟨k1, k2, k3, k4, k5, -⟩ := H.iface x (List.mem_of_getElem? h1)
        rcases List.mem_append.1 h2 with h2 | h2
        · obtain ⟨ii, jj, g1, g2, g3, rfl⟩ := (mem_coefEntries ..).1 h2
          refine ⟨.edge n ii, ⟨x, h1, g1⟩, _, _, jj, k1, k3, g2, ?_⟩
          simp [rowOf, value, coefOf, h1, kept, g3, start]
        · obtain ⟨ii, jj, g1, g2, g3, rfl⟩ := (mem_coefEntries ..).1 h2
          refine ⟨.edge n ii, ⟨x, h1, g1⟩, _, _, jj, k2, k4, g2, ?_⟩
          have : ¬ (x.second.1 = x.first.1 ∧ K.sidePiece x.second.2 = K.sidePiece x.first.2) := fun h => k5 ⟨h.1.symm, h.2.symm⟩
          simp [rowOf, value, coefOf, h1, kept, g3, start, this]
    · obtain ⟨n, x, h1, h2⟩ := (mem_allE ..).1 he
      obtain ⟨k1, k2, -⟩ := H.bdy x (List.mem_of_getElem? h1)
      obtain ⟨ii, jj, g1, g2, g3, rfl⟩ := (mem_coefEntries ..).1 h2
      refine ⟨.bdy n ii, ⟨x, h1, g1⟩, _, _, jj, k1, k2, g2, ?_⟩
      simp [rowOf, value, coefOf, h1, kept, g3, start]
  · obtain ⟨n, x, h1, h2⟩ := (mem_allE ..).1 he
    obtain ⟨k1, k2⟩ := H.vert x (List.mem_of_getElem? h1)
    obtain ⟨c, hc, h2⟩ := List.mem_flatMap.1 h2
    obtain ⟨ii, jj, g1, g2, g3, rfl⟩ := (mem_coefEntries ..).1 h2
    have hn := (List.getElem?_eq_some_iff.1 h1).1
    refine ⟨.vert n ii, ⟨hn, g1⟩, _, _, jj, (k1 c hc).1, (k1 c hc).2, g2, ?_⟩
    classical
    have hf := find_first x.corners (fun c' => c.1.1 = c'.1.1 ∧ K.cornerPiece c.1.2 = K.cornerPiece c'.1.2) _ k2
      (fun a b hab ha hb => hab ⟨ha.1.symm.trans hb.1, ha.2.symm.trans hb.2⟩) c hc ⟨rfl, rfl⟩
    simp only [rowOf, value, coefOf, h1, Option.elim_some, start]
    rw [show (x.corners.find? fun c' => decide (c.1.1 = c'.1.1 ∧ K.cornerPiece c.1.2 = K.cornerPiece c'.1.2)) = some c by convert hf]
    simp only [Option.map_some, Option.getD_some, kept, if_pos g3, List.map_const', List.sum_replicate, List.length_take, smul_eq_mul, Nat.min_eq_left hn.le]
    rw [Nat.mul_comm n 6]

/-- every coefficient of a function is entered -/
theorem run_complete {K : Cls} {D : Data} (H : WF K D) (f : Fn) (hf : f.Valid K D) {p s k : ℕ} (hk : k < D.piece p s) (h0 : value K D f p s k ≠ 0) :
    (rowOf K D f, colOf K D p s k, value K D f p s k) ∈ (run K D).2 := by
  classical
  rw [run_eq]
  simp only [List.mem_append]
  cases f with
  | inner p' i j =>
    obtain ⟨hp, h1, h2, h3, h4⟩ := hf
    left; left; left
    simp only [value, coefOf] at h0
    split_ifs at h0 with hc
    · obtain ⟨rfl, rfl, rfl⟩ := hc
      rw [mem_allE]
      refine ⟨p, p, by simp [hp], (mem_innerEntries ..).2 ⟨j - 2, i - 2, by omega, by omega, ?_⟩⟩
      simp only [rowOf, value, coefOf, start, take_range hp.le, Nat.zero_add, and_self, if_true, Nat.add_sub_of_le h1, Nat.add_sub_of_le h3]
    · exact absurd rfl h0
  | edge n ii =>
    obtain ⟨x, h1, h2⟩ := hf
    left; left; right
    rw [mem_allE]
    refine ⟨n, x, h1, ?_⟩
    simp only [value, coefOf, h1, Option.elim_some, kept] at h0 ⊢
    unfold wIface
    rw [List.mem_append]
    split_ifs at h0 ⊢ with a b c d
    · obtain ⟨rfl, rfl⟩ := a
      left
      exact (mem_coefEntries ..).2 ⟨ii, k, h2, hk, b, by simp [rowOf, start]⟩
    · exact absurd rfl h0
    · obtain ⟨rfl, rfl⟩ := c
      right
      exact (mem_coefEntries ..).2 ⟨ii, k, h2, hk, d, by simp [rowOf, start]⟩
    · exact absurd rfl h0
    · exact absurd rfl h0
  | bdy n ii =>
    obtain ⟨x, h1, h2⟩ := hf
    left; right
    rw [mem_allE]
    refine ⟨n, x, h1, ?_⟩
    simp only [value, coefOf, h1, Option.elim_some, kept] at h0 ⊢
    split_ifs at h0 ⊢ with a b
    · obtain ⟨rfl, rfl⟩ := a
      exact (mem_coefEntries ..).2 ⟨ii, k, h2, hk, b, by simp [rowOf, start]⟩
    · exact absurd rfl h0
    · exact absurd rfl h0
  | vert n ii =>
    obtain ⟨hn, h2⟩ := hf
    right
    have h1 : D.verts[n]? = some D.verts[n] := List.getElem?_eq_getElem hn
    rw [mem_allE]
    refine ⟨n, _, h1, ?_⟩
    simp only [value, coefOf, h1, Option.elim_some] at h0 ⊢
    cases hfi : D.verts[n].corners.find? (fun c => decide (p = c.1.1 ∧ s = K.cornerPiece c.1.2)) with
    | none => rw [hfi] at h0; exact absurd rfl h0
    | some c =>
      rw [hfi] at h0
      have hc := List.find?_some hfi
      have hm := List.mem_of_find?_eq_some hfi
      simp only [decide_eq_true_eq] at hc
      obtain ⟨rfl, rfl⟩ := hc
      simp only [Option.map_some, Option.getD_some, kept] at h0 ⊢
      split_ifs at h0 ⊢ with a
      · refine List.mem_flatMap.2 ⟨c, hm, (mem_coefEntries ..).2 ⟨ii, k, h2, hk, a, ?_⟩⟩
        simp only [rowOf, start, List.map_const', List.sum_replicate, List.length_take, smul_eq_mul, Nat.min_eq_left hn.le]
        rw [Nat.mul_comm n 6]
      · exact absurd rfl h0

/-- total number of rows filled -/
def total (K : Cls) (D : Data) : ℕ := rowsInner D + rowsI K D + rowsB K D + 6 * D.verts.length

theorem rowOf_lt {K : Cls} {D : Data} (f : Fn) (hf : f.Valid K D) : match f with
    | .inner .. => rowOf K D f < rowsInner D
    | .edge .. => rowsInner D ≤ rowOf K D f ∧ rowOf K D f < rowsInner D + rowsI K D
    | .bdy .. => rowsInner D + rowsI K D ≤ rowOf K D f ∧ rowOf K D f < rowsInner D + rowsI K D + rowsB K D
    | .vert .. => rowsInner D + rowsI K D + rowsB K D ≤ rowOf K D f ∧ rowOf K D f < total K D := by
  cases f with
  | inner p i j =>
    obtain ⟨hp, h1, h2, h3, h4⟩ := hf
    have := start_le (nInner D) (L := List.range D.np) (k := p) (x := p) (by simp [hp])
    have h5 : (j - 2) * (D.du p - 4) + (i - 2) < nInner D p := idx_lt (by omega) (by omega)
    simp only [start, take_range hp.le] at this
    simp only [rowOf, rowsInner]
    omega
  | edge n ii =>
    obtain ⟨x, h1, h2⟩ := hf
    have := start_le (fun i : Iface => ifaceFuns K i.space) h1
    simp only [start] at this
    simp only [rowOf, rowsI]
    omega
  | bdy n ii =>
    obtain ⟨x, h1, h2⟩ := hf
    have := start_le (fun i : Bdy => ifaceFuns K i.space) h1
    simp only [start] at this
    simp only [rowOf, rowsB]
    omega
  | vert n ii =>
    obtain ⟨hn, h2⟩ := hf
    simp only [rowOf, total]
    omega

theorem rowOf_inj {K : Cls} {D : Data} {f g : Fn} (hf : f.Valid K D) (hg : g.Valid K D) (h : rowOf K D f = rowOf K D g) : f = g := by
  have bf := rowOf_lt f hf
  have bg := rowOf_lt g hg
  cases f with
  | inner p i j =>
    cases g with
    | inner p' i' j' =>
      obtain ⟨hp, h1, h2, h3, h4⟩ := hf
      obtain ⟨hp', h1', h2', h3', h4'⟩ := hg
      have h5 : (j - 2) * (D.du p - 4) + (i - 2) < nInner D p := idx_lt (by omega) (by omega)
      have h5' : (j' - 2) * (D.du p' - 4) + (i' - 2) < nInner D p' := idx_lt (by omega) (by omega)
      have e : p = p' := by
        refine locate_unique (n := nInner D) (List.range D.np) (r := rowOf K D (.inner p i j)) (x := p) (x' := p') (by simp [hp]) (by simp [hp']) ?_ ?_ ?_ ?_
        · simp only [start, take_range hp.le, rowOf]; omega
        · simp only [start, take_range hp.le, rowOf]; omega
        · rw [h]; simp only [start, take_range hp'.le, rowOf]; omega
        · rw [h]; simp only [start, take_range hp'.le, rowOf]; omega
      subst e
      simp only [rowOf] at h
      obtain ⟨e1, e2⟩ := idx_inj (a := j - 2) (b := i - 2) (a' := j' - 2) (b' := i' - 2) (n := D.du p - 4) (by omega) (by omega) (by omega)
      congr 1 <;> omega
    | edge => simp only at bf bg; omega
    | bdy => simp only at bf bg; omega
    | vert => simp only at bf bg; omega
  | edge n ii =>
    cases g with
    | edge n' ii' =>
      obtain ⟨x, h1, h2⟩ := hf
      obtain ⟨x', h1', h2'⟩ := hg
      simp only [rowOf] at h
      have e : n = n' := locate_unique (n := fun i : Iface => ifaceFuns K i.space) D.ifaces
        (r := ((D.ifaces.take n).map fun i => ifaceFuns K i.space).sum + ii) h1 h1'
        (by simp only [start]; omega) (by simp only [start]; omega) (by simp only [start]; omega) (by simp only [start]; omega)
      subst e
      congr 1
      omega
    | inner => simp only at bf bg; omega
    | bdy => simp only at bf bg; omega
    | vert => simp only at bf bg; omega
  | bdy n ii =>
    cases g with
    | bdy n' ii' =>
      obtain ⟨x, h1, h2⟩ := hf
      obtain ⟨x', h1', h2'⟩ := hg
      simp only [rowOf] at h
      have e : n = n' := locate_unique (n := fun i : Bdy => ifaceFuns K i.space) D.bdys
        (r := ((D.bdys.take n).map fun i => ifaceFuns K i.space).sum + ii) h1 h1'
        (by simp only [start]; omega) (by simp only [start]; omega) (by simp only [start]; omega) (by simp only [start]; omega)
      subst e
      congr 1
      omega
    | inner => simp only at bf bg; omega
    | edge => simp only at bf bg; omega
    | vert => simp only at bf bg; omega
  | vert n ii =>
    cases g with
    | vert n' ii' =>
      obtain ⟨-, h2⟩ := hf
      obtain ⟨-, h2'⟩ := hg
      simp only [rowOf] at h
      have e : n = n' := by omega
      subst e
      congr 1
      omega
    | inner => simp only at bf bg; omega
    | edge => simp only at bf bg; omega
    | bdy => simp only at bf bg; omega

theorem rowOf_surj {K : Cls} {D : Data} {r : ℕ} (hr : r < total K D) : ∃ f : Fn, f.Valid K D ∧ rowOf K D f = r := by
  unfold total at hr
  by_cases h1 : r < rowsInner D
  · obtain ⟨p, x, g1, g2, g3⟩ := locate (n := nInner D) (List.range D.np) h1
    obtain ⟨hp, g1⟩ := List.getElem?_eq_some_iff.1 g1
    rw [List.getElem_range] at g1
    subst g1
    rw [List.length_range] at hp
    simp only [start, take_range hp.le] at g2 g3
    generalize hs : ((List.range p).map (nInner D)).sum = S at *
    have hlt : r - S < (D.dv p - 4) * (D.du p - 4) := by unfold nInner at g3; omega
    have hpos : 0 < D.du p - 4 := Nat.pos_of_ne_zero (by intro h0; rw [h0] at hlt; simp at hlt)
    have ha : (r - S) / (D.du p - 4) < D.dv p - 4 := (Nat.div_lt_iff_lt_mul hpos).2 hlt
    have hb : (r - S) % (D.du p - 4) < D.du p - 4 := Nat.mod_lt _ hpos
    have hkk : (r - S) / (D.du p - 4) * (D.du p - 4) + (r - S) % (D.du p - 4) = r - S := by rw [Nat.mul_comm]; exact Nat.div_add_mod _ _
    generalize (r - S) / (D.du p - 4) = a at *
    generalize (r - S) % (D.du p - 4) = b at *
    refine ⟨.inner p (b + 2) (a + 2), ⟨hp, by omega, by omega, by omega, by omega⟩, ?_⟩
    simp only [rowOf, hs, Nat.add_sub_cancel, hkk]
    omega
  · by_cases h2 : r < rowsInner D + rowsI K D
    · obtain ⟨n, x, g1, g2, g3⟩ := locate (n := fun i : Iface => ifaceFuns K i.space) D.ifaces (r := r - rowsInner D) (by unfold rowsI at h2; omega)
      simp only [start] at g2 g3
      exact ⟨.edge n (r - rowsInner D - ((D.ifaces.take n).map fun i => ifaceFuns K i.space).sum), ⟨x, g1, by omega⟩, by simp only [rowOf]; omega⟩
    · by_cases h3 : r < rowsInner D + rowsI K D + rowsB K D
      · obtain ⟨n, x, g1, g2, g3⟩ := locate (n := fun i : Bdy => ifaceFuns K i.space) D.bdys (r := r - rowsInner D - rowsI K D) (by unfold rowsB at h3; omega)
        simp only [start] at g2 g3
        exact ⟨.bdy n (r - rowsInner D - rowsI K D - ((D.bdys.take n).map fun i => ifaceFuns K i.space).sum), ⟨x, g1, by omega⟩, by simp only [rowOf]; omega⟩
      · refine ⟨.vert ((r - (rowsInner D + rowsI K D + rowsB K D)) / 6) ((r - (rowsInner D + rowsI K D + rowsB K D)) % 6), ⟨by omega, by omega⟩, ?_⟩
        simp only [rowOf]; omega

/-! ### the counts -/

theorem sum_map_int {β : Type} (l : List β) (f : β → ℕ) : ((l.map f).sum : ℤ) = (l.map fun x => (f x : ℤ)).sum := by
  induction l with
  | nil => rfl
  | cons a l ih => simp [ih]

theorem rowDofs_eq {K : Cls} {D : Data} (H : WF K D) (he : ∀ s : Space, ((∃ i ∈ D.ifaces, i.space = s) ∨ ∃ b ∈ D.bdys, b.space = s) →
    K.edgeRows (K.plus s).size (K.minus s).size = ifaceFuns K s) : rowDofs K D = total K D := by
  unfold rowDofs total rowsInner rowsI rowsB
  push_cast
  rw [sum_map_int, sum_map_int, sum_map_int]
  congr 1
  · congr 1
    · congr 1
      · congr 1
        apply List.map_congr_left
        intro p hp
        have h1 := H.du p (List.mem_range.1 hp)
        have h2 := H.dv p (List.mem_range.1 hp)
        unfold nInner
        push_cast [h1, h2]
        ring
      · congr 1
        exact List.map_congr_left fun i hi => he _ (Or.inl ⟨i, hi, rfl⟩)
    · congr 1
      exact List.map_congr_left fun i hi => he _ (Or.inr ⟨i, hi, rfl⟩)
  · simp [mul_comm]

/-- The full statement, for both classes; `np` pieces per patch, `co` the coefficients to be stored: the rows are in bijection with the functions, no position is
written twice, the matrix exists (nothing is written outside) and contains the coefficients. -/
def Correct (K : Cls) (D : Data) (np : ℕ) (co : Fn → ℕ → ℕ → ℕ → ℝ) (m : Option (ℕ → ℕ → ℝ)) : Prop :=
  (∀ r : ℕ, (r : ℤ) < rowDofs K D ↔ ∃ f : Fn, f.Valid K D ∧ rowOf K D f = r) ∧
  (∀ f g : Fn, f.Valid K D → g.Valid K D → rowOf K D f = rowOf K D g → f = g) ∧
  ((run K D).2.map fun e => (e.1, e.2.1)).Nodup ∧
  ∃ M, m = some M ∧ ∀ f : Fn, f.Valid K D → ∀ p s k, p < D.np → s < np → k < D.piece p s →
    M (rowOf K D f) (colOf K D p s k) = co f p s k

theorem correct_core {K : Cls} {D : Data} (H : WF K D) (ht : rowDofs K D = total K D) (look : List Entry → ℕ → ℕ → ℝ)
    (l1 : ∀ l : List Entry, (l.map fun e => (e.1, e.2.1)).Nodup → ∀ r c v, (r, c, v) ∈ l → look l r c = v)
    (l2 : ∀ (l : List Entry) r c, (∀ v, (r, c, v) ∉ l) → look l r c = 0) (m : Option (ℕ → ℕ → ℝ))
    (hm : (∀ e ∈ (run K D).2, (e.1 : ℤ) < rowDofs K D ∧ e.2.1 < dimCol K D) → m = some (look (run K D).2)) : Correct K D K.nPieces (value K D) m := by
  have hnd := run_nodup H
  have hb : ∀ f : Fn, f.Valid K D → rowOf K D f < total K D := by
    intro f hf
    have := rowOf_lt f hf
    unfold total at *
    cases f <;> simp only at this <;> omega
  refine ⟨?_, fun f g hf hg h => rowOf_inj hf hg h, hnd, look (run K D).2, hm ?_, ?_⟩
  · intro r
    rw [ht]
    constructor
    · intro h; exact rowOf_surj (by exact_mod_cast h)
    · rintro ⟨f, hf, rfl⟩; exact_mod_cast hb f hf
  · intro e he
    obtain ⟨f, hf, p, s, k, hp, hs, hk, rfl⟩ := run_sound H e he
    exact ⟨by rw [ht]; exact_mod_cast hb f hf, colOf_lt K D hp hs hk⟩
  · intro f hf p s k hp hs hk
    by_cases hex : ∃ v, (rowOf K D f, colOf K D p s k, v) ∈ (run K D).2
    · obtain ⟨v, hv⟩ := hex
      rw [l1 _ hnd _ _ _ hv]
      obtain ⟨g, hg, p', s', k', hp', hs', hk', h⟩ := run_sound H _ hv
      simp only [Prod.mk.injEq] at h
      have := rowOf_inj hf hg h.1
      subst this
      obtain ⟨rfl, rfl, rfl⟩ := colOf_inj K D hs hk hs' hk' h.2.1
      exact h.2.2
    · push Not at hex
      rw [l2 _ _ _ hex]
      by_contra h
      exact hex _ (run_complete H f hf hk (fun h' => h h'.symm))

/-! ## The property -/

theorem approx_edge (s : Space) (hp : 1 ≤ s.p) : approx.edgeRows (approx.plus s).size (approx.minus s).size = ifaceFuns approx s := by
  have : (approx.plus s).size = (approx.minus s).size + 1 := by
    simp only [approx, plusApprox, minusApprox]
    split_ifs <;> simp [Space.size] <;> omega
  unfold ifaceFuns edgeFuns
  simp only [List.length_range']
  rw [this]
  simp only [approx]
  omega

/-- C22 for `gsApproxC1Spline`: rows and functions correspond one to one, no entry is inserted twice or outside the matrix, and the matrix contains
exactly the coefficients of the functions. -/
theorem C22_approx (D : Data) (H : WF approx D) : Correct approx D 9 (coefOf (fun side => side) (fun corner => corner + 4) 1e-25 1e-20 1e-20 D) (approxMatrix D) := by
  have he : ∀ s : Space, ((∃ i ∈ D.ifaces, i.space = s) ∨ ∃ b ∈ D.bdys, b.space = s) → approx.edgeRows (approx.plus s).size (approx.minus s).size = ifaceFuns approx s := by
    rintro s (⟨i, hi, rfl⟩ | ⟨i, hi, rfl⟩)
    · exact approx_edge _ (H.iface i hi).2.2.2.2.2
    · exact approx_edge _ (H.bdy i hi).2.2
  have h0 : 0 ≤ rowDofs approx D := by rw [rowDofs_eq H he]; positivity
  apply correct_core H (rowDofs_eq H he) (fun l r c => ((l.find? fun e => e.1 = r ∧ e.2.1 = c).map fun e => e.2.2).getD 0)
    (fun l hd r c v h => insertAll_lookup hd h) (fun l r c h => insertAll_zero h)
  intro h
  unfold approxMatrix insertAll
  rw [if_pos ⟨h0, h, run_nodup H⟩]

theorem surf_edge (s : Space) (hp : 1 ≤ s.p) : surf.edgeRows (surf.plus s).size (surf.minus s).size = ifaceFuns surf s ↔ 6 ≤ (surf.plus s).size := by
  have : (surf.plus s).size = (surf.minus s).size + 1 := by
    simp only [surf, plusSurf, minusSurf, Space.size]; omega
  unfold ifaceFuns edgeFuns
  simp only [List.length_range']
  rw [this]
  simp only [surf]
  omega

/-- C22 for `gsC1SurfSpline`: the same if along every edge the space of higher smoothness has at least six functions. Missing: smaller spaces, where the
count is wrong (`C22_surf_count_iff`, `C22_surf_violated`). -/
theorem C22_surf_partial (D : Data) (H : WF surf D) (hI : ∀ i ∈ D.ifaces, 6 ≤ (plusSurf i.space).size) (hB : ∀ b ∈ D.bdys, 6 ≤ (plusSurf b.space).size) :
    Correct surf D 1 (coefOf (fun _ => 0) (fun _ => 0) 1e-25 1e-25 1e-25 D) (surfMatrix D) := by
  have he : ∀ s : Space, ((∃ i ∈ D.ifaces, i.space = s) ∨ ∃ b ∈ D.bdys, b.space = s) → surf.edgeRows (surf.plus s).size (surf.minus s).size = ifaceFuns surf s := by
    rintro s (⟨i, hi, rfl⟩ | ⟨i, hi, rfl⟩)
    · exact (surf_edge _ (H.iface i hi).2.2.2.2.2).2 (hI i hi)
    · exact (surf_edge _ (H.bdy i hi).2.2).2 (hB i hi)
  have h0 : 0 ≤ rowDofs surf D := by rw [rowDofs_eq H he]; positivity
  apply correct_core H (rowDofs_eq H he) (fun l r c => ((l.filter fun e => e.1 = r ∧ e.2.1 = c).map fun e => e.2.2).sum)
    (fun l hd r c v h => triplet_lookup hd h) (fun l r c h => triplet_zero h)
  intro h
  unfold surfMatrix tripletAll
  rw [if_pos ⟨h0, h⟩]

/-- C22, exact condition for the count of one edge in `gsC1SurfSpline`. -/
theorem C22_surf_count_iff (s : Space) (hp : 1 ≤ s.p) :
    surf.edgeRows (plusSurf s).size (minusSurf s).size = ifaceFuns surf s ↔ 6 ≤ (plusSurf s).size := surf_edge s hp

/-! ### The check of `gsC1SurfSpline::init` does not suffice -/

/-- One bi-cubic patch with one interior knot of multiplicity two in each direction (2×2 elements): four boundary edges, four vertices, every coefficient `1`. -/
noncomputable def small : Data where
  np := 1
  du _ := 6
  dv _ := 6
  piece _ _ := 36
  ifaces := []
  bdys := [1, 2, 3, 4].map fun s => ⟨(0, s), ⟨3, [2]⟩, fun _ _ => 1⟩
  verts := [1, 2, 3, 4].map fun c => ⟨[((0, c), fun _ _ => 1)]⟩

theorem small_wf : WF surf small := by
  refine ⟨by simp [small], by simp [small], by simp [small], by simp [surf], by simp [small], ?_, ?_⟩
  · intro b hb
    simp only [small, List.map_cons, List.map_nil, List.mem_cons, List.not_mem_nil, or_false] at hb
    rcases hb with rfl | rfl | rfl | rfl <;> simp [small, surf]
  · intro v hv
    simp only [small, List.map_cons, List.map_nil, List.mem_cons, List.not_mem_nil, or_false] at hv
    rcases hv with rfl | rfl | rfl | rfl <;> simp [small, surf]

theorem small_rows : rowDofs surf small = 24 := by
  simp [rowDofs, small, surf, plusSurf, minusSurf, Space.size, elevate]

theorem small_total : total surf small = 28 := by
  simp [total, rowsInner, nInner, rowsI, rowsB, small, surf, ifaceFuns, edgeFuns, plusSurf, minusSurf, Space.size, elevate]

/-- C22 is violated by `gsC1SurfSpline`: this patch passes the check of `init`, but `init` reserves 24 rows for 28 functions and `compute` writes outside
the matrix. -/
theorem C22_surf_violated : WF surf small ∧ (∀ b ∈ small.bdys, surfCheck b.space) ∧ rowDofs surf small = 24 ∧
    (∃ f : Fn, f.Valid surf small ∧ rowOf surf small f = 27) ∧ surfMatrix small = none := by
  refine ⟨small_wf, ?_, small_rows, rowOf_surj (by rw [small_total]; omega), ?_⟩
  · intro b hb
    simp only [small, List.map_cons, List.map_nil, List.mem_cons, List.not_mem_nil, or_false] at hb
    rcases hb with rfl | rfl | rfl | rfl <;> simp [surfCheck]
  · unfold surfMatrix tripletAll
    rw [if_neg]
    rintro ⟨-, h⟩
    have hv : value surf small (.vert 3 0) 0 0 0 = 1 := by
      simp only [value, coefOf, small, surf, kept, List.map_cons, List.map_nil]
      norm_num
    have := h _ (run_complete small_wf (.vert 3 0) ⟨by simp [small], by omega⟩ (p := 0) (s := 0) (k := 0) (by simp [small]) (by rw [hv]; norm_num))
    rw [small_rows] at this
    have h2 : rowOf surf small (.vert 3 0) = 22 := by
      simp [rowOf, rowsInner, nInner, rowsI, rowsB, small, surf, ifaceFuns, edgeFuns, plusSurf, minusSurf, Space.size, elevate]
    have hv5 : value surf small (.vert 3 5) 0 0 0 = 1 := by
      simp only [value, coefOf, small, surf, kept, List.map_cons, List.map_nil]
      norm_num
    have := h _ (run_complete small_wf (.vert 3 5) ⟨by simp [small], by omega⟩ (p := 0) (s := 0) (k := 0) (by simp [small]) (by rw [hv5]; norm_num))
    rw [small_rows] at this
    have h5 : rowOf surf small (.vert 3 5) = 27 := by
      simp [rowOf, rowsInner, nInner, rowsI, rowsB, small, surf, ifaceFuns, edgeFuns, plusSurf, minusSurf, Space.size, elevate]
    rw [h5] at this
    norm_num at this

/-- C22, both classes: the count of inner functions `(dim_u-4)*(dim_v-4)` equals the number of rows filled exactly under this condition; two directions with fewer than
four functions give a positive count for no function. -/
theorem C22_inner_count_iff (du dv : ℕ) : ((du : ℤ) - 4) * ((dv : ℤ) - 4) = (innerPairs du dv).length ↔ (4 ≤ du ∧ 4 ≤ dv) ∨ du = 4 ∨ dv = 4 := by
  rw [innerPairs_length]
  rcases le_or_gt 4 du with h1 | h1
  · obtain ⟨a, rfl⟩ := Nat.exists_eq_add_of_le h1
    rcases le_or_gt 4 dv with h2 | h2
    · obtain ⟨b, rfl⟩ := Nat.exists_eq_add_of_le h2
      simp only [Nat.add_sub_cancel_left]
      push_cast
      constructor
      · intro _; left; omega
      · intro _; ring
    · have : dv - 4 = 0 := by omega
      rw [this]
      push_cast
      rw [zero_mul, mul_eq_zero]
      omega
  · have : du - 4 = 0 := by omega
    rw [this]
    push_cast
    rw [mul_zero, mul_eq_zero]
    omega

/-- Two cubic patches with 4×4 elements, full smoothness C1 (interior multiplicity two), joined along an interface. -/
noncomputable def two : Data where
  np := 2
  du _ := 10
  dv _ := 10
  piece _ s := if s = 0 then 100 else 80
  ifaces := [⟨(0, 2), (1, 1), ⟨3, [2, 2, 2]⟩, fun _ ii jj => ii + jj⟩]
  bdys := [⟨(0, 1), ⟨3, [2, 2, 2]⟩, fun _ _ => 1⟩, ⟨(1, 4), ⟨3, [2, 2, 2]⟩, fun _ _ => 0⟩]
  verts := [⟨[((0, 2), fun _ _ => 2), ((1, 1), fun _ _ => 3)]⟩]

example : WF approx two ∧ rowDofs approx two = 72 + 9 + 6 ∧ ∃ f : Fn, f.Valid approx two ∧ rowOf approx two f = 75 := by
  have hw : WF approx two := by
    refine ⟨by simp [two], by simp [two], by simp [two], by simp [approx], ?_, ?_, ?_⟩
    · simp [two, approx]
    · simp [two, approx]
    · simp [two, approx]
      rintro a b - (⟨⟨rfl, rfl⟩, -⟩ | ⟨⟨rfl, rfl⟩, -⟩) <;> omega
  refine ⟨hw, ?_, rowOf_surj ?_⟩
  · simp [rowDofs, two, approx, plusApprox, minusApprox, Space.size, elevate, Space.firstMult]
  · simp [total, rowsInner, nInner, rowsI, rowsB, two, approx, List.range_succ, ifaceFuns, edgeFuns, plusApprox, minusApprox, Space.size, elevate, Space.firstMult]

noncomputable def twoS : Data := { two with piece := fun _ _ => 100 }

example : WF surf twoS ∧ (∀ i ∈ twoS.ifaces, 6 ≤ (plusSurf i.space).size) ∧ (∀ b ∈ twoS.bdys, 6 ≤ (plusSurf b.space).size) := by
  refine ⟨⟨by simp [two, twoS], by simp [two, twoS], by simp [two, twoS], by simp [surf], ?_, ?_, ?_⟩, ?_, ?_⟩ <;>
    simp [two, twoS, surf, plusSurf, Space.size, elevate]
  rintro a b - (⟨⟨rfl, rfl⟩, -⟩ | ⟨⟨rfl, rfl⟩, -⟩) <;> omega

end Verif.C1Rows
