import Verif.Model.VertexKind
import Verif.Proofs.Sharp
import Verif.Props.Smooth
import Verif.Props.DPatchMap
import Mathlib.Data.Fin.VecNotation
import Mathlib.Tactic.FinCases
/-!
# Property C47: kind of a vertex
-/
set_option autoImplicit false
set_option linter.unusedSectionVars false
set_option linter.unusedVariables false
set_option linter.unusedSimpArgs false
namespace Verif.VertexKind
open Verif Smooth

variable {P : Type} [DecidableEq P]

/-- Sides of the patches of the vertex that do not contain the vertex, but are glued to a patch of the vertex. -/
def farSides (T : Topo P) (c : PC P) : List (PS P) :=
  (T.cl c).flatMap fun d => (Side.all.filter fun s => decide (s ∉ d.2.sides) && match T.nb (d.1, s) with
    | some t => decide (t.1 ∈ patches T c)
    | none => false).map fun s => (d.1, s)

private theorem count_sides (k : Corner) (f : Side → Bool) :
    (Side.all.filter f).length = (k.sides.filter f).length + (Side.all.filter fun s => decide (s ∉ k.sides) && f s).length := by
  have h : Side.all.Perm (k.sides ++ Side.all.filter fun s => decide (s ∉ k.sides)) := by cases k <;> decide
  rw [(h.filter f).length_eq, List.filter_append, List.length_append, List.filter_filter]
  congr 3
  funext s
  rw [Bool.and_comm]

private theorem sub_count {T : Topo P} (ok : Ok T) (c : PC P) : (subSides T (patches T c)).length = (Sharp.inner T c).length + (farSides T c).length := by
  unfold subSides farSides Sharp.inner Sharp.darts
  rw [List.filter_flatMap, List.length_flatMap, List.length_flatMap, List.length_flatMap]
  have hm : ∀ h : P → ℕ, (List.map h (patches T c)) = (T.cl c).map fun d => h d.1 := fun h => by rw [patches, List.map_map]; rfl
  rw [hm, ← List.sum_map_add]
  congr 1
  apply List.map_congr_left
  intro d hd
  rw [List.length_map, List.length_map, List.filter_map, List.length_map, count_sides d.2]
  congr 2
  apply List.filter_congr
  intro s hs
  simp only [Function.comp, isIface]
  cases hn : T.nb (d.1, s) with
  | none => rfl
  | some t =>
    simp only [Option.isSome_some, decide_eq_true_eq]
    have hc : cross T d s = some (t.1, t.2.corner (xor (d.2.tang s) (T.flip (d.1, s)))) := by unfold cross; rw [hn]; rfl
    have h1 := ok.cl_cross d s _ hs hc
    have h2 := (ok.cl_same c d hd _).1 h1
    exact List.mem_map.2 ⟨_, h2, rfl⟩

private theorem inner_count {T : Topo P} (ok : Ok T) (c : PC P) :
    (Sharp.inner T c).length = if T.interior c then 2 * (T.cl c).length else 2 * (T.cl c).length - 2 := by
  have h1 := Sharp.length_split T c
  rcases Sharp.boundaries_cases ok c with ⟨hi, hb⟩ | ⟨hi, hb⟩
  · rw [hi, if_pos rfl]; rw [hb] at h1; simpa using h1
  · rw [hi]; rw [hb] at h1; simp; omega

/-- C47. The count of interfaces tells inner vertices from boundary vertices if and only if the patches of the vertex are not glued elsewhere: an inner vertex is recognised if there is no
further interface between its patches, and a boundary vertex is mistaken for an inner one exactly if there is one further interface. -/
theorem C47_inside_iff {T : Topo P} (ok : Ok T) (c : PC P) :
    inside T c = true ↔ (T.interior c = true ∧ (farSides T c).length / 2 = 0) ∨ (T.interior c = false ∧ (farSides T c).length / 2 = 1) := by
  unfold inside nInt
  rw [sub_count ok, inner_count ok, beq_iff_eq]
  have hl : (patches T c).length = (T.cl c).length := by simp [patches]
  have hpos : 0 < (T.cl c).length := List.length_pos_of_mem (ok.cl_self c)
  rw [hl]
  cases T.interior c <;> simp <;> omega

/-- C47. If the patches of a vertex have no further interfaces, both classes decide correctly. -/
theorem C47_kind_partial {T : Topo P} (ok : Ok T) (c : PC P) (hf : farSides T c = []) :
    (inside T c = true ↔ T.interior c = true) ∧
    kindOfVertex T c = if (T.cl c).length = 1 then -1 else if T.interior c then 0 else 1 := by
  have h := C47_inside_iff ok c
  rw [hf] at h
  have h1 : inside T c = true ↔ T.interior c = true := by rw [h]; simp
  refine ⟨h1, ?_⟩
  unfold kindOfVertex
  have hl : (patches T c).length = (T.cl c).length := by simp [patches]
  unfold inside at h1
  rw [beq_iff_eq] at h1
  rw [hl] at h1 ⊢
  by_cases hi : T.interior c = true
  · simp [h1.2 hi, hi]
  · have : ¬ (T.cl c).length = nInt T (patches T c) := fun hh => hi (h1.1 hh)
    simp [this, hi]

/-- A ring of two patches: each is glued with its east side to the west side of the other one. -/
def ring : Topo Bool where
  n0 := fun _ => 6
  n1 := fun _ => 6
  nb := fun s => match s.2 with | .east => some (!s.1, .west) | .west => some (!s.1, .east) | _ => none
  flip := fun _ => false
  cl := fun c => match c.2 with
    | .sw => [c, (!c.1, .se)] | .se => [c, (!c.1, .sw)] | .nw => [c, (!c.1, .ne)] | .ne => [c, (!c.1, .nw)]
  interior := fun _ => false
  c0 := fun _ => false

theorem ring_ok : Ok ring where
  n0_ge := by decide
  n1_ge := by decide
  nb_symm := by decide
  flip_symm := by decide
  nb_len := by decide
  no_fold := by decide
  cl_self := by decide
  cl_nodup := by decide
  cl_same := by decide
  cl_cross := by decide
  cl_conn := by
    intro c d hd
    have h : ∀ c d, d ∈ ring.cl c → d = c ∨ Step ring c d := by unfold Step; decide
    rcases h c d hd with rfl | h
    · exact Relation.ReflTransGen.refl
    · exact Relation.ReflTransGen.single h
  interior_iff := by decide
  c0_same := by decide

/-- C47 fails for a ring of two patches: all of its vertices lie on the boundary, and all are taken for inner vertices. -/
theorem C47_kind_violation : ∃ (T : Topo Bool), Ok T ∧ (∀ c, T.interior c = false) ∧ (∀ c, ((T.cl c).map (·.1)).Nodup) ∧
    ∀ c, inside T c = true ∧ kindOfVertex T c = 0 := ⟨ring, ring_ok, by decide, by decide, by decide +kernel⟩

example : farSides DPatch.fan3 (0, .sw) = [] ∧ inside DPatch.fan3 (0, .sw) = false ∧ kindOfVertex DPatch.fan3 (0, .sw) = 1 := by decide +kernel
example : (∀ c, farSides three c = []) ∧ inside three (0, .sw) = true ∧ kindOfVertex three (0, .sw) = 0 := by decide +kernel

/-! ## Gluing data -/

variable {R : Type} [Zero R] [One R]

/-- The patches at a vertex in turned position: an interface with a side at the vertex (1 or 3) joins side 1 of a patch with side 3 of another one, and every such side lies on at most one interface. -/
structure AuxOk (ifs : List Ifc) : Prop where
  glue : ∀ f ∈ ifs, (f.1.2 = 1 ∨ f.1.2 = 3 ∨ f.2.2 = 1 ∨ f.2.2 = 3) → (f.1.2 = 1 ∧ f.2.2 = 3 ∨ f.1.2 = 3 ∧ f.2.2 = 1) ∧ f.1.1 ≠ f.2.1
  uniq : ∀ f ∈ ifs, ∀ h ∈ ifs, ∀ s : ASide, s.2 = 1 ∨ s.2 = 3 → (f.1 = s ∨ f.2 = s) → (h.1 = s ∨ h.2 = s) → f = h

/-- Side 1 of patch `a` is glued to side 3 of patch `b`. -/
def Joined (ifs : List Ifc) (a b : ℕ) : Prop := ((a, 1), (b, 3)) ∈ ifs ∨ ((b, 3), (a, 1)) ∈ ifs

/-- The side is on an interface. -/
def Glued (ifs : List Ifc) (s : ASide) : Prop := ∃ f ∈ ifs, f.1 = s ∨ f.2 = s

private theorem at_iff {i k : ℕ} {f : Ifc} : at' i k f = true ↔ f.1 = (i, k) ∨ f.2 = (i, k) := by
  obtain ⟨⟨a, b⟩, ⟨c, d⟩⟩ := f
  simp only [at', Bool.or_eq_true, Bool.and_eq_true, beq_iff_eq, Prod.mk.injEq]
  constructor
  · rintro (⟨rfl, rfl⟩ | ⟨rfl, rfl⟩) <;> simp
  · rintro (⟨rfl, rfl⟩ | ⟨rfl, rfl⟩) <;> simp

private theorem fold_inv {α β : Type} {t : β → α → β} {Q : β → Prop} : ∀ {l : List α} {c : β}, (∀ f ∈ l, ∀ c, Q c → Q (t c f)) → Q c → Q (l.foldl t c)
  | [], _, _, h => h
  | f :: l, c, h1, h => by
      rw [List.foldl_cons]
      exact fold_inv (fun e he => h1 e (List.mem_cons_of_mem _ he)) (h1 f List.mem_cons_self c h)

private theorem fold_est {α β : Type} {t : β → α → β} {Q : β → Prop} : ∀ {l : List α} {c : β}, (∀ f ∈ l, ∀ c, Q c → Q (t c f)) → (∃ f ∈ l, ∀ c, Q (t c f)) → Q (l.foldl t c)
  | [], _, _, ⟨_, h, _⟩ => by cases h
  | f :: l, c, h1, ⟨e, he, h2⟩ => by
      rw [List.foldl_cons]
      rcases List.mem_cons.1 he with rfl | he
      · exact fold_inv (fun e he => h1 e (List.mem_cons_of_mem _ he)) (h2 c)
      · exact fold_est (fun e he => h1 e (List.mem_cons_of_mem _ he)) ⟨e, he, h2⟩

private theorem order_of {ifs : List Ifc} (ok : AuxOk ifs) {f : Ifc} (hf : f ∈ ifs) {i : ℕ} :
    (f.1 = (i, 3) ∨ f.2 = (i, 3) → ∃ a, Joined ifs a i ∧ order f = (a, i) ∧ at' i 1 f = false) ∧
    (f.1 = (i, 1) ∨ f.2 = (i, 1) → ∃ b, Joined ifs i b ∧ order f = (i, b) ∧ at' i 3 f = false) := by
  obtain ⟨⟨a, k⟩, ⟨b, l⟩⟩ := f
  have hg := ok.glue _ hf
  constructor
  · rintro (h | h) <;> simp only [Prod.mk.injEq] at h <;> obtain ⟨rfl, rfl⟩ := h <;> obtain ⟨hk, hne⟩ := hg (by simp) <;> simp at hk hne
    · subst hk
      exact ⟨b, Or.inr hf, by simp [order], by simp [at']; exact hne⟩
    · subst hk
      exact ⟨a, Or.inl hf, by simp [order], by simp [at']; exact fun h => hne h.symm⟩
  · rintro (h | h) <;> simp only [Prod.mk.injEq] at h <;> obtain ⟨rfl, rfl⟩ := h <;> obtain ⟨hk, hne⟩ := hg (by simp) <;> simp at hk hne
    · subst hk
      exact ⟨b, Or.inl hf, by simp [order], by simp [at']; exact hne⟩
    · subst hk
      exact ⟨a, Or.inr hf, by simp [order], by simp [at']; exact fun h => hne h.symm⟩

private theorem joined_unique {ifs : List Ifc} (ok : AuxOk ifs) {a a' i : ℕ} : (Joined ifs a i → Joined ifs a' i → a = a') ∧ (Joined ifs i a → Joined ifs i a' → a = a') := by
  constructor
  · rintro (h | h) (h' | h') <;> have := ok.uniq _ h _ h' (i, 3) (by simp) (by simp) (by simp) <;> simp at this <;> simp [this]
  · rintro (h | h) (h' | h') <;> have := ok.uniq _ h _ h' (i, 1) (by simp) (by simp) (by simp) <;> simp at this <;> simp [this]

private theorem at_patch {i k : ℕ} {f : Ifc} (h : at' i k f = true) : i = f.1.1 ∨ i = f.2.1 := by
  rw [at_iff] at h
  rcases h with h | h <;> simp [h]

private theorem joined_mem {ifs : List Ifc} {a i : ℕ} (h : Joined ifs a i) : ∃ f ∈ ifs, at' i 3 f = true ∧ at' a 1 f = true := by
  rcases h with h | h
  · exact ⟨_, h, by simp [at'], by simp [at']⟩
  · exact ⟨_, h, by simp [at'], by simp [at']⟩

/-- what a turn does -/
private theorem turn0_cases {ifs : List Ifc} (ok : AuxOk ifs) (g : GD R) (i : ℕ) {f : Ifc} (hf : f ∈ ifs) (c : Coefs R) :
    (∃ a, Joined ifs a i ∧ at' i 3 f = true ∧ at' i 1 f = false ∧ turn0 g i c f = setCol 0 (col3 g a i) c ∧ turn1 g i c f = setCol 1 bdyCol (setCol 0 (col3 g a i) c)) ∨
    (∃ b, Joined ifs i b ∧ at' i 1 f = true ∧ at' i 3 f = false ∧ turn0 g i c f = setCol 1 (col1 g i b) c ∧ turn1 g i c f = setCol 1 (col1 g i b) (setCol 0 bdyCol c)) ∨
    (at' i 3 f = false ∧ at' i 1 f = false ∧ turn0 g i c f = c ∧ turn1 g i c f = c) := by
  cases h3 : at' i 3 f
  · cases h1 : at' i 1 f
    · right; right
      refine ⟨rfl, rfl, ?_, ?_⟩
      · unfold turn0; simp [h3, h1]
      · unfold turn1; simp [h3, h1]
    · right; left
      obtain ⟨b, hb, ho, _⟩ := (order_of ok hf).2 (at_iff.1 h1)
      refine ⟨b, hb, rfl, rfl, ?_, ?_⟩
      · unfold turn0; rw [if_pos (at_patch h1), h3, h1, ho]; simp
      · unfold turn1; rw [if_pos (at_patch h1), h3, h1, ho]; simp
  · left
    obtain ⟨a, ha, ho, h1⟩ := (order_of ok hf).1 (at_iff.1 h3)
    refine ⟨a, ha, rfl, h1, ?_, ?_⟩
    · unfold turn0; rw [if_pos (at_patch h3), h3, ho]; simp
    · unfold turn1; rw [if_pos (at_patch h3), h3, ho]; simp

/-- Gluing data of the second patch of an interface: rows 2 and 3. -/
def second (g : GD R) (a b : ℕ) : Fin 4 → R := ![g.sol a b 2, g.sol a b 3, g.beta a b 2, g.beta a b 3]

/-- Gluing data of the first patch of an interface: rows 0 and 1. -/
def first (g : GD R) (a b : ℕ) : Fin 4 → R := ![g.sol a b 0, g.sol a b 1, g.beta a b 0, g.beta a b 1]

private theorem col3_eq (g : GD R) (a b : ℕ) : col3 g a b = second g a b := by funext r; fin_cases r <;> rfl
private theorem col1_eq (g : GD R) (a b : ℕ) : col1 g a b = first g a b := by funext r; fin_cases r <;> rfl
private theorem bdy_eq : (bdyCol : Fin 4 → R) = ![1, 1, 0, 0] := by funext r; fin_cases r <;> rfl

private theorem set_self (k : Fin 2) (v : Fin 4 → R) (c : Coefs R) (r : Fin 4) : setCol k v c r k = some (v r) := by simp [setCol]
private theorem set_ne {k l : Fin 2} (h : l ≠ k) (v : Fin 4 → R) (c : Coefs R) (r : Fin 4) : setCol k v c r l = c r l := by simp [setCol, h]

/-- C47. `selectGD` sets every entry: column 0 belongs to side 3, column 1 to side 1; a side on an interface gets the gluing data of this interface and of the right one of its two patches, a boundary side
gets `1, 1, 0, 0`. The kind of the vertex has to be right: 0 for an inner vertex, 1 for a boundary vertex with several patches. -/
theorem C47_gluing_data {ifs : List Ifc} (ok : AuxOk ifs) (g : GD R) (i : ℕ) {kind : ℤ} {bdy : Bool}
    (hk : kind = 0 ∧ Glued ifs (i, 1) ∧ Glued ifs (i, 3) ∨
          kind = 1 ∧ (Glued ifs (i, 1) ∨ Glued ifs (i, 3)) ∧ (bdy = false ↔ Glued ifs (i, 1) ∧ Glued ifs (i, 3))) :
    (∀ a, Joined ifs a i → ∀ r, selectGD kind bdy ifs g i r 0 = some (second g a i r)) ∧
    (¬ Glued ifs (i, 3) → ∀ r, selectGD kind bdy ifs g i r 0 = some ((![1, 1, 0, 0] : Fin 4 → R) r)) ∧
    (∀ b, Joined ifs i b → ∀ r, selectGD kind bdy ifs g i r 1 = some (first g i b r)) ∧
    (¬ Glued ifs (i, 1) → ∀ r, selectGD kind bdy ifs g i r 1 = some ((![1, 1, 0, 0] : Fin 4 → R) r)) := by
  have glued3 : ∀ {a}, Joined ifs a i → Glued ifs (i, 3) := fun h => by
    obtain ⟨f, hf, h3, _⟩ := joined_mem h
    exact ⟨f, hf, at_iff.1 h3⟩
  have glued1 : ∀ {b}, Joined ifs i b → Glued ifs (i, 1) := fun h => by
    obtain ⟨f, hf, _, h1⟩ := joined_mem h
    exact ⟨f, hf, at_iff.1 h1⟩
  -- the loop without boundary side
  have loop0 : ∀ c : Coefs R, (∀ a, Joined ifs a i → ∀ r, ifs.foldl (turn0 g i) c r 0 = some (col3 g a i r)) ∧
      (∀ b, Joined ifs i b → ∀ r, ifs.foldl (turn0 g i) c r 1 = some (col1 g i b r)) := by
    intro c
    constructor
    · intro a ha
      refine fold_est (Q := fun c : Coefs R => ∀ r, c r 0 = some (col3 g a i r)) ?_ ?_
      · intro f hf c hc r
        rcases turn0_cases ok g i hf c with ⟨a', ha', _, _, e, _⟩ | ⟨b, _, _, _, e, _⟩ | ⟨_, _, e, _⟩ <;> rw [e]
        · rw [set_self, (joined_unique ok).1 ha ha']
        · rw [set_ne (by decide)]; exact hc r
        · exact hc r
      · obtain ⟨f, hf, h3, _⟩ := joined_mem ha
        refine ⟨f, hf, fun c r => ?_⟩
        rcases turn0_cases ok g i hf c with ⟨a', ha', _, _, e, _⟩ | ⟨b, _, _, h, e, _⟩ | ⟨h, _, e, _⟩
        · rw [e, set_self, (joined_unique ok).1 ha ha']
        · rw [h3] at h; cases h
        · rw [h3] at h; cases h
    · intro b hb
      refine fold_est (Q := fun c : Coefs R => ∀ r, c r 1 = some (col1 g i b r)) ?_ ?_
      · intro f hf c hc r
        rcases turn0_cases ok g i hf c with ⟨a', ha', _, _, e, _⟩ | ⟨b', hb', _, _, e, _⟩ | ⟨_, _, e, _⟩ <;> rw [e]
        · rw [set_ne (by decide)]; exact hc r
        · rw [set_self, (joined_unique ok).2 hb hb']
        · exact hc r
      · obtain ⟨f, hf, _, h1⟩ := joined_mem hb
        refine ⟨f, hf, fun c r => ?_⟩
        rcases turn0_cases ok g i hf c with ⟨a', ha', _, h, e, _⟩ | ⟨b', hb', _, h, e, _⟩ | ⟨_, h, e, _⟩
        · rw [h1] at h; cases h
        · rw [e, set_self, (joined_unique ok).2 hb hb']
        · rw [h1] at h; cases h
  simp only [← col3_eq, ← col1_eq, ← bdy_eq]
  rcases hk with ⟨rfl, k1, k3⟩ | ⟨rfl, ko, kb⟩
  · have e : selectGD 0 bdy ifs g i = ifs.foldl (turn0 g i) fun _ _ => none := by unfold selectGD; simp
    rw [e]
    exact ⟨(loop0 _).1, fun h => absurd k3 h, (loop0 _).2, fun h => absurd k1 h⟩
  · cases bdy
    · have e : selectGD 1 false ifs g i = ifs.foldl (turn0 g i) fun _ _ => none := by unfold selectGD; simp
      rw [e]
      exact ⟨(loop0 _).1, fun h => absurd (kb.1 rfl).2 h, (loop0 _).2, fun h => absurd (kb.1 rfl).1 h⟩
    · have e : selectGD 1 true ifs g i = ifs.foldl (turn1 g i) fun _ _ => none := by unfold selectGD; simp
      rw [e]
      have hnot : ¬ (Glued ifs (i, 1) ∧ Glued ifs (i, 3)) := fun h => by have := kb.2 h; cases this
      rcases ko with k1 | k3
      · have n3 : ¬ Glued ifs (i, 3) := fun h => hnot ⟨k1, h⟩
        have key : ∀ b, Joined ifs i b → ∀ r, ifs.foldl (turn1 g i) (fun _ _ => none) r 0 = some (bdyCol r) ∧ ifs.foldl (turn1 g i) (fun _ _ => none) r 1 = some (col1 g i b r) := by
          intro b hb
          refine fold_est (Q := fun c : Coefs R => ∀ r, c r 0 = some (bdyCol r) ∧ c r 1 = some (col1 g i b r)) ?_ ?_
          · intro f hf c hc r
            rcases turn0_cases ok g i hf c with ⟨a', ha', _, _, _, e⟩ | ⟨b', hb', _, _, _, e⟩ | ⟨_, _, _, e⟩ <;> rw [e]
            · exact absurd (glued3 ha') n3
            · rw [set_self, set_ne (by decide), set_self, (joined_unique ok).2 hb hb']; exact ⟨rfl, rfl⟩
            · exact hc r
          · obtain ⟨f, hf, _, h1⟩ := joined_mem hb
            refine ⟨f, hf, fun c r => ?_⟩
            rcases turn0_cases ok g i hf c with ⟨a', ha', _, h, _, e⟩ | ⟨b', hb', _, h, _, e⟩ | ⟨_, h, _, e⟩
            · rw [h1] at h; cases h
            · rw [e, set_self, set_ne (by decide), set_self, (joined_unique ok).2 hb hb']; exact ⟨rfl, rfl⟩
            · rw [h1] at h; cases h
        obtain ⟨f, hf, h1⟩ := k1
        obtain ⟨b, hb, _⟩ := (order_of ok hf).2 h1
        exact ⟨fun a ha => absurd (glued3 ha) n3, fun _ r => (key b hb r).1, fun b hb r => (key b hb r).2, fun h => absurd (glued1 hb) h⟩
      · have n1 : ¬ Glued ifs (i, 1) := fun h => hnot ⟨h, k3⟩
        have key : ∀ a, Joined ifs a i → ∀ r, ifs.foldl (turn1 g i) (fun _ _ => none) r 1 = some (bdyCol r) ∧ ifs.foldl (turn1 g i) (fun _ _ => none) r 0 = some (col3 g a i r) := by
          intro a ha
          refine fold_est (Q := fun c : Coefs R => ∀ r, c r 1 = some (bdyCol r) ∧ c r 0 = some (col3 g a i r)) ?_ ?_
          · intro f hf c hc r
            rcases turn0_cases ok g i hf c with ⟨a', ha', _, _, _, e⟩ | ⟨b', hb', _, _, _, e⟩ | ⟨_, _, _, e⟩ <;> rw [e]
            · rw [set_self, set_ne (by decide), set_self, (joined_unique ok).1 ha ha']; exact ⟨rfl, rfl⟩
            · exact absurd (glued1 hb') n1
            · exact hc r
          · obtain ⟨f, hf, h3, _⟩ := joined_mem ha
            refine ⟨f, hf, fun c r => ?_⟩
            rcases turn0_cases ok g i hf c with ⟨a', ha', _, h, _, e⟩ | ⟨b', hb', _, h, _, e⟩ | ⟨h, _, _, e⟩
            · rw [e, set_self, set_ne (by decide), set_self, (joined_unique ok).1 ha ha']; exact ⟨rfl, rfl⟩
            · rw [h3] at h; cases h
            · rw [h3] at h; cases h
        obtain ⟨f, hf, h3⟩ := k3
        obtain ⟨a, ha, _⟩ := (order_of ok hf).1 h3
        exact ⟨fun a ha r => (key a ha r).2, fun h => absurd (glued3 ha) h, fun b hb => absurd (glued1 hb) n1, fun _ r => (key a ha r).1⟩

/-- C47. A corner of a single patch. -/
theorem C47_gluing_data_corner (bdy : Bool) (ifs : List Ifc) (g : GD R) (i : ℕ) (r : Fin 4) (k : Fin 2) :
    selectGD (-1) bdy ifs g i r k = some ((![1, 1, 0, 0] : Fin 4 → R) r) := by
  rw [← bdy_eq]
  unfold selectGD
  simp only [show ¬ ((-1 : ℤ) = 1) by decide, if_false, if_true]
  fin_cases k <;> simp [setCol]

/-- Three patches around an inner vertex, and three at a boundary vertex. -/
def around : List Ifc := [((0, 1), (1, 3)), ((1, 1), (2, 3)), ((0, 3), (2, 1))]
def open3 : List Ifc := [((0, 1), (1, 3)), ((2, 3), (1, 1))]

private theorem aux_of {ifs : List Ifc} (h1 : ∀ f ∈ ifs, (f.1.2 = 1 ∧ f.2.2 = 3 ∨ f.1.2 = 3 ∧ f.2.2 = 1) ∧ f.1.1 ≠ f.2.1) (h2 : ∀ f ∈ ifs, ∀ h ∈ ifs, (f.1 = h.1 ∨ f.1 = h.2 ∨ f.2 = h.1 ∨ f.2 = h.2) → f = h) : AuxOk ifs where
  glue := fun f hf _ => h1 f hf
  uniq := fun f hf h hh s _ a b => by
    apply h2 f hf h hh
    rcases a with rfl | rfl <;> rcases b with b | b <;> simp [b]

theorem around_ok : AuxOk around := aux_of (by decide) (by decide)
theorem open3_ok : AuxOk open3 := aux_of (by decide) (by decide)

example (g : GD ℤ) : selectGD 0 false around g 0 2 0 = some (g.beta 2 0 2) := by
  have h := (C47_gluing_data (bdy := false) around_ok g 0 (Or.inl ⟨rfl, ⟨_, List.mem_cons_self, by decide⟩, ⟨((0, 3), (2, 1)), by decide, by decide⟩⟩)).1 2 (Or.inr (by decide)) 2
  exact h

example (g : GD ℤ) : selectGD 1 true open3 g 0 0 0 = some 1 ∧ selectGD 1 true open3 g 0 0 1 = some (g.sol 0 1 0) := by
  have h3 : ¬ Glued open3 (0, 3) := by unfold Glued; decide
  have h1 : Glued open3 (0, 1) := ⟨_, List.mem_cons_self, by decide⟩
  have h := C47_gluing_data (bdy := true) open3_ok g 0 (Or.inr ⟨rfl, Or.inl h1, by simp [h3]⟩)
  exact ⟨h.2.1 h3 0, h.2.2.1 1 (Or.inl (by decide)) 0⟩

/-- C47: in the ring of two patches (turned, at a lower corner: the sides 3 and 1 meet at the vertex, the sides 4 and 2 away from it), the wrong kind 0 leaves a column of the first patch without values. -/
theorem C47_gluing_data_violation (g : GD R) : AuxOk [((0, 3), (1, 1)), ((0, 4), (1, 2))] ∧ ∀ r, selectGD 0 true [((0, 3), (1, 1)), ((0, 4), (1, 2))] g 0 r 1 = none := by
  refine ⟨⟨by decide, ?_⟩, fun r => rfl⟩
  intro f hf h hh s hs a b
  simp only [List.mem_cons, List.not_mem_nil, or_false] at hf hh
  rcases hf with rfl | rfl <;> rcases hh with rfl | rfl <;> try rfl
  · exfalso; rcases a with rfl | rfl <;> simp at b
  · exfalso; rcases a with rfl | rfl <;> simp at hs

end Verif.VertexKind
