import Verif.Model.Distances
import Verif.Props.MPBES
import Mathlib.Tactic.SplitIfs
/-!
# Properties C58, C59, C60: distances from special vertices
-/
set_option autoImplicit false
namespace Verif.Distances
open Verif MPBES

/-! ## C58: a vertex set to C0, on all its edges -/

/-- What is asked of the topology: the corners at a vertex are an equivalence class, every interface has one record, the corners of a side
of an interface are at one of its two ends, and the two ends are different vertices. -/
structure Fits (E : Env) (recs : List Rec) : Prop where
  refl : ∀ c, c ∈ E.cls c
  same : ∀ c c', c' ∈ E.cls c → ∀ x, x ∈ E.cls c' ↔ x ∈ E.cls c
  uniq : ∀ r ∈ recs, ∀ r' ∈ recs, r.iface = r'.iface → r = r'
  ends : ∀ r ∈ recs, r.c2 ∉ E.cls r.c1
  meet : ∀ r ∈ recs, ∀ c, ∀ s ∈ E.sides c, E.iface s = some r.iface → c ∈ E.cls r.c1 ∨ c ∈ E.cls r.c2

/-- The end of the interface that is at the vertex of the corner `c`. -/
def endOf (E : Env) (r : Rec) (c : PCorner) : PCorner := if c ∈ E.cls r.c1 then r.c1 else r.c2

theorem setParamDist_keys (E : Env) (v : List (PCorner × Bool)) (n : ℕ) (pc : PCorner) (r : Rec) :
    (setParamDist E v n pc r).iface = r.iface ∧ (setParamDist E v n pc r).c1 = r.c1 ∧ (setParamDist E v n pc r).c2 = r.c2 := by
  unfold setParamDist
  split_ifs <;> exact ⟨rfl, rfl, rfl⟩

/-- Records that differ in the distances only. -/
def Same (l l' : List Rec) : Prop := l.map (fun r => (r.iface, r.c1, r.c2)) = l'.map fun r => (r.iface, r.c1, r.c2)

theorem setSide_same (E : Env) (v : List (PCorner × Bool)) (pc : PCorner) (recs : List Rec) (s : PSide) : Same (setSide E v pc recs s) recs := by
  unfold Same setSide
  cases E.iface s with
  | none => rfl
  | some i =>
    rw [List.map_map]
    apply List.map_congr_left
    intro r _
    simp only [Function.comp]
    split_ifs
    · rw [(setParamDist_keys E v E.minDist pc r).1, (setParamDist_keys E v E.minDist pc r).2.1, (setParamDist_keys E v E.minDist pc r).2.2]
    · rfl

/-- The value wanted at the corner `c` for the interface `i`. -/
def Wanted (E : Env) (recs : List Rec) (i : ℕ) (c : PCorner) : Prop :=
  ∀ r ∈ recs, r.iface = i → getParamDist E c r = E.param (E.first i) (endOf E r c) E.minDist

/-- The corners of a side are at the ends of the interface. -/
def Meets (E : Env) (recs : List Rec) (i : ℕ) (c : PCorner) : Prop := ∀ r ∈ recs, r.iface = i → c ∈ E.cls r.c1 ∨ c ∈ E.cls r.c2

theorem key_mem {l l' : List Rec} (h : Same l l') (r : Rec) (hr : r ∈ l) : ∃ r' ∈ l', r'.iface = r.iface ∧ r'.c1 = r.c1 ∧ r'.c2 = r.c2 := by
  have hm : (r.iface, r.c1, r.c2) ∈ l.map fun r => (r.iface, r.c1, r.c2) := List.mem_map.2 ⟨r, hr, rfl⟩
  rw [h] at hm
  obtain ⟨r', h1, h2⟩ := List.mem_map.1 hm
  simp only [Prod.mk.injEq] at h2
  exact ⟨r', h1, h2⟩

theorem meets_same {E : Env} {l l' : List Rec} (h : Same l l') (i : ℕ) (c : PCorner) (hm : Meets E l' i c) : Meets E l i c := by
  intro r hr hi
  obtain ⟨r', h1, h2, h3, h4⟩ := key_mem h r hr
  have := hm r' h1 (by rw [h2, hi])
  rwa [h3, h4] at this

theorem setParamDist_wanted (E : Env) (v : List (PCorner × Bool)) (pc c : PCorner) (r : Rec)
    (h : getParamDist E c r = E.param (E.first r.iface) (endOf E r c) E.minDist) :
    getParamDist E c (setParamDist E v E.minDist pc r) = E.param (E.first r.iface) (endOf E r c) E.minDist := by
  unfold getParamDist endOf at *
  rw [(setParamDist_keys E v E.minDist pc r).2.1, (setParamDist_keys E v E.minDist pc r).2.2]
  unfold setParamDist
  split_ifs at * <;> simp_all

theorem setSide_wanted (E : Env) (v : List (PCorner × Bool)) (pc c : PCorner) (recs : List Rec)
    (s : PSide) (i : ℕ) (h : Wanted E recs i c) : Wanted E (setSide E v pc recs s) i c := by
  unfold setSide
  cases E.iface s with
  | none => exact h
  | some j =>
    intro r hr hi
    obtain ⟨r', h1, h2⟩ := List.mem_map.1 hr
    by_cases hj : r'.iface = j
    · rw [if_pos hj] at h2
      have hk := setParamDist_keys E v E.minDist pc r'
      subst h2
      have hi' : r'.iface = i := by rw [← hi, hk.1]
      have := setParamDist_wanted E v pc c r' (by rw [hi']; exact h r' h1 hi')
      rw [this, hi']
      unfold endOf
      rw [hk.2.1, hk.2.2]
    · rw [if_neg hj] at h2
      subst h2
      exact h r' h1 hi

theorem setSide_makes (E : Env) (he : ∀ c c', c' ∈ E.cls c → ∀ x, x ∈ E.cls c' ↔ x ∈ E.cls c) (v : List (PCorner × Bool)) (pc c : PCorner) (hc : c ∈ E.cls pc)
    (hv : isSpecial v pc = true) (recs : List Rec) (s : PSide) (i : ℕ) (hs : E.iface s = some i) (hm : Meets E recs i c) (hr : ∀ c, c ∈ E.cls c) :
    Wanted E (setSide E v pc recs s) i c := by
  unfold setSide
  rw [hs]
  intro r hr1 hi
  obtain ⟨r', h1, h2⟩ := List.mem_map.1 hr1
  have hk := setParamDist_keys E v E.minDist pc r'
  by_cases hj : r'.iface = i
  · rw [if_pos hj] at h2
    have hmm := hm r' h1 hj
    have e : ∀ x, c ∈ E.cls x ↔ pc ∈ E.cls x := by
      intro x
      constructor
      · intro hx
        exact (he x c hx pc).1 ((he pc c hc pc).2 (hr pc))
      · intro hx
        exact (he x pc hx c).1 hc
    subst h2
    unfold getParamDist endOf
    rw [hk.2.1, hk.2.2]
    unfold setParamDist
    rw [e, e] at hmm
    by_cases h3 : pc ∈ E.cls r'.c1
    · rw [if_pos ((e _).2 h3), if_pos ((e _).2 h3), if_pos h3, if_pos hv, hj]
    · have h4 : pc ∈ E.cls r'.c2 := hmm.resolve_left h3
      have h3' : c ∉ E.cls r'.c1 := fun h => h3 ((e _).1 h)
      rw [if_neg h3', if_neg h3', if_pos ((e _).2 h4), if_neg h3, if_pos h4, if_pos hv, hj]
  · rw [if_neg hj] at h2
    subst h2
    exact absurd hi hj

theorem same_trans {a b c : List Rec} (h : Same a b) (h' : Same b c) : Same a c := Eq.trans h h'

theorem foldSides_same (E : Env) (v : List (PCorner × Bool)) (pc : PCorner) (ss : List PSide) (recs : List Rec) :
    Same (ss.foldl (setSide E v pc) recs) recs := by
  induction ss generalizing recs with
  | nil => rfl
  | cons s ss ih => exact same_trans (ih _) (setSide_same E v pc recs s)

theorem foldSides_wanted (E : Env) (v : List (PCorner × Bool)) (pc c : PCorner) (i : ℕ)
    (ss : List PSide) (recs : List Rec) (h : Wanted E recs i c) : Wanted E (ss.foldl (setSide E v pc) recs) i c := by
  induction ss generalizing recs with
  | nil => exact h
  | cons s ss ih => exact ih _ (setSide_wanted E v pc c recs s i h)

theorem foldSides_makes (E : Env) (he : ∀ c c', c' ∈ E.cls c → ∀ x, x ∈ E.cls c' ↔ x ∈ E.cls c) (hr : ∀ c, c ∈ E.cls c) (v : List (PCorner × Bool)) (pc c : PCorner)
    (hc : c ∈ E.cls pc) (hv : isSpecial v pc = true) (i : ℕ) (ss : List PSide) (s : PSide) (hs : s ∈ ss) (hi : E.iface s = some i) (recs : List Rec)
    (hm : Meets E recs i c) : Wanted E (ss.foldl (setSide E v pc) recs) i c := by
  induction ss generalizing recs with
  | nil => cases hs
  | cons t ss ih =>
    rcases List.mem_cons.1 hs with rfl | h
    · exact foldSides_wanted E v pc c i ss _ (setSide_makes E he v pc c hc hv recs s i hi hm hr)
    · exact ih h _ (meets_same (setSide_same E v pc recs t) i c hm)

theorem distance_of_wanted (E : Env) (m : Marks) (c : PCorner) (s : PSide) (i : ℕ) (hs : E.iface s = some i) (hv : isSpecial m.verts c = true)
    (hw : Wanted E m.recs i c) (r0 : Rec) (h0 : r0 ∈ m.recs) (hi0 : r0.iface = i) (e : PCorner) (he : ∀ r ∈ m.recs, r.iface = i → endOf E r c = e) :
    paramDistance E m c s = E.param (E.first i) e E.minDist := by
  unfold paramDistance
  rw [if_pos hv, hs]
  simp only
  have key : ∀ (l : List Rec) (x : Option ℚ), (∀ r ∈ l, r.iface = i → getParamDist E c r = E.param (E.first i) e E.minDist) →
      (x = E.param (E.first i) e E.minDist ∨ ∃ r ∈ l, r.iface = i) →
      l.foldl (fun x r => if r.iface = i then getParamDist E c r else x) x = E.param (E.first i) e E.minDist := by
    intro l
    induction l with
    | nil => rintro x - (h | ⟨r, hr, -⟩); exact h; cases hr
    | cons r l ih =>
      intro x h1 h2
      rw [List.foldl_cons]
      apply ih
      · exact fun r' hr' => h1 r' (List.mem_cons_of_mem _ hr')
      · by_cases hr : r.iface = i
        · left; rw [if_pos hr]; exact h1 r List.mem_cons_self hr
        · rw [if_neg hr]
          rcases h2 with h2 | ⟨r', h3, h4⟩
          · exact Or.inl h2
          · rcases List.mem_cons.1 h3 with rfl | h5
            · exact absurd h4 hr
            · exact Or.inr ⟨r', h5, h4⟩
  apply key
  · intro r hr hi
    rw [hw r hr hi, he r hr hi]
  · exact Or.inr ⟨r0, h0, hi0⟩

theorem special_setC0 (E : Env) (m : Marks) (pc c : PCorner) : isSpecial (setC0 E m pc).verts c = (isSpecial m.verts c || decide (c ∈ E.cls pc)) := by
  refine (C38_setC0 m.verts (E.cls pc) c).trans ?_
  congr

theorem setC0_same (E : Env) (m : Marks) (pc : PCorner) : Same (setC0 E m pc).recs m.recs := foldSides_same E _ pc _ _

theorem runC0_same (E : Env) (cs : List PCorner) (m : Marks) : Same (cs.foldl (setC0 E) m).recs m.recs := by
  induction cs generalizing m with
  | nil => rfl
  | cons c cs ih => exact same_trans (ih _) (setC0_same E m c)

theorem runC0_keep (E : Env) (cs : List PCorner) (m : Marks) (i : ℕ) (c : PCorner) (hv : isSpecial m.verts c = true) (hw : Wanted E m.recs i c) :
    isSpecial (cs.foldl (setC0 E) m).verts c = true ∧ Wanted E (cs.foldl (setC0 E) m).recs i c := by
  induction cs generalizing m with
  | nil => exact ⟨hv, hw⟩
  | cons d cs ih => exact ih _ (by rw [special_setC0, hv]; rfl) (foldSides_wanted E _ d c i _ _ hw)

theorem runC0_makes (E : Env) (m : Marks) (hF : Fits E m.recs) (cs : List PCorner) (pc : PCorner) (hp : pc ∈ cs) (c : PCorner) (hc : c ∈ E.cls pc)
    (t : PSide) (ht : t ∈ E.sides pc) (i : ℕ) (hi : E.iface t = some i) (hm : Meets E m.recs i c) :
    isSpecial (cs.foldl (setC0 E) m).verts c = true ∧ Wanted E (cs.foldl (setC0 E) m).recs i c := by
  have main : ∀ (m : Marks), Meets E m.recs i c → isSpecial (cs.foldl (setC0 E) m).verts c = true ∧ Wanted E (cs.foldl (setC0 E) m).recs i c := by
    induction cs with
    | nil => cases hp
    | cons d cs ih =>
      intro m hm
      rcases List.mem_cons.1 hp with rfl | h
      · refine runC0_keep E cs _ i c (by rw [special_setC0]; simp [hc]) ?_
        have hv : isSpecial (MPBES.setC0 m.verts (E.cls pc)) pc = true := by rw [C38_setC0]; simp [hF.refl pc]
        exact foldSides_makes E hF.same hF.refl _ pc c hc hv i (E.sides pc) t ht hi m.recs hm
      · exact ih h _ (meets_same (setC0_same E m d) i c hm)
  exact main m hm

/-- Records after some steps have the same ends. -/
theorem endOf_same {E : Env} {l l' : List Rec} (h : Same l l') (hu : ∀ r ∈ l', ∀ r' ∈ l', r.iface = r'.iface → r = r') (r0 : Rec) (h0 : r0 ∈ l') (c : PCorner) :
    (∃ r ∈ l, r.iface = r0.iface) ∧ ∀ r ∈ l, r.iface = r0.iface → endOf E r c = endOf E r0 c := by
  constructor
  · obtain ⟨r, h1, h2, -, -⟩ := key_mem (show Same l' l from Eq.symm h) r0 h0
    exact ⟨r, h1, h2⟩
  · intro r hr hi
    obtain ⟨r', h1, h2, h3, h4⟩ := key_mem h r hr
    have := hu r' h1 r0 h0 (by rw [h2, hi])
    subst this
    unfold endOf
    rw [h3, h4]

/-- C58. After any sequence of calls of `setC0`, the distance at a corner `c` of a vertex that was set, along an interface that is one of the
sides of a corner given in a call for this vertex, is the one for `m_minDist` functions, from whichever patch it is asked. -/
theorem C58_reach_partial (E : Env) (m : Marks) (hF : Fits E m.recs) (cs : List PCorner) (pc : PCorner) (hp : pc ∈ cs) (c : PCorner) (hc : c ∈ E.cls pc)
    (s : PSide) (hs : s ∈ E.sides c) (r : Rec) (hr : r ∈ m.recs) (hi : E.iface s = some r.iface) (t : PSide) (ht : t ∈ E.sides pc)
    (hti : E.iface t = some r.iface) :
    paramDistance E (cs.foldl (setC0 E) m) c s = E.param (E.first r.iface) (endOf E r c) E.minDist := by
  have hm : Meets E m.recs r.iface c := by
    intro r' hr' hi'
    exact hF.meet r' hr' c s hs (by rw [hi, hi'])
  obtain ⟨h1, h2⟩ := runC0_makes E m hF cs pc hp c hc t ht r.iface hti hm
  obtain ⟨⟨r1, h3, h4⟩, h5⟩ := endOf_same (E := E) (runC0_same E cs m) hF.uniq r hr c
  exact distance_of_wanted E _ c s r.iface hi h1 h2 r1 h3 h4 _ h5

/-- C58. If every corner of the vertex is given, the distances along all interfaces at the vertex are set. -/
theorem C58_all_corners (E : Env) (m : Marks) (hF : Fits E m.recs) (cs : List PCorner) (c : PCorner) (hc : c ∈ cs) (s : PSide) (hs : s ∈ E.sides c)
    (r : Rec) (hr : r ∈ m.recs) (hi : E.iface s = some r.iface) :
    paramDistance E (cs.foldl (setC0 E) m) c s = E.param (E.first r.iface) (endOf E r c) E.minDist :=
  C58_reach_partial E m hF cs c hc c (hF.refl c) s hs r hr hi s hs hi

/-- C58. Along a side on the boundary the distance is that of `m_minDist` functions of the side itself. -/
theorem C58_boundary (E : Env) (m : Marks) (cs : List PCorner) (pc : PCorner) (hp : pc ∈ cs) (c : PCorner) (hc : c ∈ E.cls pc) (s : PSide)
    (hs : E.iface s = none) : paramDistance E (cs.foldl (setC0 E) m) c s = E.param s c E.minDist := by
  have : isSpecial (cs.foldl (setC0 E) m).verts c = true := by
    have keep : ∀ (cs : List PCorner) (m : Marks), isSpecial m.verts c = true → isSpecial (cs.foldl (setC0 E) m).verts c = true := by
      intro cs
      induction cs with
      | nil => exact fun m h => h
      | cons d cs ih => exact fun m h => ih _ (by rw [special_setC0, h]; rfl)
    induction cs generalizing m with
    | nil => cases hp
    | cons d cs ih =>
      rcases List.mem_cons.1 hp with rfl | h
      · exact keep cs _ (by rw [special_setC0]; simp [hc])
      · exact ih _ h
  unfold paramDistance
  rw [if_pos this, hs]

/-- C58. A call does not change the distances along the interfaces that are not sides of the corner given. -/
theorem C58_others (E : Env) (m : Marks) (pc : PCorner) (r : Rec) (hr : r ∈ m.recs) (hn : ∀ t ∈ E.sides pc, E.iface t ≠ some r.iface) :
    r ∈ (setC0 E m pc).recs := by
  unfold setC0
  have key : ∀ (v : List (PCorner × Bool)) (ss : List PSide) (recs : List Rec), r ∈ recs → (∀ t ∈ ss, E.iface t ≠ some r.iface) →
      r ∈ ss.foldl (setSide E v pc) recs := by
    intro v ss
    induction ss with
    | nil => exact fun recs h _ => h
    | cons t ss ih =>
      intro recs h h2
      apply ih
      · unfold setSide
        cases ht : E.iface t with
        | none => exact h
        | some i =>
          refine List.mem_map.2 ⟨r, h, ?_⟩
          rw [if_neg]
          intro hi
          exact h2 t List.mem_cons_self (by rw [ht, hi])
      · exact fun t ht => h2 t (List.mem_cons_of_mem _ ht)
  exact key _ _ _ hr hn

/-! ### All extraordinary vertices -/

theorem smooth_step_same (E : Env) (m : Marks) (x : PCorner × PSide) : Same (smoothCornerEdge E m x.1 x.2).recs m.recs := by
  unfold smoothCornerEdge
  split_ifs
  · exact setSide_same _ _ _ _ _
  · rfl

theorem smooth_step_verts (E : Env) (m : Marks) (x : PCorner × PSide) : (smoothCornerEdge E m x.1 x.2).verts = m.verts := by
  unfold smoothCornerEdge
  split_ifs <;> rfl

theorem smooth_step_wanted (E : Env) (m : Marks) (x : PCorner × PSide) (i : ℕ) (c : PCorner) (h : Wanted E m.recs i c) :
    Wanted E (smoothCornerEdge E m x.1 x.2).recs i c := by
  unfold smoothCornerEdge
  split_ifs
  · exact setSide_wanted _ _ _ _ _ _ _ h
  · exact h

theorem smooth_run (E : Env) (he : ∀ c c', c' ∈ E.cls c → ∀ x, x ∈ E.cls c' ↔ x ∈ E.cls c) (hr : ∀ c, c ∈ E.cls c) (l : List (PCorner × PSide)) (m : Marks)
    (c : PCorner) (i : ℕ) (hv : isSpecial m.verts c = true) (hm : Meets E m.recs i c)
    (h : Wanted E m.recs i c ∨ ∃ x ∈ l, x.1 = c ∧ E.iface x.2 = some i) :
    Same (l.foldl (fun m x => smoothCornerEdge E m x.1 x.2) m).recs m.recs ∧
    (l.foldl (fun m x => smoothCornerEdge E m x.1 x.2) m).verts = m.verts ∧
    Wanted E (l.foldl (fun m x => smoothCornerEdge E m x.1 x.2) m).recs i c := by
  induction l generalizing m with
  | nil =>
    rcases h with h | ⟨x, hx, -⟩
    · exact ⟨rfl, rfl, h⟩
    · cases hx
  | cons x l ih =>
    rw [List.foldl_cons]
    have hs := smooth_step_same E m x
    have hvv := smooth_step_verts E m x
    obtain ⟨h1, h2, h3⟩ := ih (smoothCornerEdge E m x.1 x.2) (by rw [hvv]; exact hv) (meets_same hs i c hm) (by
      rcases h with h | ⟨y, hy, hy1, hy2⟩
      · exact Or.inl (smooth_step_wanted E m x i c h)
      · rcases List.mem_cons.1 hy with rfl | h'
        · left
          unfold smoothCornerEdge
          rw [if_pos (by rw [hy1]; exact hv)]
          exact setSide_makes E he m.verts y.1 c (by rw [hy1]; exact hr c) (by rw [hy1]; exact hv) m.recs y.2 i hy2 hm hr
        · exact Or.inr ⟨y, h', hy1, hy2⟩)
    exact ⟨same_trans h1 hs, by rw [h2, hvv], h3⟩

/-- C58. After `smoothEverything` the distance along every interface at an extraordinary vertex is the one for `m_minDist` functions. -/
theorem C58_smooth_everything (E : Env) (m : Marks) (hF : Fits E m.recs) (evs : List PCorner) (c : PCorner) (hc : c ∈ evs) (hv : isSpecial m.verts c = true)
    (s : PSide) (hs : s ∈ E.sides c) (r : Rec) (hr : r ∈ m.recs) (hi : E.iface s = some r.iface) :
    paramDistance E (smoothEverything E evs m) c s = E.param (E.first r.iface) (endOf E r c) E.minDist := by
  have hm : Meets E m.recs r.iface c := fun r' hr' hi' => hF.meet r' hr' c s hs (by rw [hi, hi'])
  obtain ⟨h1, h2, h3⟩ := smooth_run E hF.same hF.refl (evs.flatMap fun c => (E.sides c).map fun s => (c, s)) m c r.iface hv hm
    (Or.inr ⟨(c, s), List.mem_flatMap.2 ⟨c, hc, List.mem_map.2 ⟨s, hs, rfl⟩⟩, rfl, hi⟩)
  obtain ⟨⟨r1, h4, h5⟩, h6⟩ := endOf_same (E := E) h1 hF.uniq r hr c
  unfold smoothEverything
  exact distance_of_wanted E _ c s r.iface hi (by rw [h2]; exact hv) h3 r1 h4 h5 _ h6

/-! ### The number of functions, from both patches -/

/-- Bases of the patches: degree, knots along a side, and whether a corner is at the lower end of a side. -/
structure Bases where
  deg : ℕ
  K : PSide → List ℚ
  low : PSide → PCorner → Bool

/-- Two patches see the same knots along their interface, from the first or the last on. -/
def Match (E : Env) (B : Bases) (recs : List Rec) : Prop := ∀ r ∈ recs, ∀ c, ∀ s ∈ E.sides c, E.iface s = some r.iface →
  if B.low s c = B.low (E.first r.iface) (endOf E r c) then B.K s = B.K (E.first r.iface) else B.K s = reverseKnots (B.K (E.first r.iface))

theorem reverse_twice (deg : ℕ) (a b : ℚ) (mid : List ℚ) : reverseKnots (reverseKnots (openKnots deg a mid b)) = openKnots deg a mid b := by
  rw [reverse_open, reverse_open]
  congr 1
  rw [← List.map_reverse, List.reverse_reverse, List.map_map]
  conv_rhs => rw [← List.map_id mid]
  apply List.map_congr_left
  intro x _
  simp

/-- C58. With tensor-product bases, both patches keep `m_minDist` functions C0 along every interface at a vertex all of whose corners were given. -/
theorem C58_count (E : Env) (B : Bases) (m : Marks) (hF : Fits E m.recs) (hM : Match E B m.recs)
    (hE : ∀ s c n, E.param s c n = findParameter (B.K s) (B.low s c) n) (cs : List PCorner) (c : PCorner) (hc : c ∈ cs) (s : PSide) (hs : s ∈ E.sides c)
    (r : Rec) (hr : r ∈ m.recs) (hi : E.iface s = some r.iface) (a b : ℚ) (mid : List ℚ) (h0 : 0 ≤ a) (h : (a :: mid ++ [b]).Pairwise (· < ·))
    (hK : B.K (E.first r.iface) = openKnots B.deg a mid b) (hn : E.minDist ≤ mid.length + 1) :
    ∃ x, paramDistance E (cs.foldl (setC0 E) m) c s = some x ∧ getDistance B.deg (B.K s) (B.low s c) x = E.minDist := by
  rw [C58_all_corners E m hF cs c hc s hs r hr hi, hE, hK]
  obtain ⟨x, h1, h2⟩ := C37_roundtrip_partial B.deg a b mid h0 h (B.low (E.first r.iface) (endOf E r c)) E.minDist hn
  refine ⟨x, h1, ?_⟩
  have hk := hM r hr c s hs hi
  rw [hK] at hk
  split_ifs at hk with hl
  · rw [hk, hl, h2]
  · rw [hk]
    rw [← h2]
    unfold getDistance
    cases h3 : B.low s c <;> cases h4 : B.low (E.first r.iface) (endOf E r c)
    · exact absurd (by rw [h3, h4]) hl
    · rfl
    · simp [reverse_twice]
    · exact absurd (by rw [h3, h4]) hl

/-! ### Three patches around a vertex on the boundary -/

/-- Three patches around corner 1 (south-west) of each of them: patch 1 is between patches 0 and 2. Side 3 (south) of patch 1 is side 1 (west) of patch 0, and side 1 of
patch 1 is side 3 of patch 2. -/
def fan : Env where
  iface := fun s => if s = (0, 1) ∨ s = (1, 3) then some 0 else if s = (1, 1) ∨ s = (2, 3) then some 1 else none
  first := fun i => if i = 0 then (0, 1) else (1, 1)
  cls := fun c => if c = (0, 1) ∨ c = (1, 1) ∨ c = (2, 1) then [(0, 1), (1, 1), (2, 1)]
    else if c = (0, 3) ∨ c = (1, 2) then [(0, 3), (1, 2)] else if c = (1, 3) ∨ c = (2, 2) then [(1, 3), (2, 2)] else [c]
  sides := fun c => if c.2 = 1 then [(c.1, 1), (c.1, 3)] else if c.2 = 2 then [(c.1, 2), (c.1, 3)] else if c.2 = 3 then [(c.1, 1), (c.1, 4)]
    else if c.2 = 4 then [(c.1, 2), (c.1, 4)] else []
  param := fun s c n => findParameter (openKnots 2 0 [1/4, 1/2, 3/4] 1) (s.2 = 1 && (c.2 = 1 || c.2 = 2) || s.2 = 3 && (c.2 = 1 || c.2 = 3)) n
  minDist := 2
  deg := fun _ _ => 2

/-- The records at the start: the vertex is on the boundary, so nothing is kept C0. -/
def fanMarks : Marks := ⟨[], [⟨0, (0, 1), some 0, (0, 3), some 0⟩, ⟨1, (1, 1), some 0, (1, 3), some 0⟩]⟩

theorem fan_fits : Fits fan fanMarks.recs := by
  refine ⟨?_, ?_, ?_, ?_, ?_⟩
  · intro c
    simp only [fan]
    split_ifs with h1 h2 h3 <;> simp_all
  · intro c c' h x
    simp only [fan] at h ⊢
    split_ifs at h with h1 h2 h3
    · simp at h
      rcases h with rfl | rfl | rfl <;> simp [h1]
    · simp at h
      rcases h with rfl | rfl <;> simp [h1, h2]
    · simp at h
      rcases h with rfl | rfl <;> simp [h1, h2, h3]
    · simp at h
      subst h
      simp [h1, h2, h3]
  · decide
  · decide
  · intro r hr c s hs hi
    obtain ⟨p, k⟩ := c
    have hk : s = (p, 1) ∧ (k = 1 ∨ k = 3) ∨ s = (p, 2) ∧ (k = 2 ∨ k = 4) ∨ s = (p, 3) ∧ (k = 1 ∨ k = 2) ∨ s = (p, 4) ∧ (k = 3 ∨ k = 4) := by
      simp only [fan] at hs
      split_ifs at hs <;> simp_all
    have hi' : r.iface = 0 ∧ (s = (0, 1) ∨ s = (1, 3)) ∨ r.iface = 1 ∧ (s = (1, 1) ∨ s = (2, 3)) := by
      simp only [fan] at hi
      split_ifs at hi with h1 h2
      · exact Or.inl ⟨by simpa using hi.symm, h1⟩
      · exact Or.inr ⟨by simpa using hi.symm, h2⟩
    simp only [fanMarks, List.mem_cons, List.not_mem_nil, or_false] at hr
    rcases hr with rfl | rfl
    · rcases hi' with ⟨-, rfl | rfl⟩ | ⟨h, -⟩
      · simp at hk
        obtain ⟨rfl, rfl | rfl⟩ := hk <;> decide
      · simp at hk
        obtain ⟨rfl, rfl | rfl⟩ := hk <;> decide
      · cases h
    · rcases hi' with ⟨h, -⟩ | ⟨-, rfl | rfl⟩
      · cases h
      · simp at hk
        obtain ⟨rfl, rfl | rfl⟩ := hk <;> decide
      · simp at hk
        obtain ⟨rfl, rfl | rfl⟩ := hk <;> decide

/-- C58. One corner is not enough: in the fan, a call for the corner of patch 0 marks the vertex in all patches, but the edge between patches 1 and 2 is left as it was:
no function is kept C0 along it, instead of two. -/
theorem C58_violated : ¬ ∀ (E : Env) (m : Marks) (pc c : PCorner) (s : PSide) (r : Rec), Fits E m.recs → c ∈ E.cls pc → s ∈ E.sides c → r ∈ m.recs →
    E.iface s = some r.iface → paramDistance E (setC0 E m pc) c s = E.param (E.first r.iface) (endOf E r c) E.minDist := by
  intro H
  have := H fan fanMarks (0, 1) (1, 1) (1, 1) ⟨1, (1, 1), some 0, (1, 3), some 0⟩ fan_fits (by decide) (by decide) (by decide) (by decide)
  revert this
  decide +kernel

example : isSpecial (setC0 fan fanMarks (0, 1)).verts (1, 1) = true ∧ paramDistance fan (setC0 fan fanMarks (0, 1)) (1, 1) (1, 3) = some (1/2) ∧
    paramDistance fan (setC0 fan fanMarks (0, 1)) (1, 1) (1, 1) = some 0 ∧ paramDistance fan (setC0 fan fanMarks (1, 1)) (1, 1) (1, 1) = some (1/2) := by
  decide +kernel

/-- The knots of the fan are symmetric, so all patches see the same knots. -/
def fanBases : Bases := ⟨2, fun _ => openKnots 2 0 [1/4, 1/2, 3/4] 1, fun s c => s.2 = 1 && (c.2 = 1 || c.2 = 2) || s.2 = 3 && (c.2 = 1 || c.2 = 3)⟩

example : ∃ x, paramDistance fan ([(0, 1), (1, 1), (2, 1)].foldl (setC0 fan) fanMarks) (1, 1) (1, 1) = some x ∧ getDistance 2 (fanBases.K (1, 1)) (fanBases.low (1, 1) (1, 1)) x = 2 := by
  have hM : Match fan fanBases fanMarks.recs := by
    intro r _ c s _ _
    split_ifs
    · rfl
    · show openKnots 2 0 [1/4, 1/2, 3/4] 1 = reverseKnots (openKnots 2 0 [1/4, 1/2, 3/4] 1)
      decide +kernel
  exact C58_count fan fanBases fanMarks fan_fits hM (fun _ _ _ => rfl) [(0, 1), (1, 1), (2, 1)] (1, 1) (by decide) (1, 1) (by decide)
    ⟨1, (1, 1), some 0, (1, 3), some 0⟩ (by decide) (by decide) 0 1 [1/4, 1/2, 3/4] (by norm_num) (by norm_num) rfl (by decide)

end Verif.Distances
