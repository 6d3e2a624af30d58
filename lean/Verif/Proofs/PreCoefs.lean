import Verif.Model.PreCoefs
import Verif.Proofs.DPatchChain
/-! Helper lemmas for `_preCoefficients`. -/
set_option autoImplicit false
set_option linter.unusedSectionVars false
set_option linter.unusedVariables false
set_option linter.unusedSimpArgs false
namespace Verif.PreCoefs
open Verif Smooth
open _root_.Verif.DPatch (V3 V3_iff V3_same ex ex_spec ex_same AE BVal matched chain3)

variable {P : Type} [LinearOrder P] {V : Type}

/-! ## first loop -/

theorem fill_append (row : Dof P → Option (Dof P)) (x : Dof P → V) (l : List (Dof P)) (d : Dof P) (r : Dof P) :
    fill row x (l ++ [d]) r = if row d = some r then some (x d) else fill row x l r := by
  unfold fill
  rw [List.foldl_append]
  simp only [List.foldl_cons, List.foldl_nil]
  cases h : row d with
  | none => simp
  | some q =>
    simp only [Option.some.injEq]
    by_cases e : r = q
    · simp [e]
    · rw [if_neg e, if_neg (fun h => e h.symm)]

theorem fill_spec (row : Dof P → Option (Dof P)) (x : Dof P → V) (r : Dof P) : ∀ l : List (Dof P), (∃ d ∈ l, row d = some r) →
    ∃ d ∈ l, row d = some r ∧ fill row x l r = some (x d) := by
  intro l
  induction l using List.reverseRecOn with
  | nil => rintro ⟨d, hd, -⟩; cases hd
  | append_singleton l d ih =>
    rintro ⟨e, he, hr⟩
    rw [fill_append]
    by_cases h : row d = some r
    · exact ⟨d, by simp, h, by rw [if_pos h]⟩
    · rw [if_neg h]
      rw [List.mem_append, List.mem_singleton] at he
      rcases he with he | rfl
      · obtain ⟨d', h1, h2, h3⟩ := ih ⟨e, he, hr⟩
        exact ⟨d', by simp [h1], h2, h3⟩
      · exact absurd hr h

/-! ## rows -/

theorem h00 (T : Topo P) (d : PC P) : vert T d d.2.uside 0 0 = enc T (.cor d false false) := by rw [vert00 T d (uside_mem _), av_diag]
theorem h11 (T : Topo P) (d : PC P) : vert T d d.2.uside 1 1 = enc T (.cor d true true) := by rw [vert11 T d (uside_mem _), av_diag]

section rows
variable {T : Topo P} (ok : Ok T) {elim : Dof P → Bool} (hel : ∀ a, AValid T a → elim (enc T a) = AE T a)
include ok hel

theorem row_free {a : ADof P} (ha : AValid T a) (h : AE T a = false) : rowName T elim (enc T a) = some (enc T a) := by
  unfold rowName; rw [hel a ha, h]; simp

theorem row_v3 {c : PC P} (h : V3 T c = true) : rowName T elim (enc T (.cor c false false)) = some (enc T (ex T c)) := by
  obtain ⟨m, hm, hex, hmat⟩ := ex_spec ok c
  by_cases hf : AE T (.cor c false false) = false
  · rw [row_free ok hel (a := .cor c false false) trivial hf]
    unfold AE at hf
    simp only [h, if_true, ne_eq, decide_not, Bool.not_eq_false', decide_eq_true_eq] at hf
    rw [hf]
  · unfold rowName
    rw [hel (.cor c false false) trivial, if_pos (by simpa using hf)]
    have h1 : (enc T (.cor c false false)).1 = c.1 := by rw [← h00, vert, sideDof]; split_ifs <;> rfl
    cases hfd : Corner.all.find? fun k => decide (vert T ((enc T (.cor c false false)).1, k) k.uside 0 0 = enc T (.cor c false false) ∧
        T.interior ((enc T (.cor c false false)).1, k) = false ∧ (T.cl ((enc T (.cor c false false)).1, k)).length = 3) with
    | none =>
      have := List.find?_eq_none.1 hfd c.2 (Corner.mem_all _)
      rw [h1] at this
      simp only [decide_eq_true_eq, not_and] at this
      exact absurd ((V3_iff c).1 h).2 (this (h00 T c) ((V3_iff c).1 h).1)
    | some k =>
      have := List.find?_some hfd
      rw [h1] at this
      simp only [decide_eq_true_eq] at this
      have e : (c.1, k) = c := by
        have g := this.1
        rw [show vert T (c.1, k) k.uside 0 0 = enc T (.cor (c.1, k) false false) from h00 T (c.1, k)] at g
        have g' := congrArg (dec T) g
        rw [dec_enc ok (x := .cor (c.1, k) false false) trivial, dec_enc ok (x := .cor c false false) trivial] at g'
        simpa using g'
      simp only [h1, e]
      exact hmat

theorem row_inv {d r : Dof P} (hd : valid T d) (h : rowName T elim d = some r) :
    (elim d = false ∧ r = d) ∨ ∃ c, V3 T c = true ∧ d = enc T (.cor c false false) ∧ r = enc T (ex T c) := by
  unfold rowName at h
  split_ifs at h with he
  · right
    split at h
    · rename_i k hk
      have := List.find?_some hk
      simp only [decide_eq_true_eq] at this
      obtain ⟨m, hm, hex, hmat⟩ := ex_spec ok (d.1, k)
      refine ⟨(d.1, k), (V3_iff _).2 this.2, ?_, ?_⟩
      · rw [← h00]; exact this.1.symm
      · rw [hmat] at h; exact (Option.some.inj h).symm
    · cases h
  · left
    exact ⟨by simpa using he, (Option.some.inj h).symm⟩

theorem AE_11 (c : PC P) : AE T (.cor c true true) = false := by
  unfold AE; rfl

theorem AE_ex {c : PC P} (h : V3 T c = true) : AE T (ex T c) = false := by
  obtain ⟨m, hm, hex, -⟩ := ex_spec ok c
  rw [hex]
  have : V3 T m = true := by rw [V3_same ok hm]; exact h
  simp only [AE, this, if_true, ex_same ok hm, hex]
  simp

/-- rows other than those of the vertices with three patches -/
theorem fill_free (x : Dof P → V) {dl : List (Dof P)} (hdl : ∀ d, d ∈ dl ↔ valid T d) {a : ADof P} (ha : AValid T a) (h : AE T a = false)
    (hne : ∀ c, V3 T c = true → a ≠ ex T c) : fill (rowName T elim) x dl (enc T a) = some (x (enc T a)) := by
  obtain ⟨d, hd, h1, h2⟩ := fill_spec (rowName T elim) x (enc T a) dl ⟨enc T a, (hdl _).2 (enc_valid ok ha), row_free ok hel ha h⟩
  rw [h2]
  rcases row_inv ok hel ((hdl d).1 hd) h1 with ⟨-, e⟩ | ⟨c, hc, -, e⟩
  · rw [e]
  · obtain ⟨m, hm, hex, -⟩ := ex_spec ok c
    have := congrArg (dec T) e
    rw [dec_enc ok ha, hex, dec_enc ok (x := .cor m false false) trivial, ← hex] at this
    exact absurd this (hne c hc)

/-- rows of the vertices with three patches -/
theorem fill_v3 (x : Dof P → V) {dl : List (Dof P)} (hdl : ∀ d, d ∈ dl ↔ valid T d) {c : PC P} (h : V3 T c = true) :
    ∃ d ∈ T.cl c, fill (rowName T elim) x dl (enc T (ex T c)) = some (x (enc T (.cor d false false))) := by
  obtain ⟨d, hd, h1, h2⟩ := fill_spec (rowName T elim) x (enc T (ex T c)) dl
    ⟨enc T (.cor c false false), (hdl _).2 (enc_valid ok (x := .cor c false false) trivial), row_v3 ok hel h⟩
  rw [h2]
  obtain ⟨m, hm, hex, -⟩ := ex_spec ok c
  rcases row_inv ok hel ((hdl d).1 hd) h1 with ⟨-, e⟩ | ⟨c', hc', e1, e⟩
  · exact ⟨m, hm, by rw [← e, hex]⟩
  · obtain ⟨m', hm', hex', -⟩ := ex_spec ok c'
    have := congrArg (dec T) e
    rw [hex, hex', dec_enc ok (x := .cor m false false) trivial, dec_enc ok (x := .cor m' false false) trivial] at this
    simp only [ADof.cor.injEq, and_true] at this
    subst this
    refine ⟨c', ?_, by rw [e1]⟩
    rw [← ok.cl_same c m hm, ok.cl_same c' m hm']
    exact ok.cl_self c'

end rows

/-! ## the three patches of a vertex -/

/-- has the corner a side on the boundary -/
def B (T : Topo P) (d : PC P) : Bool := ! isIface T d.1 d.2.uside || ! isIface T d.1 d.2.vside

theorem B_iff {T : Topo P} (d : PC P) {s : Side} (hs : s ∈ d.2.sides) : B T d = true ↔ cross T d s = none ∨ cross T d (oside d.2 s) = none := by
  have e : ∀ s, (! isIface T d.1 s) = true ↔ cross T d s = none := by
    intro s; unfold isIface; rw [cross_isSome]; cases cross T d s <;> simp
  unfold B
  rw [Bool.or_eq_true, e, e]
  simp only [Corner.sides, List.mem_cons, List.not_mem_nil, or_false] at hs
  rcases hs with rfl | rfl
  · simp [oside, uside_dir]
  · simp [oside, vside_dir, or_comm]

theorem oside_oside {c : Corner} {s : Side} (hs : s ∈ c.sides) : oside c (oside c s) = s := by
  cases c <;> cases s <;> first | rfl | (exfalso; revert hs; decide)

theorem three_bdry {T : Topo P} (ok : Ok T) {c : PC P} (h : V3 T c = true) :
    ∃ a i b, (T.cl c).Perm [a, i, b] ∧ B T a = true ∧ B T i = false ∧ B T b = true := by
  obtain ⟨hi, h3⟩ := (V3_iff c).1 h
  obtain ⟨s, hs, d, hd⟩ : ∃ s ∈ c.2.sides, ∃ d, cross T c s = some d := by
    obtain ⟨y, hy, hne⟩ : ∃ y ∈ T.cl c, y ≠ c := by
      by_contra hcon
      have hsub := length_le_of_subset (A := [c]) (ok.cl_nodup c) (by
        intro d hd
        by_contra g
        exact hcon ⟨d, hd, by simpa using g⟩)
      simp at hsub; omega
    rcases Relation.ReflTransGen.cases_head (ok.cl_conn c y hy) with e | ⟨d, ⟨s, hs, hd⟩, -⟩
    · exact absurd e.symm hne
    · exact ⟨s, hs, d, hd⟩
  obtain ⟨t, ht, htm, -⟩ := cross_data hd
  obtain ⟨e, hp, hcase⟩ := chain3 ok hi h3 hs hd ht
  have md := ok.cl_cross c s d hs hd
  have hid : T.interior d = false := by rw [interior_same ok md]; exact hi
  have perm_d : (T.cl d).Perm (T.cl c) := (List.perm_ext_iff_of_nodup (ok.cl_nodup d) (ok.cl_nodup c)).2 (ok.cl_same c d md)
  have cbd := cross_back ok hs hd ht
  rcases hcase with ⟨k1, k2⟩ | ⟨k1, k2⟩
  · refine ⟨c, d, e, hp, (B_iff c hs).2 (Or.inr k1), ?_, ?_⟩
    · rw [← Bool.not_eq_true, B_iff d htm, cbd, k2]; simp
    · obtain ⟨u, hu, hum, -⟩ := cross_data k2
      obtain ⟨f, -, hc2⟩ := chain3 ok hid (by rw [perm_d.length_eq]; exact h3) (oside_mem _ _) k2 hu
      rw [oside_oside htm, cbd] at hc2
      rcases hc2 with ⟨g, -⟩ | ⟨-, g⟩
      · cases g
      · exact (B_iff e hum).2 (Or.inr g)
  · refine ⟨d, c, e, hp.trans (List.Perm.swap _ _ _), (B_iff d htm).2 (Or.inr k2), ?_, ?_⟩
    · rw [← Bool.not_eq_true, B_iff c hs, hd, k1]; simp
    · obtain ⟨u, hu, hum, -⟩ := cross_data k1
      obtain ⟨f, -, hc2⟩ := chain3 ok hi h3 (oside_mem _ _) k1 hu
      rw [oside_oside hs, hd] at hc2
      rcases hc2 with ⟨g, -⟩ | ⟨-, g⟩
      · cases g
      · exact (B_iff e hum).2 (Or.inr g)

section flat
variable [AddCommGroup V]

/-- signed sum: outer patches minus the one in the middle -/
def flat (T : Topo P) (x : Dof P → V) (c : PC P) : V :=
  ((T.cl c).map fun d => if B T d then x (enc T (.cor d true true)) else - x (enc T (.cor d true true))).sum

theorem flat_same {T : Topo P} (ok : Ok T) (x : Dof P → V) {c d : PC P} (h : d ∈ T.cl c) : flat T x d = flat T x c :=
  (((List.perm_ext_iff_of_nodup (ok.cl_nodup d) (ok.cl_nodup c)).2 (ok.cl_same c d h)).map _).sum_eq

theorem collect_spec {T : Topo P} (ok : Ok T) {elim : Dof P → Bool} (hel : ∀ a, AValid T a → elim (enc T a) = AE T a) {c : PC P} (h : V3 T c = true) (x : Dof P → V) :
    ∃ r0 r1 ri : PC P, r0 ∈ T.cl c ∧ r1 ∈ T.cl c ∧ ri ∈ T.cl c ∧
      collect T elim (T.cl c) = some ([enc T (.cor r0 true true), enc T (.cor r1 true true)], some (enc T (.cor ri true true))) ∧
      x (enc T (.cor r0 true true)) + x (enc T (.cor r1 true true)) - x (enc T (.cor ri true true)) = flat T x c := by
  obtain ⟨a, i, b, hp, ha, hi, hb⟩ := three_bdry ok h
  have hr : ∀ d : PC P, rowName T elim (vert T d d.2.uside 1 1) = some (enc T (.cor d true true)) := by
    intro d; rw [h11]; exact row_free ok hel (a := .cor d true true) trivial (AE_11 ok hel d)
  have hcnt : (T.cl c).countP (fun d => ! B T d) = 1 := by
    rw [hp.countP_eq]; simp [List.countP_cons, ha, hi, hb]
  have hl := hp.length_eq
  unfold flat collect
  revert hcnt hl
  rcases T.cl c with _ | ⟨p, _ | ⟨q, _ | ⟨r, _ | ⟨y, l⟩⟩⟩⟩ <;> intro hcnt hl <;> simp only [List.length_cons, List.length_nil] at hl <;> try omega
  simp only [List.foldlM_cons, List.foldlM_nil, hr, Option.bind_eq_bind, Option.bind_some, ← B.eq_1]
  cases hB1 : B T p <;> cases hB2 : B T q <;> cases hB3 : B T r <;> simp [List.countP_cons, hB1, hB2, hB3] at hcnt
  · exact ⟨q, r, p, by simp, by simp, by simp, by simp [hB1, hB2, hB3], by simp [hB1, hB2, hB3]; abel⟩
  · exact ⟨p, r, q, by simp, by simp, by simp, by simp [hB1, hB2, hB3], by simp [hB1, hB2, hB3]; abel⟩
  · exact ⟨p, q, r, by simp, by simp, by simp, by simp [hB1, hB2, hB3], by simp [hB1, hB2, hB3]; abel⟩

/-! ## second loop -/

/-- a corner of the vertex that is not skipped was met -/
def met (T : Topo P) (skip : PC P → Bool) (l : List (PC P)) (c : PC P) : Bool := l.any fun d => decide (d ∈ T.cl c) && ! skip d

structure Inv (T : Topo P) (skip : PC P → Bool) (F : Dof P → Option V) (x : Dof P → V) (l : List (PC P)) (st : PreSt P V) : Prop where
  chk : ∀ c, V3 T c = true → st.vchk c = met T skip l c
  v3 : ∀ c, V3 T c = true → st.coef (enc T (ex T c)) = if met T skip l c then some (flat T x c) else F (enc T (ex T c))
  rest : ∀ q, (∀ c, V3 T c = true → q ≠ enc T (ex T c)) → st.coef q = F q

theorem met_append (T : Topo P) (skip : PC P → Bool) (l : List (PC P)) (d c : PC P) :
    met T skip (l ++ [d]) c = (met T skip l c || (decide (d ∈ T.cl c) && ! skip d)) := by
  unfold met; rw [List.any_append]; simp

theorem met_same {T : Topo P} (ok : Ok T) (skip : PC P → Bool) (l : List (PC P)) {c d : PC P} (h : d ∈ T.cl c) : met T skip l d = met T skip l c := by
  unfold met; congr 1; funext e; rw [Bool.eq_iff_iff]; simp [ok.cl_same c d h]

theorem ex_inj {T : Topo P} (ok : Ok T) {c d : PC P} (h : enc T (ex T c) = enc T (ex T d)) : d ∈ T.cl c := by
  obtain ⟨m, hm, hex, -⟩ := ex_spec ok c
  obtain ⟨m', hm', hex', -⟩ := ex_spec ok d
  have := congrArg (dec T) h
  rw [hex, hex', dec_enc ok (x := .cor m false false) trivial, dec_enc ok (x := .cor m' false false) trivial] at this
  simp only [ADof.cor.injEq, and_true] at this
  subst this
  rw [← ok.cl_same c m hm, ok.cl_same d m hm']
  exact ok.cl_self d

theorem loop {T : Topo P} (ok : Ok T) {elim : Dof P → Bool} (hel : ∀ a, AValid T a → elim (enc T a) = AE T a) (skip : PC P → Bool) (x : Dof P → V)
    (F : Dof P → Option V) (hF : ∀ c, V3 T c = true → F (enc T (.cor c true true)) = some (x (enc T (.cor c true true)))) :
    ∀ l : List (PC P), ∃ st, l.foldlM (v3Turn T elim skip) { coef := F, vchk := fun _ => false } = some st ∧ Inv T skip F x l st := by
  intro l
  induction l using List.reverseRecOn with
  | nil => exact ⟨_, rfl, by intros; rfl, by intro c _; simp [met], by intros; rfl⟩
  | append_singleton l c ih =>
    obtain ⟨st, h1, hI⟩ := ih
    rw [List.foldlM_append, h1]
    simp only [Option.bind_eq_bind, Option.bind_some, List.foldlM_cons, List.foldlM_nil]
    -- nothing new
    have same : (∀ c', V3 T c' = true → met T skip (l ++ [c]) c' = met T skip l c') → Inv T skip F x (l ++ [c]) st := by
      intro h
      exact ⟨fun c' hc' => by rw [h c' hc']; exact hI.chk c' hc', fun c' hc' => by rw [h c' hc']; exact hI.v3 c' hc', hI.rest⟩
    have notv : V3 T c = false → ∀ c', V3 T c' = true → met T skip (l ++ [c]) c' = met T skip l c' := by
      intro hv c' hc'
      rw [met_append]
      have : ¬ c ∈ T.cl c' := fun hm => by rw [V3_same ok hm, hc'] at hv; cases hv
      simp [this]
    unfold v3Turn
    by_cases hc : st.vchk c = true
    · refine ⟨st, by simp [hc], same ?_⟩
      intro c' hc'
      rw [met_append]
      by_cases hm : c ∈ T.cl c'
      · have : V3 T c = true := by rw [V3_same ok hm]; exact hc'
        rw [← met_same ok skip l hm, ← hI.chk c this, hc]; simp
      · simp [hm]
    by_cases hk : skip c = true
    · refine ⟨st, by simp [hc, hk], same ?_⟩
      intro c' hc'
      rw [met_append, hk]; simp
    by_cases hv : V3 T c = true
    · obtain ⟨r0, r1, ri, m0, m1, mi, hcol, hsum⟩ := collect_spec ok hel hv x
      have hcond : ¬ T.interior c = true ∧ (T.cl c).length = 3 := by
        have := (V3_iff c).1 hv; exact ⟨by rw [this.1]; simp, this.2⟩
      obtain ⟨d, hd⟩ : ∃ d, (T.cl c).head? = some d := by
        cases hh : T.cl c with
        | nil => have := ok.cl_self c; rw [hh] at this; cases this
        | cons d l => exact ⟨d, rfl⟩
      have hdm : d ∈ T.cl c := List.mem_of_mem_head? hd
      have hvd : V3 T d = true := by rw [V3_same ok hdm]; exact hv
      have h11' : ∀ d ∈ T.cl c, st.coef (enc T (.cor d true true)) = some (x (enc T (.cor d true true))) := by
        intro d hd
        rw [hI.rest, hF d (by rw [V3_same ok hd]; exact hv)]
        intro c' hc' heq
        obtain ⟨m, hm, hex, -⟩ := ex_spec ok c'
        have := congrArg (dec T) heq
        rw [hex, dec_enc ok (x := .cor d true true) trivial, dec_enc ok (x := .cor m false false) trivial] at this
        simp at this
      refine ⟨{ coef := fun q => if q = enc T (ex T c) then some (flat T x c) else st.coef q, vchk := fun e => decide (e ∈ T.cl c) || st.vchk e }, ?_, ?_⟩
      · simp [hc, hk, hcond, hcol, hd, h00, row_v3 ok hel hvd, ex_same ok hdm, h11' _ m0, h11' _ m1, h11' _ mi, hsum]
      · have hmet : met T skip (l ++ [c]) c = true := by
          rw [met_append]; simp [ok.cl_self c, hk]
        refine ⟨?_, ?_, ?_⟩
        · intro c' hc'
          simp only
          by_cases hm : c' ∈ T.cl c
          · rw [met_same ok skip _ hm, hmet]; simp [hm]
          · have : ¬ c ∈ T.cl c' := fun h => hm (AlmostC1.cl_symm ok h)
            rw [met_append, hI.chk c' hc']; simp [hm, this]
        · intro c' hc'
          simp only
          by_cases hm : c' ∈ T.cl c
          · rw [met_same ok skip _ hm, hmet, ex_same ok hm, flat_same ok x hm]; simp
          · have hn : ¬ c ∈ T.cl c' := fun h => hm (AlmostC1.cl_symm ok h)
            rw [if_neg (fun h => hm (ex_inj ok h.symm)), met_append, hI.v3 c' hc']; simp [hn]
        · intro q hq
          simp only
          rw [if_neg (hq c hv)]; exact hI.rest q hq
    · have hcond : ¬ (¬ T.interior c = true ∧ (T.cl c).length = 3) := by
        intro h; apply hv; rw [V3_iff]; exact ⟨by simpa using h.1, h.2⟩
      refine ⟨{ st with vchk := fun e => e = c || st.vchk e }, by rw [if_neg hc, if_neg hk, if_neg hcond]; rfl, ?_⟩
      have hn := notv (by simpa using hv)
      refine ⟨?_, fun c' hc' => by rw [hn c' hc']; exact hI.v3 c' hc', hI.rest⟩
      intro c' hc'
      rw [hn c' hc', ← hI.chk c' hc']
      have : c' ≠ c := fun h => hv (h ▸ hc')
      simp [this]

end flat
end Verif.PreCoefs
