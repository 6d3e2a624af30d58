import Verif.Model.Kernel
import Mathlib.Data.List.Perm.Basic
import Mathlib.LinearAlgebra.LinearIndependent.Lemmas
import Mathlib.LinearAlgebra.Dimension.Finrank
import Mathlib.LinearAlgebra.Dimension.Constructions
import Mathlib.LinearAlgebra.FiniteDimensional.Basic
import Mathlib.Tactic.Ring
/-!
# Lemmas about `computeKernel`: the rows
-/
set_option autoImplicit false
set_option linter.unusedSimpArgs false
set_option linter.unusedVariables false
namespace Verif.Kernel

/-- an entry of the lists of boundary sides -/
structure Ent where
  isV : Bool
  pid : ℕ
  du : ℕ
  dv : ℕ

def Ent.d (e : Ent) : ℕ := if e.isV then e.dv else e.du

def ents (x : VPatch × ℕ) : List Ent :=
  (if x.1.free3 then [⟨false, x.2, x.1.du, x.1.dv⟩] else []) ++ (if x.1.free1 then [⟨true, x.2, x.1.du, x.1.dv⟩] else [])

def inner (x : VPatch × ℕ) : Bool := !x.1.free1 && !x.1.free3

def sz (second : Bool) (e : Ent) : ℕ := if second then e.d else e.d + e.d

def isz (second : Bool) : ℕ := if second then 1 else 4

def B (ps : List VPatch) : List Ent := ps.zipIdx.flatMap ents
def I (ps : List VPatch) : List (VPatch × ℕ) := ps.zipIdx.filter inner

def colOf (second : Bool) (c : Coll) (l : List (VPatch × ℕ)) : Coll :=
  { dimU := c.dimU ++ (l.flatMap ents).map Ent.du, dimV := c.dimV ++ (l.flatMap ents).map Ent.dv, side := c.side ++ (l.flatMap ents).map Ent.isV,
    patchID := c.patchID ++ (l.flatMap ents).map Ent.pid, dimUI := c.dimUI ++ (l.filter inner).map (·.1.du), patchIDI := c.patchIDI ++ (l.filter inner).map (·.2),
    dimMat := c.dimMat + ((l.flatMap ents).map (sz second)).sum + isz second * (l.filter inner).length }

theorem one (second : Bool) (c : Coll) (x : VPatch × ℕ) :
    collI second (coll1 second (coll3 second c x.2 x.1) x.2 x.1) x.2 x.1 = colOf second c [x] := by
  obtain ⟨⟨du, dv, f3, f1⟩, np⟩ := x
  cases f3 <;> cases f1 <;> cases second <;> simp [coll3, coll1, collI, colOf, ents, inner, sz, isz, Ent.d, List.filter] <;> omega

theorem colOf_cons (second : Bool) (c : Coll) (x : VPatch × ℕ) (l : List (VPatch × ℕ)) : colOf second (colOf second c [x]) l = colOf second c (x :: l) := by
  unfold colOf
  simp only [List.flatMap_cons, List.flatMap_nil, List.append_nil, List.filter_cons, List.filter_nil, List.map_append, List.sum_append, List.append_assoc]
  split <;> simp [Nat.mul_add, Nat.add_assoc, Nat.add_comm, Nat.add_left_comm]

theorem collect_eq (second : Bool) (ps : List VPatch) : collect second ps = colOf second {} ps.zipIdx := by
  unfold collect
  have key : ∀ (l : List (VPatch × ℕ)) (c : Coll), l.foldl (fun c x => collI second (coll1 second (coll3 second c x.2 x.1) x.2 x.1) x.2 x.1) c = colOf second c l := by
    intro l
    induction l with
    | nil => intro c; cases c; simp [colOf]
    | cons x l ih => intro c; rw [List.foldl_cons, ih, one, colOf_cons]
  exact key _ _

theorem dimMat_eq (second : Bool) (ps : List VPatch) :
    (collect second ps).dimMat = ((B ps).map (sz second)).sum + isz second * (I ps).length := by
  rw [collect_eq]; simp [colOf, B, I]

/-- writes of a boundary side -/
def wl (second : Bool) (shift : ℕ) (e : Ent) : List Write :=
  (List.range e.d).flatMap fun i =>
    (⟨shift + i, e.pid, if e.isV then i * e.du else i⟩ : Write) :: (if second then [] else [⟨e.d + shift + i, e.pid, if e.isV then i * e.du + 1 else i + e.du⟩])

/-- writes of an inner patch -/
def il (shift pid du : ℕ) : List Write := [⟨shift, pid, 0⟩, ⟨shift + 2, pid, du⟩, ⟨shift + 1, pid, 1⟩, ⟨shift + 3, pid, 1 + du⟩]

theorem mapM_some {α β : Type} {f : α → Option β} {g : α → β} : ∀ {l : List α}, (∀ x ∈ l, f x = some (g x)) → l.mapM f = some (l.map g)
  | [], _ => rfl
  | a :: l, h => by
      rw [List.mapM_cons, h a (by simp), mapM_some fun x hx => h x (by simp [hx])]; rfl

theorem wr_ok {ps : List VPatch} {m row patch idx : ℕ} {p : VPatch} (h : ps[patch]? = some p) (hi : idx < p.du * p.dv) (hr : row < m) :
    wr ps m row patch idx = some ⟨row, patch, idx⟩ := by
  unfold wr; rw [h]; exact if_pos ⟨hi, hr⟩

theorem idx_lt {i j a b : ℕ} (hi : i < a) (hj : j < b) : i + j * a < a * b := by
  calc i + j * a < a + j * a := by omega
    _ = a * (j + 1) := by ring
    _ ≤ a * b := Nat.mul_le_mul_left _ hj

theorem bdyRows_ok {second : Bool} {ps : List VPatch} {m shift : ℕ} {e : Ent} {p : VPatch} (hp : ps[e.pid]? = some p) (h1 : e.du = p.du) (h2 : e.dv = p.dv)
    (hd : 2 ≤ p.du ∧ 2 ≤ p.dv) (hm : shift + sz second e ≤ m) : bdyRows second ps m shift e.isV e.pid e.du e.dv = some (wl second shift e) := by
  obtain ⟨isV, pid, du, dv⟩ := e
  simp only at hp h1 h2 ⊢
  subst h1 h2
  unfold bdyRows wl sz Ent.d at *
  cases isV
  · simp only [Bool.false_eq_true, if_false] at hm ⊢
    have hf : ∀ i ∈ List.range p.du, (do
        let a ← wr ps m (shift + i) pid i
        if second = true then return [a] else do
          let b ← wr ps m (p.du + shift + i) pid (i + p.du)
          return [a, b] : Option (List Write)) = some ((⟨shift + i, pid, i⟩ : Write) :: (if second then [] else [⟨p.du + shift + i, pid, i + p.du⟩])) := by
      intro i hi
      rw [List.mem_range] at hi
      have e1 := idx_lt (i := i) (j := 0) (a := p.du) (b := p.dv) hi (by omega)
      have e2 := idx_lt (i := i) (j := 1) (a := p.du) (b := p.dv) hi (by omega)
      cases second
      · simp only [Bool.false_eq_true, if_false] at hm ⊢
        rw [wr_ok hp (by omega) (by omega), wr_ok hp (by omega) (by omega)]; rfl
      · simp only [if_true] at hm ⊢
        rw [wr_ok hp (by omega) (by omega)]; rfl
    rw [mapM_some hf, List.flatMap_def]; rfl
  · simp only [if_true] at hm ⊢
    have hf : ∀ i ∈ List.range p.dv, (do
        let a ← wr ps m (shift + i) pid (i * p.du)
        if second = true then return [a] else do
          let b ← wr ps m (p.dv + shift + i) pid (i * p.du + 1)
          return [a, b] : Option (List Write)) = some ((⟨shift + i, pid, i * p.du⟩ : Write) :: (if second then [] else [⟨p.dv + shift + i, pid, i * p.du + 1⟩])) := by
      intro i hi
      rw [List.mem_range] at hi
      have e1 := idx_lt (i := 0) (j := i) (a := p.du) (b := p.dv) (by omega) hi
      have e2 := idx_lt (i := 1) (j := i) (a := p.du) (b := p.dv) (by omega) hi
      cases second
      · simp only [Bool.false_eq_true, if_false] at hm ⊢
        rw [wr_ok hp (by omega) (by omega), wr_ok hp (by omega) (by omega)]; rfl
      · simp only [if_true] at hm ⊢
        rw [wr_ok hp (by omega) (by omega)]; rfl
    rw [mapM_some hf, List.flatMap_def]; rfl

theorem mem_B {ps : List VPatch} {e : Ent} (h : e ∈ B ps) : ∃ p, ps[e.pid]? = some p ∧ e.du = p.du ∧ e.dv = p.dv ∧ (if e.isV then p.free1 = true else p.free3 = true) := by
  unfold B at h
  rw [List.mem_flatMap] at h
  obtain ⟨⟨p, np⟩, hx, he⟩ := h
  rw [List.mem_zipIdx_iff_getElem?] at hx
  unfold ents at he
  rw [List.mem_append] at he
  rcases he with he | he <;> split at he <;> simp at he <;> subst he
  · exact ⟨p, hx, rfl, rfl, by simpa⟩
  · exact ⟨p, hx, rfl, rfl, by simpa⟩

theorem B_mem {ps : List VPatch} {np : ℕ} {p : VPatch} (h : ps[np]? = some p) :
    (p.free3 = true → (⟨false, np, p.du, p.dv⟩ : Ent) ∈ B ps) ∧ (p.free1 = true → (⟨true, np, p.du, p.dv⟩ : Ent) ∈ B ps) := by
  unfold B
  constructor <;> intro hf <;> rw [List.mem_flatMap] <;> refine ⟨(p, np), List.mem_zipIdx_iff_getElem?.2 h, ?_⟩ <;> simp [ents, hf]

theorem mem_I {ps : List VPatch} {x : VPatch × ℕ} : x ∈ I ps ↔ ps[x.2]? = some x.1 ∧ x.1.free1 = false ∧ x.1.free3 = false := by
  unfold I inner
  rw [List.mem_filter, List.mem_zipIdx_iff_getElem?]
  simp

def total (second : Bool) (l : List Ent) : ℕ := (l.map (sz second)).sum

/-- writes of a list of boundary sides -/
def wls (second : Bool) : ℕ → List Ent → List Write
  | _, [] => []
  | s, e :: l => wl second s e ++ wls second (s + sz second e) l

def ils : ℕ → List (VPatch × ℕ) → List Write
  | _, [] => []
  | s, x :: l => il s x.2 x.1.du ++ ils (s + 4) l

theorem wls_append (second : Bool) : ∀ (l l' : List Ent) (s : ℕ), wls second s (l ++ l') = wls second s l ++ wls second (s + total second l) l'
  | [], _, _ => by simp [wls, total]
  | e :: l, l', s => by
      rw [List.cons_append, wls, wls_append second l l', wls, List.append_assoc]
      simp [total, Nat.add_assoc]

theorem ils_append : ∀ (l l' : List (VPatch × ℕ)) (s : ℕ), ils s (l ++ l') = ils s l ++ ils (s + 4 * l.length) l'
  | [], _, _ => by simp [ils]
  | e :: l, l', s => by
      rw [List.cons_append, ils, ils_append l l', ils, List.append_assoc, List.length_cons, Nat.mul_add, Nat.add_comm (4 * l.length), Nat.add_assoc]

theorem total_append (second : Bool) (l l' : List Ent) : total second (l ++ l') = total second l + total second l' := by
  unfold total; rw [List.map_append, List.sum_append]

theorem total_cons (second : Bool) (e : Ent) (l : List Ent) : total second (e :: l) = sz second e + total second l := rfl

theorem total_le (second : Bool) {l : List Ent} {k : ℕ} (h : k < l.length) : total second (l.take k) + sz second l[k] ≤ total second l := by
  have e : total second l = total second (l.take k ++ l.drop k) := by rw [List.take_append_drop]
  rw [e, List.drop_eq_getElem_cons h, total_append, total_cons]; omega

def Wide (ps : List VPatch) : Prop := ∀ p ∈ ps, 2 ≤ p.du ∧ 2 ≤ p.dv

theorem bdyLoop_ok {second : Bool} {ps : List VPatch} (hw : Wide ps) : bdyLoop second ps (collect second ps) = some (total second (B ps), wls second 0 (B ps)) := by
  have hc := collect_eq second ps
  have e1 : (collect second ps).side = (B ps).map Ent.isV := by rw [hc]; simp [colOf, B]
  have e2 : (collect second ps).patchID = (B ps).map Ent.pid := by rw [hc]; simp [colOf, B]
  have e3 : (collect second ps).dimU = (B ps).map Ent.du := by rw [hc]; simp [colOf, B]
  have e4 : (collect second ps).dimV = (B ps).map Ent.dv := by rw [hc]; simp [colOf, B]
  have e5 := dimMat_eq second ps
  unfold bdyLoop
  rw [e1, e2, e3, e4, List.length_map]
  have key : ∀ k ≤ (B ps).length, (List.range k).foldlM (fun (st : ℕ × List Write) b => do
    let isV ← ((B ps).map Ent.isV)[b]?
    let pid ← ((B ps).map Ent.pid)[b]?
    let du ← ((B ps).map Ent.du)[b]?
    let dv ← ((B ps).map Ent.dv)[b]?
    let l ← bdyRows second ps (collect second ps).dimMat st.1 isV pid du dv
    let d := if isV then dv else du
    return (if second then st.1 + d else st.1 + d + d, st.2 ++ l)) (0, []) = some (total second ((B ps).take k), wls second 0 ((B ps).take k)) := by
    intro k
    induction k with
    | zero => intro _; rfl
    | succ k ih =>
      intro hk
      have hk' : k < (B ps).length := hk
      rw [List.range_succ, List.foldlM_append, ih (by omega)]
      obtain ⟨p, hp, h1, h2, _⟩ := mem_B (List.getElem_mem hk')
      have hb := bdyRows_ok (second := second) (m := (collect second ps).dimMat) (shift := total second ((B ps).take k)) hp h1 h2
        (hw p (List.mem_of_getElem? hp)) (by
          have := total_le second hk'
          rw [e5]; unfold total at *; omega)
      simp only [List.getElem?_map, List.getElem?_eq_getElem hk', Option.map_some, List.foldlM_cons, List.foldlM_nil, Option.bind_eq_bind, Option.bind_some, hb]
      rw [List.take_succ_eq_append_getElem hk', wls_append, total_append, total_cons, Nat.zero_add]
      cases second <;> simp only [wls, sz, Ent.d, List.append_nil, Nat.add_assoc, total, List.map_nil, List.sum_nil, Nat.add_zero, if_true, Bool.false_eq_true, if_false] <;> rfl
  have := key (B ps).length le_rfl
  rw [List.take_length] at this
  exact this

theorem ifaceRows_ok {ps : List VPatch} (hw : Wide ps) {m shift k : ℕ} (hk : k < (I ps).length) (hm : shift + 4 ≤ m) :
    ifaceRows false ps (collect false ps) m shift k = some (il shift (I ps)[k].2 (I ps)[k].1.du) := by
  have hc := collect_eq false ps
  have e1 : (collect false ps).patchIDI = (I ps).map (·.2) := by rw [hc]; simp [colOf, I]
  have e2 : (collect false ps).dimUI = (I ps).map (·.1.du) := by rw [hc]; simp [colOf, I]
  unfold ifaceRows
  obtain ⟨hp, _⟩ := mem_I.1 (List.getElem_mem hk)
  obtain ⟨h1, h2⟩ := hw _ (List.mem_of_getElem? hp)
  rw [e1, e2]
  simp only [Bool.false_eq_true, if_false, List.getElem?_map, List.getElem?_eq_getElem hk, Option.map_some, Option.bind_eq_bind, Option.bind_some]
  have i1 := idx_lt (i := 1) (j := 1) (show 1 < (I ps)[k].1.du by omega) (show 1 < (I ps)[k].1.dv by omega)
  have hr : List.range 2 = [0, 1] := rfl
  rw [hr, mapM_some (g := fun i => [(⟨shift + i, (I ps)[k].2, i⟩ : Write), ⟨shift + 2 + i, (I ps)[k].2, i + (I ps)[k].1.du⟩])]
  · simp [il]
  · intro i hi
    have : i = 0 ∨ i = 1 := by simpa using hi
    rw [wr_ok hp (by omega) (by omega), wr_ok hp (by omega) (by omega)]; rfl

theorem rows_false {ps : List VPatch} (hw : Wide ps) : rows false ps = some (wls false 0 (B ps) ++ ils (total false (B ps)) (I ps)) := by
  have hc := collect_eq false ps
  have e1 : (collect false ps).patchIDI.length = (I ps).length := by rw [hc]; simp [colOf, I]
  have e5 := dimMat_eq false ps
  unfold rows
  simp only [bdyLoop_ok hw, Option.bind_eq_bind, Option.bind_some, e1]
  have key : ∀ k ≤ (I ps).length, (List.range k).foldlM (fun (st : ℕ × List Write) k => do
    let l ← ifaceRows false ps (collect false ps) (collect false ps).dimMat st.1 k
    return (if false then st.1 + 1 else st.1 + 4, st.2 ++ l)) (total false (B ps), wls false 0 (B ps)) =
      some (total false (B ps) + 4 * k, wls false 0 (B ps) ++ ils (total false (B ps)) ((I ps).take k)) := by
    intro k
    induction k with
    | zero => intro _; simp [ils]
    | succ k ih =>
      intro hk
      have hk' : k < (I ps).length := hk
      rw [List.range_succ, List.foldlM_append, ih (by omega)]
      have hb := ifaceRows_ok hw (m := (collect false ps).dimMat) (shift := total false (B ps) + 4 * k) hk' (by
        have : 4 * k + 4 ≤ 4 * (I ps).length := by omega
        rw [e5]; simp only [isz, total, Bool.false_eq_true, if_false] at *; omega)
      simp only [List.foldlM_cons, List.foldlM_nil, Option.bind_eq_bind, Option.bind_some, hb]
      rw [List.take_succ_eq_append_getElem hk', ils_append, List.length_take_of_le (by omega)]
      simp [ils, Nat.mul_add, Nat.add_assoc]
  have := key _ le_rfl
  rw [List.take_length] at this
  simp only [Option.bind_eq_bind, Bool.false_eq_true, if_false] at this ⊢
  rw [this]; rfl

/-- rows of the inner patches with option `second` -/
def sls : ℕ → List Ent → List Write
  | _, [] => []
  | s, e :: l => ⟨s, e.pid, 0⟩ :: sls (s + 1) l

theorem sls_append : ∀ (l l' : List Ent) (s : ℕ), sls s (l ++ l') = sls s l ++ sls (s + l.length) l'
  | [], _, _ => by simp [sls]
  | e :: l, l', s => by
      rw [List.cons_append, sls, sls_append l l', sls, List.length_cons, List.cons_append, Nat.add_comm l.length 1, Nat.add_assoc]

theorem rows_true {ps : List VPatch} (hw : Wide ps) :
    rows true ps = if (I ps).length ≤ (B ps).length then some (wls true 0 (B ps) ++ sls (total true (B ps)) ((B ps).take (I ps).length)) else none := by
  have hc := collect_eq true ps
  have e1 : (collect true ps).patchIDI.length = (I ps).length := by rw [hc]; simp [colOf, I]
  have e2 : (collect true ps).patchID = (B ps).map Ent.pid := by rw [hc]; simp [colOf, B]
  have e5 := dimMat_eq true ps
  unfold rows
  simp only [bdyLoop_ok hw, Option.bind_eq_bind, Option.bind_some, e1]
  have key : ∀ k ≤ (I ps).length, (List.range k).foldlM (fun (st : ℕ × List Write) k => do
    let l ← ifaceRows true ps (collect true ps) (collect true ps).dimMat st.1 k
    return (if true then st.1 + 1 else st.1 + 4, st.2 ++ l)) (total true (B ps), wls true 0 (B ps)) =
      if k ≤ (B ps).length then some (total true (B ps) + k, wls true 0 (B ps) ++ sls (total true (B ps)) ((B ps).take k)) else none := by
    intro k
    induction k with
    | zero => intro _; simp [sls]
    | succ k ih =>
      intro hk
      rw [List.range_succ, List.foldlM_append, ih (by omega)]
      by_cases hk' : k < (B ps).length
      · rw [if_pos (by omega), if_pos (by omega)]
        obtain ⟨p, hp, h1, h2, _⟩ := mem_B (List.getElem_mem hk')
        have hd := hw p (List.mem_of_getElem? hp)
        have hb : ifaceRows true ps (collect true ps) (collect true ps).dimMat (total true (B ps) + k) k = some [⟨total true (B ps) + k, (B ps)[k].pid, 0⟩] := by
          unfold ifaceRows
          rw [e2]
          simp only [if_true, List.getElem?_map, List.getElem?_eq_getElem hk', Option.map_some, Option.bind_eq_bind, Option.bind_some]
          rw [wr_ok hp (Nat.mul_pos (by omega) (by omega)) (by
            have : isz true = 1 := rfl
            rw [e5, this]; unfold total; omega)]; rfl
        simp only [List.foldlM_cons, List.foldlM_nil, Option.bind_eq_bind, Option.bind_some, hb]
        rw [List.take_succ_eq_append_getElem hk', sls_append, List.length_take_of_le (by omega)]
        simp [sls, Nat.add_assoc]
      · rw [if_neg (show ¬ k + 1 ≤ (B ps).length by omega)]
        by_cases hk2 : k ≤ (B ps).length
        · rw [if_pos hk2]
          have hn : (B ps)[k]? = none := by rw [List.getElem?_eq_none_iff]; omega
          simp [ifaceRows, e2, hn]
        · rw [if_neg hk2]; rfl
  have := key _ le_rfl
  simp only [Option.bind_eq_bind, if_true] at this ⊢
  rw [this]
  split <;> rfl

/-! ## Row numbers -/

theorem wl_rows (second : Bool) (s : ℕ) (e : Ent) : ((wl second s e).map Write.row).Perm (List.range' s (sz second e)) := by
  unfold wl sz
  rw [List.map_flatMap]
  have hr : ∀ a n : ℕ, List.range' a n = (List.range n).map (a + ·) := fun a n => List.range'_eq_map_range
  cases second
  · simp only [Bool.false_eq_true, if_false, List.map_cons, List.map_nil]
    have h := List.flatMap_append_perm (List.range e.d) (fun i => [s + i]) (fun i => [e.d + s + i])
    refine h.symm.trans ?_
    rw [← List.range'_append_1 (s := s) (m := e.d) (n := e.d), hr, hr, ← List.map_eq_flatMap, ← List.map_eq_flatMap, Nat.add_comm e.d s]
  · simp only [if_true, List.map_cons, List.map_nil]
    rw [hr, List.map_eq_flatMap]

theorem wls_rows (second : Bool) : ∀ (l : List Ent) (s : ℕ), ((wls second s l).map Write.row).Perm (List.range' s (total second l))
  | [], _ => by simp [wls, total]
  | e :: l, s => by
      rw [wls, List.map_append, total_cons, ← List.range'_append_1]
      exact (wl_rows second s e).append (wls_rows second l _)

theorem ils_rows : ∀ (l : List (VPatch × ℕ)) (s : ℕ), ((ils s l).map Write.row).Perm (List.range' s (4 * l.length))
  | [], _ => by simp [ils]
  | e :: l, s => by
      rw [ils, List.map_append, List.length_cons, Nat.mul_add, Nat.add_comm (4 * l.length), ← List.range'_append_1]
      refine List.Perm.append ?_ (ils_rows l _)
      have : List.range' s (4 * 1) = [s, s + 1, s + 2, s + 3] := rfl
      rw [this]
      simp only [il, List.map_cons, List.map_nil]
      exact List.Perm.cons _ (List.Perm.swap _ _ _)

theorem sls_rows : ∀ (l : List Ent) (s : ℕ), (sls s l).map Write.row = List.range' s l.length
  | [], _ => rfl
  | e :: l, s => by rw [sls, List.map_cons, sls_rows l, List.length_cons, List.range'_succ]

theorem mem_wl {second : Bool} {s : ℕ} {e : Ent} {np idx : ℕ} : (∃ w ∈ wl second s e, w.patch = np ∧ w.idx = idx) ↔
    e.pid = np ∧ ∃ i < e.d, idx = (if e.isV then i * e.du else i) ∨ second = false ∧ idx = (if e.isV then i * e.du + 1 else i + e.du) := by
  unfold wl
  constructor
  · rintro ⟨w, hw, rfl, rfl⟩
    rw [List.mem_flatMap] at hw
    obtain ⟨i, hi, hw⟩ := hw
    rw [List.mem_range] at hi
    rcases List.mem_cons.1 hw with rfl | hw
    · exact ⟨rfl, i, hi, Or.inl rfl⟩
    · cases second
      · simp only [Bool.false_eq_true, if_false, List.mem_singleton] at hw
        subst hw
        exact ⟨rfl, i, hi, Or.inr ⟨rfl, rfl⟩⟩
      · simp at hw
  · rintro ⟨rfl, i, hi, rfl | ⟨rfl, rfl⟩⟩
    · exact ⟨_, List.mem_flatMap.2 ⟨i, List.mem_range.2 hi, List.mem_cons_self⟩, rfl, rfl⟩
    · exact ⟨_, List.mem_flatMap.2 ⟨i, List.mem_range.2 hi, List.mem_cons_of_mem _ (by simp only [Bool.false_eq_true, if_false]; exact List.mem_singleton_self _)⟩, rfl, rfl⟩

theorem mem_wls {second : Bool} {np idx : ℕ} : ∀ {l : List Ent} {s : ℕ}, (∃ w ∈ wls second s l, w.patch = np ∧ w.idx = idx) ↔
    ∃ e ∈ l, e.pid = np ∧ ∃ i < e.d, idx = (if e.isV then i * e.du else i) ∨ second = false ∧ idx = (if e.isV then i * e.du + 1 else i + e.du)
  | [], _ => by simp [wls]
  | e :: l, s => by
      simp only [wls, List.mem_append, or_and_right, exists_or, List.mem_cons, exists_eq_left]
      rw [mem_wl, mem_wls]

theorem mem_ils {np idx : ℕ} : ∀ {l : List (VPatch × ℕ)} {s : ℕ}, (∃ w ∈ ils s l, w.patch = np ∧ w.idx = idx) ↔
    ∃ x ∈ l, x.2 = np ∧ (idx = 0 ∨ idx = x.1.du ∨ idx = 1 ∨ idx = 1 + x.1.du)
  | [], _ => by simp [ils]
  | x :: l, s => by
      simp only [ils, List.mem_append, or_and_right, exists_or, List.mem_cons, exists_eq_left]
      rw [mem_ils]
      refine or_congr ?_ Iff.rfl
      simp only [il, List.mem_cons, List.not_mem_nil, or_false, or_and_right, exists_or, exists_eq_left]
      constructor
      · rintro (⟨h, h'⟩ | ⟨h, h'⟩ | ⟨h, h'⟩ | ⟨h, h'⟩) <;> exact ⟨h, by omega⟩
      · rintro ⟨h, h'⟩; omega

theorem mem_sls {np idx : ℕ} : ∀ {l : List Ent} {s : ℕ}, (∃ w ∈ sls s l, w.patch = np ∧ w.idx = idx) ↔ ∃ e ∈ l, e.pid = np ∧ idx = 0
  | [], _ => by simp [sls]
  | x :: l, s => by
      simp only [sls, List.mem_cons, or_and_right, exists_or, exists_eq_left]
      rw [mem_sls]
      simp only [eq_comm]

/-! ## The matrix -/

noncomputable section
open Classical

/-- small numbers are dropped -/
def cut (x : ℝ) : ℝ := if x * x > 1 / 10 ^ 25 then x else 0

theorem matrix_get {F : Funs} {ws : List Write} (hn : (ws.map Write.row).Nodup) {w : Write} (hw : w ∈ ws) (j : Fin 6) :
    matrix F ws w.row j = cut (F w.patch j w.idx) := by
  unfold matrix
  have key : ∀ (ws : List Write) (A : ℕ → V), (∀ w ∈ ws, ∀ j, A w.row j = 0) → (ws.map Write.row).Nodup →
      (∀ r, r ∉ ws.map Write.row → ∀ j, ws.foldl (fun (A : ℕ → V) w r j => if r = w.row ∧ F w.patch j w.idx * F w.patch j w.idx > 1 / 10 ^ 25 then F w.patch j w.idx else A r j) A r j = A r j) ∧
      ∀ w ∈ ws, ∀ j, ws.foldl (fun (A : ℕ → V) w r j => if r = w.row ∧ F w.patch j w.idx * F w.patch j w.idx > 1 / 10 ^ 25 then F w.patch j w.idx else A r j) A w.row j = cut (F w.patch j w.idx) := by
    intro ws
    induction ws with
    | nil => intro A _ _; exact ⟨fun _ _ _ => rfl, fun _ h => by cases h⟩
    | cons v ws ih =>
      intro A hA hn
      rw [List.map_cons, List.nodup_cons] at hn
      obtain ⟨h1, h2⟩ := ih (fun r j => if r = v.row ∧ F v.patch j v.idx * F v.patch j v.idx > 1 / 10 ^ 25 then F v.patch j v.idx else A r j) (by
        intro w hw j
        have : w.row ≠ v.row := fun h => hn.1 (h ▸ List.mem_map_of_mem hw)
        simp only [this, false_and, if_false]
        exact hA w (List.mem_cons_of_mem _ hw) j) hn.2
      constructor
      · intro r hr j
        rw [List.map_cons, List.mem_cons, not_or] at hr
        rw [List.foldl_cons, h1 r hr.2]
        simp [hr.1]
      · intro w hw j
        rw [List.foldl_cons]
        rcases List.mem_cons.1 hw with rfl | hw
        · rw [h1 _ hn.1]
          simp only [true_and, cut, hA w List.mem_cons_self j]
        · exact h2 w hw j
  exact (key ws _ (fun _ _ _ => rfl) hn).2 w hw j

/-! ## Completion -/

theorem indep_iff {l : List V} : indep l ↔ l.Nodup ∧ LinearIndepOn ℝ id {x | x ∈ l} := by
  unfold indep
  constructor
  · intro h
    refine ⟨?_, ?_⟩
    · have := h.injective
      rw [List.nodup_iff_injective_get]
      exact this
    · have := h.linearIndepOn_id
      have e : Set.range (fun i : Fin l.length => l[i]) = {x | x ∈ l} := by
        ext x; simp [List.mem_iff_getElem, Fin.exists_iff]
      rwa [e] at this
  · rintro ⟨h1, h2⟩
    have := h2.comp (fun i : Fin l.length => (⟨l[i], List.getElem_mem _⟩ : {x | x ∈ l})) (by
      intro i j hij
      rw [List.nodup_iff_injective_get] at h1
      exact h1 (by simpa using hij))
    exact this

theorem indep_snoc {l : List V} {u : V} (h : indep l) : indep (l ++ [u]) ↔ u ∉ Submodule.span ℝ {x | x ∈ l} := by
  rw [indep_iff] at h ⊢
  have e : {x | x ∈ l ++ [u]} = insert u {x | x ∈ l} := by ext x; simp [or_comm]
  rw [e]
  constructor
  · rintro ⟨h1, h2⟩
    have hu : u ∉ {x | x ∈ l} := by
      rw [List.nodup_append] at h1
      intro hu; exact h1.2.2 u hu u (by simp) rfl
    have := ((linearIndepOn_insert hu).1 h2).2
    simpa using this
  · intro hu
    have hu' : u ∉ {x | x ∈ l} := fun hc => hu (Submodule.subset_span hc)
    refine ⟨?_, (linearIndepOn_insert hu').2 ⟨h.2, by simpa using hu⟩⟩
    rw [List.nodup_append]
    exact ⟨h.1, by simp, fun a ha b hb hab => by simp at hb; subst hb; subst hab; exact hu' ha⟩

theorem indep_le {l : List V} (h : indep l) : l.length ≤ 6 := by
  have := LinearIndependent.fintype_card_le_finrank h
  simpa using this

theorem range_eq (l : List V) : Set.range (fun i : Fin l.length => l[i]) = {x | x ∈ l} := by
  ext x; simp [List.mem_iff_getElem, Fin.exists_iff]

theorem indep_top {l : List V} (h : indep l) : l.length = 6 ↔ Submodule.span ℝ {x | x ∈ l} = ⊤ := by
  have h1 := finrank_span_eq_card h
  rw [range_eq, Fintype.card_fin] at h1
  constructor
  · intro h6
    apply Submodule.eq_top_of_finrank_eq
    rw [h1, h6]; simp
  · intro ht
    rw [ht, finrank_top] at h1
    simpa using h1.symm

theorem span_unit : Submodule.span ℝ (Set.range unit) = ⊤ := by
  rw [eq_top_iff]
  intro x _
  have : x = ∑ i, x i • unit i := by
    funext j
    simp [unit, Finset.sum_apply]
  rw [this]
  exact Submodule.sum_mem _ fun i _ => Submodule.smul_mem _ _ (Submodule.subset_span ⟨i, rfl⟩)

theorem complete_spec (K : List V) (count : ℕ) (hK : indep K) (hc : ∀ i : Fin 6, i.1 < count → unit i ∈ Submodule.span ℝ {x | x ∈ K}) :
    ∃ K', complete K count = some K' ∧ K <+: K' ∧ K'.length = 6 ∧ indep K' := by
  induction hn : 6 - count generalizing K count with
  | zero =>
    have ht : Submodule.span ℝ {x | x ∈ K} = ⊤ := by
      rw [eq_top_iff, ← span_unit, Submodule.span_le]
      rintro _ ⟨i, rfl⟩
      exact hc i (by omega)
    have h6 := (indep_top hK).2 ht
    refine ⟨K, ?_, List.prefix_refl _, h6, hK⟩
    unfold complete
    rw [if_neg (by omega)]
  | succ n ih =>
    unfold complete
    by_cases hl : K.length < 6
    · have h6 : count < 6 := by omega
      rw [if_pos hl, dif_pos h6]
      have step : ∀ K₁, K <+: K₁ → indep K₁ → unit ⟨count, h6⟩ ∈ Submodule.span ℝ {x | x ∈ K₁} →
          ∃ K', complete K₁ (count + 1) = some K' ∧ K <+: K' ∧ K'.length = 6 ∧ indep K' := by
        intro K₁ hp hi hu
        obtain ⟨K', h1, h2, h3⟩ := ih K₁ (count + 1) hi (by
          intro i hi'
          rcases Nat.lt_succ_iff_lt_or_eq.1 hi' with h | h
          · exact Submodule.span_mono (fun x hx => hp.subset hx) (hc i h)
          · have : i = ⟨count, h6⟩ := Fin.ext h
            rw [this]; exact hu) (by omega)
        exact ⟨K', h1, hp.trans h2, h3⟩
      by_cases hi : indep (K ++ [unit ⟨count, h6⟩])
      · rw [if_pos hi]
        exact step _ (List.prefix_append _ _) hi (Submodule.subset_span (by simp))
      · rw [if_neg hi]
        refine step _ (List.prefix_refl _) hK ?_
        rw [indep_snoc hK] at hi
        exact not_not.1 hi
    · rw [if_neg hl]
      exact ⟨K, rfl, List.prefix_refl _, by have := indep_le hK; omega, hK⟩

/-! ## Threshold -/

theorem search_spec (piv : List ℝ) (dofs : ℕ) (h6 : dofs ≤ 6) (t : ℝ) : ∃ n : ℕ, search piv dofs h6 t = t + n * (1 / 10 ^ 8) ∧
    dofs ≤ dimKer piv (search piv dofs h6 t) ∧ ∀ k < n, dimKer piv (t + k * (1 / 10 ^ 8)) < dofs := by
  induction hm : ⌈(1 - t) * 10 ^ 8⌉₊ using Nat.strong_induction_on generalizing t with
  | _ m ih =>
    rw [search]
    by_cases h : dimKer piv t < dofs
    · rw [if_pos h]
      have ht : t < 1 := by
        by_contra hc
        have := rank_one piv (not_lt.1 hc)
        unfold dimKer at h
        omega
      have e : (1 - (t + 1 / 10 ^ 8)) * 10 ^ 8 = (1 - t) * 10 ^ 8 - 1 := by ring
      have _h1 : 0 < 1 - t := by linarith
      obtain ⟨n, h1, h2, h3⟩ := ih _ (by
        rw [← hm, e, Nat.ceil_sub_one]
        exact Nat.sub_lt (Nat.ceil_pos.2 (by positivity)) Nat.one_pos) (t + 1 / 10 ^ 8) rfl
      refine ⟨n + 1, by rw [h1]; push_cast; ring, h2, ?_⟩
      intro k hk
      rcases k with _ | k
      · simpa using h
      · have := h3 k (by omega)
        push_cast
        convert this using 2
        ring
    · rw [if_neg h]
      exact ⟨0, by simp, not_lt.1 h, fun k hk => absurd hk (Nat.not_lt_zero _)⟩

end
end Verif.Kernel
