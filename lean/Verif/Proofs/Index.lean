import Verif.Model.Index
import Mathlib.Tactic.Ring
import Mathlib.Tactic.Linarith
namespace Verif.Index
open Verif

theorem tidx_lt {n0 n1 i j : ℕ} (hi : i < n0) (hj : j < n1) : tidx n0 i j < n0 * n1 := by
  unfold tidx
  calc i + n0 * j < n0 + n0 * j := by omega
    _ = n0 * (j + 1) := by ring
    _ ≤ n0 * n1 := Nat.mul_le_mul_left _ hj

theorem tidx_mod {n0 i j : ℕ} (hi : i < n0) : tidx n0 i j % n0 = i := by
  unfold tidx; rw [Nat.add_mul_mod_self_left, Nat.mod_eq_of_lt hi]
theorem tidx_div {n0 i j : ℕ} (hi : i < n0) : tidx n0 i j / n0 = j := by
  unfold tidx; rw [Nat.add_mul_div_left _ _ (by omega), Nat.div_eq_of_lt hi, Nat.zero_add]
theorem tidx_inj {n0 i j i' j' : ℕ} (hi : i < n0) (hi' : i' < n0) (h : tidx n0 i j = tidx n0 i' j') :
    i = i' ∧ j = j' := by
  constructor
  · rw [← tidx_mod (j := j) hi, h, tidx_mod hi']
  · rw [← tidx_div (j := j) hi, h, tidx_div hi']

/-! prefix sums -/
theorem firstLocal_eq (sz : List ℕ) (p : ℕ) : firstLocal sz p = (sz.take p).sum := by
  unfold firstLocal
  induction p with
  | zero => simp
  | succ p ih =>
    rw [List.range_succ, List.foldl_append, ih, List.take_add_one]
    simp only [List.foldl_cons, List.foldl_nil, List.sum_append]
    cases h : sz[p]? with
    | none => simp [List.getD_eq_getElem?_getD, h]
    | some x => simp [List.getD_eq_getElem?_getD, h]

theorem foldl_sub (sz : List ℕ) (p : ℕ) (l : ℤ) :
    (List.range p).foldl (fun (a : ℤ) i => a - (sz.getD i 0 : ℕ)) l = l - firstLocal sz p := by
  unfold firstLocal
  induction p with
  | zero => simp
  | succ p ih =>
    rw [List.range_succ, List.foldl_append, List.foldl_append, ih]
    simp only [List.foldl_cons, List.foldl_nil]
    push_cast; ring

theorem getPatch_spec (sz : List ℕ) (l : ℕ) (h : l < sz.sum) :
    getPatch sz l < sz.length ∧ (sz.take (getPatch sz l)).sum ≤ l ∧
    l < (sz.take (getPatch sz l)).sum + sz.getD (getPatch sz l) 0 := by
  induction sz generalizing l with
  | nil => simp at h
  | cons n sz ih =>
    unfold getPatch
    split_ifs with hn
    · have := ih (l - n) (by simp at h; omega)
      rw [Nat.add_comm 1]
      simp only [List.length_cons, List.take_succ_cons, List.sum_cons, List.getD_cons_succ]
      omega
    · simp; omega

theorem getPatch_local (sz : List ℕ) (p k : ℕ) (hp : p < sz.length) (hk : k < sz.getD p 0) :
    getPatch sz ((sz.take p).sum + k) = p := by
  induction sz generalizing p with
  | nil => simp at hp
  | cons n sz ih =>
    cases p with
    | zero =>
      simp at hk
      unfold getPatch
      simp; omega
    | succ p =>
      simp only [List.getD_cons_succ] at hk
      have := ih p (by simpa using hp) hk
      simp only [List.take_succ_cons, List.sum_cons]
      unfold getPatch
      rw [if_pos (by omega), Nat.add_assoc, Nat.add_sub_cancel_left, this]; omega

theorem local_lt (sz : List ℕ) (p k : ℕ) (hp : p < sz.length) (hk : k < sz.getD p 0) :
    (sz.take p).sum + k < sz.sum := by
  induction sz generalizing p with
  | nil => simp at hp
  | cons n sz ih =>
    cases p with
    | zero => simp at hk ⊢; omega
    | succ p =>
      simp only [List.getD_cons_succ] at hk
      have := ih p (by simpa using hp) hk
      simp only [List.take_succ_cons, List.sum_cons]; omega

/-! splitting -/
/-- cut a list into pieces of given lengths (specification) -/
def pieces {α : Type} : List ℕ → List α → List (List α)
  | [], _ => []
  | n :: sz, l => l.take n :: pieces sz (l.drop n)

theorem splitLoop_eq {α : Type} (coefs : List α) (sz : List ℕ) (s : ℕ) :
    splitLoop coefs ((s : ℤ) - 1) sz = pieces sz (coefs.drop s) := by
  induction sz generalizing s with
  | nil => rfl
  | cons n sz ih =>
    unfold splitLoop pieces
    have e1 : ((s : ℤ) - 1 + 1).toNat = s := by omega
    have e2 : ((s : ℤ) - 1 + 1 + n - 1 - ((s : ℤ) - 1 + 1) + 1).toNat = n := by omega
    have e3 : ((s : ℤ) - 1 + 1 + n - 1) = ((s + n : ℕ) : ℤ) - 1 := by push_cast; ring
    simp only [e1, e2]
    rw [e3, ih, List.drop_drop]

theorem pieces_flatten {α : Type} (sz : List ℕ) (l : List α) (h : l.length = sz.sum) : (pieces sz l).flatten = l := by
  induction sz generalizing l with
  | nil => simp at h; subst h; rfl
  | cons n sz ih =>
    unfold pieces
    rw [List.flatten_cons, ih _ (by simp at h ⊢; omega), List.take_append_drop]

theorem pieces_lengths {α : Type} (sz : List ℕ) (l : List α) (h : sz.sum ≤ l.length) :
    (pieces sz l).map List.length = sz := by
  induction sz generalizing l with
  | nil => rfl
  | cons n sz ih =>
    unfold pieces
    simp only [List.sum_cons] at h
    rw [List.map_cons, ih _ (by simp; omega), List.length_take, Nat.min_eq_left (by omega)]

theorem joinLoop_eq {α : Type} (bs : List (List α)) (v : ℕ → Option α) (s : ℕ) (i : ℕ) :
    joinLoop v ((s : ℤ) - 1) bs i =
      if s ≤ i ∧ i < s + bs.flatten.length then bs.flatten[i - s]? else v i := by
  induction bs generalizing v s with
  | nil => unfold joinLoop; simp
  | cons b bs ih =>
    unfold joinLoop
    have e1 : ((s : ℤ) - 1 + 1).toNat = s := by omega
    have e3 : ((s : ℤ) - 1 + 1 + b.length - 1) = ((s + b.length : ℕ) : ℤ) - 1 := by push_cast; ring
    simp only [e1]
    rw [e3, ih]
    simp only [List.flatten_cons, List.length_append]
    by_cases h1 : s + b.length ≤ i ∧ i < s + b.length + bs.flatten.length
    · rw [if_pos h1, if_pos ⟨by omega, by omega⟩, List.getElem?_append_right (by omega)]
      congr 1; omega
    · rw [if_neg h1]
      unfold writeBlock
      by_cases h2 : s ≤ i ∧ i < s + b.length
      · rw [if_pos h2, if_pos ⟨by omega, by omega⟩, List.getElem?_append_left (by omega)]
      · rw [if_neg h2, if_neg (by omega)]

theorem pieces_get {α : Type} (sz : List ℕ) (l : List α) (p : ℕ) (hp : p < sz.length) :
    (pieces sz l)[p]? = some ((l.drop (sz.take p).sum).take (sz.getD p 0)) := by
  induction sz generalizing l p with
  | nil => simp at hp
  | cons n sz ih =>
    cases p with
    | zero => simp [pieces]
    | succ p =>
      unfold pieces
      simp only [List.getElem?_cons_succ, List.take_succ_cons, List.sum_cons, List.getD_cons_succ]
      rw [ih _ p (by simpa using hp), List.drop_drop]

theorem pieces_length {α : Type} (sz : List ℕ) (l : List α) : (pieces sz l).length = sz.length := by
  induction sz generalizing l with
  | nil => rfl
  | cons n sz ih => unfold pieces; simp [ih]

/-! sorting -/
/-- `f` sorts by patch number in increasing order (in some unspecified order within a patch). -/
def SortsUp (f : List (ℕ × Corner) → List (ℕ × Corner)) : Prop :=
  ∀ l, (f l).Perm l ∧ (f l).Pairwise (fun a b => a.1 ≤ b.1)
/-- `g` sorts by patch number in decreasing order. -/
def SortsDown (g : List (ℕ × Corner) → List (ℕ × Corner)) : Prop :=
  ∀ l, (g l).Perm l ∧ (g l).Pairwise (fun a b => b.1 ≤ a.1)

theorem resize_take {α : Type} (d : α) (n : ℕ) (l : List α) (h : n ≤ l.length) : resize d n l = l.take n := by
  unfold resize; rw [Nat.sub_eq_zero_of_le h]; simp

theorem idxLe_total (a b : ℕ × ℕ) : idxLe a b || idxLe b a := by
  unfold idxLe
  simp only [Bool.or_eq_true, Bool.and_eq_true, decide_eq_true_eq]
  omega
theorem idxLe_trans (a b c : ℕ × ℕ) : idxLe a b → idxLe b c → idxLe a c := by
  unfold idxLe
  simp only [Bool.or_eq_true, Bool.and_eq_true, decide_eq_true_eq]
  omega
theorem idxLe_antisymm (a b : ℕ × ℕ) : idxLe a b → idxLe b a → a = b := by
  unfold idxLe
  simp only [Bool.or_eq_true, Bool.and_eq_true, decide_eq_true_eq]
  intro h1 h2
  ext <;> omega

theorem idx_sort_eq {l l' : List (ℕ × ℕ)} (h : l.Perm l') : l.mergeSort idxLe = l'.mergeSort idxLe :=
  List.Perm.eq_of_pairwise (le := fun a b => idxLe a b) (fun a b _ _ => idxLe_antisymm a b)
    (List.pairwise_mergeSort idxLe_trans idxLe_total l) (List.pairwise_mergeSort idxLe_trans idxLe_total l')
    ((List.mergeSort_perm l _).trans (h.trans (List.mergeSort_perm l' _).symm))

theorem idx_sort_rev (l : List (ℕ × ℕ)) : l.mergeSort (fun a b => idxLe b a) = (l.mergeSort idxLe).reverse := by
  refine List.Perm.eq_of_pairwise (le := fun a b => idxLe b a) (fun a b _ _ h1 h2 => idxLe_antisymm a b h2 h1) ?_ ?_ ?_
  · exact List.pairwise_mergeSort (fun a b c h1 h2 => idxLe_trans c b a h2 h1) (fun a b => idxLe_total b a) l
  · rw [List.pairwise_reverse]
    exact List.pairwise_mergeSort idxLe_trans idxLe_total l
  · exact (List.mergeSort_perm l _).trans ((List.mergeSort_perm l _).symm.trans (List.reverse_perm _).symm)

theorem up_map {f : List (ℕ × Corner) → List (ℕ × Corner)} (hf : SortsUp f)
    {g : List (ℕ × Corner) → List (ℕ × Corner)} (hg : SortsDown g) (l : List (ℕ × Corner)) :
    (g l).map Prod.fst = ((f l).map Prod.fst).reverse := by
  refine List.Perm.eq_of_pairwise (le := fun a b => b ≤ a) (fun a b _ _ h1 h2 => Nat.le_antisymm h2 h1) ?_ ?_ ?_
  · exact List.Pairwise.map _ (fun _ _ h => h) (hg l).2
  · rw [List.pairwise_reverse]; exact List.Pairwise.map _ (fun _ _ h => h) (hf l).2
  · exact (((hg l).1.trans (hf l).1.symm).map _).trans (List.reverse_perm _).symm

theorem nodup_fst_inj {l : List (ℕ × Corner)} (hn : (l.map Prod.fst).Nodup) {a b : ℕ × Corner}
    (ha : a ∈ l) (hb : b ∈ l) (h : a.1 = b.1) : a = b := by
  induction l with
  | nil => simp at ha
  | cons x l ih =>
    simp only [List.map_cons, List.nodup_cons] at hn
    rcases List.mem_cons.1 ha with rfl | ha' <;> rcases List.mem_cons.1 hb with rfl | hb'
    · rfl
    · exact absurd (h ▸ List.mem_map_of_mem (f := Prod.fst) hb') hn.1
    · exact absurd (h ▸ List.mem_map_of_mem (f := Prod.fst) ha') hn.1
    · exact ih hn.2 ha' hb'

theorem up_eq {f f' : List (ℕ × Corner) → List (ℕ × Corner)} (hf : SortsUp f) (hf' : SortsUp f')
    {l l' : List (ℕ × Corner)} (hp : l.Perm l') (hn : (l.map Prod.fst).Nodup) : f l = f' l' := by
  refine List.Perm.eq_of_pairwise (le := fun a b => a.1 ≤ b.1) (fun a b ha hb h1 h2 => ?_) (hf l).2 (hf' l').2
    ((hf l).1.trans (hp.trans (hf' l').1.symm))
  exact nodup_fst_inj hn ((hf l).1.mem_iff.1 ha) (hp.mem_iff.2 ((hf' l').1.mem_iff.1 hb)) (Nat.le_antisymm h1 h2)

theorem down_eq {f g : List (ℕ × Corner) → List (ℕ × Corner)} (hf : SortsUp f) (hg : SortsDown g)
    {l : List (ℕ × Corner)} (hn : (l.map Prod.fst).Nodup) : g l = (f l).reverse := by
  refine List.Perm.eq_of_pairwise (le := fun a b => b.1 ≤ a.1) (fun a b ha hb h1 h2 => ?_) (hg l).2 ?_
    ((hg l).1.trans ((hf l).1.symm.trans (List.reverse_perm _).symm))
  · exact nodup_fst_inj hn ((hg l).1.mem_iff.1 ha) ((hf l).1.mem_iff.1 (List.mem_reverse.1 hb)) (Nat.le_antisymm h2 h1)
  · rw [List.pairwise_reverse]; exact (hf l).2

theorem reverse_take {α : Type} (s : List α) (n : ℕ) (h : n ≤ s.length) :
    s.reverse.take (s.length - n) = (s.drop n).reverse := by
  rw [List.take_reverse]
  congr 2; omega

theorem sorted_split {α : Type} {r : α → α → Prop} {s : List α} (h : s.Pairwise r) (n : ℕ) :
    ∀ a ∈ s.take n, ∀ b ∈ s.drop n, r a b := by
  have : (s.take n ++ s.drop n).Pairwise r := by rw [List.take_append_drop]; exact h
  rw [List.pairwise_append] at this
  exact this.2.2

end Verif.Index
