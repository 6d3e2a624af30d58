import Verif.Proofs.SmoothSum
import Mathlib.Data.List.Nodup
import Mathlib.Algebra.BigOperators.Ring.List
/-! Counting the free functions. -/
set_option autoImplicit false
set_option linter.unusedSectionVars false
set_option linter.unusedSimpArgs false
set_option linter.unusedVariables false
namespace Verif.Smooth
open Verif

variable {P : Type} [DecidableEq P]

/-- one for a free function -/
def fr (T : Topo P) (a : ADof P) : ℤ := if AElim T a then 0 else 1

def allSides (pl : List P) : List (PS P) := pl.flatMap fun p => Side.all.map fun s => (p, s)
def allCorners (pl : List P) : List (PC P) := pl.flatMap fun p => Corner.all.map fun s => (p, s)

def intL (T : Topo P) (p : P) : List (ADof P) := (mids (T.n0 p)).flatMap fun i => (mids (T.n1 p)).map fun j => .int p i j
def sidL (T : Topo P) (s : PS P) : List (ADof P) := [false, true].flatMap fun o => (mids (len T s)).map fun m => .sid s o m
def corL (c : PC P) : List (ADof P) := [.cor c false false, .cor c false true, .cor c true false, .cor c true true]

def allA (T : Topo P) (pl : List P) : List (ADof P) :=
  pl.flatMap (intL T) ++ ((allSides pl).flatMap (sidL T) ++ (allCorners pl).flatMap corL)

theorem nodup_flatMap_of {α β : Type} {l : List α} {f : α → List β} (hl : l.Nodup) (hf : ∀ x ∈ l, (f x).Nodup)
    (hd : ∀ x ∈ l, ∀ y ∈ l, ∀ b, b ∈ f x → b ∈ f y → x = y) : (l.flatMap f).Nodup := by
  rw [List.nodup_flatMap]
  refine ⟨hf, ?_⟩
  apply List.Nodup.pairwise_of_forall_ne hl
  intro a ha b hb hab
  rw [Function.onFun, List.disjoint_left]
  intro x hx hy
  exact hab (hd a ha b hb x hx hy)

theorem mids_nodup (n : ℕ) : (mids n).Nodup := List.Nodup.filter _ List.nodup_range

theorem mids_length {n : ℕ} : (mids n).length = n - 4 := by
  have : (mids n).Perm ((List.range (n - 4)).map (· + 2)) := by
    rw [List.perm_ext_iff_of_nodup (mids_nodup n)]
    · intro m
      rw [mem_mids, List.mem_map]
      simp only [List.mem_range]
      constructor
      · intro h; exact ⟨m - 2, by omega, by omega⟩
      · rintro ⟨k, h, rfl⟩; omega
    · exact List.Nodup.map (fun a b h => by simpa using h) List.nodup_range
  rw [this.length_eq]; simp

theorem mem_allSides {pl : List P} (hpl : ∀ p, p ∈ pl) (s : PS P) : s ∈ allSides pl := by
  unfold allSides
  rw [List.mem_flatMap]
  exact ⟨s.1, hpl _, by rw [List.mem_map]; exact ⟨s.2, Side.mem_all _, rfl⟩⟩

theorem mem_allCorners {pl : List P} (hpl : ∀ p, p ∈ pl) (s : PC P) : s ∈ allCorners pl := by
  unfold allCorners
  rw [List.mem_flatMap]
  exact ⟨s.1, hpl _, by rw [List.mem_map]; exact ⟨s.2, Corner.mem_all _, rfl⟩⟩

theorem allSides_nodup {pl : List P} (h : pl.Nodup) : (allSides pl).Nodup := by
  apply nodup_flatMap_of h
  · intro p _
    exact List.Nodup.map (fun a b h => by simpa using h) (by decide)
  · intro x _ y _ b h1 h2
    rw [List.mem_map] at h1 h2
    obtain ⟨_, _, rfl⟩ := h1
    obtain ⟨_, _, h⟩ := h2
    exact (congrArg Prod.fst h).symm

theorem allCorners_nodup {pl : List P} (h : pl.Nodup) : (allCorners pl).Nodup := by
  apply nodup_flatMap_of h
  · intro p _
    exact List.Nodup.map (fun a b h => by simpa using h) (by decide)
  · intro x _ y _ b h1 h2
    rw [List.mem_map] at h1 h2
    obtain ⟨_, _, rfl⟩ := h1
    obtain ⟨_, _, h⟩ := h2
    exact (congrArg Prod.fst h).symm

theorem mem_intL {T : Topo P} {p : P} {a : ADof P} : a ∈ intL T p ↔ ∃ i j, a = .int p i j ∧ AValid T a := by
  unfold intL
  simp only [List.mem_flatMap, List.mem_map, mem_mids]
  constructor
  · rintro ⟨i, hi, j, hj, rfl⟩; exact ⟨i, j, rfl, hi.1, hi.2, hj.1, hj.2⟩
  · rintro ⟨i, j, rfl, h1, h2, h3, h4⟩; exact ⟨i, ⟨h1, h2⟩, j, ⟨h3, h4⟩, rfl⟩

theorem mem_sidL {T : Topo P} {s : PS P} {a : ADof P} : a ∈ sidL T s ↔ ∃ o m, a = .sid s o m ∧ AValid T a := by
  unfold sidL
  simp only [List.mem_flatMap, List.mem_map, mem_mids]
  constructor
  · rintro ⟨o, -, m, hm, rfl⟩; exact ⟨o, m, rfl, hm⟩
  · rintro ⟨o, m, rfl, h⟩; exact ⟨o, by cases o <;> simp, m, h, rfl⟩

theorem mem_corL {c : PC P} {a : ADof P} : a ∈ corL c ↔ ∃ x y, a = .cor c x y := by
  unfold corL
  simp only [List.mem_cons, List.not_mem_nil, or_false]
  constructor
  · rintro (h | h | h | h) <;> exact ⟨_, _, h⟩
  · rintro ⟨x, y, rfl⟩; cases x <;> cases y <;> simp

theorem mem_allA {T : Topo P} {pl : List P} (hpl : ∀ p, p ∈ pl) (a : ADof P) : a ∈ allA T pl ↔ AValid T a := by
  unfold allA
  simp only [List.mem_append, List.mem_flatMap, mem_intL, mem_sidL, mem_corL]
  constructor
  · rintro (⟨p, -, i, j, -, h⟩ | ⟨s, -, o, m, -, h⟩ | ⟨c, -, x, y, rfl⟩)
    · exact h
    · exact h
    · trivial
  · intro h
    cases a with
    | int p i j => exact Or.inl ⟨p, hpl p, i, j, rfl, h⟩
    | sid s o m => exact Or.inr (Or.inl ⟨s, mem_allSides hpl s, o, m, rfl, h⟩)
    | cor c x y => exact Or.inr (Or.inr ⟨c, mem_allCorners hpl c, x, y, rfl⟩)

theorem allA_nodup {T : Topo P} {pl : List P} (h : pl.Nodup) : (allA T pl).Nodup := by
  unfold allA
  rw [List.nodup_append, List.nodup_append]
  refine ⟨?_, ⟨?_, ?_, ?_⟩, ?_⟩
  · apply nodup_flatMap_of h
    · intro p _
      apply nodup_flatMap_of (mids_nodup _)
      · intro i _
        exact List.Nodup.map (fun a b h => by simpa using h) (mids_nodup _)
      · intro i _ j _ b h1 h2
        rw [List.mem_map] at h1 h2
        obtain ⟨_, _, rfl⟩ := h1
        obtain ⟨_, _, h⟩ := h2
        simp at h; exact h.1.symm
    · intro p _ q _ b h1 h2
      rw [mem_intL] at h1 h2
      obtain ⟨_, _, rfl, _⟩ := h1
      obtain ⟨_, _, h, _⟩ := h2
      simp at h; exact h.1
  · apply nodup_flatMap_of (allSides_nodup h)
    · intro s _
      apply nodup_flatMap_of (by decide)
      · intro o _
        exact List.Nodup.map (fun a b h => by simpa using h) (mids_nodup _)
      · intro i _ j _ b h1 h2
        rw [List.mem_map] at h1 h2
        obtain ⟨_, _, rfl⟩ := h1
        obtain ⟨_, _, h⟩ := h2
        simp at h; exact h.1.symm
    · intro p _ q _ b h1 h2
      rw [mem_sidL] at h1 h2
      obtain ⟨_, _, rfl, _⟩ := h1
      obtain ⟨_, _, h, _⟩ := h2
      simp at h; exact h.1
  · apply nodup_flatMap_of (allCorners_nodup h)
    · intro c _
      simp [corL]
    · intro p _ q _ b h1 h2
      rw [mem_corL] at h1 h2
      obtain ⟨_, _, rfl⟩ := h1
      obtain ⟨_, _, h⟩ := h2
      simp at h; exact h.1
  · intro a ha b hb
    rw [List.mem_flatMap] at ha hb
    obtain ⟨s, -, ha⟩ := ha
    obtain ⟨c, -, hb⟩ := hb
    rw [mem_sidL] at ha
    rw [mem_corL] at hb
    obtain ⟨_, _, rfl, _⟩ := ha
    obtain ⟨_, _, rfl⟩ := hb
    simp
  · intro a ha b hb
    rw [List.mem_flatMap] at ha
    rw [List.mem_append, List.mem_flatMap, List.mem_flatMap] at hb
    obtain ⟨s, -, ha⟩ := ha
    rw [mem_intL] at ha
    obtain ⟨_, _, rfl, _⟩ := ha
    rcases hb with ⟨c, -, hb⟩ | ⟨c, -, hb⟩
    · rw [mem_sidL] at hb
      obtain ⟨_, _, rfl, _⟩ := hb
      simp
    · rw [mem_corL] at hb
      obtain ⟨_, _, rfl⟩ := hb
      simp

theorem length_filter_sum {α : Type} (l : List α) (p : α → Bool) :
    ((l.filter p).length : ℤ) = (l.map fun a => if p a then (1 : ℤ) else 0).sum := by
  induction l with
  | nil => simp
  | cons a l ih =>
    rw [List.filter_cons, List.map_cons, List.sum_cons, ← ih]
    cases p a <;> simp
    omega

/-- number of free functions, by structural names -/
theorem free_count {T : Topo P} (ok : Ok T) {pl : List P} (hpn : pl.Nodup) (hpl : ∀ p, p ∈ pl) {dl : List (Dof P)} (hn : dl.Nodup)
    (hdl : ∀ d, d ∈ dl ↔ valid T d) (elim : Dof P → Bool) (he : ∀ a, AValid T a → elim (enc T a) = AElim T a) :
    ((dl.filter fun d => !elim d).length : ℤ) = ((allA T pl).map (fr T)).sum := by
  have hperm : dl.Perm ((allA T pl).map (enc T)) := by
    rw [List.perm_ext_iff_of_nodup hn]
    · intro d
      rw [hdl, List.mem_map]
      constructor
      · intro h
        obtain ⟨h1, h2⟩ := enc_dec h
        exact ⟨dec T d, (mem_allA hpl _).2 h1, h2⟩
      · rintro ⟨a, ha, rfl⟩
        exact enc_valid ok ((mem_allA hpl _).1 ha)
    · apply List.Nodup.map_on _ (allA_nodup hpn)
      intro a ha b hb h
      exact enc_inj ok ((mem_allA hpl _).1 ha) ((mem_allA hpl _).1 hb) h
  rw [length_filter_sum, (hperm.map _).sum_eq, List.map_map]
  congr 1
  apply List.map_congr_left
  intro a ha
  simp only [Function.comp, he a ((mem_allA hpl _).1 ha), fr]
  cases AElim T a <;> simp

theorem sum_map_flatMap {α β : Type} (l : List α) (f : α → List β) (g : β → ℤ) :
    ((l.flatMap f).map g).sum = (l.map fun a => ((f a).map g).sum).sum := by
  induction l with
  | nil => simp
  | cons a l ih => simp [List.flatMap_cons, List.map_append, List.sum_append, ih]

theorem sum_intL {T : Topo P} (ok : Ok T) (p : P) : ((intL T p).map (fr T)).sum = ((T.n0 p : ℤ) - 4) * ((T.n1 p : ℤ) - 4) := by
  have h0 := ok.n0_ge p; have h1 := ok.n1_ge p
  unfold intL
  rw [sum_map_flatMap]
  simp only [List.map_map]
  have : ∀ i, ((mids (T.n1 p)).map (fr T ∘ fun j => ADof.int p i j)).sum = ((T.n1 p : ℤ) - 4) := by
    intro i
    have : (fr T ∘ fun j => ADof.int p i j) = fun _ => (1 : ℤ) := by funext j; simp [fr, AElim]
    rw [this, List.map_const', List.sum_replicate, mids_length]
    simp; omega
  simp only [this]
  rw [List.map_const', List.sum_replicate, mids_length]
  simp only [nsmul_eq_mul]
  congr 1
  omega

theorem sum_sidL {T : Topo P} (ok : Ok T) (s : PS P) :
    ((sidL T s).map (fr T)).sum = ((len T s : ℤ) - 4) + (if T.nb s = none then ((len T s : ℤ) - 4) else 0) := by
  have h := len_ge ok s
  unfold sidL
  rw [sum_map_flatMap]
  simp only [List.map_map, List.map_cons, List.map_nil, List.sum_cons, List.sum_nil]
  have h1 : (fr T ∘ fun j => ADof.sid s true j) = fun _ => (1 : ℤ) := by funext j; simp [fr, AElim]
  have h2 : (fr T ∘ fun j => ADof.sid s false j) = fun _ => if T.nb s = none then (1 : ℤ) else 0 := by
    funext j
    simp only [Function.comp, fr, AElim]
    by_cases hnb : T.nb s = none
    · simp [hnb]
    · have := Option.isSome_iff_ne_none.2 hnb
      simp [this, hnb]
  rw [h1, h2, List.map_const', List.map_const', List.sum_replicate, List.sum_replicate, mids_length]
  simp only [nsmul_eq_mul, smul_ite, smul_zero]
  split_ifs <;> simp <;> omega

/-! ### vertices -/

theorem sum_corL {T : Topo P} (ok : Ok T) (c : PC P) :
    ((corL c).map (fr T)).sum = 1 + fr T (.cor c false false) + bsides T c := by
  have hb : (bsides T c : ℤ) = (if cross T c c.2.uside = none then 1 else 0) + (if cross T c c.2.vside = none then 1 else 0) := by
    unfold bsides hs
    have hne : c.2.uside ≠ c.2.vside := by
      intro e; have := congrArg Side.dir e; rw [uside_dir, vside_dir] at this; cases this
    rw [Finset.filter_insert, Finset.filter_singleton]
    split_ifs with h1 h2 h2
    · rw [Finset.card_pair hne]; rfl
    · simp
    · simp
    · simp
  rw [hb]
  unfold corL
  simp only [List.map_cons, List.map_nil, List.sum_cons, List.sum_nil]
  have e1 : fr T (.cor c true true) = 1 := by simp [fr, AElim]
  have e2 : fr T (.cor c true false) = if cross T c c.2.vside = none then 1 else 0 := by
    simp only [fr, AElim, cross_isSome]
    cases cross T c c.2.vside <;> simp
  have e3 : fr T (.cor c false true) = if cross T c c.2.uside = none then 1 else 0 := by
    simp only [fr, AElim, cross_isSome]
    cases cross T c c.2.uside <;> simp
  rw [e1, e2, e3]; ring

/-- free functions of a corner -/
def cnt (T : Topo P) (c : PC P) : ℤ := ((corL c).map (fr T)).sum

theorem fr00_same {T : Topo P} (ok : Ok T) {c d : PC P} (h : d ∈ T.cl c) : fr T (.cor d false false) = fr T (.cor c false false) := by
  have : AElim T (.cor d false false) = AElim T (.cor c false false) := by
    simp only [AElim, interior_same ok h, cl_len ok h, ok.c0_same c d h]
  unfold fr; rw [this]

theorem vertexCount_eq {T : Topo P} (ok : Ok T) (c : PC P) : vertexCount T c = ∑ d ∈ (T.cl c).toFinset, cnt T d := by
  have hcard : (T.cl c).toFinset.card = (T.cl c).length := List.toFinset_card_of_nodup (ok.cl_nodup c)
  have hs : ∑ d ∈ (T.cl c).toFinset, cnt T d =
      (T.cl c).length * (1 + fr T (.cor c false false)) + ∑ d ∈ (T.cl c).toFinset, (bsides T d : ℤ) := by
    have : ∀ d ∈ (T.cl c).toFinset, cnt T d = (1 + fr T (.cor c false false)) + bsides T d := by
      intro d hd
      rw [cnt, sum_corL ok, fr00_same ok (by simpa using hd)]
    rw [Finset.sum_congr rfl this, Finset.sum_add_distrib, Finset.sum_const, hcard, nsmul_eq_mul]
  rw [hs]
  have hp := len_pos ok c
  unfold vertexCount
  simp only
  cases hi : T.interior c
  · have hb : (∑ d ∈ (T.cl c).toFinset, (bsides T d : ℤ)) = 2 := by
      rw [← Nat.cast_sum, two_boundary ok hi]; rfl
    rw [hb]
    simp only [fr, AElim, hi, Bool.false_or, Bool.false_eq_true, not_false_eq_true, true_and]
    cases hc : T.c0 c <;> simp only [Bool.not_false, Bool.not_true, Bool.and_true, Bool.and_false, Bool.false_eq_true, if_false, and_true,
      not_false_eq_true, and_false, not_true_eq_false, beq_iff_eq]
    · split_ifs <;> omega
    · split_ifs <;> omega
  · have hb : (∑ d ∈ (T.cl c).toFinset, (bsides T d : ℤ)) = 0 := by
      apply Finset.sum_eq_zero
      intro d hd
      have hd' : d ∈ T.cl c := by simpa using hd
      have := (ok.interior_iff c).1 hi d hd'
      unfold bsides
      rw [Nat.cast_eq_zero, Finset.card_eq_zero, Finset.filter_eq_empty_iff]
      intro s hs h
      have := this s (mem_hs.1 hs)
      rw [cross_none] at h
      rw [h] at this; simp at this
    rw [hb]
    simp [fr, AElim, hi]

theorem countVertices_eq {T : Topo P} (ok : Ok T) (U : Finset (PC P)) (hU : ∀ c, c ∈ U) (vl passed : List (PC P))
    (hp : ∀ c d, d ∈ T.cl c → c ∈ passed → d ∈ passed) :
    countVertices T vl passed = ∑ x ∈ U.filter (fun x => x ∉ passed ∧ ∃ c ∈ vl, x ∈ T.cl c), cnt T x := by
  induction vl generalizing passed with
  | nil => simp [countVertices]
  | cons c vl ih =>
    rw [countVertices]
    split_ifs with hc
    · rw [ih passed hp]
      congr 1
      apply Finset.filter_congr
      intro x _
      constructor
      · rintro ⟨h1, d, hd, h2⟩; exact ⟨h1, d, by simp [hd], h2⟩
      · rintro ⟨h1, d, hd, h2⟩
        rw [List.mem_cons] at hd
        rcases hd with rfl | hd
        · exact absurd (hp d x h2 hc) h1
        · exact ⟨h1, d, hd, h2⟩
    · have hclosed : ∀ a b, b ∈ T.cl a → a ∈ T.cl c ++ passed → b ∈ T.cl c ++ passed := by
        intro a b hb ha
        rw [List.mem_append] at ha ⊢
        rcases ha with ha | ha
        · exact Or.inl ((ok.cl_same c a ha b).1 hb)
        · exact Or.inr (hp a b hb ha)
      rw [ih _ hclosed, vertexCount_eq ok]
      have hsplit : U.filter (fun x => x ∉ passed ∧ ∃ d ∈ c :: vl, x ∈ T.cl d) =
          (T.cl c).toFinset ∪ U.filter (fun x => x ∉ T.cl c ++ passed ∧ ∃ d ∈ vl, x ∈ T.cl d) := by
        ext x
        simp only [Finset.mem_filter, Finset.mem_union, List.mem_toFinset, List.mem_append, List.mem_cons]
        constructor
        · rintro ⟨h0, h1, d, rfl | hd, h2⟩
          · exact Or.inl h2
          · by_cases hx : x ∈ T.cl c
            · exact Or.inl hx
            · exact Or.inr ⟨h0, by tauto, d, hd, h2⟩
        · rintro (h | ⟨h0, h1, d, hd, h2⟩)
          · refine ⟨hU x, ?_, c, Or.inl rfl, h⟩
            intro hxp
            apply hc
            apply hp x c _ hxp
            rw [ok.cl_same c x h]; exact ok.cl_self c
          · exact ⟨h0, by tauto, d, Or.inr hd, h2⟩
      rw [hsplit, Finset.sum_union]
      rw [Finset.disjoint_left]
      intro x h1 h2
      rw [Finset.mem_filter] at h2
      exact h2.2.1 (by rw [List.mem_append]; left; simpa using h1)

/-- The counting formulas give the number of free functions. -/
theorem count_eq {T : Topo P} (ok : Ok T) {pl : List P} (hpn : pl.Nodup) (hpl : ∀ p, p ∈ pl) {dl : List (Dof P)} (hn : dl.Nodup)
    (hdl : ∀ d, d ∈ dl ↔ valid T d) {il : List (PS P × PS P)} {bl : List (PS P)} {vl : List (PC P)} (hl : Lists T il bl vl)
    (hil : (il.map Prod.fst ++ il.map Prod.snd).Nodup) (hbl : bl.Nodup) :
    ((dl.filter fun d => !(computeMapper T il bl vl).elim d).length : ℤ) = countDofs T pl il bl vl := by
  rw [free_count ok hpn hpl hn hdl _ (fun a ha => mapper_elim ok hl ha)]
  unfold allA
  rw [List.map_append, List.sum_append, List.map_append, List.sum_append, sum_map_flatMap, sum_map_flatMap, sum_map_flatMap]
  unfold countDofs
  have hv : ((allCorners pl).map fun c => ((corL c).map (fr T)).sum).sum = countVertices T vl [] := by
    rw [countVertices_eq ok (allCorners pl).toFinset (fun c => by simpa using mem_allCorners hpl c) vl [] (by simp)]
    have : (allCorners pl).toFinset.filter (fun x => x ∉ ([] : List (PC P)) ∧ ∃ c ∈ vl, x ∈ T.cl c) = (allCorners pl).toFinset := by
      apply Finset.filter_true_of_mem
      intro x _
      exact ⟨by simp, x, hl.vl_all x, ok.cl_self x⟩
    rw [this, List.sum_toFinset _ (allCorners_nodup hpn)]
    rfl
  have hi : (pl.map fun p => ((intL T p).map (fr T)).sum).sum =
      (pl.map fun p => (T.n0 p * T.n1 p : ℤ) - 2 * (T.n1 p + T.n1 p + (T.n0 p - 4) + (T.n0 p - 4))).sum := by
    congr 1
    apply List.map_congr_left
    intro p _
    rw [sum_intL ok]; ring
  have hperm : (allSides pl).Perm (il.map Prod.fst ++ il.map Prod.snd ++ bl) := by
    rw [List.perm_ext_iff_of_nodup (allSides_nodup hpn)]
    · intro s
      refine ⟨fun _ => ?_, fun _ => mem_allSides hpl s⟩
      rw [List.mem_append, List.mem_append, List.mem_map, List.mem_map]
      rcases h : T.nb s with _ | t
      · exact Or.inr ((hl.bl_iff s).2 h)
      · rcases hl.il_complete s t h with h | h
        · exact Or.inl (Or.inl ⟨_, h, rfl⟩)
        · exact Or.inl (Or.inr ⟨_, h, rfl⟩)
    · rw [List.nodup_append]
      refine ⟨hil, hbl, ?_⟩
      intro a ha b hb hab
      subst hab
      have hnone := (hl.bl_iff a).1 hb
      rw [List.mem_append, List.mem_map, List.mem_map] at ha
      rcases ha with ⟨i, hi, rfl⟩ | ⟨i, hi, rfl⟩
      · rw [hl.il_sound i hi] at hnone; cases hnone
      · rw [ok.nb_symm _ _ (hl.il_sound i hi)] at hnone; cases hnone
  have hsd : ((allSides pl).map fun s => ((sidL T s).map (fr T)).sum).sum =
      (il.map fun i => ((len T i.1 : ℤ) - 4) + ((len T i.2 : ℤ) - 4)).sum + (bl.map fun s => ((len T s : ℤ) - 4) + ((len T s : ℤ) - 4)).sum := by
    rw [(hperm.map _).sum_eq, List.map_append, List.sum_append, List.map_append, List.sum_append, List.map_map, List.map_map,
      ← List.sum_map_add]
    congr 1
    · congr 1
      apply List.map_congr_left
      intro i hi
      simp only [Function.comp]
      rw [sum_sidL ok, sum_sidL ok, hl.il_sound i hi, ok.nb_symm _ _ (hl.il_sound i hi)]
      simp
    · congr 1
      apply List.map_congr_left
      intro s hs
      rw [sum_sidL ok, (hl.bl_iff s).1 hs]
      simp
  rw [hi, hsd, hv]
  ring

end Verif.Smooth
