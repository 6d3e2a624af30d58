import Mathlib.Data.List.Nodup
import Verif.Model.Reparam
import Mathlib.Tactic.Ring
import Mathlib.Tactic.Linarith
import Mathlib.Data.Int.ModEq
namespace Verif.Reparam
open Verif
variable {α : Type}

theorem foldl_update_of_not_mem (src : ℕ → Option α) (ws : List (ℕ × ℕ)) (m : ℕ → Option α) (k : ℕ)
    (h : ∀ w ∈ ws, w.1 ≠ k) :
    (ws.foldl (fun m w => Function.update m w.1 (src w.2)) m) k = m k := by
  induction ws generalizing m with
  | nil => rfl
  | cons w ws ih =>
    simp only [List.foldl_cons]
    rw [ih _ (fun w' hw' => h w' (List.mem_cons_of_mem _ hw'))]
    exact Function.update_of_ne (h w (by simp)).symm _ _

theorem foldl_update_of_mem (src : ℕ → Option α) (ws : List (ℕ × ℕ)) (m : ℕ → Option α) (k : ℕ) (x : Option α)
    (h : ∀ w ∈ ws, w.1 = k → src w.2 = x) (he : (∃ w ∈ ws, w.1 = k) ∨ m k = x) :
    (ws.foldl (fun m w => Function.update m w.1 (src w.2)) m) k = x := by
  induction ws generalizing m with
  | nil => rcases he with ⟨w, hw, _⟩ | he
           · simp at hw
           · exact he
  | cons w ws ih =>
    simp only [List.foldl_cons]
    apply ih _ (fun w' hw' => h w' (List.mem_cons_of_mem _ hw'))
    by_cases hk : w.1 = k
    · right; subst hk; rw [Function.update_self]; exact h w (by simp) rfl
    · rcases he with ⟨w', hw', hk'⟩ | he
      · rcases List.mem_cons.1 hw' with rfl | hw'
        · exact absurd hk' hk
        · exact Or.inl ⟨w', hw', hk'⟩
      · right; rw [Function.update_of_ne (Ne.symm hk)]; exact he

theorem writeAll_none (src : ℕ → Option α) (ws : List (ℕ × ℕ)) (k : ℕ) (h : ∀ w ∈ ws, w.1 ≠ k) :
    writeAll src ws k = none := foldl_update_of_not_mem src ws _ k h

theorem writeAll_eq (src : ℕ → Option α) (ws : List (ℕ × ℕ)) (k : ℕ) (x : Option α)
    (h : ∀ w ∈ ws, w.1 = k → src w.2 = x) (he : ∃ w ∈ ws, w.1 = k) :
    writeAll src ws k = x := foldl_update_of_mem src ws _ k x h (Or.inl he)

/-- uniqueness of the tensor index -/
theorem tensor_inj {n i j i' j' : ℕ} (hi : i < n) (hi' : i' < n) (h : i + n * j = i' + n * j') : i = i' ∧ j = j' := by
  have h1 : (i + n * j) % n = i := by rw [Nat.add_mul_mod_self_left, Nat.mod_eq_of_lt hi]
  have h2 : (i' + n * j') % n = i' := by rw [Nat.add_mul_mod_self_left, Nat.mod_eq_of_lt hi']
  have : i = i' := by rw [← h1, ← h2, h]
  subst this
  have : n * j = n * j' := by omega
  exact ⟨rfl, Nat.eq_of_mul_eq_mul_left (by omega) this⟩

theorem tensor_lt {n m i j : ℕ} (hi : i < n) (hj : j < m) : i + n * j < n * m := by
  calc i + n * j < n + n * j := by omega
    _ = n * (j + 1) := by ring
    _ ≤ n * m := Nat.mul_le_mul_left _ hj

theorem tensor_split {n m k : ℕ} (hk : k < n * m) : ∃ i j, i < n ∧ j < m ∧ k = i + n * j := by
  have hn : 0 < n := by
    rcases Nat.eq_zero_or_pos n with h | h
    · subst h; simp at hk
    · exact h
  exact ⟨k % n, k / n, Nat.mod_lt _ hn, Nat.div_lt_of_lt_mul hk, (Nat.mod_add_div k n).symm⟩

theorem at_some {N : Net α} (h : N.WF) {i j : ℕ} (hi : i < N.nu) (hj : j < N.nv) : (N.at' i j).isSome :=
  (h _).2 (tensor_lt hi hj)

theorem net_ext {N M : Net α} (hN : N.WF) (hM : M.WF) (hu : N.nu = M.nu) (hv : N.nv = M.nv)
    (hku : N.ku = M.ku) (hkv : N.kv = M.kv)
    (h : ∀ i j, i < N.nu → j < N.nv → N.at' i j = M.at' i j) : N = M := by
  rcases N with ⟨nu, nv, ku, kv, c⟩
  rcases M with ⟨nu', nv', ku', kv', c'⟩
  simp only at hu hv hku hkv
  subst hu hv hku hkv
  congr
  funext k
  by_cases hk : k < nu * nv
  · obtain ⟨i, j, hi, hj, rfl⟩ := tensor_split hk
    exact h i j hi hj
  · have h1 : ¬ (c k).isSome := fun hc => hk ((hN k).1 hc)
    have h2 : ¬ (c' k).isSome := fun hc => hk ((hM k).1 hc)
    simp only [Option.not_isSome_iff_eq_none] at h1 h2
    rw [h1, h2]

/-- generic lemma for the three loops over `j < dimU`, `i < dimV` writing to `i + j'*dimV` -/
theorem loop_lemma (src : ℕ → Option α) (ws : List (ℕ × ℕ)) (n m : ℕ) (f : ℕ → ℕ → ℕ)
    (hmem : ∀ w, w ∈ ws ↔ ∃ i j, i < n ∧ j < m ∧ w = (i + n * j, f i j)) :
    (∀ i j, i < n → j < m → writeAll src ws (i + n * j) = src (f i j)) ∧
    (∀ k, n * m ≤ k → writeAll src ws k = none) := by
  constructor
  · intro i j hi hj
    apply writeAll_eq
    · intro w hw hk
      obtain ⟨i', j', hi', hj', rfl⟩ := (hmem w).1 hw
      obtain ⟨rfl, rfl⟩ := tensor_inj hi hi' hk.symm
      rfl
    · exact ⟨_, (hmem _).2 ⟨i, j, hi, hj, rfl⟩, rfl⟩
  · intro k hk
    apply writeAll_none
    intro w hw he
    obtain ⟨i', j', hi', hj', rfl⟩ := (hmem w).1 hw
    have := tensor_lt hi' hj'
    simp only at he; omega

theorem mem_swapWrites (n m : ℕ) (w : ℕ × ℕ) :
    w ∈ swapWrites n m ↔ ∃ i j, i < m ∧ j < n ∧ w = (i + m * j, j + n * i) := by
  unfold swapWrites
  simp only [List.mem_flatMap, List.mem_range, List.mem_map]
  constructor
  · rintro ⟨j, hj, i, hi, rfl⟩; exact ⟨i, j, hi, hj, by rw [Nat.mul_comm]⟩
  · rintro ⟨i, j, hi, hj, rfl⟩; exact ⟨j, hj, i, hi, by rw [Nat.mul_comm]⟩

theorem mem_acWrites (n m : ℕ) (w : ℕ × ℕ) :
    w ∈ acWrites n m ↔ ∃ i j, i < m ∧ j < n ∧ w = (i + m * j, (n - 1 - j) + n * i) := by
  unfold acWrites
  simp only [List.mem_flatMap, List.mem_range, List.mem_map]
  constructor
  · rintro ⟨j, hj, i, hi, rfl⟩; exact ⟨i, j, hi, hj, by rw [Nat.mul_comm]⟩
  · rintro ⟨i, j, hi, hj, rfl⟩; exact ⟨j, hj, i, hi, by rw [Nat.mul_comm]⟩

theorem cw_src_index {n m i j : ℕ} (hi : i < m) (hj : j < n) :
    (m * n - 1 - (n - 1 - j)) - n * i = j + n * (m - 1 - i) := by
  obtain ⟨a, rfl⟩ : ∃ a, m = i + 1 + a := ⟨m - (i + 1), by omega⟩
  obtain ⟨b, rfl⟩ : ∃ b, n = j + 1 + b := ⟨n - (j + 1), by omega⟩
  have e1 : j + 1 + b - 1 - j = b := by omega
  have e2 : i + 1 + a - 1 - i = a := by omega
  rw [e1, e2]
  have : (i + 1 + a) * (j + 1 + b) = (j + 1 + b) * i + (j + (j + 1 + b) * a) + 1 + b := by ring
  omega

theorem mem_cwWrites (n m : ℕ) (w : ℕ × ℕ) :
    w ∈ cwWrites n m ↔ ∃ i j, i < m ∧ j < n ∧ w = (i + m * j, j + n * (m - 1 - i)) := by
  unfold cwWrites
  simp only [List.mem_flatMap, List.mem_reverse, List.mem_range, List.mem_map]
  constructor
  · rintro ⟨j, hj, i, hi, rfl⟩
    refine ⟨i, n - 1 - j, hi, by omega, ?_⟩
    have := cw_src_index (n := n) (m := m) (i := i) (j := n - 1 - j) hi (by omega)
    have e : n - 1 - (n - 1 - j) = j := by omega
    rw [e] at this
    rw [this]
    have e2 : n - j - 1 = n - 1 - j := by omega
    rw [e2, Nat.mul_comm m]
  · rintro ⟨i, j, hi, hj, rfl⟩
    refine ⟨n - 1 - j, by omega, i, hi, ?_⟩
    rw [cw_src_index hi hj]
    have e2 : n - (n - 1 - j) - 1 = j := by omega
    rw [e2, Nat.mul_comm m]

theorem tw_src_index {n m i j : ℕ} (hi : i < n) (hj : j < m) :
    n * m - 1 - (i + n * j) = (n - 1 - i) + n * (m - 1 - j) := by
  obtain ⟨a, rfl⟩ : ∃ a, m = j + 1 + a := ⟨m - (j + 1), by omega⟩
  obtain ⟨b, rfl⟩ : ∃ b, n = i + 1 + b := ⟨n - (i + 1), by omega⟩
  have e1 : i + 1 + b - 1 - i = b := by omega
  have e2 : j + 1 + a - 1 - j = a := by omega
  rw [e1, e2]
  have : (i + 1 + b) * (j + 1 + a) = (i + (i + 1 + b) * j) + 1 + b + (i + 1 + b) * a := by ring
  omega

theorem mem_twWrites (n m : ℕ) (w : ℕ × ℕ) :
    w ∈ twWrites n m ↔ ∃ i j, i < n ∧ j < m ∧ w = (i + n * j, (n - 1 - i) + n * (m - 1 - j)) := by
  unfold twWrites
  simp only [List.mem_range, List.mem_map]
  constructor
  · rintro ⟨k, hk, rfl⟩
    obtain ⟨i, j, hi, hj, rfl⟩ := tensor_split hk
    exact ⟨i, j, hi, hj, by rw [tw_src_index hi hj]⟩
  · rintro ⟨i, j, hi, hj, rfl⟩
    exact ⟨_, tensor_lt hi hj, by rw [tw_src_index hi hj]⟩

theorem swap_at (N : Net α) {i j : ℕ} (hi : i < N.nv) (hj : j < N.nu) : (swapNet N).at' i j = N.at' j i :=
  (loop_lemma N.c _ N.nv N.nu _ (mem_swapWrites N.nu N.nv)).1 i j hi hj
theorem ac_at (N : Net α) {i j : ℕ} (hi : i < N.nv) (hj : j < N.nu) : (acNet N).at' i j = N.at' (N.nu - 1 - j) i :=
  (loop_lemma N.c _ N.nv N.nu _ (mem_acWrites N.nu N.nv)).1 i j hi hj
theorem cw_at (N : Net α) {i j : ℕ} (hi : i < N.nv) (hj : j < N.nu) : (cwNet N).at' i j = N.at' j (N.nv - 1 - i) :=
  (loop_lemma N.c _ N.nv N.nu _ (mem_cwWrites N.nu N.nv)).1 i j hi hj
theorem tw_at (N : Net α) {i j : ℕ} (hi : i < N.nu) (hj : j < N.nv) :
    (twNet N).at' i j = N.at' (N.nu - 1 - i) (N.nv - 1 - j) :=
  (loop_lemma N.c _ N.nu N.nv _ (mem_twWrites N.nu N.nv)).1 i j hi hj

theorem wf_of_loop {N M : Net α} (hN : N.WF) (f : ℕ → ℕ → ℕ × ℕ)
    (hat : ∀ i j, i < M.nu → j < M.nv → M.at' i j = N.at' (f i j).1 (f i j).2)
    (hf : ∀ i j, i < M.nu → j < M.nv → (f i j).1 < N.nu ∧ (f i j).2 < N.nv)
    (hout : ∀ k, M.nu * M.nv ≤ k → M.c k = none) : M.WF := by
  intro k
  constructor
  · intro h
    by_contra hk
    rw [hout k (by omega)] at h
    simp at h
  · intro hk
    obtain ⟨i, j, hi, hj, rfl⟩ := tensor_split hk
    have := hat i j hi hj
    unfold Net.at' at this
    rw [this]
    exact at_some hN (hf i j hi hj).1 (hf i j hi hj).2

theorem swap_wf {N : Net α} (h : N.WF) : (swapNet N).WF :=
  wf_of_loop h (fun i j => (j, i)) (fun _ _ hi hj => swap_at N hi hj) (fun _ _ hi hj => ⟨hj, hi⟩)
    (loop_lemma N.c _ N.nv N.nu _ (mem_swapWrites N.nu N.nv)).2
theorem ac_wf {N : Net α} (h : N.WF) : (acNet N).WF :=
  wf_of_loop h (fun i j => (N.nu - 1 - j, i)) (fun _ _ hi hj => ac_at N hi hj)
    (fun _ j hi hj => ⟨by change j < N.nu at hj; simp only; omega, hi⟩)
    (loop_lemma N.c _ N.nv N.nu _ (mem_acWrites N.nu N.nv)).2
theorem cw_wf {N : Net α} (h : N.WF) : (cwNet N).WF :=
  wf_of_loop h (fun i j => (j, N.nv - 1 - i)) (fun _ _ hi hj => cw_at N hi hj)
    (fun i _ hi hj => ⟨hj, by change i < N.nv at hi; simp only; omega⟩)
    (loop_lemma N.c _ N.nv N.nu _ (mem_cwWrites N.nu N.nv)).2
theorem tw_wf {N : Net α} (h : N.WF) : (twNet N).WF :=
  wf_of_loop h (fun i j => (N.nu - 1 - i, N.nv - 1 - j)) (fun _ _ hi hj => tw_at N hi hj)
    (fun i j hi hj => ⟨by change i < N.nu at hi; simp only; omega, by change j < N.nv at hj; simp only; omega⟩)
    (loop_lemma N.c _ N.nu N.nv _ (mem_twWrites N.nu N.nv)).2

theorem revK_head (k : List ℚ) : (revK k).headD 0 = k.headD 0 := by
  unfold revK
  rcases k.eq_nil_or_concat with rfl | ⟨l, a, rfl⟩
  · rfl
  · simp
theorem revK_last (k : List ℚ) : (revK k).getLastD 0 = k.getLastD 0 := by
  unfold revK
  cases k with
  | nil => rfl
  | cons a l => simp
theorem revK_revK (k : List ℚ) : revK (revK k) = k := by
  have h1 := revK_head k
  have h2 := revK_last k
  have h3 : revK (revK k) =
    ((revK k).map (fun x => (revK k).headD 0 + (revK k).getLastD 0 - x)).reverse := rfl
  rw [h3, h1, h2]
  unfold revK
  rw [List.map_reverse, List.reverse_reverse, List.map_map]
  conv_rhs => rw [← List.map_id k]
  apply List.map_congr_left
  intro a _
  simp

theorem swap_swap {N : Net α} (h : N.WF) : swapNet (swapNet N) = N :=
  net_ext (swap_wf (swap_wf h)) h rfl rfl rfl rfl fun i j hi hj => by
    rw [swap_at _ (by exact hi) (by exact hj), swap_at _ (by exact hj) (by exact hi)]

theorem cw_ac {N : Net α} (h : N.WF) : cwNet (acNet N) = N :=
  net_ext (cw_wf (ac_wf h)) h rfl rfl (revK_revK _) rfl fun i j hi hj => by
    change i < N.nu at hi; change j < N.nv at hj
    rw [cw_at _ (by exact hi) (by exact hj), ac_at _ (by exact hj) (by change N.nu - 1 - i < N.nu; omega)]
    change N.at' (N.nu - 1 - (N.nu - 1 - i)) j = _
    congr 1; omega

theorem ac_cw {N : Net α} (h : N.WF) : acNet (cwNet N) = N :=
  net_ext (ac_wf (cw_wf h)) h rfl rfl rfl (revK_revK _) fun i j hi hj => by
    change i < N.nu at hi; change j < N.nv at hj
    rw [ac_at _ (by exact hi) (by exact hj), cw_at _ (by change N.nv - 1 - j < N.nv; omega) (by exact hi)]
    change N.at' i (N.nv - 1 - (N.nv - 1 - j)) = _
    congr 1; omega

theorem ac_ac {N : Net α} (h : N.WF) : acNet (acNet N) = twNet N :=
  net_ext (ac_wf (ac_wf h)) (tw_wf h) rfl rfl rfl rfl fun i j hi hj => by
    change i < N.nu at hi; change j < N.nv at hj
    rw [ac_at _ (by exact hi) (by exact hj), tw_at _ hi hj,
      ac_at _ (by change N.nv - 1 - j < N.nv; omega) (by exact hi)]; rfl

theorem tw_tw {N : Net α} (h : N.WF) : twNet (twNet N) = N :=
  net_ext (tw_wf (tw_wf h)) h rfl rfl (revK_revK _) (revK_revK _) fun i j hi hj => by
    change i < N.nu at hi; change j < N.nv at hj
    rw [tw_at _ (by exact hi) (by exact hj),
      tw_at _ (by change N.nu - 1 - i < N.nu; omega) (by change N.nv - 1 - j < N.nv; omega)]
    change N.at' (N.nu - 1 - (N.nu - 1 - i)) (N.nv - 1 - (N.nv - 1 - j)) = _
    congr 1 <;> omega

theorem op_wf (o : Op) {N : Net α} (h : N.WF) : (o.net N).WF := by
  cases o
  · exact swap_wf h
  · exact ac_wf h
  · exact cw_wf h
  · exact tw_wf h

theorem run_wf (hs : List Op) {N : Net α} (h : N.WF) : (runNet hs N).WF := by
  unfold runNet
  induction hs generalizing N with
  | nil => exact h
  | cons o hs ih => exact ih (op_wf o h)

/-- iterated anticlockwise quarter turns -/
def acPow : ℕ → Net α → Net α
  | 0, N => N
  | n + 1, N => acNet (acPow n N)

theorem acPow_wf (n : ℕ) {N : Net α} (h : N.WF) : (acPow n N).WF := by
  induction n with
  | zero => exact h
  | succ n ih => exact ac_wf ih

theorem acPow_add (a b : ℕ) (N : Net α) : acPow (a + b) N = acPow a (acPow b N) := by
  induction a with
  | zero => simp [acPow]
  | succ a ih => rw [Nat.succ_add]; simp only [acPow]; rw [ih]

theorem acPow_four {N : Net α} (h : N.WF) : acPow 4 N = N := by
  change acNet (acNet (acNet (acNet N))) = N
  rw [ac_ac (ac_wf (ac_wf h)), ac_ac h, tw_tw h]

theorem acPow_mod (n : ℕ) {N : Net α} (h : N.WF) : acPow n N = acPow (n % 4) N := by
  induction n using Nat.strong_induction_on with
  | _ n ih =>
    by_cases hn : n < 4
    · rw [Nat.mod_eq_of_lt hn]
    · have e : n = (n - 4) + 4 := by omega
      rw [e, acPow_add, acPow_four h, ih (n - 4) (by omega)]
      congr 1; omega

/-- number of anticlockwise quarter turns a rotation performs -/
def Op.turns : Op → ℕ | .swap => 0 | .ac => 1 | .cw => 3 | .tw => 2

theorem cw_eq {N : Net α} (h : N.WF) : cwNet N = acPow 3 N := by
  have := acPow_four (cw_wf h)
  rw [← this]
  change acPow 4 (cwNet N) = _
  rw [show (4:ℕ) = 3 + 1 from rfl, acPow_add]
  change acPow 3 (acNet (cwNet N)) = _
  rw [ac_cw h]

theorem op_eq {o : Op} (ho : o ≠ .swap) {N : Net α} (h : N.WF) : o.net N = acPow o.turns N := by
  cases o
  · exact absurd rfl ho
  · rfl
  · exact cw_eq h
  · exact (ac_ac h).symm

theorem run_rot (rs : List Op) (hr : ∀ o ∈ rs, o ≠ .swap) {N : Net α} (h : N.WF) :
    runNet rs N = acPow ((rs.map Op.turns).sum) N := by
  unfold runNet
  induction rs generalizing N with
  | nil => rfl
  | cons o rs ih =>
    simp only [List.foldl_cons, List.map_cons, List.sum_cons]
    rw [ih (fun o' h' => hr o' (List.mem_cons_of_mem _ h')) (op_wf o h), op_eq (hr o (by simp)) h,
      ← acPow_add, Nat.add_comm]

theorem book_rot (rs : List Op) (hr : ∀ o ∈ rs, o ≠ .swap) (b : Book) :
    (rs.foldl Book.step b).axis = b.axis ∧
    ((rs.foldl Book.step b).rot : ℤ) % 4 = (b.rot + ((rs.map Op.turns).sum : ℕ)) % 4 := by
  induction rs generalizing b with
  | nil => simp
  | cons o rs ih =>
    obtain ⟨h1, h2⟩ := ih (fun o' h' => hr o' (List.mem_cons_of_mem _ h')) (b.step o)
    simp only [List.foldl_cons, List.map_cons, List.sum_cons]
    have ho := hr o (by simp)
    refine ⟨?_, ?_⟩
    · rw [h1]; cases o
      · exact absurd rfl ho
      all_goals rfl
    · rw [h2]
      cases o
      · exact absurd rfl ho
      · simp only [Book.step, Op.turns]; push_cast; omega
      · simp only [Book.step, Op.turns, checkRot]; push_cast; split <;> omega
      · simp only [Book.step, Op.turns, checkRot]; push_cast; split <;> omega

/-- knots symmetric under mirroring -/
def Net.Sym (N : Net α) : Prop := revK N.ku = N.ku ∧ revK N.kv = N.kv

theorem ac_sym {N : Net α} (h : N.Sym) : (acNet N).Sym := ⟨h.2, by
  change revK (revK N.ku) = revK N.ku; rw [h.1, h.1]⟩
theorem acPow_sym (n : ℕ) {N : Net α} (h : N.Sym) : (acPow n N).Sym := by
  induction n with
  | zero => exact h
  | succ n ih => exact ac_sym ih
theorem acBasis_eq {N : Net α} (h : N.Sym) : acBasis N = acNet N := by
  unfold acBasis acNet; rw [h.1]
theorem cwBasis_eq {N : Net α} (h : N.Sym) : cwBasis N = cwNet N := by
  unfold cwBasis cwNet; rw [h.2]
theorem twBasis_eq {N : Net α} (h : N.Sym) : twBasis N = twNet N := by
  unfold twBasis twNet; rw [h.1, h.2]

/-- the rotation part of the undo -/
theorem back_rot {N : Net α} (h : N.WF) (hs : N.Sym) (t : ℕ) (r : ℤ) (hr : r % 4 = (t : ℤ) % 4)
    (hok : r ∈ [-1, 0, 1, 2] ∨ r % 4 = 0) :
    (if r = 2 then twBasis (acPow t N) else if r = -1 then acBasis (acPow t N)
      else if r = 1 then cwBasis (acPow t N) else acPow t N) = N := by
  have hw := acPow_wf t h
  have hsy := acPow_sym t hs
  rw [acBasis_eq hsy, cwBasis_eq hsy, twBasis_eq hsy]
  split_ifs with h1 h2 h3
  · subst h1
    have : t % 4 = 2 := by omega
    rw [acPow_mod t h, this]
    change twNet (acNet (acNet N)) = N
    rw [ac_ac h, tw_tw h]
  · subst h2
    have : t % 4 = 3 := by omega
    rw [acPow_mod t h, this]
    exact acPow_four h
  · subst h3
    have : t % 4 = 1 := by omega
    rw [acPow_mod t h, this]
    exact cw_ac h
  · have : t % 4 = 0 := by
      rcases hok with hok | hok
      · simp only [List.mem_cons, List.not_mem_nil, or_false] at hok; omega
      · omega
    rw [acPow_mod t h, this]; rfl

end Verif.Reparam

namespace Verif.Reparam
open Verif
variable {α : Type}

/-- Control points on a side, listed counter-clockwise around the patch (specification notion). -/
def sidePts : Side → Net α → List (Option α)
  | .south, N => (List.range N.nu).map fun i => N.at' i 0
  | .east, N => (List.range N.nv).map fun j => N.at' (N.nu - 1) j
  | .north, N => (List.range N.nu).map fun i => N.at' (N.nu - 1 - i) (N.nv - 1)
  | .west, N => (List.range N.nv).map fun j => N.at' 0 (N.nv - 1 - j)

/-- The control point in a corner (specification notion). -/
def cornerPt : Corner → Net α → Option α
  | .sw, N => N.at' 0 0
  | .se, N => N.at' (N.nu - 1) 0
  | .nw, N => N.at' 0 (N.nv - 1)
  | .ne, N => N.at' (N.nu - 1) (N.nv - 1)

theorem range_map_reverse {β : Type} (n : ℕ) (f : ℕ → β) :
    ((List.range n).map f).reverse = (List.range n).map (fun i => f (n - 1 - i)) := by
  apply List.ext_getElem
  · simp
  · intro i h1 h2
    simp only [List.length_reverse, List.length_map, List.length_range] at h1
    simp [List.getElem_reverse]

/-- where a side goes under an anticlockwise quarter turn of the parameters -/
def rotS : Side → Side | .south => .west | .east => .south | .north => .east | .west => .north

theorem range_map_congr {β : Type} (n : ℕ) (f g : ℕ → β) (h : ∀ i < n, f i = g i) :
    (List.range n).map f = (List.range n).map g :=
  List.map_congr_left fun i hi => h i (List.mem_range.1 hi)

theorem sidePts_ac (s : Side) (N : Net α) (hu : 0 < N.nu) (hv : 0 < N.nv) :
    sidePts (rotS s) (acNet N) = sidePts s N := by
  cases s
  · -- west -> north
    change (List.range N.nv).map (fun i => (acNet N).at' (N.nv - 1 - i) (N.nu - 1)) = _
    apply range_map_congr; intro i hi
    rw [ac_at N (by omega) (by omega)]; congr 1; omega
  · change (List.range N.nv).map (fun i => (acNet N).at' i 0) = _
    apply range_map_congr; intro i hi
    rw [ac_at N (by omega) (by omega)]; congr 1
  · change (List.range N.nu).map (fun j => (acNet N).at' 0 (N.nu - 1 - j)) = _
    apply range_map_congr; intro i hi
    rw [ac_at N (by omega) (by omega)]; congr 1; omega
  · change (List.range N.nu).map (fun j => (acNet N).at' (N.nv - 1) j) = _
    apply range_map_congr; intro i hi
    rw [ac_at N (by omega) (by omega)]

theorem sidePts_swap (s : Side) (N : Net α) (hu : 0 < N.nu) (hv : 0 < N.nv) :
    sidePts (mapSwap s) (swapNet N) = (sidePts s N).reverse := by
  cases s
  · change (List.range N.nv).map (fun i => (swapNet N).at' i 0) = _
    unfold sidePts
    rw [range_map_reverse]
    apply range_map_congr; intro i hi
    rw [swap_at N (by omega) (by omega)]; congr 1; omega
  · change (List.range N.nv).map (fun i => (swapNet N).at' (N.nv - 1 - i) (N.nu - 1)) = _
    unfold sidePts
    rw [range_map_reverse]
    apply range_map_congr; intro i hi
    rw [swap_at N (by omega) (by omega)]
  · change (List.range N.nu).map (fun j => (swapNet N).at' 0 (N.nu - 1 - j)) = _
    unfold sidePts
    rw [range_map_reverse]
    apply range_map_congr; intro i hi
    rw [swap_at N (by omega) (by omega)]
  · change (List.range N.nu).map (fun j => (swapNet N).at' (N.nv - 1) j) = _
    unfold sidePts
    rw [range_map_reverse]
    apply range_map_congr; intro i hi
    rw [swap_at N (by omega) (by omega)]; congr 1; omega

theorem sidePts_tw (s : Side) {N : Net α} (h : N.WF) (hu : 0 < N.nu) (hv : 0 < N.nv) :
    sidePts (rotS (rotS s)) (twNet N) = sidePts s N := by
  rw [← ac_ac h, sidePts_ac _ _ (by exact hv) (by exact hu), sidePts_ac _ _ hu hv]

theorem sidePts_cw (s : Side) {N : Net α} (h : N.WF) (hu : 0 < N.nu) (hv : 0 < N.nv) :
    sidePts s (cwNet N) = sidePts (rotS s) N := by
  have := sidePts_ac s (cwNet N) (by exact hv) (by exact hu)
  rw [ac_cw h] at this
  exact this.symm

theorem corner_ac (N : Net α) (hu : 0 < N.nu) (hv : 0 < N.nv) : cornerPt .sw (acNet N) = cornerPt .se N := by
  change (acNet N).at' 0 0 = _
  rw [ac_at N hv hu]; rfl
theorem corner_cw (N : Net α) (hu : 0 < N.nu) (hv : 0 < N.nv) : cornerPt .sw (cwNet N) = cornerPt .nw N := by
  change (cwNet N).at' 0 0 = _
  rw [cw_at N hv hu]; rfl
theorem corner_tw (N : Net α) (hu : 0 < N.nu) (hv : 0 < N.nv) : cornerPt .sw (twNet N) = cornerPt .ne N := by
  change (twNet N).at' 0 0 = _
  rw [tw_at N hu hv]; rfl

/-- corner renumbering under the swap -/
def swapC : Corner → Corner | .sw => .sw | .se => .nw | .nw => .se | .ne => .ne
theorem corner_swap (c : Corner) (N : Net α) (hu : 0 < N.nu) (hv : 0 < N.nv) :
    cornerPt (swapC c) (swapNet N) = cornerPt c N := by
  cases c
  · change (swapNet N).at' 0 0 = _
    rw [swap_at N hv hu]; rfl
  · change (swapNet N).at' 0 (N.nu - 1) = _
    rw [swap_at N hv (by omega)]; rfl
  · change (swapNet N).at' (N.nv - 1) 0 = _
    rw [swap_at N (by omega) hu]; rfl
  · change (swapNet N).at' (N.nv - 1) (N.nu - 1) = _
    rw [swap_at N (by omega) (by omega)]; rfl

/-- All coefficient rows of a net as a list. -/
def rows (N : Net α) : List (Option α) := (List.range (N.nu * N.nv)).map N.c

theorem perm_of_index_map {β : Type} (n : ℕ) (f g : ℕ → β) (σ τ : ℕ → ℕ)
    (hσ : ∀ k < n, σ k < n) (hτ : ∀ k < n, τ k < n) (h1 : ∀ k < n, τ (σ k) = k) (h2 : ∀ k < n, σ (τ k) = k)
    (hf : ∀ k < n, f k = g (σ k)) : ((List.range n).map f).Perm ((List.range n).map g) := by
  have e : (List.range n).map f = ((List.range n).map σ).map g := by
    rw [List.map_map]; exact range_map_congr n _ _ hf
  rw [e]
  apply List.Perm.map
  rw [List.perm_ext_iff_of_nodup]
  · intro a
    simp only [List.mem_map, List.mem_range]
    constructor
    · rintro ⟨k, hk, rfl⟩; exact hσ k hk
    · intro ha; exact ⟨τ a, hτ a ha, h2 a ha⟩
  · refine List.Nodup.map_on ?_ (List.nodup_range)
    intro x hx y hy hxy
    rw [← h1 x (List.mem_range.1 hx), ← h1 y (List.mem_range.1 hy), hxy]
  · exact List.nodup_range

/-- permutation lemma for a net obtained by a position map with inverse -/
theorem rows_perm {N M : Net α} (f g : ℕ → ℕ → ℕ × ℕ)
    (hat : ∀ i j, i < M.nu → j < M.nv → M.at' i j = N.at' (f i j).1 (f i j).2)
    (hf : ∀ i j, i < M.nu → j < M.nv → (f i j).1 < N.nu ∧ (f i j).2 < N.nv)
    (hg : ∀ i j, i < N.nu → j < N.nv → (g i j).1 < M.nu ∧ (g i j).2 < M.nv)
    (hgf : ∀ i j, i < M.nu → j < M.nv → g (f i j).1 (f i j).2 = (i, j))
    (hfg : ∀ i j, i < N.nu → j < N.nv → f (g i j).1 (g i j).2 = (i, j))
    (hsz : M.nu * M.nv = N.nu * N.nv) : (rows M).Perm (rows N) := by
  unfold rows
  rw [hsz]
  have ind : ∀ {n m k : ℕ}, k < n * m → k % n < n ∧ k / n < m ∧ k % n + n * (k / n) = k := by
    intro n m k hk
    have hn : 0 < n := by rcases Nat.eq_zero_or_pos n with h | h
                          · subst h; simp at hk
                          · exact h
    exact ⟨Nat.mod_lt _ hn, Nat.div_lt_of_lt_mul hk, Nat.mod_add_div k n⟩
  have dm : ∀ {n i j : ℕ}, i < n → (i + n * j) % n = i ∧ (i + n * j) / n = j := by
    intro n i j hi
    constructor
    · rw [Nat.add_mul_mod_self_left, Nat.mod_eq_of_lt hi]
    · rw [Nat.add_mul_div_left _ _ (by omega), Nat.div_eq_of_lt hi, Nat.zero_add]
  apply perm_of_index_map (N.nu * N.nv) M.c N.c
    (fun k => (f (k % M.nu) (k / M.nu)).1 + N.nu * (f (k % M.nu) (k / M.nu)).2)
    (fun k => (g (k % N.nu) (k / N.nu)).1 + M.nu * (g (k % N.nu) (k / N.nu)).2)
  · intro k hk; rw [← hsz] at hk
    obtain ⟨a, b, _⟩ := ind hk
    exact tensor_lt (hf _ _ a b).1 (hf _ _ a b).2
  · intro k hk
    obtain ⟨a, b, _⟩ := ind hk
    rw [← hsz]
    exact tensor_lt (hg _ _ a b).1 (hg _ _ a b).2
  · intro k hk; rw [← hsz] at hk
    obtain ⟨a, b, c⟩ := ind hk
    have hh := hf _ _ a b
    rw [(dm hh.1).1, (dm hh.1).2, hgf _ _ a b]; exact c
  · intro k hk
    obtain ⟨a, b, c⟩ := ind hk
    have hh := hg _ _ a b
    rw [(dm hh.1).1, (dm hh.1).2, hfg _ _ a b]; exact c
  · intro k hk; rw [← hsz] at hk
    obtain ⟨a, b, c⟩ := ind hk
    have := hat _ _ a b
    unfold Net.at' at this
    rw [c] at this
    exact this

theorem op_rows_perm (o : Op) (N : Net α) : (rows (o.net N)).Perm (rows N) := by
  cases o
  · exact rows_perm (fun i j => (j, i)) (fun i j => (j, i)) (fun _ _ hi hj => swap_at N hi hj)
      (fun _ _ hi hj => ⟨hj, hi⟩) (fun _ _ hi hj => ⟨hj, hi⟩) (fun _ _ _ _ => rfl) (fun _ _ _ _ => rfl)
      (Nat.mul_comm _ _)
  · refine rows_perm (fun i j => (N.nu - 1 - j, i)) (fun i j => (j, N.nu - 1 - i)) (fun _ _ hi hj => ac_at N hi hj)
      ?_ ?_ ?_ ?_ (Nat.mul_comm _ _)
    · intro i j hi hj; change i < N.nv at hi; change j < N.nu at hj; exact ⟨by simp only; omega, hi⟩
    · intro i j hi hj; change j < N.nv ∧ N.nu - 1 - i < N.nu; omega
    · intro i j hi hj; change i < N.nv at hi; change j < N.nu at hj; simp only [Prod.mk.injEq, true_and]; omega
    · intro i j hi hj; simp only [Prod.mk.injEq, and_true]; omega
  · refine rows_perm (fun i j => (j, N.nv - 1 - i)) (fun i j => (N.nv - 1 - j, i)) (fun _ _ hi hj => cw_at N hi hj)
      ?_ ?_ ?_ ?_ (Nat.mul_comm _ _)
    · intro i j hi hj; change i < N.nv at hi; change j < N.nu at hj; exact ⟨hj, by simp only; omega⟩
    · intro i j hi hj; change N.nv - 1 - j < N.nv ∧ i < N.nu; omega
    · intro i j hi hj; change i < N.nv at hi; change j < N.nu at hj; simp only [Prod.mk.injEq, and_true]; omega
    · intro i j hi hj; simp only [Prod.mk.injEq, true_and]; omega
  · refine rows_perm (fun i j => (N.nu - 1 - i, N.nv - 1 - j)) (fun i j => (N.nu - 1 - i, N.nv - 1 - j))
      (fun _ _ hi hj => tw_at N hi hj) ?_ ?_ ?_ ?_ rfl
    · intro i j hi hj; change i < N.nu at hi; change j < N.nv at hj; simp only; omega
    · intro i j hi hj; change N.nu - 1 - i < N.nu ∧ N.nv - 1 - j < N.nv; omega
    · intro i j hi hj; change i < N.nu at hi; change j < N.nv at hj; simp only [Prod.mk.injEq]; omega
    · intro i j hi hj; simp only [Prod.mk.injEq]; omega

theorem run_rows_perm (h : List Op) (N : Net α) : (rows (runNet h N)).Perm (rows N) := by
  unfold runNet
  induction h generalizing N with
  | nil => exact List.Perm.refl _
  | cons o h ih => exact (ih (o.net N)).trans (op_rows_perm o N)

theorem op_pos (o : Op) {N : Net α} (hu : 0 < N.nu) (hv : 0 < N.nv) : 0 < (o.net N).nu ∧ 0 < (o.net N).nv := by
  cases o
  · exact ⟨hv, hu⟩
  · exact ⟨hv, hu⟩
  · exact ⟨hv, hu⟩
  · exact ⟨hu, hv⟩

/-! knots of the auxiliary-patch variant -/
theorem aux_erase (o : Op) (N : Net α) :
    ({o.netAux N with ku := [], kv := []} : Net α) = o.net {N with ku := [], kv := []} := by
  cases o <;> rfl
theorem runAux_erase (h : List Op) (N : Net α) :
    ({runAux h N with ku := [], kv := []} : Net α) = runNet h {N with ku := [], kv := []} := by
  unfold runAux runNet
  induction h generalizing N with
  | nil => rfl
  | cons o h ih => simp only [List.foldl_cons]; rw [ih, aux_erase]
theorem back_erase (b : Book) (N : Net α) :
    ({back b N with ku := [], kv := []} : Net α) = back b {N with ku := [], kv := []} := by
  unfold back
  simp only
  by_cases h1 : b.rot = 2
  · simp only [h1, if_true]; cases b.axis <;> rfl
  · by_cases h2 : b.rot = -1
    · simp only [h2, if_true]; cases b.axis <;> rfl
    · by_cases h3 : b.rot = 1
      · simp only [h3, if_true]; cases b.axis <;> rfl
      · simp only [h1, h2, h3, if_false]; cases b.axis <;> rfl

/-- knot pair of a net -/
def kk (N : Net α) : List ℚ × List ℚ := (N.ku, N.kv)
theorem aux_kk_rot (rs : List Op) (hr : ∀ o ∈ rs, o ≠ .swap) (N : Net α) :
    kk (runAux rs N) = if (rs.map Op.turns).sum % 2 = 0 then kk N else (kk N).swap := by
  unfold runAux
  induction rs generalizing N with
  | nil => rfl
  | cons o rs ih =>
    simp only [List.foldl_cons, List.map_cons, List.sum_cons]
    rw [ih (fun o' h' => hr o' (List.mem_cons_of_mem _ h'))]
    have ho := hr o (by simp)
    cases o
    · exact absurd rfl ho
    · have e : kk (Op.ac.netAux N) = (kk N).swap := rfl
      rw [e]
      rcases Nat.mod_two_eq_zero_or_one ((rs.map Op.turns).sum) with h | h
      · have e2 : (Op.turns .ac + (rs.map Op.turns).sum) % 2 = 1 := by simp only [Op.turns]; omega
        rw [h, e2]; rfl
      · have e2 : (Op.turns .ac + (rs.map Op.turns).sum) % 2 = 0 := by simp only [Op.turns]; omega
        rw [h, e2]; rfl
    · have e : kk (Op.cw.netAux N) = (kk N).swap := rfl
      rw [e]
      rcases Nat.mod_two_eq_zero_or_one ((rs.map Op.turns).sum) with h | h
      · have e2 : (Op.turns .cw + (rs.map Op.turns).sum) % 2 = 1 := by simp only [Op.turns]; omega
        rw [h, e2]; rfl
      · have e2 : (Op.turns .cw + (rs.map Op.turns).sum) % 2 = 0 := by simp only [Op.turns]; omega
        rw [h, e2]; rfl
    · have e : kk (Op.tw.netAux N) = (kk N) := rfl
      rw [e]
      rcases Nat.mod_two_eq_zero_or_one ((rs.map Op.turns).sum) with h | h
      · have e2 : (Op.turns .tw + (rs.map Op.turns).sum) % 2 = 0 := by simp only [Op.turns]; omega
        rw [h, e2]
      · have e2 : (Op.turns .tw + (rs.map Op.turns).sum) % 2 = 1 := by simp only [Op.turns]; omega
        rw [h, e2]

end Verif.Reparam
