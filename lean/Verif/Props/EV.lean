import Verif.Proofs.EVCoarse
import Verif.Props.DPatchMap
import Verif.Props.Pi
/-!
# Properties C15, C16: the extraordinary-vertex step of `gsDPatch`

The run: mapper and smoothing matrix of the coarse bases with the rules of `gsDPatch` (`DPatch.coarse`), product with the refinement matrix, then `_computeEVs`.
-/
set_option autoImplicit false
set_option linter.unusedSectionVars false
set_option linter.unusedVariables false
namespace Verif.EV
open Verif Verif.Smooth
open _root_.Verif.DPatch (coarse freeOf coarse_spec)

variable {P Q : Type} [LinearOrder P] [DecidableEq Q]

/-- What is assumed about a run with extraordinary vertices `evs`. `ev`: every listed vertex is interior (what `getEVs` of G+Smo
lists) and no patch meets it with two corners. `bdry`: no boundary vertex has more than three patches (the code stops with an error
otherwise, `C11_dpatch_valence_error`). `six`: at least six functions per direction in the coarse bases.
`fine`, `transfer`: behaviour of the refined bases near corners (G+Smo). -/
structure Run (T : Topo P) (il : List (PS P × PS P)) (bl : List (PS P)) (vl : List (PC P)) (dl : List (Dof P))
    (F : Fine P Q) (tm : Q → Dof P → ℝ) (evs : List (List (PC P))) : Prop where
  setting : Setting T il bl vl dl
  bdry : ∀ c, T.interior c = false → (T.cl c).length ≤ 3
  six : Six T
  fine : FineOk F
  transfer : TransferOk T F tm dl
  ev : ∀ L ∈ evs, (∃ c, L = T.cl c ∧ T.interior c = true) ∧ (L.map Prod.fst).Nodup
  ev_disjoint : evs.Pairwise fun L L' => ∀ c ∈ L, c ∉ L'

/-- Mapper, and matrix of the D-Patch after `_computeEVs`. -/
noncomputable def dpatch (T : Topo P) (il : List (PS P × PS P)) (bl : List (PS P)) (vl : List (PC P)) (dl : List (Dof P))
    (ori : PS P → Bool) (F : Fine P Q) (tm : Q → Dof P → ℝ) (opt : ℤ) (beta : ℝ) (level : ℕ) (evs : List (List (PC P))) :
    Option (MapSt P × Mat P Q) :=
  (coarse T il bl vl dl).bind fun st =>
    (computeEVs T ori F opt beta level evs (mulT (fun r c => ((st.2.M r c : ℚ) : ℝ)) tm dl)).map fun M => (st.1, M)

/-- One coordinate of the control point of the refined function `q` for smooth coefficients `x`: `m_matrix.transpose() * x`. -/
noncomputable def point (M : Mat P Q) (rows : List (Dof P)) (x : Dof P → ℝ) (q : Q) : ℝ := (rows.map fun r => M r q * x r).sum

theorem list_range_sum (n : ℕ) (f : ℕ → ℝ) : ((List.range n).map f).sum = ∑ y ∈ Finset.range n, f y := by
  induction n with
  | zero => simp
  | succ n ih => rw [List.range_succ, List.map_append, List.sum_append, ih, Finset.sum_range_succ]; simp

theorem ev_len {T : Topo P} {L : List (PC P)} (hv : Vtx T L) : 2 ≤ L.length := by
  have hne := vtx_ne_nil hv
  rcases L with _ | ⟨c, L⟩
  · exact absurd rfl hne
  · obtain ⟨d, t, -, -, -, -, hd, -, hdc, -⟩ := fl_cross hv (x := (c, c.2.uside)) ⟨List.mem_cons_self, uside_mem _⟩
    rcases L with _ | ⟨e, L⟩
    · simp at hd; exact absurd hd hdc
    · simp

theorem run_before {T : Topo P} {il : List (PS P × PS P)} {bl : List (PS P)} {vl : List (PC P)} {dl : List (Dof P)}
    {F : Fine P Q} {tm : Q → Dof P → ℝ} {evs : List (List (PC P))} (h : Run T il bl vl dl F tm evs) :
    ∃ ms st, coarse T il bl vl dl = some (ms, st) ∧
      (∀ L ∈ evs, Before T F L (mulT (fun r c => ((st.M r c : ℚ) : ℝ)) tm dl)) ∧
      ∀ q, csum (mulT (fun r c => ((st.M r c : ℚ) : ℝ)) tm dl) (freeOf ms dl) q = 1 := by
  obtain ⟨ms, st, h1, -, -, h2, -⟩ := coarse_spec h.setting h.bdry
  refine ⟨ms, st, h1, ?_, ?_⟩
  · intro L hL
    obtain ⟨hc, hd⟩ := h.ev L hL
    have hv : Vtx T L := ⟨h.setting.ok, hc⟩
    refine before_of_coarse h.transfer hv (coarse_ok h.setting.ok h.six hv ?_)
    intro r x hx hint
    rw [h2]
    simp only [enc_valid h.setting.ok hx, and_true]
    rw [dec_enc h.setting.ok hx, DPatch.FD_eq]
    intro c a b e
    unfold DPatch.V3
    rw [hint c a b e]; rfl
  · apply csum_mulT h.transfer.rows
    intro d hd
    obtain ⟨ms', st', g1, g2, -⟩ := DPatch.C08_dpatch_coarse h.setting h.bdry
    rw [h1] at g1
    cases g1
    have := g2 d ((h.setting.dofs_iff d).1 hd)
    rw [show ((freeOf ms dl).map fun r => ((st.M r d : ℚ) : ℝ)) =
      ((freeOf ms dl).map fun r => st.M r d).map (fun x : ℚ => (x : ℝ)) by simp [Function.comp_def]]
    have key : ∀ l : List ℚ, (l.map fun x : ℚ => (x : ℝ)).sum = ((l.sum : ℚ) : ℝ) := by
      intro l; induction l with
      | nil => simp
      | cons a l ih => simp only [List.map_cons, List.sum_cons, ih, Rat.cast_add]
    rw [key, this]; simp

/-- The general form of the step, for every starting matrix: it needs of the matrix that functions without an inner point at the vertex
vanish at the inner points there and are midpoints along the interfaces (`Before`). -/
theorem compute_spec {T : Topo P} (ok : Ok T) {F : Fine P Q} (hF : FineOk F) (ori : PS P → Bool) (opt : ℤ) (ho : opt = 0 ∨ opt = 1)
    (beta : ℝ) (level : ℕ) {evs : List (List (PC P))}
    (hev : ∀ L ∈ evs, (∃ c, L = T.cl c ∧ T.interior c = true) ∧ (L.map Prod.fst).Nodup)
    (hdis : evs.Pairwise fun L L' => ∀ c ∈ L, c ∉ L') {M : Mat P Q} (hb : ∀ L ∈ evs, Before T F L M) :
    ∃ M', computeEVs T ori F opt beta level evs M = some M' ∧
      (∀ L ∈ evs, ∃ a Pi M0, Around T L a ∧ Verif.Pi.makePi opt beta level L.length = some Pi ∧ Full T F Pi L a M0 M') ∧
      (∀ r q, M' r q ≠ M r q → ∃ L ∈ evs, Inner (vert T) L r ∧ Near F L q) ∧
      (∀ rl, (∀ q, csum M rl q = 1) → ∀ q, csum M' rl q = 1) := by
  obtain ⟨M', carry', h1, h2, h3, h4⟩ := fold_spec ori hF (fun N => Verif.Pi.makePi opt beta level N) evs
    (fun L hL => ⟨⟨ok, (hev L hL).1⟩, (hev L hL).2⟩) hdis
    (fun L _ => (Verif.Pi.C13_defined_iff opt beta level L.length).2 ho) M [] (by simp) hb
  refine ⟨M', ?_, ?_, h3, ?_⟩
  · unfold computeEVs
    have e : (fun (st : Mat P Q × List (REntry P Q)) (L : List (PC P)) =>
        (do let Pi ← Verif.Pi.makePi opt beta level L.length; evStep T ori F Pi L st : Option _)) =
      fun (st : Mat P Q × List (REntry P Q)) (L : List (PC P)) =>
        (Verif.Pi.makePi opt beta level L.length).bind fun Pi => evStep T ori F Pi L st := rfl
    rw [e, h1]; rfl
  · intro L hL
    obtain ⟨a, Pi, M0, g1, g2, g3, -⟩ := h2 L hL
    exact ⟨a, Pi, M0, g1, g2, g3⟩
  · intro rl hrl
    apply h4 rl hrl
    intro L hL Pi hPi p hp
    obtain ⟨M1, g1, g2⟩ := Verif.Pi.C13_rows_sum_one opt beta level L.length (ev_len ⟨ok, (hev L hL).1⟩) ho
    rw [hPi] at g1
    obtain rfl := Option.some.inj g1
    rw [list_range_sum]; exact g2 p hp

/-! ## C15 -/

/-- C15. The extraordinary-vertex step never stops with an error, and afterwards the weights of every refined local function
over the smooth functions still sum to one. -/
theorem C15_partition_of_unity {T : Topo P} {il : List (PS P × PS P)} {bl : List (PS P)} {vl : List (PC P)} {dl : List (Dof P)}
    {F : Fine P Q} {tm : Q → Dof P → ℝ} {evs : List (List (PC P))} (h : Run T il bl vl dl F tm evs) (ori : PS P → Bool)
    (opt : ℤ) (ho : opt = 0 ∨ opt = 1) (beta : ℝ) (level : ℕ) :
    ∃ ms M', dpatch T il bl vl dl ori F tm opt beta level evs = some (ms, M') ∧
      ∀ q, ((freeOf ms dl).map fun r => M' r q).sum = 1 := by
  obtain ⟨ms, st, h1, h2, h3⟩ := run_before h
  obtain ⟨M', g1, -, -, g4⟩ := compute_spec h.setting.ok h.fine ori opt ho beta level h.ev h.ev_disjoint h2
  refine ⟨ms, M', ?_, g4 _ h3⟩
  unfold dpatch
  rw [h1, Option.bind_some, g1]; rfl

/-- C15. The step is local: a weight that differs from the refined smoothing matrix belongs to a smooth function whose local function is
one of the points 1,1 / 2,1 / 1,2 of a corner at an extraordinary vertex, and to a refined function at the same vertex. -/
theorem C15_local {T : Topo P} {il : List (PS P × PS P)} {bl : List (PS P)} {vl : List (PC P)} {dl : List (Dof P)}
    {F : Fine P Q} {tm : Q → Dof P → ℝ} {evs : List (List (PC P))} (h : Run T il bl vl dl F tm evs) (ori : PS P → Bool)
    (opt : ℤ) (ho : opt = 0 ∨ opt = 1) (beta : ℝ) (level : ℕ) :
    ∃ ms st M', coarse T il bl vl dl = some (ms, st) ∧ dpatch T il bl vl dl ori F tm opt beta level evs = some (ms, M') ∧
      ∀ r q, M' r q ≠ (dl.map fun d => ((st.M r d : ℚ) : ℝ) * tm q d).sum →
        ∃ L ∈ evs, (∃ c ∈ L, ∃ s ∈ c.2.sides, r = vert T c s 1 1 ∨ r = vert T c s 2 1) ∧
          ∃ c ∈ L, ∃ s ∈ c.2.sides, q = F.at' c s 0 0 ∨ q = F.at' c s 1 0 ∨ q = F.at' c s 1 1 ∨ q = F.at' c s 2 1 ∨
            q = F.at' c s 2 0 ∨ q = F.at' c s 3 0 := by
  obtain ⟨ms, st, h1, h2, h3⟩ := run_before h
  obtain ⟨M', g1, -, g3, -⟩ := compute_spec h.setting.ok h.fine ori opt ho beta level h.ev h.ev_disjoint h2
  refine ⟨ms, st, M', h1, by unfold dpatch; rw [h1, Option.bind_some, g1]; rfl, ?_⟩
  intro r q hne
  obtain ⟨L, hL, ⟨y, hy, hr⟩, ⟨z, hz, hq⟩⟩ := g3 r q hne
  exact ⟨L, hL, ⟨y.1, hy.1, y.2, hy.2, hr⟩, ⟨z.1, hz.1, z.2, hz.2, hq⟩⟩

/-! ## C16 -/

theorem point_lin (M M0 : Mat P Q) (rows : List (Dof P)) (x : Dof P → ℝ) (n : ℕ) (w : ℕ → ℝ) (q : Q) (qs : ℕ → Q)
    (h : ∀ r, M r q = ((List.range n).map fun y => w y * M0 r (qs y)).sum) :
    point M rows x q = ∑ y ∈ Finset.range n, w y * point M0 rows x (qs y) := by
  unfold point
  induction rows with
  | nil => simp
  | cons r rows ih =>
    simp only [List.map_cons, List.sum_cons, ih, mul_add, Finset.sum_add_distrib]
    congr 1
    rw [h r, list_range_sum, Finset.sum_mul]
    apply Finset.sum_congr rfl
    intro y _; ring

theorem point_congr {M : Mat P Q} {rows : List (Dof P)} {x : Dof P → ℝ} {q q' : Q} (h : ∀ r, M r q = M r q') :
    point M rows x q = point M rows x q' := by
  unfold point
  congr 1
  exact List.map_congr_left fun r _ => by rw [h r]

/-- around one vertex -/
theorem vertex_points {T : Topo P} {F : Fine P Q} {L : List (PC P)} {a : ℕ → Flag P} (hF : FineOk F) (A : Around T L a)
    {opt : ℤ} (ho : opt = 0 ∨ opt = 1) {beta : ℝ} {level : ℕ} {Pi : ℕ → ℕ → ℝ}
    (hPi : Verif.Pi.makePi opt beta level L.length = some Pi) {M0 M' : Mat P Q} (hf : Full T F Pi L a M0 M') (rows : List (Dof P)) :
    ∃ u v : PC P → Side → ℕ → ℝ, ∀ x : Dof P → ℝ, ∃ m U V : ℝ,
        ∀ c ∈ L, ∀ s ∈ c.2.sides,
          point M' rows x (F.at' c s 0 0) = m ∧ point M' rows x (F.at' c s 1 0) = m ∧
          point M' rows x (F.at' c s 0 1) = m ∧ point M' rows x (F.at' c s 1 1) = m ∧
          ∀ l < 2, point M' rows x (F.at' c s 2 l) = m + (u c s l * U + v c s l * V) := by
  classical
  set N := L.length with hN
  have hidx : ∀ c ∈ L, ∃ i < N, (a i).1 = c := fun c hc => A.mem hc
  let ix : PC P → ℕ := fun c => if h : c ∈ L then (hidx c h).choose else 0
  have hix : ∀ c ∈ L, ix c < N ∧ (a (ix c)).1 = c := by
    intro c hc
    simp only [ix, hc, dif_pos]
    exact (hidx c hc).choose_spec
  let ang : PC P → Side → ℝ := fun c s => if s = (a (ix c)).2 then
    (ix c) * Verif.Pi.phi N - 2 * Verif.Pi.psi N (Verif.Pi.betaL beta level) else (ix c) * Verif.Pi.phi N
  refine ⟨fun c s l => if l = 1 then Real.cos (ang c s) else
      (Real.cos (ang c s) + Real.cos (ang (opp T (c, s)).1 (opp T (c, s)).2)) / 2,
    fun c s l => if l = 1 then Real.sin (ang c s) else
      (Real.sin (ang c s) + Real.sin (ang (opp T (c, s)).1 (opp T (c, s)).2)) / 2, ?_⟩
  intro x
  obtain ⟨Pi', g1, m, U, V, g2⟩ := Verif.Pi.C16_points_on_common_ellipse opt beta level N ho
    (fun y => point M0 rows x (adr F.at' a N y))
  rw [hPi] at g1
  obtain rfl := Option.some.inj g1
  have hadr : ∀ p < 3 * N, point M' rows x (adr F.at' a N p) =
      Verif.Pi.mulVec (3 * N) Pi (fun y => point M0 rows x (adr F.at' a N y)) p := by
    intro p hp
    unfold Verif.Pi.mulVec
    exact point_lin M' M0 rows x (3 * N) (Pi p) _ _ (fun r => hf.pi r p hp)
  have p11 : ∀ c ∈ L, ∀ s ∈ c.2.sides, point M' rows x (F.at' c s 1 1) = m := by
    intro c hc s hs
    obtain ⟨hi, hc'⟩ := hix c hc
    have e := hadr (ix c) (by omega)
    rw [(g2 (ix c) hi).1] at e
    unfold adr at e
    rw [if_pos hi, hc'] at e
    rcases side_cases (c := c.2) (by have := (A.fl (ix c)).2; rw [hc'] at this; exact this) hs with h | h
    · rw [h]; exact e
    · rw [h, ← at_swap hF]
      · exact e
      · have := (A.fl (ix c)).2; rw [hc'] at this; exact this
  have p21 : ∀ c ∈ L, ∀ s ∈ c.2.sides, point M' rows x (F.at' c s 2 1) = m + (Real.cos (ang c s) * U + Real.sin (ang c s) * V) := by
    intro c hc s hs
    obtain ⟨hi, hc'⟩ := hix c hc
    have hfl : (a (ix c)).2 ∈ c.2.sides := by have := (A.fl (ix c)).2; rw [hc'] at this; exact this
    rcases side_cases hfl hs with h | h
    · have e := hadr (2 * N + ix c) (by omega)
      rw [(g2 (ix c) hi).2.2] at e
      unfold adr at e
      rw [if_neg (by omega), if_neg (by omega), Nat.add_sub_cancel_left, hc'] at e
      rw [h, e]
      simp only [ang, if_true]; ring
    · have e := hadr (N + ix c) (by omega)
      rw [(g2 (ix c) hi).2.1] at e
      unfold adr at e
      rw [if_neg (by omega), if_pos (by omega), Nat.add_sub_cancel_left, hc'] at e
      rw [h, e]
      simp only [ang, othS_ne hfl, if_false]; ring
  have p10 : ∀ c ∈ L, ∀ s ∈ c.2.sides, point M' rows x (F.at' c s 1 0) = m := by
    intro c hc s hs
    rw [point_congr (fun r => hf.ring1 r (c, s) ⟨hc, hs⟩)]
    exact p11 c hc s hs
  refine ⟨m, U, V, ?_⟩
  intro c hc s hs
  refine ⟨?_, p10 c hc s hs, ?_, p11 c hc s hs, ?_⟩
  · rw [point_congr (fun r => hf.ring0 r (c, s) ⟨hc, hs⟩)]
    exact p11 c hc s hs
  · rw [at_swap hF hs]; exact p10 c hc _ (othS_mem _ _)
  · intro l hl
    have e1 := p21 c hc s hs
    rcases (by omega : l = 0 ∨ l = 1) with rfl | rfl
    · have hy' : FL L (opp T (c, s)) := rev_fl (nxt_fl A.vtx ⟨hc, hs⟩)
      have e2 := p21 _ hy'.1 _ hy'.2
      have : point M' rows x (F.at' c s 2 0) =
          (point M' rows x (F.at' c s 2 1) + point M' rows x (F.at' (opp T (c, s)).1 (opp T (c, s)).2 2 1)) / 2 := by
        unfold point
        rw [List.map_congr_left fun r _ => by rw [hf.mid r (c, s) ⟨hc, hs⟩ 2 (Or.inl rfl)]]
        unfold wgt
        simp only [add_mul, mul_add]
        rw [List.sum_map_add]
        simp only [mul_assoc]
        rw [List.sum_map_mul_left, List.sum_map_mul_left]; ring
      rw [this, e1, e2]
      simp only [zero_ne_one, if_false]; ring
    · rw [e1]; simp

theorem vertex_mid {T : Topo P} {F : Fine P Q} {L : List (PC P)} {a : ℕ → Flag P} (A : Around T L a) {Pi : ℕ → ℕ → ℝ}
    {M0 M' : Mat P Q} (hf : Full T F Pi L a M0 M') (rows : List (Dof P)) (x : Dof P → ℝ) {c : PC P} (hc : c ∈ L) {s : Side}
    (hs : s ∈ c.2.sides) {k : ℕ} (hk : k = 2 ∨ k = 3) : point M' rows x (F.at' c s k 0) =
      (point M' rows x (F.at' c s k 1) + point M' rows x (F.at' (opp T (c, s)).1 (opp T (c, s)).2 k 1)) / 2 := by
  unfold point
  rw [List.map_congr_left fun r _ => by rw [hf.mid r (c, s) ⟨hc, hs⟩ k hk]]
  unfold wgt
  simp only [add_mul, mul_add]
  rw [List.sum_map_add]
  simp only [mul_assoc]
  rw [List.sum_map_mul_left, List.sum_map_mul_left]; ring

/-- C16. For every choice of smooth coefficients `x` (one coordinate; `m`, `U`, `V` coordinate-wise) there are a point `m` and two vectors
`U`, `V` such that all control points of the patches at the extraordinary vertex and in its first ring coincide with `m`, and
the control points of the second ring lie in the plane through `m` spanned by `U` and `V`, with positions `u`, `v` in that
plane which do not depend on the coefficients. Hence all patches share the tangent plane at the vertex. -/
theorem C16_tangent_plane {T : Topo P} {il : List (PS P × PS P)} {bl : List (PS P)} {vl : List (PC P)} {dl : List (Dof P)}
    {F : Fine P Q} {tm : Q → Dof P → ℝ} {evs : List (List (PC P))} (h : Run T il bl vl dl F tm evs) (ori : PS P → Bool)
    (opt : ℤ) (ho : opt = 0 ∨ opt = 1) (beta : ℝ) (level : ℕ) (rows : List (Dof P)) :
    ∃ ms M', dpatch T il bl vl dl ori F tm opt beta level evs = some (ms, M') ∧
      ∀ L ∈ evs, ∃ u v : PC P → Side → ℕ → ℝ, ∀ x : Dof P → ℝ, ∃ m U V : ℝ,
        ∀ c ∈ L, ∀ s ∈ c.2.sides,
          point M' rows x (F.at' c s 0 0) = m ∧ point M' rows x (F.at' c s 1 0) = m ∧
          point M' rows x (F.at' c s 0 1) = m ∧ point M' rows x (F.at' c s 1 1) = m ∧
          ∀ l < 2, point M' rows x (F.at' c s 2 l) = m + (u c s l * U + v c s l * V) := by
  obtain ⟨ms, st, h1, h2, h3⟩ := run_before h
  obtain ⟨M', g1, g2, -, -⟩ := compute_spec h.setting.ok h.fine ori opt ho beta level h.ev h.ev_disjoint h2
  refine ⟨ms, M', by unfold dpatch; rw [h1, Option.bind_some, g1]; rfl, ?_⟩
  intro L hL
  obtain ⟨a, Pi, M0, A, hPi, hf⟩ := g2 L hL
  exact vertex_points h.fine A ho hPi hf rows

/-- C16. Near the vertex (up to three steps away) control points on the interfaces are the midpoints of their neighbours across the
interface, and the two patches have the same control points there, for all smooth coefficients. -/
theorem C16_interface_midpoints {T : Topo P} {il : List (PS P × PS P)} {bl : List (PS P)} {vl : List (PC P)} {dl : List (Dof P)}
    {F : Fine P Q} {tm : Q → Dof P → ℝ} {evs : List (List (PC P))} (h : Run T il bl vl dl F tm evs) (ori : PS P → Bool)
    (opt : ℤ) (ho : opt = 0 ∨ opt = 1) (beta : ℝ) (level : ℕ) (rows : List (Dof P)) :
    ∃ ms M', dpatch T il bl vl dl ori F tm opt beta level evs = some (ms, M') ∧
      ∀ L ∈ evs, ∀ c ∈ L, ∀ s ∈ c.2.sides, ∀ d t, cross T c s = some d → T.nb (c.1, s) = some (d.1, t) →
        ∀ k < 4, ∀ x : Dof P → ℝ,
          point M' rows x (F.at' c s k 0) =
            (point M' rows x (F.at' c s k 1) + point M' rows x (F.at' d t k 1)) / 2 ∧
          point M' rows x (F.at' d t k 0) = point M' rows x (F.at' c s k 0) := by
  obtain ⟨ms, st, h1, h2, h3⟩ := run_before h
  obtain ⟨M', g1, g2, -, -⟩ := compute_spec h.setting.ok h.fine ori opt ho beta level h.ev h.ev_disjoint h2
  refine ⟨ms, M', by unfold dpatch; rw [h1, Option.bind_some, g1]; rfl, ?_⟩
  intro L hL c hc s hs d t hd ht k hk x
  obtain ⟨a, Pi, M0, A, hPi, hf⟩ := g2 L hL
  obtain ⟨d', t', e1, e2, e3, e4⟩ := opp_data A.vtx (y := (c, s)) ⟨hc, hs⟩
  simp only at e1 e2
  rw [hd] at e1; obtain rfl := Option.some.inj e1
  rw [ht] at e2
  simp only [Option.some.injEq, Prod.mk.injEq, true_and] at e2
  subst e2
  have hdL : d ∈ L := by
    have := (rev_fl (nxt_fl A.vtx (x := (c, s)) ⟨hc, hs⟩)).1
    rw [show rev (nxt T (c, s)) = opp T (c, s) from rfl, e4] at this
    exact this
  have back : opp T (d, t) = (c, s) := by
    obtain ⟨c', s', f1, f2, f3, f4⟩ := opp_data A.vtx (y := (d, t)) ⟨hdL, e3⟩
    simp only at f1 f2
    rw [cross_back h.setting.ok hs hd ht] at f1
    rw [h.setting.ok.nb_symm _ _ ht] at f2
    simp only [Option.some.injEq, Prod.mk.injEq] at f1 f2
    rw [f4, ← f1, ← f2.2]
  obtain ⟨u, v, huv⟩ := vertex_points h.fine A ho hPi hf rows
  obtain ⟨m, U, V, hm⟩ := huv x
  obtain ⟨c00, c10, c01, c11, -⟩ := hm c hc s hs
  obtain ⟨d00, d10, d01, d11, -⟩ := hm d hdL t e3
  rcases (by omega : k = 0 ∨ k = 1 ∨ (k = 2 ∨ k = 3)) with rfl | rfl | hk
  · rw [c00, c01, d01, d00]; exact ⟨by ring, rfl⟩
  · rw [c10, c11, d11, d10]; exact ⟨by ring, rfl⟩
  · have m1 := vertex_mid A hf rows x hc hs hk
    have m2 := vertex_mid A hf rows x hdL e3 hk
    rw [e4] at m1
    rw [back] at m2
    simp only at m1 m2
    exact ⟨m1, by rw [m1, m2]; ring⟩

/-! ## Examples -/

/-- `three` with `n` functions in each direction. -/
def threeN (n : ℕ) : Topo (Fin 3) := { three with n0 := fun _ => n, n1 := fun _ => n }

theorem three6_ok : Ok (threeN 6) where
  n0_ge := by decide
  n1_ge := by decide
  nb_symm := by decide
  flip_symm := by decide
  nb_len := by decide
  no_fold := by decide
  cl_self := by decide
  cl_nodup := by decide
  cl_same := by decide
  cl_cross := by decide
  cl_conn := by
    intro c d hd
    have h : ∀ c d, d ∈ (threeN 6).cl c → d = c ∨ Step (threeN 6) c d := by
      unfold Step
      decide
    rcases h c d hd with rfl | h
    · exact Relation.ReflTransGen.refl
    · exact Relation.ReflTransGen.single h
  interior_iff := by decide
  c0_same := by decide

/-- Uniform refinement of quadratic splines with six functions: coefficients of the ten refined functions. -/
noncomputable def refine : ℕ → ℕ → ℝ := fun i j => match i, j with
  | 0, 0 => 1 | 1, 0 => 1/2 | 1, 1 => 1/2 | 2, 1 => 3/4 | 2, 2 => 1/4 | 3, 1 => 1/4 | 3, 2 => 3/4
  | 4, 2 => 3/4 | 4, 3 => 1/4 | 5, 2 => 1/4 | 5, 3 => 3/4
  | 6, 3 => 3/4 | 6, 4 => 1/4 | 7, 3 => 1/4 | 7, 4 => 3/4 | 8, 4 => 1/2 | 8, 5 => 1/2 | 9, 5 => 1
  | (_ + 10), 0 => 1
  | _, _ => 0

theorem refine_sum (i : ℕ) : ((List.range 6).map fun i' => refine i i').sum = 1 := by
  rcases i with _ | _ | _ | _ | _ | _ | _ | _ | _ | _ | i <;> simp [List.range_succ, refine] <;> norm_num

theorem refine_near (far : Bool) (k : ℕ) (hk : k < 4) (g : ℕ → ℝ) :
    ((List.range 6).map fun i' => refine (fromEnd 10 far k) i' * g i').sum =
      ((List.range (k + 1)).map fun k' => refine k k' * g (fromEnd 6 far k')).sum := by
  rcases (by omega : k = 0 ∨ k = 1 ∨ k = 2 ∨ k = 3) with rfl | rfl | rfl | rfl <;> cases far <;>
    simp [List.range_succ, refine, fromEnd] <;> ring

/-- tensor-product refinement -/
noncomputable def refine2 (q d : Dof (Fin 3)) : ℝ := if d.1 = q.1 then refine q.2.1 d.2.1 * refine q.2.2 d.2.2 else 0

theorem sum_dofs (q : Dof (Fin 3)) (f : Dof (Fin 3) → ℝ) :
    ((dofs (threeN 6) [0, 1, 2]).map fun d => f d * refine2 q d).sum =
      ((List.range 6).map fun i => refine q.2.1 i * ((List.range 6).map fun j => refine q.2.2 j * f (q.1, i, j)).sum).sum := by
  have key : ∀ p, ((((List.range 6).flatMap fun i => (List.range 6).map fun j => ((p, i, j) : Dof (Fin 3))).map
      fun d => f d * refine2 q d).sum : ℝ) = if p = q.1 then
      ((List.range 6).map fun i => refine q.2.1 i * ((List.range 6).map fun j => refine q.2.2 j * f (q.1, i, j)).sum).sum else 0 := by
    intro p
    by_cases hp : p = q.1
    · subst hp
      rw [if_pos rfl]
      generalize hr : List.range 6 = r
      have : ∀ (r r' : List ℕ), (((r.flatMap fun i => r'.map fun j => ((q.1, i, j) : Dof (Fin 3))).map fun d => f d * refine2 q d).sum : ℝ) =
          (r.map fun i => refine q.2.1 i * (r'.map fun j => refine q.2.2 j * f (q.1, i, j)).sum).sum := by
        intro r r'
        induction r with
        | nil => simp
        | cons i r ih =>
          rw [List.flatMap_cons, List.map_append, List.sum_append, ih, List.map_cons, List.sum_cons]
          congr 1
          rw [List.map_map, ← List.sum_map_mul_left]
          congr 1
          apply List.map_congr_left
          intro j _
          simp only [Function.comp, refine2, if_true]; ring
      exact this r r
    · rw [if_neg hp]
      apply List.sum_eq_zero
      intro x hx
      simp only [List.mem_map, List.mem_flatMap] at hx
      obtain ⟨d, ⟨i, -, j, -, rfl⟩, rfl⟩ := hx
      simp [refine2, hp]
  unfold dofs
  simp only [List.flatMap_cons, List.flatMap_nil, List.append_nil, List.map_append, List.sum_append]
  have e : ∀ p, ((((List.range ((threeN 6).n0 p)).flatMap fun i => (List.range ((threeN 6).n1 p)).map fun j =>
      ((p, i, j) : Dof (Fin 3))).map fun d => f d * refine2 q d).sum : ℝ) = _ := key
  rw [e, e, e]
  generalize q.1 = p
  rcases p with ⟨p, hp⟩
  rcases (by omega : p = 0 ∨ p = 1 ∨ p = 2) with rfl | rfl | rfl <;> simp

noncomputable def threeF : Fine (Fin 3) (Dof (Fin 3)) := ⟨vert (threeN 10)⟩

/-- Three patches around an extraordinary vertex with biquadratic splines, uniformly refined, meet the hypotheses of C15 and C16. -/
theorem three_run : Run (threeN 6) threeI threeB threeV (dofs (threeN 6) [0, 1, 2]) threeF refine2
    [[(0, .sw), (1, .sw), (2, .sw)]] where
  setting := {
    ok := three6_ok
    lists := ⟨by decide +kernel, by decide +kernel, by decide +kernel, by decide +kernel⟩
    dofs_nodup := dofs_nodup _ (by decide)
    dofs_iff := dofs_iff _ _ (by decide) }
  bdry := by decide
  six := ⟨by decide, by decide⟩
  fine := {
    swap := fun c k l => vert_swap _ c k l
    inj := fun c c' k l k' l' h1 h2 h3 h4 h => vert_inj (threeN 10) 4 (by decide) (by decide) c c' k l k' l' h1 h2 h3 h4 h }
  transfer := {
    rows := by
      intro q
      have := sum_dofs q (fun _ => 1)
      simp only [one_mul, mul_one] at this
      rw [this]
      simp only [refine_sum, mul_one]
    near := by
      refine ⟨fun _ _ => refine, ?_, ?_, fun _ _ _ _ _ _ _ _ _ => rfl⟩
      · intro c s hs k l hk hl f
        rw [sum_dofs]
        obtain ⟨p, c⟩ := c
        simp only [Corner.sides, List.mem_cons, List.not_mem_nil, or_false] at hs
        have swap : ∀ (a b : ℕ) (g : ℕ → ℕ → ℝ),
            ((List.range a).map fun i => refine l i * ((List.range b).map fun j => refine k j * g i j).sum).sum =
            ((List.range b).map fun j => ((List.range a).map fun i => refine k j * refine l i * g i j).sum).sum := by
          intro a b g
          simp only [list_range_sum, Finset.mul_sum]
          rw [Finset.sum_comm]
          refine Finset.sum_congr rfl fun j _ => Finset.sum_congr rfl fun i _ => by ring
        have same : ∀ (a b : ℕ) (g : ℕ → ℕ → ℝ),
            ((List.range a).map fun i => refine k i * ((List.range b).map fun j => refine l j * g i j).sum).sum =
            ((List.range a).map fun i => ((List.range b).map fun j => refine k i * refine l j * g i j).sum).sum := by
          intro a b g
          simp only [list_range_sum, Finset.mul_sum]
          refine Finset.sum_congr rfl fun j _ => Finset.sum_congr rfl fun i _ => by ring
        rcases hs with rfl | rfl
        · have e : threeF.at' (p, c) c.uside k l = (p, fromEnd 10 c.pu l, fromEnd 10 c.pv k) := by
            cases c <;> rfl
          have e' : ∀ a b, vert (threeN 6) (p, c) c.uside a b = (p, fromEnd 6 c.pu b, fromEnd 6 c.pv a) := by
            intro a b; cases c <;> rfl
          simp only [e, e']
          rw [← swap (l + 1) (k + 1) (fun i j => f (p, fromEnd 6 c.pu i, fromEnd 6 c.pv j)), refine_near c.pu l hl]
          congr 1
          apply List.map_congr_left
          intro i _
          rw [refine_near c.pv k hk]
        · have e : threeF.at' (p, c) c.vside k l = (p, fromEnd 10 c.pu k, fromEnd 10 c.pv l) := by
            cases c <;> rfl
          have e' : ∀ a b, vert (threeN 6) (p, c) c.vside a b = (p, fromEnd 6 c.pu a, fromEnd 6 c.pv b) := by
            intro a b; cases c <;> rfl
          simp only [e, e']
          rw [← same (k + 1) (l + 1) (fun i j => f (p, fromEnd 6 c.pu i, fromEnd 6 c.pv j)), refine_near c.pu k hk]
          congr 1
          apply List.map_congr_left
          intro i _
          rw [refine_near c.pv l hl]
      · intro c s; exact ⟨rfl, rfl, rfl⟩ }
  ev := by
    intro L hL
    simp only [List.mem_cons, List.not_mem_nil, or_false] at hL
    subst hL
    exact ⟨⟨(0, .sw), rfl, rfl⟩, by decide⟩
  ev_disjoint := by simp

example : ∃ ms M', dpatch (threeN 6) threeI threeB threeV (dofs (threeN 6) [0, 1, 2]) (fun _ => true) threeF refine2 1 (2/5) 0
    [[(0, .sw), (1, .sw), (2, .sw)]] = some (ms, M') ∧
    ∀ q, ((freeOf ms (dofs (threeN 6) [0, 1, 2])).map fun r => M' r q).sum = 1 :=
  C15_partition_of_unity three_run _ 1 (Or.inr rfl) _ _
example := C15_local three_run (fun _ => true) 0 (Or.inl rfl) (2/5) 0
example := C16_tangent_plane three_run (fun _ => true) 0 (Or.inl rfl) (2/5) 0
  (dofs (threeN 6) [0, 1, 2])
example := C16_interface_midpoints three_run (fun _ => true) 0 (Or.inl rfl) (2/5) 0
  (dofs (threeN 6) [0, 1, 2])

/-! ## A patch meeting the vertex twice -/

/-- Four patches around a vertex which patch 0 meets with two opposite corners (valence five). -/
def pinch : Topo (Fin 4) where
  n0 := fun _ => 6
  n1 := fun _ => 6
  nb := fun s => match s with
    | (0, .west) => some (1, .south) | (1, .south) => some (0, .west)
    | (1, .west) => some (0, .east) | (0, .east) => some (1, .west)
    | (0, .north) => some (2, .south) | (2, .south) => some (0, .north)
    | (2, .west) => some (3, .south) | (3, .south) => some (2, .west)
    | (3, .west) => some (0, .south) | (0, .south) => some (3, .west)
    | _ => none
  flip := fun s => decide (s ∈ [((1 : Fin 4), Side.west), (0, .east), (0, .north), (2, .south)])
  cl := fun c => match c with
    | (1, .sw) | (0, .sw) | (0, .ne) | (2, .sw) | (3, .sw) => [(0, .sw), (1, .sw), (0, .ne), (2, .sw), (3, .sw)]
    | (0, .nw) | (1, .se) | (2, .se) => [(0, .nw), (1, .se), (2, .se)]
    | (0, .se) | (1, .nw) | (3, .nw) => [(0, .se), (1, .nw), (3, .nw)]
    | (2, .nw) | (3, .se) => [(2, .nw), (3, .se)]
    | c => [c]
  interior := fun c => decide (c ∈ [((1 : Fin 4), Corner.sw), (0, .sw), (0, .ne), (2, .sw), (3, .sw)])
  c0 := fun _ => false

theorem pinch_ok : Ok pinch where
  n0_ge := by decide
  n1_ge := by decide
  nb_symm := by decide +kernel
  flip_symm := by decide +kernel
  nb_len := by decide +kernel
  no_fold := by decide +kernel
  cl_self := by decide +kernel
  cl_nodup := by decide +kernel
  cl_same := by decide +kernel
  cl_cross := by decide +kernel
  cl_conn := by
    intro c d hd
    have h : ∀ c d, d ∈ pinch.cl c → d = c ∨ Step pinch c d ∨ ∃ p ∈ [(0 : Fin 4), 1, 2, 3], ∃ k ∈ Corner.all, Step pinch c (p, k) ∧ Step pinch (p, k) d := by
      unfold Step
      decide +kernel
    rcases h c d hd with rfl | h | ⟨p, -, k, -, h1, h2⟩
    · exact Relation.ReflTransGen.refl
    · exact Relation.ReflTransGen.single h
    · exact (Relation.ReflTransGen.single h1).tail h2
  interior_iff := by decide +kernel
  c0_same := by decide +kernel

/-- C15. That no patch meets an extraordinary vertex twice is needed: on `pinch` (which meets all other assumptions) the table
`patches`, keyed by the patch number, gives both corners of patch 0 the same slot, and the addresses of one slot are never written
(the code then reads the initial zeros). -/
theorem C15_repeated_patch_unset : Ok pinch ∧ pinch.interior (0, .sw) = true ∧
    ∀ {Q : Type} [DecidableEq Q] (ori : PS (Fin 4) → Bool) (F : Fine (Fin 4) Q) (Pi : ℕ → ℕ → ℝ) (st),
      evStep pinch ori F Pi (pinch.cl (0, .sw)) st = none := by
  refine ⟨pinch_ok, rfl, ?_⟩
  intro Q _ ori F Pi st
  have hw : evWalk pinch (pinch.cl (0, .sw)) = some [((0, .sw), .west), ((1, .sw), .west), ((0, .ne), .north), ((2, .sw), .west),
      ((3, .sw), .west)] := by decide +kernel
  set Wk : List (PC (Fin 4) × Side) := [((0, .sw), .west), ((1, .sw), .west), ((0, .ne), .north), ((2, .sw), .west),
      ((3, .sw), .west)] with hWk
  have step : ∀ x ∈ Wk, ∀ st, ∃ st', cijStep pinch ori F.at' Wk st x = some st' ∧ st'.1 2 = st.1 2 := by
    intro x hx st
    simp only [hWk, List.mem_cons, List.not_mem_nil, or_false] at hx
    rcases hx with rfl | rfl | rfl | rfl | rfl
    · unfold cijStep stored; cases ori (0, Side.west) <;> exact ⟨_, rfl, rfl⟩
    · unfold cijStep stored; cases ori (1, Side.west) <;> exact ⟨_, rfl, rfl⟩
    · unfold cijStep stored; cases ori (0, Side.north) <;> exact ⟨_, rfl, rfl⟩
    · unfold cijStep stored; cases ori (2, Side.west) <;> exact ⟨_, rfl, rfl⟩
    · unfold cijStep stored; cases ori (3, Side.west) <;> exact ⟨_, rfl, rfl⟩
  have fold : ∀ (l : List (PC (Fin 4) × Side)), (∀ x ∈ l, x ∈ Wk) → ∀ st, ∃ st', l.foldlM (cijStep pinch ori F.at' Wk) st = some st' ∧
      st'.1 2 = st.1 2 := by
    intro l
    induction l with
    | nil => intro _ st; exact ⟨st, rfl, rfl⟩
    | cons x l ih =>
      intro hl st
      obtain ⟨st1, h1, h2⟩ := step x (hl x List.mem_cons_self) st
      obtain ⟨st2, h3, h4⟩ := ih (fun y hy => hl y (List.mem_cons_of_mem _ hy)) st1
      exact ⟨st2, by rw [List.foldlM_cons, h1]; exact h3, h4.trans h2⟩
  have hc : ∀ a, cij pinch ori F.at' Wk = some a → readAll a 15 = none := by
    intro a ha
    have : a 2 = none := by
      unfold cij at ha
      obtain ⟨st', h1, h2⟩ := fold Wk (fun _ h => h) (fun _ => none, fun _ => none, fun _ => none)
      rw [h1] at ha
      simp only [Option.map_some, Option.some.injEq] at ha
      rw [← ha]
      simp only
      rw [if_pos (by decide), h2]
    rcases hr : readAll a 15 with _ | l
    · rfl
    · exfalso
      unfold readAll at hr
      simp [List.range_succ, this] at hr
  unfold evStep
  rw [hw]
  simp only [Option.bind_eq_bind, Option.bind_some]
  rcases h1 : cij pinch ori F.at' _ with _ | a
  · rfl
  · simp only [Option.bind_some]
    rcases h2 : cij pinch ori (vert pinch) _ with _ | b
    · rfl
    · simp only [Option.bind_some]
      have := hc a h1
      rw [show 3 * (pinch.cl (0, Corner.sw)).length = 15 from rfl, this]; rfl

end Verif.EV
