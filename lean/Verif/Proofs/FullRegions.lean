import Verif.Props.FullMap

/-!
# The calls of `gsMPBESMapTensor::_createMapper` in closed form (used for C70)
-/

set_option autoImplicit false
namespace Verif.FullMap
open Verif Verif.Walk Verif.Regions

/-- Near the special corners at the ends of a side functions are coupled continuously only; `t` is the index along the side. -/
def nearSpecial (P : Patch) (s : Side) (t : ℕ) : Prop :=
  match s with
  | .south => (P.sw ∧ t < P.swu) ∨ (P.se ∧ P.nu - 1 - t < P.seu)
  | .north => (P.nw ∧ t < P.nwu) ∨ (P.ne ∧ P.nu - 1 - t < P.neu)
  | .west => (P.sw ∧ t < P.swv) ∨ (P.nw ∧ P.nv - 1 - t < P.nwv)
  | .east => (P.se ∧ t < P.sev) ∨ (P.ne ∧ P.nv - 1 - t < P.nev)

instance (P : Patch) (s : Side) (t : ℕ) : Decidable (nearSpecial P s t) := by cases s <;> exact inferInstanceAs (Decidable (_ ∨ _))

/-- The number of rows of functions on each side of an interface that are coupled. -/
def rows (P : Patch) (s : Side) (t : ℕ) : ℕ := if nearSpecial P s t then 1 else P.du

/-- Functions of a patch within the smoothing degree of two interfaces that meet in a corner which is not special. -/
def inBlock (P : Patch) (s t : Side) (sp : Bool) (a b : ℕ) : Prop := P.iface s = true ∧ P.iface t = true ∧ sp = false ∧ a < P.du ∧ b < P.du

instance (P : Patch) (s t : Side) (sp : Bool) (a b : ℕ) : Decidable (inBlock P s t sp a b) := inferInstanceAs (Decidable (_ ∧ _))

private theorem corner_facts {hu hv sp : Bool} {d lu lv : ℕ} (h : CornerOk hu hv d d lu lv) (hr : sp → 0 < lu ∧ 0 < lv) :
    (sp = true → hu = true → d ≤ lv ∧ (hv = true ∨ lv = d)) ∧ (sp = true → hv = true → d ≤ lu ∧ (hu = true ∨ lu = d)) ∧ (sp = true → hu = false → hv = false → lu ≤ d ∧ lv ≤ d) ∧ (hu = true → hv = true → d ≤ lu ∧ d ≤ lv) := by
  cases hu <;> cases hv <;> cases sp <;> simp [CornerOk] at * <;> omega

set_option maxHeartbeats 4000000 in
/-- The calls in closed form: special corners, blocks between two interfaces, lines of functions next to interfaces, free functions. -/
theorem wantAll_closed (P : Patch) (h : Std P) (hd : P.du = P.dv) (hr : Reach P) (hd2 : P.du = 1 → ∀ s t a b, ¬ ((s = .south ∧ t = .west ∧ inBlock P s t P.sw a b) ∨ (s = .south ∧ t = .east ∧ inBlock P s t P.se a b) ∨
      (s = .north ∧ t = .west ∧ inBlock P s t P.nw a b) ∨ (s = .north ∧ t = .east ∧ inBlock P s t P.ne a b))) (h1 : P.swu + P.seu ≤ P.nu) (h2 : P.nwu + P.neu ≤ P.nu)
    (h3 : P.swv + P.nwv ≤ P.nv) (h4 : P.sev + P.nev ≤ P.nv) (i j : ℕ) (hi : i < P.nu) (hj : j < P.nv) :
    wantAll P i j = if specialAt P i j then .corner
      else if inBlock P .south .west P.sw j i then .block .south .west P.du P.du j i
      else if inBlock P .south .east P.se j (P.nu - 1 - i) then .block .south .east P.du P.du j (P.nu - 1 - i)
      else if inBlock P .north .west P.nw (P.nv - 1 - j) i then .block .north .west P.du P.du (P.nv - 1 - j) i
      else if inBlock P .north .east P.ne (P.nv - 1 - j) (P.nu - 1 - i) then .block .north .east P.du P.du (P.nv - 1 - j) (P.nu - 1 - i)
      else if P.iface .south ∧ j < rows P .south i then .line .south (rows P .south i) j
      else if P.iface .north ∧ P.nv - 1 - j < rows P .north i then .line .north (rows P .north i) (P.nv - 1 - j)
      else if P.iface .west ∧ i < rows P .west j then .line .west (rows P .west j) i
      else if P.iface .east ∧ P.nu - 1 - i < rows P .east j then .line .east (rows P .east j) (P.nu - 1 - i)
      else .free := by
  obtain ⟨⟨hp, -, hnu, hnv, osw, ose, onw, one⟩, -, -, -, -, -⟩ := h
  obtain ⟨r1, r2, r3, r4⟩ := hr
  rw [← hd] at osw ose onw one hnv
  have t1 := corner_facts osw r1
  have t2 := corner_facts ose r2
  have t3 := corner_facts onw r3
  have t4 := corner_facts one r4
  clear osw ose onw one
  unfold wantAll
  rw [← hd]
  obtain ⟨d, hdd⟩ : ∃ d, P.du = d := ⟨_, rfl⟩
  simp only [inBlock, hdd] at hd hd2 hp hnu hnv t1 t2 t3 t4 ⊢
  obtain ⟨b', eb⟩ : ∃ b', P.nu = i + b' + 1 := ⟨P.nu - 1 - i, by omega⟩
  obtain ⟨a', ea⟩ : ∃ a', P.nv = j + a' + 1 := ⟨P.nv - 1 - j, by omega⟩
  have e1 : P.nu - 1 - i = b' := by omega
  have e2 : P.nv - 1 - j = a' := by omega
  by_cases z1 : P.sw = true ∧ zone P.swu P.swv d d j i
  · rw [if_pos z1]
    obtain ⟨z, z1, z2, z3⟩ := z1
    have n1 : ¬ (P.iface .south = true ∧ P.iface .west = true ∧ P.sw = false ∧ j < d ∧ i < d) := fun h => by rw [z] at h; exact absurd h.2.2.1 (by simp)
    have n2 : ¬ (P.iface .south = true ∧ P.iface .east = true ∧ P.se = false ∧ j < d ∧ P.nu - 1 - i < d) := by
      rintro ⟨g1, g2, -, g3, g4⟩
      have := t2.2.2.2 g1 g2
      omega
    have n3 : ¬ (P.iface .north = true ∧ P.iface .west = true ∧ P.nw = false ∧ P.nv - 1 - j < d ∧ i < d) := by
      rintro ⟨g1, g2, -, g3, g4⟩
      have := t3.2.2.2 g1 g2
      omega
    have n4 : ¬ (P.iface .north = true ∧ P.iface .east = true ∧ P.ne = false ∧ P.nv - 1 - j < d ∧ P.nu - 1 - i < d) := by
      rintro ⟨g1, g2, -, g3, g4⟩
      have := t4.2.2.2 g1 g2
      omega
    rw [if_neg n1, if_neg n2, if_neg n3, if_neg n4]
    clear n1 n2 n3 n4
    simp only [specialAt, rows, nearSpecial, wantC0, e1, e2, hdd] at z1 z2 z3 ⊢
    cases w1 : P.iface .south <;> cases w2 : P.iface .west <;> simp only [w1, w2, z] at t1 t2 t3 ⊢ <;> grind (splits := 40)
  rw [if_neg z1]
  by_cases z2 : P.se = true ∧ zone P.seu P.sev d d j (P.nu - 1 - i)
  · clear z1
    rw [if_pos z2]
    obtain ⟨z, z1, z2, z3⟩ := z2
    have n1 : ¬ (P.iface .south = true ∧ P.iface .west = true ∧ P.sw = false ∧ j < d ∧ i < d) := by
      rintro ⟨g1, g2, -, g3, g4⟩
      have := t1.2.2.2 g1 g2
      omega
    have n2 : ¬ (P.iface .south = true ∧ P.iface .east = true ∧ P.se = false ∧ j < d ∧ P.nu - 1 - i < d) := fun h => by rw [z] at h; exact absurd h.2.2.1 (by simp)
    have n3 : ¬ (P.iface .north = true ∧ P.iface .west = true ∧ P.nw = false ∧ P.nv - 1 - j < d ∧ i < d) := by
      rintro ⟨g1, g2, -, g3, g4⟩
      have := t3.2.2.2 g1 g2
      omega
    have n4 : ¬ (P.iface .north = true ∧ P.iface .east = true ∧ P.ne = false ∧ P.nv - 1 - j < d ∧ P.nu - 1 - i < d) := by
      rintro ⟨g1, g2, -, g3, g4⟩
      have := t4.2.2.2 g1 g2
      omega
    rw [if_neg n1, if_neg n2, if_neg n3, if_neg n4]
    clear n1 n2 n3 n4
    simp only [specialAt, rows, nearSpecial, wantC0, e1, e2, hdd] at z1 z2 z3 ⊢
    cases w1 : P.iface .south <;> cases w2 : P.iface .east <;> simp only [w1, w2, z] at t1 t2 t4 ⊢ <;> grind (splits := 40)
  rw [if_neg z2]
  by_cases z3 : P.nw = true ∧ zone P.nwu P.nwv d d (P.nv - 1 - j) i
  · clear z1 z2
    rw [if_pos z3]
    obtain ⟨z, z1, z2, z3⟩ := z3
    have n1 : ¬ (P.iface .south = true ∧ P.iface .west = true ∧ P.sw = false ∧ j < d ∧ i < d) := by
      rintro ⟨g1, g2, -, g3, g4⟩
      have := t1.2.2.2 g1 g2
      omega
    have n2 : ¬ (P.iface .south = true ∧ P.iface .east = true ∧ P.se = false ∧ j < d ∧ P.nu - 1 - i < d) := by
      rintro ⟨g1, g2, -, g3, g4⟩
      have := t2.2.2.2 g1 g2
      omega
    have n3 : ¬ (P.iface .north = true ∧ P.iface .west = true ∧ P.nw = false ∧ P.nv - 1 - j < d ∧ i < d) := fun h => by rw [z] at h; exact absurd h.2.2.1 (by simp)
    have n4 : ¬ (P.iface .north = true ∧ P.iface .east = true ∧ P.ne = false ∧ P.nv - 1 - j < d ∧ P.nu - 1 - i < d) := by
      rintro ⟨g1, g2, -, g3, g4⟩
      have := t4.2.2.2 g1 g2
      omega
    rw [if_neg n1, if_neg n2, if_neg n3, if_neg n4]
    clear n1 n2 n3 n4
    simp only [specialAt, rows, nearSpecial, wantC0, e1, e2, hdd] at z1 z2 z3 ⊢
    cases w1 : P.iface .north <;> cases w2 : P.iface .west <;> simp only [w1, w2, z] at t1 t3 t4 ⊢ <;> grind (splits := 40)
  rw [if_neg z3]
  by_cases z4 : P.ne = true ∧ zone P.neu P.nev d d (P.nv - 1 - j) (P.nu - 1 - i)
  · clear z1 z2 z3
    rw [if_pos z4]
    obtain ⟨z, z1, z2, z3⟩ := z4
    have n1 : ¬ (P.iface .south = true ∧ P.iface .west = true ∧ P.sw = false ∧ j < d ∧ i < d) := by
      rintro ⟨g1, g2, -, g3, g4⟩
      have := t1.2.2.2 g1 g2
      omega
    have n2 : ¬ (P.iface .south = true ∧ P.iface .east = true ∧ P.se = false ∧ j < d ∧ P.nu - 1 - i < d) := by
      rintro ⟨g1, g2, -, g3, g4⟩
      have := t2.2.2.2 g1 g2
      omega
    have n3 : ¬ (P.iface .north = true ∧ P.iface .west = true ∧ P.nw = false ∧ P.nv - 1 - j < d ∧ i < d) := by
      rintro ⟨g1, g2, -, g3, g4⟩
      have := t3.2.2.2 g1 g2
      omega
    have n4 : ¬ (P.iface .north = true ∧ P.iface .east = true ∧ P.ne = false ∧ P.nv - 1 - j < d ∧ P.nu - 1 - i < d) := fun h => by rw [z] at h; exact absurd h.2.2.1 (by simp)
    rw [if_neg n1, if_neg n2, if_neg n3, if_neg n4]
    clear n1 n2 n3 n4
    simp only [specialAt, rows, nearSpecial, wantC0, e1, e2, hdd] at z1 z2 z3 ⊢
    cases w1 : P.iface .north <;> cases w2 : P.iface .east <;> simp only [w1, w2, z] at t2 t3 t4 ⊢ <;> grind (splits := 40)
  rw [if_neg z4]
  rw [e1] at z2
  rw [e2] at z3
  rw [e1, e2] at z4
  have hsp : ¬ specialAt P i j := by
    rintro (⟨a, b, c⟩ | ⟨a, b, c⟩ | ⟨a, b, c⟩ | ⟨a, b, c⟩)
    · exact z1 ⟨a, by have := (r1 a).2; omega, by have := (r1 a).1; omega, Or.inl (by omega)⟩
    · exact z2 ⟨a, by have := (r2 a).2; omega, by have := (r2 a).1; omega, Or.inl (by omega)⟩
    · exact z3 ⟨a, by have := (r3 a).2; omega, by have := (r3 a).1; omega, Or.inl (by omega)⟩
    · exact z4 ⟨a, by have := (r4 a).2; omega, by have := (r4 a).1; omega, Or.inl (by omega)⟩
  rw [if_neg hsp]
  have q1 : P.iface .south = true → j < d → rows P .south i = d := fun hs hj => by
    unfold rows
    rw [if_neg, hdd]
    rintro (⟨a, b⟩ | ⟨a, b⟩)
    · exact z1 ⟨a, by have := (t1.1 a hs).1; omega, b, Or.inl hj⟩
    · rw [e1] at b; exact z2 ⟨a, by have := (t2.1 a hs).1; omega, b, Or.inl hj⟩
  have q2 : P.iface .north = true → a' < d → rows P .north i = d := fun hs hj => by
    unfold rows
    rw [if_neg, hdd]
    rintro (⟨a, b⟩ | ⟨a, b⟩)
    · exact z3 ⟨a, by have := (t3.1 a hs).1; omega, b, Or.inl hj⟩
    · rw [e1] at b; exact z4 ⟨a, by have := (t4.1 a hs).1; omega, b, Or.inl hj⟩
  have q3 : P.iface .west = true → i < d → rows P .west j = d := fun hs hj => by
    unfold rows
    rw [if_neg, hdd]
    rintro (⟨a, b⟩ | ⟨a, b⟩)
    · exact z1 ⟨a, b, by have := (t1.2.1 a hs).1; omega, Or.inr hj⟩
    · rw [e2] at b; exact z3 ⟨a, b, by have := (t3.2.1 a hs).1; omega, Or.inr hj⟩
  have q4 : P.iface .east = true → b' < d → rows P .east j = d := fun hs hj => by
    unfold rows
    rw [if_neg, hdd]
    rintro (⟨a, b⟩ | ⟨a, b⟩)
    · exact z2 ⟨a, b, by have := (t2.2.1 a hs).1; omega, Or.inr hj⟩
    · rw [e2] at b; exact z4 ⟨a, b, by have := (t4.2.1 a hs).1; omega, Or.inr hj⟩
  have hle : ∀ s t, rows P s t ≤ d := fun s t => by unfold rows; split_ifs <;> omega
  have k1 : (P.iface .south = true ∧ j < rows P .south i) ↔ (P.iface .south = true ∧ j < d) :=
    ⟨fun h => ⟨h.1, by have := hle .south i; omega⟩, fun h => ⟨h.1, by rw [q1 h.1 h.2]; exact h.2⟩⟩
  have k2 : (P.iface .north = true ∧ a' < rows P .north i) ↔ (P.iface .north = true ∧ a' < d) :=
    ⟨fun h => ⟨h.1, by have := hle .north i; omega⟩, fun h => ⟨h.1, by rw [q2 h.1 h.2]; exact h.2⟩⟩
  have k3 : (P.iface .west = true ∧ i < rows P .west j) ↔ (P.iface .west = true ∧ i < d) :=
    ⟨fun h => ⟨h.1, by have := hle .west j; omega⟩, fun h => ⟨h.1, by rw [q3 h.1 h.2]; exact h.2⟩⟩
  have k4 : (P.iface .east = true ∧ b' < rows P .east j) ↔ (P.iface .east = true ∧ b' < d) :=
    ⟨fun h => ⟨h.1, by have := hle .east j; omega⟩, fun h => ⟨h.1, by rw [q4 h.1 h.2]; exact h.2⟩⟩
  have x1 : P.iface .south = true → j < d → P.iface .west = true → i < d → P.sw = false := fun a b c e => Bool.eq_false_iff.2 fun sp =>
    z1 ⟨sp, by have := t1.2.2.2 a c; omega, by have := t1.2.2.2 a c; omega, Or.inl b⟩
  have x2 : P.iface .south = true → j < d → P.iface .east = true → b' < d → P.se = false := fun a b c e => Bool.eq_false_iff.2 fun sp =>
    z2 ⟨sp, by have := t2.2.2.2 a c; omega, by have := t2.2.2.2 a c; omega, Or.inl b⟩
  have x3 : P.iface .north = true → a' < d → P.iface .west = true → i < d → P.nw = false := fun a b c e => Bool.eq_false_iff.2 fun sp =>
    z3 ⟨sp, by have := t3.2.2.2 a c; omega, by have := t3.2.2.2 a c; omega, Or.inl b⟩
  have x4 : P.iface .north = true → a' < d → P.iface .east = true → b' < d → P.ne = false := fun a b c e => Bool.eq_false_iff.2 fun sp =>
    z4 ⟨sp, by have := t4.2.2.2 a c; omega, by have := t4.2.2.2 a c; omega, Or.inl b⟩
  have m1 : (P.iface .south = true ∧ P.iface .west = true ∧ P.sw = false ∧ j < d ∧ i < d) ↔ (P.iface .south = true ∧ j < d) ∧ (P.iface .west = true ∧ i < d) :=
    ⟨fun ⟨a, b, _, c, e⟩ => ⟨⟨a, c⟩, b, e⟩, fun ⟨⟨a, c⟩, b, e⟩ => ⟨a, b, x1 a c b e, c, e⟩⟩
  have m2 : (P.iface .south = true ∧ P.iface .east = true ∧ P.se = false ∧ j < d ∧ b' < d) ↔ (P.iface .south = true ∧ j < d) ∧ (P.iface .east = true ∧ b' < d) :=
    ⟨fun ⟨a, b, _, c, e⟩ => ⟨⟨a, c⟩, b, e⟩, fun ⟨⟨a, c⟩, b, e⟩ => ⟨a, b, x2 a c b e, c, e⟩⟩
  have m3 : (P.iface .north = true ∧ P.iface .west = true ∧ P.nw = false ∧ a' < d ∧ i < d) ↔ (P.iface .north = true ∧ a' < d) ∧ (P.iface .west = true ∧ i < d) :=
    ⟨fun ⟨a, b, _, c, e⟩ => ⟨⟨a, c⟩, b, e⟩, fun ⟨⟨a, c⟩, b, e⟩ => ⟨a, b, x3 a c b e, c, e⟩⟩
  have m4 : (P.iface .north = true ∧ P.iface .east = true ∧ P.ne = false ∧ a' < d ∧ b' < d) ↔ (P.iface .north = true ∧ a' < d) ∧ (P.iface .east = true ∧ b' < d) :=
    ⟨fun ⟨a, b, _, c, e⟩ => ⟨⟨a, c⟩, b, e⟩, fun ⟨⟨a, c⟩, b, e⟩ => ⟨a, b, x4 a c b e, c, e⟩⟩
  simp only [e1, e2, k1, k2, k3, k4, m1, m2, m3, m4]
  have y1 : P.nv - d ≤ j ↔ a' < d := by omega
  have y2 : P.nu - d ≤ i ↔ b' < d := by omega
  unfold want nearU nearV
  rw [← hd, hdd]
  simp only [y1, y2, e1, e2]
  by_cases f1 : P.iface .south = true ∧ j < d
  · by_cases f3 : P.iface .west = true ∧ i < d
    · rw [if_pos f1, if_pos f3, if_pos (And.intro f1 f3)]
      exact if_neg fun h => hd2 (by omega) .south .west j i (Or.inl ⟨rfl, rfl, m1.2 ⟨f1, f3⟩⟩)
    · have n : ¬ ((P.iface .south = true ∧ j < d) ∧ (P.iface .west = true ∧ i < d)) := fun h => f3 h.2
      rw [if_pos f1, if_neg f3, if_neg n]
      by_cases f4 : P.iface .east = true ∧ b' < d
      · rw [if_pos f4, if_pos (And.intro f1 f4)]
        exact if_neg fun h => hd2 (by omega) .south .east j b' (Or.inr (Or.inl ⟨rfl, rfl, m2.2 ⟨f1, f4⟩⟩))
      · have n1 : ¬ ((P.iface .south = true ∧ j < d) ∧ (P.iface .east = true ∧ b' < d)) := fun h => f4 h.2
        have n2 : ¬ ((P.iface .north = true ∧ a' < d) ∧ (P.iface .west = true ∧ i < d)) := fun h => f3 h.2
        have n3 : ¬ ((P.iface .north = true ∧ a' < d) ∧ (P.iface .east = true ∧ b' < d)) := fun h => f4 h.2
        rw [if_neg f4, if_neg n1, if_neg n2, if_neg n3, if_pos f1, q1 f1.1 f1.2]
  · have n1 : ¬ ((P.iface .south = true ∧ j < d) ∧ (P.iface .west = true ∧ i < d)) := fun h => f1 h.1
    have n2 : ¬ ((P.iface .south = true ∧ j < d) ∧ (P.iface .east = true ∧ b' < d)) := fun h => f1 h.1
    rw [if_neg f1, if_neg n1, if_neg n2]
    by_cases f2 : P.iface .north = true ∧ a' < d
    · rw [if_pos f2]
      by_cases f3 : P.iface .west = true ∧ i < d
      · rw [if_pos f3, if_pos (And.intro f2 f3)]
        exact if_neg fun h => hd2 (by omega) .north .west a' i (Or.inr (Or.inr (Or.inl ⟨rfl, rfl, m3.2 ⟨f2, f3⟩⟩)))
      · have n3 : ¬ ((P.iface .north = true ∧ a' < d) ∧ (P.iface .west = true ∧ i < d)) := fun h => f3 h.2
        rw [if_neg f3, if_neg n3]
        by_cases f4 : P.iface .east = true ∧ b' < d
        · rw [if_pos f4, if_pos (And.intro f2 f4)]
          exact if_neg fun h => hd2 (by omega) .north .east a' b' (Or.inr (Or.inr (Or.inr ⟨rfl, rfl, m4.2 ⟨f2, f4⟩⟩)))
        · have n4 : ¬ ((P.iface .north = true ∧ a' < d) ∧ (P.iface .east = true ∧ b' < d)) := fun h => f4 h.2
          rw [if_neg f4, if_neg n4, if_neg f1, if_pos f2, q2 f2.1 f2.2]
    · have n3 : ¬ ((P.iface .north = true ∧ a' < d) ∧ (P.iface .west = true ∧ i < d)) := fun h => f2 h.1
      have n4 : ¬ ((P.iface .north = true ∧ a' < d) ∧ (P.iface .east = true ∧ b' < d)) := fun h => f2 h.1
      rw [if_neg f2, if_neg n3, if_neg n4, if_neg f1, if_neg f2]
      by_cases f3 : P.iface .west = true ∧ i < d
      · rw [if_pos f3, if_pos f3, q3 f3.1 f3.2]
      · rw [if_neg f3, if_neg f3]
        by_cases f4 : P.iface .east = true ∧ b' < d
        · rw [if_pos f4, if_pos f4, q4 f4.1 f4.2]
        · rw [if_neg f4, if_neg f4]
end Verif.FullMap
