import Verif.Float.Mean
import Verif.Float.NodeSum
import Verif.Float.TightBinding
import Mathlib.Tactic.FieldSimp

/-!
# Interaction parameters in double precision

C115, C121 and C124 are about exact arithmetic. Here the conversions between `U`, `J` and the radial integrals and the Kanamori matrices are computed with the rounding of the machine.

Source: `/repo/python/triqs/operators/util/U_matrix.py` (133-142, 196-231, 459-474, 495-506). The parameters are doubles. `none` means that a number is not finite, for the conversions also that an exception is thrown. Arrays are functions of the
indices.
-/

namespace Verif.InteractionDouble

open Binary64 LinearDouble MeanDouble
open TightBindingDouble (fin_neg)

/-! ## Model -/

/-- `0.63` and `0.630` -/
def c63 : ℚ := rnd (63 / 100)

/-- `1.0 + 0.63`, U_matrix.py:465, 500 -/
def two63 : ℚ := rnd (1 + c63)

/-- `286.0 + 195.0 * 451.0 / 675.0 + 250.0 * 1001.0 / 2025.0`, U_matrix.py:469, 503 -/
def den : ℚ := rnd (rnd (286 + rnd (rnd (195 * 451) / 675)) + rnd (rnd (250 * 1001) / 2025))

/-- `U_J_to_radial_integrals`, U_matrix.py:459-474 -/
def radial (l : ℕ) (U J : ℚ) : Option (List ℚ) :=
  if l = 1 then (fin (5 * J)).map fun a => [U, a]
  else if l = 2 then (fin (J * 14)).bind fun p => (fin (p / two63)).bind fun a => (fin (c63 * a)).map fun b => [U, a, b]
  else if l = 3 then (fin (6435 * J)).bind fun p => (fin (p / den)).bind fun a => (fin (451 * a)).bind fun q => (fin (q / 675)).bind fun b => (fin (1001 * a)).bind fun r => (fin (r / 2025)).map fun c => [U, a, b, c]
  else none

/-- `radial_integrals_to_U_J`, U_matrix.py:495-506 -/
def back (l : ℕ) : List ℚ → Option (ℚ × ℚ)
  | U :: a :: _ =>
    if l = 1 then (fin (a / 5)).map fun j => (U, j)
    else if l = 2 then (fin (a * two63)).bind fun p => (fin (p / 14)).map fun j => (U, j)
    else if l = 3 then (fin (a * den)).bind fun p => (fin (p / 6435)).map fun j => (U, j)
    else none
  | _ => none

/-- `Up_int`, U_matrix.py:200-201 -/
def upInt (U J : ℚ) (Up : Option ℚ) : Option ℚ :=
  match Up with
  | some u => some u
  | none => (fin (2 * J)).bind fun d => fin (U - d)

/-- the matrix for equal spins, U_matrix.py:208-216 -/
def kanU (U J : ℚ) (Up : Option ℚ) (m mp : ℕ) : Option ℚ :=
  if m = mp then some 0 else (upInt U J Up).bind fun u => fin (u - J)

/-- the matrix for opposite spins, U_matrix.py:209-216 -/
def kanUprime (U J : ℚ) (Up : Option ℚ) (m mp : ℕ) : Option ℚ :=
  if m = mp then some U else upInt U J Up

/-- the tensor, U_matrix.py:220-231 -/
def kanFull (U J : ℚ) (Up Jc : Option ℚ) (i j k l : ℕ) : Option ℚ :=
  if i = j ∧ j = k ∧ k = l then some U
  else if i = k ∧ j = l then upInt U J Up
  else if i = l ∧ j = k then some J
  else if i = j ∧ k = l then some (Jc.getD J)
  else some 0

/-- `reduce_4index_to_2index`, U_matrix.py:133-142, for real tensors -/
def reduceU (t : ℕ → ℕ → ℕ → ℕ → Option ℚ) (m mp : ℕ) : Option ℚ :=
  (t m mp m mp).bind fun a => (t m mp mp m).bind fun b => fin (a - b)

def reduceUprime (t : ℕ → ℕ → ℕ → ℕ → Option ℚ) (m mp : ℕ) : Option ℚ := t m mp m mp

/-! ## Specification -/

/-- the radial integrals without rounding -/
def exact (l : ℕ) (U J : ℚ) : List ℚ :=
  if l = 1 then [U, 5 * J]
  else if l = 2 then [U, 14 * J / (163 / 100), 63 / 100 * (14 * J / (163 / 100))]
  else [U, 6435 * J / (286 + 195 * 451 / 675 + 250 * 1001 / 2025), 451 / 675 * (6435 * J / (286 + 195 * 451 / 675 + 250 * 1001 / 2025)), 1001 / 2025 * (6435 * J / (286 + 195 * 451 / 675 + 250 * 1001 / 2025))]

/-- the coupling of an interaction with these radial integrals, by the average over orbitals (C124) -/
def coupling : List ℚ → ℚ
  | [_, a] => a / 5
  | [_, a, b] => (a + b) / 14
  | [_, a, b, c] => (286 * a + 195 * b + 250 * c) / 6435
  | _ => 0

/-- equal up to a relative error of 16 times 2^-53 -/
def Close (x y : ℚ) : Prop := |y - x| ≤ |x| * (16 / 9007199254740992)

/-! ## Proofs -/

/-- the range of a number -/
def In (k : ℕ) (x : ℚ) : Prop := 2 ^ (-900 - (k : ℤ)) ≤ x ∧ x ≤ 2 ^ (900 + (k : ℤ))

theorem In.pos {k : ℕ} {x : ℚ} (h : In k x) : 0 < x := (two_zpow_pos _).trans_le h.1

theorem In.op {k : ℕ} {x : ℚ} (h : In k x) (hk : k ≤ 100) : fin x = some (rnd x) ∧ Rel 1 x (rnd x) ∧ In k (rnd x) := by
  refine ⟨fin_of_le (e := 900 + (k : ℤ)) ?_ (by omega) (by omega), rel_rnd ((two_zpow_le (by omega)).trans h.1), le_rnd (rep_zpow (by omega)) h.1, rnd_le (rep_zpow (by omega)) h.2⟩
  rw [abs_of_pos h.pos]
  exact h.2

theorem In.mul {k : ℕ} {x c : ℚ} (h : In k x) (h1 : 1 / 8192 ≤ c) (h2 : c ≤ 8192) : In (k + 13) (x * c) := by
  have hx := h.pos
  constructor
  · rw [show (-900 - ((k + 13 : ℕ) : ℤ)) = (-900 - (k : ℤ)) + -13 by push_cast; ring, zpow_add₀ (by norm_num), show (2 : ℚ) ^ (-13 : ℤ) = 1 / 8192 by norm_num]
    exact mul_le_mul h.1 h1 (by norm_num) hx.le
  · rw [show (900 + ((k + 13 : ℕ) : ℤ)) = (900 + (k : ℤ)) + 13 by push_cast; ring, zpow_add₀ (by norm_num), show (2 : ℚ) ^ (13 : ℤ) = 8192 by norm_num]
    exact mul_le_mul h.2 h2 (le_trans (by norm_num) h1) (two_zpow_pos _).le

theorem mul_step {k i m : ℕ} {x t c0 c : ℚ} (h : In k x) (hk : k ≤ 80) (ht : 0 ≤ t) (hr : Rel i t x) (hc0 : 0 ≤ c0) (hc : Rel m c0 c) (c1 : 1 / 8192 ≤ c) (c2 : c ≤ 8192) :
    ∃ y, fin (x * c) = some y ∧ Rel (i + m + 1) (t * c0) y ∧ In (k + 13) y := by
  obtain ⟨o1, o2, o3⟩ := (h.mul c1 c2).op (by omega)
  exact ⟨_, o1, (hr.mul hc ht hc0).trans o2, o3⟩

theorem div_step {k i m : ℕ} {x t c0 c : ℚ} (h : In k x) (hk : k ≤ 80) (ht : 0 ≤ t) (hr : Rel i t x) (hc0 : 0 < c0) (hc : Rel m c0 c) (c1 : 1 / 8192 ≤ c) (c2 : c ≤ 8192) :
    ∃ y, fin (x / c) = some y ∧ Rel (i + m + 1) (t / c0) y ∧ In (k + 13) y := by
  have hcp : 0 < c := lt_of_lt_of_le (by norm_num) c1
  have hin := h.mul (c := 1 / c) (one_div_le_one_div_of_le hcp c2) (by
    rw [div_le_iff₀ hcp]
    linarith)
  rw [mul_one_div] at hin
  obtain ⟨o1, o2, o3⟩ := hin.op (by omega)
  exact ⟨_, o1, (hr.div hc ht hc0).trans o2, o3⟩

theorem c63_eq : c63 = 5674535530486825 / 9007199254740992 := by decide +kernel
theorem two63_eq : two63 = 1835216848153477 / 1125899906842624 := by decide +kernel
theorem den_eq : den = 2374369569168781 / 4398046511104 := by decide +kernel

theorem c63_rel : Rel 1 (63 / 100) c63 := by rw [c63_eq]; constructor <;> norm_num [c53]
theorem two63_rel : Rel 1 (163 / 100) two63 := by rw [two63_eq]; constructor <;> norm_num [c53]
theorem den_rel : Rel 1 (286 + 195 * 451 / 675 + 250 * 1001 / 2025) den := by rw [den_eq]; constructor <;> norm_num [c53]

theorem Rel.up {j k : ℕ} {x y : ℚ} (h : Rel j x y) (hjk : j ≤ k) (hx : 0 ≤ x) : Rel k x y := by
  have hy := h.nonneg hx
  have hp : c53 ^ k ≤ c53 ^ j := pow_le_pow_of_le_one c53_pos.le c53_le hjk
  exact ⟨(mul_le_mul_of_nonneg_left hp hx).trans h.1, (mul_le_mul_of_nonneg_left hp hy).trans h.2⟩

theorem Close.of_rel {k : ℕ} {x y : ℚ} (h : Rel k x y) (hk : k ≤ 8) (hx : 0 ≤ x) : Close x y := by
  have h1 := (Rel.up h hk hx).err (by norm_num) hx
  unfold Close
  rw [abs_of_nonneg hx]
  norm_num at h1 ⊢
  exact h1

theorem Close.refl (x : ℚ) : Close x x := by
  unfold Close
  rw [sub_self, abs_zero]
  positivity

theorem back_eq (l : ℕ) (U a : ℚ) (r : List ℚ) : back l (U :: a :: r) = if l = 1 then (fin (a / 5)).map fun j => (U, j)
    else if l = 2 then (fin (a * two63)).bind fun p => (fin (p / 14)).map fun j => (U, j)
    else if l = 3 then (fin (a * den)).bind fun p => (fin (p / 6435)).map fun j => (U, j)
    else none := rfl

theorem one_step {J : ℚ} (h : In 0 J) : ∃ a, fin (5 * J) = some a ∧ Rel 1 (5 * J) a ∧ ∃ j, fin (a / 5) = some j ∧ Rel 2 J j := by
  obtain ⟨a, e1, r1, i1⟩ := mul_step (c0 := 5) (c := 5) h (by norm_num) h.pos.le (Rel.refl J) (by norm_num) (Rel.refl 5) (by norm_num) (by norm_num)
  obtain ⟨j, e2, r2, -⟩ := div_step (c0 := 5) (c := 5) i1 (by norm_num) (by have := h.pos; positivity) r1 (by norm_num) (Rel.refl 5) (by norm_num) (by norm_num)
  rw [mul_comm] at e1 r1
  rw [mul_div_assoc, div_self (by norm_num), mul_one] at r2
  exact ⟨a, e1, r1, j, e2, r2⟩

theorem two_step {J : ℚ} (h : In 0 J) : ∃ p a b, fin (J * 14) = some p ∧ fin (p / two63) = some a ∧ fin (c63 * a) = some b ∧ Rel 3 (14 * J / (163 / 100)) a ∧ Rel 5 (63 / 100 * (14 * J / (163 / 100))) b ∧
    ∃ q j, fin (a * two63) = some q ∧ fin (q / 14) = some j ∧ Rel 4 J j := by
  have hJ := h.pos
  have hs : (1 : ℚ) / 8192 ≤ two63 ∧ two63 ≤ 8192 := by rw [two63_eq]; constructor <;> norm_num
  have hs0 : 0 < two63 := lt_of_lt_of_le (by norm_num) hs.1
  have hc : (1 : ℚ) / 8192 ≤ c63 ∧ c63 ≤ 8192 := by rw [c63_eq]; constructor <;> norm_num
  obtain ⟨p, e1, r1, i1⟩ := mul_step (c0 := 14) (c := 14) h (by norm_num) hJ.le (Rel.refl J) (by norm_num) (Rel.refl 14) (by norm_num) (by norm_num)
  obtain ⟨a, e2, r2, i2⟩ := div_step i1 (by norm_num) (by positivity) r1 (by norm_num) two63_rel hs.1 hs.2
  obtain ⟨a', e2', r2', -⟩ := div_step i1 (by norm_num) (by positivity) r1 hs0 (Rel.refl two63) hs.1 hs.2
  obtain rfl : a = a' := Option.some.inj (e2.symm.trans e2')
  obtain ⟨b, e3, r3, -⟩ := mul_step i2 (by norm_num) (by positivity) r2 (by norm_num) c63_rel hc.1 hc.2
  obtain ⟨q, e4, r4, i4⟩ := mul_step i2 (by norm_num) (by positivity) r2' hs0.le (Rel.refl two63) hs.1 hs.2
  obtain ⟨j, e5, r5, -⟩ := div_step (c0 := 14) (c := 14) i4 (by norm_num) (by positivity) r4 (by norm_num) (Rel.refl 14) (by norm_num) (by norm_num)
  rw [mul_comm a] at e3
  rw [mul_comm J] at r2 r3
  rw [mul_comm _ (63 / 100 : ℚ)] at r3
  rw [div_mul_cancel₀ _ hs0.ne', mul_div_assoc, div_self (by norm_num), mul_one] at r5
  exact ⟨p, a, b, e1, e2, e3, r2, r3, q, j, e4, e5, r5⟩

theorem three_step {J : ℚ} (h : In 0 J) : ∃ p a q b r c, fin (6435 * J) = some p ∧ fin (p / den) = some a ∧ fin (451 * a) = some q ∧ fin (q / 675) = some b ∧ fin (1001 * a) = some r ∧ fin (r / 2025) = some c ∧
    Rel 3 (6435 * J / (286 + 195 * 451 / 675 + 250 * 1001 / 2025)) a ∧ Rel 5 (451 / 675 * (6435 * J / (286 + 195 * 451 / 675 + 250 * 1001 / 2025))) b ∧
    Rel 5 (1001 / 2025 * (6435 * J / (286 + 195 * 451 / 675 + 250 * 1001 / 2025))) c ∧
    ∃ z j, fin (a * den) = some z ∧ fin (z / 6435) = some j ∧ Rel 4 J j := by
  have hJ := h.pos
  have hs : (1 : ℚ) / 8192 ≤ den ∧ den ≤ 8192 := by rw [den_eq]; constructor <;> norm_num
  have hs0 : 0 < den := lt_of_lt_of_le (by norm_num) hs.1
  have hd0 : (0 : ℚ) < 286 + 195 * 451 / 675 + 250 * 1001 / 2025 := by norm_num
  obtain ⟨p, e1, r1, i1⟩ := mul_step (c0 := 6435) (c := 6435) h (by norm_num) hJ.le (Rel.refl J) (by norm_num) (Rel.refl 6435) (by norm_num) (by norm_num)
  obtain ⟨a, e2, r2, i2⟩ := div_step i1 (by norm_num) (by positivity) r1 hd0 den_rel hs.1 hs.2
  obtain ⟨a', e2', r2', -⟩ := div_step i1 (by norm_num) (by positivity) r1 hs0 (Rel.refl den) hs.1 hs.2
  obtain rfl : a = a' := Option.some.inj (e2.symm.trans e2')
  obtain ⟨q, e3, r3, i3⟩ := mul_step (c0 := 451) (c := 451) i2 (by norm_num) (by positivity) r2 (by norm_num) (Rel.refl 451) (by norm_num) (by norm_num)
  obtain ⟨b, e4, r4, -⟩ := div_step (c0 := 675) (c := 675) i3 (by norm_num) (by positivity) r3 (by norm_num) (Rel.refl 675) (by norm_num) (by norm_num)
  obtain ⟨r, e5, r5, i5⟩ := mul_step (c0 := 1001) (c := 1001) i2 (by norm_num) (by positivity) r2 (by norm_num) (Rel.refl 1001) (by norm_num) (by norm_num)
  obtain ⟨c, e6, r6, -⟩ := div_step (c0 := 2025) (c := 2025) i5 (by norm_num) (by positivity) r5 (by norm_num) (Rel.refl 2025) (by norm_num) (by norm_num)
  obtain ⟨z, e7, r7, i7⟩ := mul_step i2 (by norm_num) (by positivity) r2' hs0.le (Rel.refl den) hs.1 hs.2
  obtain ⟨j, e8, r8, -⟩ := div_step (c0 := 6435) (c := 6435) i7 (by norm_num) (by positivity) r7 (by norm_num) (Rel.refl 6435) (by norm_num) (by norm_num)
  rw [mul_comm J] at e1 r2 r4 r6
  rw [mul_comm a] at e3 e5
  rw [div_mul_cancel₀ _ hs0.ne', mul_div_assoc, div_self (by norm_num), mul_one] at r8
  generalize 6435 * J / (286 + 195 * 451 / 675 + 250 * 1001 / 2025) = X at *
  rw [mul_div_assoc, mul_comm X] at r4 r6
  exact ⟨p, a, q, b, r, c, e1, e2, e3, e4, e5, e6, r2, r4, r6, z, j, e7, e8, r8⟩

/-- C205. For p, d and f shells the radial integrals are those of exact arithmetic up to a relative error of 16 times 2^-53. So is the Hund's coupling of the interaction they define, and the one computed back from them; `U` comes back as it was. -/
theorem C205_radial (l : ℕ) (hl : l = 1 ∨ l = 2 ∨ l = 3) (U J : ℚ) (h1 : 2 ^ (-900 : ℤ) ≤ J) (h2 : J ≤ 2 ^ (900 : ℤ)) :
    ∃ F, radial l U J = some F ∧ List.Forall₂ Close (exact l U J) F ∧ F.head? = some U ∧ F.length = l + 1 ∧ Close J (coupling F) ∧ ∃ j, back l F = some (U, j) ∧ Close J j := by
  have h : In 0 J := ⟨by simpa using h1, by simpa using h2⟩
  have hJ := h.pos
  rcases hl with rfl | rfl | rfl
  · obtain ⟨a, e1, r1, j, e2, r2⟩ := one_step h
    refine ⟨[U, a], ?_, ?_, rfl, rfl, ?_, j, ?_, .of_rel r2 (by norm_num) hJ.le⟩
    · unfold radial
      rw [if_pos rfl, e1]
      rfl
    · exact .cons (.refl U) (.cons (.of_rel r1 (by norm_num) (by positivity)) .nil)
    · have := r1.div (Rel.refl 5) (by positivity) (by norm_num)
      rw [mul_comm, mul_div_assoc, div_self (by norm_num), mul_one] at this
      exact .of_rel this (by norm_num) hJ.le
    · rw [back_eq, if_pos rfl, e2]
      rfl
  · obtain ⟨p, a, b, e1, e2, e3, r2, r3, q, j, e4, e5, r5⟩ := two_step h
    refine ⟨[U, a, b], ?_, ?_, rfl, rfl, ?_, j, ?_, .of_rel r5 (by norm_num) hJ.le⟩
    · unfold radial
      rw [if_neg (by norm_num), if_pos rfl, e1, Option.bind_some, e2, Option.bind_some, e3]
      rfl
    · exact .cons (.refl U) (.cons (.of_rel r2 (by norm_num) (by positivity)) (.cons (.of_rel r3 (by norm_num) (by positivity)) .nil))
    · have hs := (rel_add2 r3 r2 (by norm_num) (by positivity)).div (Rel.refl 14) (by positivity) (by norm_num)
      have e : (63 / 100 * (14 * J / (163 / 100)) + 14 * J / (163 / 100)) / 14 = J := by ring
      rw [e, add_comm b a] at hs
      exact .of_rel hs (by norm_num) hJ.le
    · rw [back_eq, if_neg (by norm_num), if_pos rfl, e4, Option.bind_some, e5]
      rfl
  · obtain ⟨p, a, q, b, r, c, e1, e2, e3, e4, e5, e6, r2, r4, r6, z, j, e7, e8, r8⟩ := three_step h
    refine ⟨[U, a, b, c], ?_, ?_, rfl, rfl, ?_, j, ?_, .of_rel r8 (by norm_num) hJ.le⟩
    · unfold radial
      rw [if_neg (by norm_num), if_neg (by norm_num), if_pos rfl, e1, Option.bind_some, e2, Option.bind_some, e3, Option.bind_some, e4, Option.bind_some, e5, Option.bind_some, e6]
      rfl
    · exact .cons (.refl U) (.cons (.of_rel r2 (by norm_num) (by positivity)) (.cons (.of_rel r4 (by norm_num) (by positivity)) (.cons (.of_rel r6 (by norm_num) (by positivity)) .nil)))
    · have e : (250 * (1001 / 2025 * (6435 * J / (286 + 195 * 451 / 675 + 250 * 1001 / 2025))) + 195 * (451 / 675 * (6435 * J / (286 + 195 * 451 / 675 + 250 * 1001 / 2025))) + 286 * (6435 * J / (286 + 195 * 451 / 675 + 250 * 1001 / 2025))) / 6435 = J := by
        ring
      have hX : 0 ≤ 6435 * J / (286 + 195 * 451 / 675 + 250 * 1001 / 2025) := by positivity
      generalize 6435 * J / (286 + 195 * 451 / 675 + 250 * 1001 / 2025) = X at *
      have hc := (Rel.refl 250).mul r6 (by norm_num) (by positivity)
      have hb := (Rel.refl 195).mul r4 (by norm_num) (by positivity)
      have ha := (Rel.refl 286).mul r2 (by norm_num) hX
      have hs := (rel_add2 (rel_add2 hc hb (by norm_num) (by positivity)) ha (by norm_num) (by positivity)).div (Rel.refl 6435) (by positivity) (by norm_num)
      rw [e, show 250 * c + 195 * b + 286 * a = 286 * a + 195 * b + 250 * c by ring] at hs
      exact .of_rel hs (by norm_num) hJ.le
    · rw [back_eq, if_neg (by norm_num), if_neg (by norm_num), if_pos rfl, e7, Option.bind_some, e8]
      rfl

/-- C205. Other shells are refused by both functions. -/
theorem C205_refused (l : ℕ) (hl : l = 0 ∨ 4 ≤ l) (U J : ℚ) (F : List ℚ) : radial l U J = none ∧ back l F = none := by
  have h1 : l ≠ 1 := by omega
  have h2 : l ≠ 2 := by omega
  have h3 : l ≠ 3 := by omega
  constructor
  · unfold radial
    rw [if_neg h1, if_neg h2, if_neg h3]
  · unfold back
    split
    · rw [if_neg h1, if_neg h2, if_neg h3]
    · rfl

/-- C205. The two matrices of `U_matrix_kanamori` are those that `reduce_4index_to_2index` makes of its tensor, bit by bit and for all parameters. -/
theorem C205_kanamori (U J : ℚ) (Up Jc : Option ℚ) (m mp : ℕ) :
    reduceU (kanFull U J Up Jc) m mp = kanU U J Up m mp ∧ reduceUprime (kanFull U J Up Jc) m mp = kanUprime U J Up m mp := by
  unfold reduceU reduceUprime kanU kanUprime
  by_cases h : m = mp
  · subst h
    have h1 : kanFull U J Up Jc m m m m = some U := by simp [kanFull]
    rw [h1, if_pos rfl, if_pos rfl]
    refine ⟨?_, rfl⟩
    rw [Option.bind_some, Option.bind_some, sub_self]
    have := fin_of_le (x := 0) (e := 0) (by rw [abs_zero]; exact (two_zpow_pos _).le) (by norm_num) (by norm_num)
    rwa [rnd_rep rep_zero] at this
  · have h1 : kanFull U J Up Jc m mp m mp = upInt U J Up := by
      unfold kanFull
      rw [if_neg (fun e => h e.1), if_pos ⟨rfl, rfl⟩]
    have h2 : kanFull U J Up Jc m mp mp m = some J := by
      unfold kanFull
      rw [if_neg (fun e => h e.1), if_neg (fun e => h e.1), if_pos ⟨rfl, rfl⟩]
    rw [h1, h2, if_neg h, if_neg h]
    exact ⟨rfl, rfl⟩

theorem sub_err {x y : ℚ} (hx : Rep x) (hy : Rep y) : |rnd (x - y) - (x - y)| ≤ |x - y| * (1 / 9007199254740992) := by
  have := NodeSum.add_err hx (rep_neg hy)
  rwa [← sub_eq_add_neg] at this

/-- C205. Without a value of `Up_int` the interaction of different orbitals is that of exact arithmetic up to a relative error of 2^-53. The interaction of equal spins is the difference of that number and `J`, with the same relative error. -/
theorem C205_differences (U J : ℚ) (hU : Rep U) (hJ : Rep J) (bU : |U| ≤ 2 ^ (900 : ℤ)) (bJ : |J| ≤ 2 ^ (900 : ℤ)) :
    ∃ u v, (∀ m mp, m ≠ mp → kanUprime U J none m mp = some u ∧ kanU U J none m mp = some v) ∧ |u - (U - 2 * J)| ≤ |U - 2 * J| * (1 / 9007199254740992) ∧
      |v - (u - J)| ≤ |u - J| * (1 / 9007199254740992) := by
  have h901 : ∀ {x y : ℚ} {e : ℤ}, |x| ≤ 2 ^ e → |y| ≤ 2 ^ e → |x - y| ≤ 2 ^ (e + 1) := by
    intro x y e h1 h2
    rw [zpow_add₀ (by norm_num), zpow_one]
    refine (abs_sub x y).trans ?_
    linarith
  have h2J : Rep (2 * J) := by
    obtain ⟨n, e, he, hn, rfl⟩ := hJ
    refine ⟨n, e + 1, by omega, hn, ?_⟩
    rw [zpow_add₀ (by norm_num), zpow_one]
    ring
  have b2 : |2 * J| ≤ 2 ^ (901 : ℤ) := by
    have := h901 bJ (y := -J) (by rwa [abs_neg])
    rwa [sub_neg_eq_add, ← two_mul] at this
  have bU1 : |U| ≤ 2 ^ (901 : ℤ) := bU.trans (two_zpow_le (by norm_num))
  have f1 : fin (2 * J) = some (2 * J) := by
    have := fin_of_le b2 (by norm_num) (by norm_num)
    rwa [rnd_rep h2J] at this
  have bd : |U - 2 * J| ≤ 2 ^ (902 : ℤ) := (h901 bU1 b2).trans (two_zpow_le (by norm_num))
  have f2 := fin_of_le bd (by norm_num) (by norm_num)
  have bu : |rnd (U - 2 * J)| ≤ 2 ^ (902 : ℤ) := by
    rw [abs_le] at bd ⊢
    exact ⟨le_rnd (rep_neg (rep_zpow (by norm_num))) bd.1, rnd_le (rep_zpow (by norm_num)) bd.2⟩
  have bJ2 : |J| ≤ 2 ^ (902 : ℤ) := bJ.trans (two_zpow_le (by norm_num))
  have f3 := fin_of_le (h901 bu bJ2) (by norm_num) (by norm_num)
  have hup : upInt U J none = some (rnd (U - 2 * J)) := by
    show (fin (2 * J)).bind (fun d => fin (U - d)) = _
    rw [f1, Option.bind_some, f2]
  refine ⟨_, _, fun m mp h => ⟨?_, ?_⟩, sub_err hU h2J, sub_err (rep_rnd _) hJ⟩
  · unfold kanUprime
    rw [if_neg h, hup]
  · unfold kanU
    rw [if_neg h, hup, Option.bind_some, f3]

/-- C205. The tensor is symmetric under the exchange of the particles. By default it is also symmetric under the exchange of the two indices of one particle. -/
theorem C205_symmetric (U J : ℚ) (Up Jc : Option ℚ) (i j k l : ℕ) : kanFull U J Up Jc i j k l = kanFull U J Up Jc j i l k ∧ kanFull U J Up Jc i j k l = kanFull U J Up Jc k l i j ∧
    kanFull U J Up none i j k l = kanFull U J Up none k j i l := by
  unfold kanFull
  refine ⟨?_, ?_, ?_⟩ <;> split_ifs <;> first | rfl | (exfalso; omega)

/-- C205. A negative coupling gives the opposite integrals. -/
theorem C205_odd (l : ℕ) (U J : ℚ) : radial l U (-J) = (radial l U J).map fun F => U :: F.tail.map fun x => -x := by
  unfold radial
  split_ifs
  · rw [mul_neg, fin_neg]
    generalize fin (5 * J) = o
    cases o <;> rfl
  · rw [neg_mul, fin_neg]
    generalize fin (J * 14) = o
    cases o with
    | none => rfl
    | some p =>
      simp only [Option.map_some, Option.bind_some]
      rw [neg_div, fin_neg]
      generalize fin (p / two63) = o
      cases o with
      | none => rfl
      | some a =>
        simp only [Option.map_some, Option.bind_some]
        rw [mul_neg, fin_neg]
        generalize fin (c63 * a) = o
        cases o <;> rfl
  · rw [mul_neg, fin_neg]
    generalize fin (6435 * J) = o
    cases o with
    | none => rfl
    | some p =>
      simp only [Option.map_some, Option.bind_some]
      rw [neg_div, fin_neg]
      generalize fin (p / den) = o
      cases o with
      | none => rfl
      | some a =>
        simp only [Option.map_some, Option.bind_some]
        rw [mul_neg, mul_neg, fin_neg, fin_neg (1001 * a)]
        generalize fin (451 * a) = o
        cases o with
        | none => rfl
        | some q =>
          simp only [Option.map_some, Option.bind_some]
          rw [neg_div, fin_neg]
          generalize fin (q / 675) = o
          cases o with
          | none => rfl
          | some b =>
            simp only [Option.map_some, Option.bind_some]
            generalize fin (1001 * a) = o
            cases o with
            | none => rfl
            | some r =>
              simp only [Option.map_some, Option.bind_some]
              rw [neg_div, fin_neg]
              generalize fin (r / 2025) = o
              cases o <;> rfl
  · rfl

/-- C205. Opposite integrals give the opposite coupling. -/
theorem C205_back_odd (l : ℕ) (U a : ℚ) (r r' : List ℚ) : back l (U :: -a :: r) = (back l (U :: a :: r')).map fun p => (p.1, -p.2) := by
  rw [back_eq, back_eq]
  split_ifs
  · rw [neg_div, fin_neg]
    generalize fin (a / 5) = o
    cases o <;> rfl
  · rw [neg_mul, fin_neg]
    generalize fin (a * two63) = o
    cases o with
    | none => rfl
    | some p =>
      simp only [Option.map_some, Option.bind_some]
      rw [neg_div, fin_neg]
      generalize fin (p / 14) = o
      cases o <;> rfl
  · rw [neg_mul, fin_neg]
    generalize fin (a * den) = o
    cases o with
    | none => rfl
    | some p =>
      simp only [Option.map_some, Option.bind_some]
      rw [neg_div, fin_neg]
      generalize fin (p / 6435) = o
      cases o <;> rfl
  · rfl

/-- C205. The coupling need not come back bit by bit: 0.11 for a p shell, 0.13 for a d shell, 0.01 for an f shell. -/
theorem C205_witness : (radial 1 1 (rnd (11 / 100))).bind (back 1) = some (1, rnd (11 / 100) + 1 / 72057594037927936) ∧
    (radial 2 1 (rnd (13 / 100))).bind (back 2) = some (1, rnd (13 / 100) + 1 / 36028797018963968) ∧
    (radial 3 1 (rnd (1 / 100))).bind (back 3) = some (1, rnd (1 / 100) - 1 / 576460752303423488) := by
  decide +kernel

/-! ### Examples -/

/-- `U = 4` and `J = 1` for a p shell -/
example : radial 1 4 1 = some [4, 5] ∧ back 1 [4, 5] = some (4, 1) := by decide +kernel

/-- a coupling of 0.7 in a d shell -/
example : ∃ F, radial 2 4 (7 / 10) = some F ∧ |coupling F - 7 / 10| ≤ 7 / 10 * (16 / 9007199254740992) := by
  obtain ⟨F, h, -, -, -, hc, -⟩ := C205_radial 2 (Or.inr (Or.inl rfl)) 4 (7 / 10)
    ((two_zpow_le (by norm_num : (-900 : ℤ) ≤ -1)).trans (by norm_num)) (le_trans (by norm_num : (7 / 10 : ℚ) ≤ 2 ^ (0 : ℤ)) (two_zpow_le (by norm_num)))
  refine ⟨F, h, ?_⟩
  unfold Close at hc
  rwa [abs_of_pos (by norm_num : (0 : ℚ) < 7 / 10)] at hc

example : radial 4 4 1 = none := (C205_refused 4 (Or.inr (le_refl 4)) 4 1 []).1

/-- `U = 4`, `J = 0.7`: the interaction of different orbitals is the double nearest to 2.6, that of equal spins is the one next to the double nearest to 1.9 -/
example : kanUprime 4 (rnd (7 / 10)) none 0 1 = some (rnd (26 / 10)) ∧ kanU 4 (rnd (7 / 10)) none 0 1 = some (rnd (19 / 10) + 1 / 4503599627370496) := by decide +kernel

example : reduceU (kanFull 4 1 none (some 3)) 0 1 = some 1 := (C205_kanamori 4 1 none (some 3) 0 1).1.trans (by decide +kernel)

/-- `Jc_hund` breaks the symmetry under the exchange of two indices -/
example : kanFull 4 1 none (some 3) 0 0 1 1 = some 3 ∧ kanFull 4 1 none (some 3) 1 0 0 1 = some 1 := by decide +kernel

example : radial 1 4 (-1) = some [4, -5] := (C205_odd 1 4 1).trans (by decide +kernel)

end Verif.InteractionDouble
