import Mathlib.Analysis.SpecialFunctions.Pow.Real
import Mathlib.Data.Nat.Factorial.Basic
import Mathlib.Algebra.BigOperators.Intervals
import Mathlib.Tactic.LinearCombination
import Mathlib.Tactic.FieldSimp
import Mathlib.Tactic.Positivity
import Mathlib.Data.Nat.Choose.Cast
import Mathlib.Order.Interval.Finset.Basic
import Mathlib.Data.Int.Interval
import Mathlib.Algebra.Order.Interval.Finset.Basic

/-!
# Property C122: three-j symbols and Clebsch-Gordan coefficients

Source: `/repo/python/triqs/operators/util/U_matrix.py:550-628`.

Simplifications: exact real arithmetic; quantum numbers are integers as documented (integer momenta).
-/

namespace Verif.ThreeJ
open Finset

/-! ## Model -/

/-- `fact`, i.e. `scipy.special.factorial` (U_matrix.py:24), of a nonnegative integer. SciPy returns 0 for negative arguments, where this
model returns 1; `C122_defined` shows that the code never asks for one. -/
noncomputable def fact (n : ℤ) : ℝ := (n.toNat.factorial : ℝ)

/-- `-1.0 if n % 2 else 1.0` -/
noncomputable def sign (n : ℤ) : ℝ := if n % 2 ≠ 0 then -1 else 1

/-- the test for a vanishing symbol, U_matrix.py:579-585. -/
def vanishes (j1 m1 j2 m2 j3 m3 : ℤ) : Prop :=
  m1 + m2 + m3 ≠ 0 ∨ m1 < -j1 ∨ m1 > j1 ∨ m2 < -j2 ∨ m2 > j2 ∨ m3 < -j3 ∨ m3 > j3 ∨ j3 > j1 + j2 ∨ j3 < |j1 - j2|

instance (j1 m1 j2 m2 j3 m3 : ℤ) : Decidable (vanishes j1 m1 j2 m2 j3 m3) := by unfold vanishes; infer_instance

/-- `t_min`, U_matrix.py:591. -/
def tMin (j1 m1 j2 m2 j3 : ℤ) : ℤ := max (max (j2 - j3 - m1) (j1 - j3 + m2)) 0

/-- `t_max`, U_matrix.py:592. -/
def tMax (j1 m1 j2 m2 j3 : ℤ) : ℤ := min (min (j1 - m1) (j2 + m2)) (j1 + j2 - j3)

/-- `range(a, b)` of Python -/
def pyRange (a b : ℤ) : List ℤ := (List.range (b - a).toNat).map fun k : ℕ => a + (k : ℤ)

/-- the term of the sum, U_matrix.py:596. -/
noncomputable def tTerm (j1 m1 j2 m2 j3 t : ℤ) : ℝ :=
  sign t / (fact t * fact (j3 - j2 + m1 + t) * fact (j3 - j1 - m2 + t) * fact (j1 + j2 - j3 - t) * fact (j1 - m1 - t) * fact (j2 + m2 - t))

/-- `three_j_symbol((j1, m1), (j2, m2), (j3, m3))`, U_matrix.py:575-599. -/
noncomputable def threeJ (j1 m1 j2 m2 j3 m3 : ℤ) : ℝ :=
  if vanishes j1 m1 j2 m2 j3 m3 then 0
  else sign (j1 - j2 - m3) *
    Real.sqrt (fact (j1 + j2 - j3) * fact (j1 - j2 + j3) * fact (-j1 + j2 + j3) / fact (j1 + j2 + j3 + 1)) *
    Real.sqrt (fact (j1 - m1) * fact (j1 + m1) * fact (j2 - m2) * fact (j2 + m2) * fact (j3 - m3) * fact (j3 + m3)) *
    ((pyRange (tMin j1 m1 j2 m2 j3) (tMax j1 m1 j2 m2 j3 + 1)).foldl (fun s t => s + tTerm j1 m1 j2 m2 j3 t) 0)

/-- `clebsch_gordan((j1, m1), (j2, m2), (j3, m3))`, U_matrix.py:627-628; `%` binds stronger than `+` and `-`. -/
noncomputable def clebschGordan (j1 m1 j2 m2 j3 m3 : ℤ) : ℝ :=
  Real.sqrt ((2 * j3 + 1 : ℤ) : ℝ) * (if j1 - j2 + m3 % 2 ≠ 0 then -1 else 1) * threeJ j1 m1 j2 m2 j3 (-m3)

/-! ## Specification -/

/-- `√(j(j+1) - m(m+1))`, the matrix element of the raising operator between `m` and `m + 1` -/
noncomputable def up (j m : ℤ) : ℝ := Real.sqrt ((j - m : ℤ) * (j + m + 1 : ℤ))

/-- `m` is a magnetic quantum number of `j` -/
def Mag (j m : ℤ) : Prop := -j ≤ m ∧ m ≤ j

/-- the Clebsch-Gordan coefficient as documented, U_matrix.py:606-610 -/
noncomputable def documentedCG (j1 m1 j2 m2 j3 m3 : ℤ) : ℝ :=
  (-1 : ℝ) ^ (j1 - j2 + m3) * Real.sqrt ((2 * j3 + 1 : ℤ) : ℝ) * threeJ j1 m1 j2 m2 j3 (-m3)

/-! ## Proofs -/

/-- inverse factorial, zero for negative arguments -/
noncomputable def rf (n : ℤ) : ℝ := if n < 0 then 0 else ((n.toNat.factorial : ℝ))⁻¹

theorem rf_neg {n : ℤ} (h : n < 0) : rf n = 0 := if_pos h

theorem rf_fact {n : ℤ} (h : 0 ≤ n) : rf n = (fact n)⁻¹ := if_neg (by omega)

theorem fact_pos (n : ℤ) : 0 < fact n := by
  unfold fact
  positivity

theorem rf_rec (n : ℤ) : (n : ℝ) * rf n = rf (n - 1) := by
  rcases lt_trichotomy n 0 with h | h | h
  · rw [rf_neg h, rf_neg (by omega), mul_zero]
  · subst h
    rw [rf_neg (n := 0 - 1) (by norm_num), Int.cast_zero, zero_mul]
  · obtain ⟨k, rfl⟩ : ∃ k : ℕ, n = k + 1 := ⟨(n - 1).toNat, by omega⟩
    unfold rf
    rw [if_neg (by omega), if_neg (by omega)]
    rw [show ((k : ℤ) + 1).toNat = k + 1 by omega, show ((k : ℤ) + 1 - 1).toNat = k by omega, Nat.factorial_succ]
    have : ((k.factorial : ℕ) : ℝ) ≠ 0 := by positivity
    push_cast
    field_simp

theorem fact_rec {n : ℤ} (h : 0 < n) : fact n = n * fact (n - 1) := by
  obtain ⟨k, rfl⟩ : ∃ k : ℕ, n = k + 1 := ⟨(n - 1).toNat, by omega⟩
  unfold fact
  rw [show ((k : ℤ) + 1).toNat = k + 1 by omega, show ((k : ℤ) + 1 - 1).toNat = k by omega, Nat.factorial_succ]
  push_cast
  ring

theorem sign_zpow (n : ℤ) : sign n = (-1 : ℝ) ^ n := by
  unfold sign
  rcases Int.even_or_odd n with h | h
  · rw [if_neg (by rw [Int.even_iff.mp h]; simp), h.neg_one_zpow]
  · rw [if_pos (by rw [Int.odd_iff.mp h]; simp), h.neg_one_zpow]

theorem sign_add (m n : ℤ) : sign (m + n) = sign m * sign n := by
  rw [sign_zpow, sign_zpow, sign_zpow, zpow_add₀ (by norm_num)]

theorem sign_neg (n : ℤ) : sign (-n) = sign n := by
  rw [sign_zpow, sign_zpow, zpow_neg]
  rcases Int.even_or_odd n with h | h <;> simp [h.neg_one_zpow]

theorem sign_sq (n : ℤ) : sign n * sign n = 1 := by
  unfold sign
  split_ifs <;> norm_num

theorem sign_one : sign 1 = -1 := by simp [sign]

/-- the term of Racah's sum with inverse factorials -/
noncomputable def rterm (a b c d e t : ℤ) : ℝ := sign t * (rf t * rf (a + t) * rf (b + t) * rf (c - t) * rf (d - t) * rf (e - t))

/-- Racah's sum over all integers `0 ≤ t ≤ c` -/
noncomputable def racah (a b c d e : ℤ) : ℝ := ∑ t ∈ range (c + 1).toNat, rterm a b c d e t

/-- the code's sum is Racah's sum -/
theorem sum_racah (j1 m1 j2 m2 j3 : ℤ) :
    (pyRange (tMin j1 m1 j2 m2 j3) (tMax j1 m1 j2 m2 j3 + 1)).foldl (fun s t => s + tTerm j1 m1 j2 m2 j3 t) 0 =
      racah (j3 - j2 + m1) (j3 - j1 - m2) (j1 + j2 - j3) (j1 - m1) (j2 + m2) := by
  set lo := tMin j1 m1 j2 m2 j3 with hlo
  set hi := tMax j1 m1 j2 m2 j3 with hhi
  have hl : ∀ t, lo ≤ t ↔ j2 - j3 - m1 ≤ t ∧ j1 - j3 + m2 ≤ t ∧ 0 ≤ t := by intro t; rw [hlo, tMin]; omega
  have hh : ∀ t, t ≤ hi ↔ t ≤ j1 - m1 ∧ t ≤ j2 + m2 ∧ t ≤ j1 + j2 - j3 := by intro t; rw [hhi, tMax]; omega
  have h1 : ∀ (l : List ℤ) (s : ℝ), l.foldl (fun s t => s + tTerm j1 m1 j2 m2 j3 t) s = s + (l.map (tTerm j1 m1 j2 m2 j3)).sum := by
    intro l
    induction l with
    | nil => simp
    | cons x l ih => intro s; rw [List.foldl_cons, ih, List.map_cons, List.sum_cons, add_assoc]
  rw [h1, zero_add, pyRange, List.map_map]
  change ∑ k ∈ range (hi + 1 - lo).toNat, tTerm j1 m1 j2 m2 j3 (lo + k) = _
  have ht : ∀ t, lo ≤ t → t ≤ hi → tTerm j1 m1 j2 m2 j3 t = rterm (j3 - j2 + m1) (j3 - j1 - m2) (j1 + j2 - j3) (j1 - m1) (j2 + m2) t := by
    intro t h2 h3
    have h2 := (hl t).mp h2
    have h3 := (hh t).mp h3
    unfold tTerm rterm
    rw [rf_fact (by omega), rf_fact (by omega), rf_fact (by omega), rf_fact (by omega), rf_fact (by omega), rf_fact (by omega),
      div_eq_mul_inv, mul_inv, mul_inv, mul_inv, mul_inv, mul_inv]
  have hz : ∀ t, ¬ (lo ≤ t ∧ t ≤ hi) → rterm (j3 - j2 + m1) (j3 - j1 - m2) (j1 + j2 - j3) (j1 - m1) (j2 + m2) t = 0 := by
    intro t h
    rw [hl, hh] at h
    unfold rterm
    by_cases e1 : t < 0
    · rw [rf_neg e1]; ring
    by_cases e2 : j3 - j2 + m1 + t < 0
    · rw [rf_neg e2]; ring
    by_cases e3 : j3 - j1 - m2 + t < 0
    · rw [rf_neg e3]; ring
    by_cases e4 : j1 + j2 - j3 - t < 0
    · rw [rf_neg e4]; ring
    by_cases e5 : j1 - m1 - t < 0
    · rw [rf_neg e5]; ring
    by_cases e6 : j2 + m2 - t < 0
    · rw [rf_neg e6]; ring
    omega
  unfold racah
  have hlo0 : 0 ≤ lo := ((hl lo).mp le_rfl).2.2
  have hhc : hi ≤ j1 + j2 - j3 := ((hh hi).mp le_rfl).2.2
  -- both sums run over the same non-zero terms
  rw [← Finset.sum_subset (s₁ := (range (hi + 1 - lo).toNat).image fun k => lo.toNat + k) (s₂ := range (j1 + j2 - j3 + 1).toNat)
    (f := fun t : ℕ => rterm (j3 - j2 + m1) (j3 - j1 - m2) (j1 + j2 - j3) (j1 - m1) (j2 + m2) t)]
  · rw [Finset.sum_image (by intro x _ y _ h; simpa using h)]
    apply Finset.sum_congr rfl
    intro k hk
    rw [Finset.mem_range] at hk
    have : (((lo.toNat + k : ℕ) : ℤ)) = lo + k := by omega
    rw [this, ht _ (by omega) (by omega)]
  · intro x hx
    rw [Finset.mem_image] at hx
    obtain ⟨k, hk, rfl⟩ := hx
    rw [Finset.mem_range] at hk ⊢
    omega
  · intro x hx hx'
    apply hz
    rintro ⟨h2, h3⟩
    apply hx'
    rw [Finset.mem_image]
    exact ⟨x - lo.toNat, by rw [Finset.mem_range]; omega, by omega⟩

/-- Racah's sum obeys the relation behind the raising operator; telescoping sum. -/
theorem racah_rec (a b c d e : ℤ) (hc : 0 ≤ c) :
    ((c + a + 1 : ℤ) : ℝ) * racah (a + 1) b c (d - 1) e + ((e + 1 : ℤ) : ℝ) * racah a (b - 1) c d (e + 1) = ((b + d : ℤ) : ℝ) * racah a b c d e := by
  let F : ℤ → ℝ := fun t => sign t * (rf (t - 1) * rf (a + t) * rf (b + t - 1) * rf (c - t) * rf (d - t) * rf (e + 1 - t))
  have key : ∀ t : ℤ, ((c + a + 1 : ℤ) : ℝ) * rterm (a + 1) b c (d - 1) e t + ((e + 1 : ℤ) : ℝ) * rterm a (b - 1) c d (e + 1) t -
      ((b + d : ℤ) : ℝ) * rterm a b c d e t = F t - F (t + 1) := by
    intro t
    have r1 := rf_rec t
    have r2 := rf_rec (a + t + 1)
    have r3 := rf_rec (b + t)
    have r4 := rf_rec (c - t)
    have r5 := rf_rec (d - t)
    have r6 := rf_rec (e + 1 - t)
    simp only [F, rterm]
    rw [sign_add, sign_one]
    rw [show a + 1 + t = a + t + 1 by ring, show b - 1 + t = b + t - 1 by ring, show d - 1 - t = d - t - 1 by ring,
      show t + 1 - 1 = t by ring, show a + (t + 1) = a + t + 1 by ring, show b + (t + 1) - 1 = b + t by ring,
      show c - (t + 1) = c - t - 1 by ring, show d - (t + 1) = d - t - 1 by ring, show e + 1 - (t + 1) = e - t by ring]
    rw [show a + t + 1 - 1 = a + t by ring] at r2
    rw [show e + 1 - t - 1 = e - t by ring] at r6
    rw [← r1, ← r2, ← r3, ← r4, ← r5, ← r6]
    push_cast
    ring
  have hF : ∑ t ∈ range (c + 1).toNat, (F t - F ((t : ℤ) + 1)) = 0 := by
    have := Finset.sum_range_sub' (fun t : ℕ => F t) (c + 1).toNat
    push_cast at this
    rw [this]
    have h0 : F ((0 : ℕ) : ℤ) = 0 := by
      simp only [F]
      rw [rf_neg (n := ((0 : ℕ) : ℤ) - 1) (by norm_num)]
      ring
    have h1 : F (((c + 1).toNat : ℕ) : ℤ) = 0 := by
      simp only [F]
      rw [rf_neg (n := c - ((c + 1).toNat : ℤ)) (by omega)]
      ring
    simp only [Nat.cast_zero] at h0
    rw [h1]
    simpa using h0
  unfold racah
  rw [Finset.mul_sum, Finset.mul_sum, Finset.mul_sum, ← Finset.sum_add_distrib, ← sub_eq_zero, ← Finset.sum_sub_distrib]
  rw [← hF]
  exact Finset.sum_congr rfl fun t _ => key t

/-- Racah's sum read backwards -/
theorem racah_reverse (a b c d e : ℤ) : racah (d - c) (e - c) c (a + c) (b + c) = sign c * racah a b c d e := by
  unfold racah
  rw [Finset.mul_sum, ← Finset.sum_range_reflect]
  apply Finset.sum_congr rfl
  intro t ht
  rw [Finset.mem_range] at ht
  have h : (((c + 1).toNat - 1 - t : ℕ) : ℤ) = c - t := by omega
  rw [h]
  unfold rterm
  rw [show d - c + (c - t) = d - t by ring, show e - c + (c - t) = e - t by ring, show c - (c - t) = (t : ℤ) by ring,
    show a + c - (c - t) = a + t by ring, show b + c - (c - t) = b + t by ring]
  have : sign (c - t) = sign c * sign t := by rw [sub_eq_add_neg, sign_add, sign_neg]
  rw [this]
  ring

/-- `√((j - m)! (j + m)!)` -/
noncomputable def q (j m : ℤ) : ℝ := Real.sqrt (fact (j - m) * fact (j + m))

/-- the triangle coefficient -/
noncomputable def tri (j1 j2 j3 : ℤ) : ℝ :=
  Real.sqrt (fact (j1 + j2 - j3) * fact (j1 - j2 + j3) * fact (-j1 + j2 + j3) / fact (j1 + j2 + j3 + 1))

/-- the triangle condition -/
def Tri (j1 j2 j3 : ℤ) : Prop := j3 ≤ j1 + j2 ∧ |j1 - j2| ≤ j3

theorem not_vanishes {j1 m1 j2 m2 j3 m3 : ℤ} :
    ¬ vanishes j1 m1 j2 m2 j3 m3 ↔ m1 + m2 + m3 = 0 ∧ Mag j1 m1 ∧ Mag j2 m2 ∧ Mag j3 m3 ∧ Tri j1 j2 j3 := by
  unfold vanishes Mag Tri
  rcases abs_cases (j1 - j2) with h | h <;> omega

theorem threeJ_eq {j1 m1 j2 m2 j3 m3 : ℤ} (h0 : m1 + m2 + m3 = 0) (h1 : Mag j1 m1) (h2 : Mag j2 m2) (h3 : Mag j3 m3) (ht : Tri j1 j2 j3) :
    threeJ j1 m1 j2 m2 j3 m3 = sign (j1 - j2 - m3) * tri j1 j2 j3 * (q j1 m1 * q j2 m2 * q j3 m3) *
      racah (j3 - j2 + m1) (j3 - j1 - m2) (j1 + j2 - j3) (j1 - m1) (j2 + m2) := by
  unfold threeJ
  rw [if_neg (not_vanishes.mpr ⟨h0, h1, h2, h3, ht⟩), sum_racah]
  unfold tri q
  congr 2
  have p1 := fact_pos (j1 - m1)
  have p2 := fact_pos (j1 + m1)
  have p3 := fact_pos (j2 - m2)
  have p4 := fact_pos (j2 + m2)
  rw [← Real.sqrt_mul (by positivity), ← Real.sqrt_mul (by positivity)]
  congr 1
  ring

theorem threeJ_zero {j1 m1 j2 m2 j3 m3 : ℤ} (h : ¬ (m1 + m2 + m3 = 0 ∧ Mag j1 m1 ∧ Mag j2 m2 ∧ Mag j3 m3 ∧ Tri j1 j2 j3)) :
    threeJ j1 m1 j2 m2 j3 m3 = 0 := by
  unfold threeJ
  rw [if_pos]
  by_contra h'
  exact h (not_vanishes.mp h')

theorem up_top (j : ℤ) : up j j = 0 := by simp [up]

theorem up_bottom (j : ℤ) : up j (-j - 1) = 0 := by
  unfold up
  rw [show j + (-j - 1) + 1 = 0 by ring]
  simp

theorem up_reflect (j m : ℤ) : up j (-m - 1) = up j m := by
  unfold up
  congr 1
  push_cast
  ring

theorem up_sq {j m : ℤ} (h : Mag j m) : up j m * up j m = ((j - m : ℤ) : ℝ) * ((j + m + 1 : ℤ) : ℝ) := by
  unfold up
  apply Real.mul_self_sqrt
  obtain ⟨h1, h2⟩ := h
  apply mul_nonneg <;> exact_mod_cast (by omega)

/-- the square roots of the code absorb the matrix element of the raising operator -/
theorem up_q {j m : ℤ} (h1 : -j ≤ m) (h2 : m < j) : up j m * q j (m + 1) = ((j + m + 1 : ℤ) : ℝ) * q j m := by
  unfold up q
  have e1 : fact (j - m) = ((j - m : ℤ) : ℝ) * fact (j - (m + 1)) := by
    rw [fact_rec (by omega), show j - m - 1 = j - (m + 1) by ring]
  have e2 : fact (j + (m + 1)) = ((j + m + 1 : ℤ) : ℝ) * fact (j + m) := by
    rw [fact_rec (by omega), show j + (m + 1) - 1 = j + m by ring, show j + (m + 1) = j + m + 1 by ring]
  have hp : (0 : ℝ) ≤ ((j - m : ℤ) : ℝ) := by exact_mod_cast (by omega)
  have hq : (0 : ℝ) ≤ ((j + m + 1 : ℤ) : ℝ) := by exact_mod_cast (by omega)
  have f1 := (fact_pos (j - (m + 1))).le
  have f2 := (fact_pos (j + m)).le
  rw [← Real.sqrt_mul (mul_nonneg hp hq), e1, e2]
  nth_rw 3 [← Real.sqrt_sq hq]
  rw [← Real.sqrt_mul (by positivity)]
  congr 1
  ring

theorem racah_zero {a b c d e : ℤ} (h : ∀ t : ℤ, ¬ (0 ≤ t ∧ 0 ≤ a + t ∧ 0 ≤ b + t ∧ t ≤ c ∧ t ≤ d ∧ t ≤ e)) : racah a b c d e = 0 := by
  unfold racah
  apply Finset.sum_eq_zero
  intro t _
  unfold rterm
  have := h t
  by_cases e2 : a + t < 0
  · rw [rf_neg e2]; ring
  by_cases e3 : b + t < 0
  · rw [rf_neg e3]; ring
  by_cases e4 : c - t < 0
  · rw [rf_neg e4]; ring
  by_cases e5 : d - t < 0
  · rw [rf_neg e5]; ring
  by_cases e6 : e - t < 0
  · rw [rf_neg e6]; ring
  omega

/-- **C122.** A symbol that is not zero has magnetic numbers that add up to zero and lie in their ranges, and momenta that obey the
triangle condition. -/
theorem C122_selection (j1 m1 j2 m2 j3 m3 : ℤ) (h : threeJ j1 m1 j2 m2 j3 m3 ≠ 0) :
    m1 + m2 + m3 = 0 ∧ |m1| ≤ j1 ∧ |m2| ≤ j2 ∧ |m3| ≤ j3 ∧ |j1 - j2| ≤ j3 ∧ j3 ≤ j1 + j2 := by
  by_contra h'
  apply h
  apply threeJ_zero
  rintro ⟨h0, h1, h2, h3, ht⟩
  exact h' ⟨h0, abs_le.mpr h1, abs_le.mpr h2, abs_le.mpr h3, ht.2, ht.1⟩

/-- **C122.** Every factorial of the code has a nonnegative argument. -/
theorem C122_defined (j1 m1 j2 m2 j3 m3 : ℤ) (h : ¬ vanishes j1 m1 j2 m2 j3 m3) :
    (∀ n ∈ [j1 + j2 - j3, j1 - j2 + j3, -j1 + j2 + j3, j1 + j2 + j3 + 1, j1 - m1, j1 + m1, j2 - m2, j2 + m2, j3 - m3, j3 + m3], 0 ≤ n) ∧
    ∀ t ∈ pyRange (tMin j1 m1 j2 m2 j3) (tMax j1 m1 j2 m2 j3 + 1),
      ∀ n ∈ [t, j3 - j2 + m1 + t, j3 - j1 - m2 + t, j1 + j2 - j3 - t, j1 - m1 - t, j2 + m2 - t], 0 ≤ n := by
  obtain ⟨h0, h1, h2, h3, ht⟩ := not_vanishes.mp h
  unfold Mag at h1 h2 h3
  unfold Tri at ht
  have hta := abs_le.mp ht.2
  constructor
  · simp only [List.mem_cons, List.not_mem_nil, or_false]
    omega
  · intro t ht'
    simp only [pyRange, List.mem_map, List.mem_range] at ht'
    obtain ⟨k, hk, rfl⟩ := ht'
    simp only [List.mem_cons, List.not_mem_nil, or_false]
    unfold tMin tMax at *
    omega

/-- **C122.** Raising: the symbols are the invariant vector of three angular momenta. -/
theorem C122_raise (j1 m1 j2 m2 j3 m3 : ℤ) (h1 : Mag j1 m1) (h2 : Mag j2 m2) (h3 : Mag j3 m3) :
    up j1 m1 * threeJ j1 (m1 + 1) j2 m2 j3 m3 + up j2 m2 * threeJ j1 m1 j2 (m2 + 1) j3 m3 + up j3 m3 * threeJ j1 m1 j2 m2 j3 (m3 + 1) = 0 := by
  by_cases hs : m1 + m2 + m3 + 1 = 0
  swap
  · rw [threeJ_zero (by omega), threeJ_zero (by omega), threeJ_zero (by omega)]
    ring
  by_cases ht : Tri j1 j2 j3
  swap
  · rw [threeJ_zero (fun h => ht h.2.2.2.2), threeJ_zero (fun h => ht h.2.2.2.2), threeJ_zero (fun h => ht h.2.2.2.2)]
    ring
  have hta := abs_le.mp ht.2
  have htb := ht.1
  have h1' := h1
  have h2' := h2
  have h3' := h3
  unfold Mag at h1' h2' h3'
  let K : ℝ := sign (j1 - j2 - m3) * tri j1 j2 j3 * (q j1 m1 * q j2 m2 * q j3 m3)
  have t1 : up j1 m1 * threeJ j1 (m1 + 1) j2 m2 j3 m3 =
      K * (((j1 + j2 - j3 + (j3 - j2 + m1) + 1 : ℤ) : ℝ) * racah (j3 - j2 + m1 + 1) (j3 - j1 - m2) (j1 + j2 - j3) (j1 - m1 - 1) (j2 + m2)) := by
    by_cases e : m1 = j1
    · rw [e, up_top, zero_mul, racah_zero (by intro t; omega)]
      ring
    · rw [threeJ_eq (by omega) (by unfold Mag; omega) h2 h3 ht, show j3 - j2 + (m1 + 1) = j3 - j2 + m1 + 1 by ring,
        show j1 - (m1 + 1) = j1 - m1 - 1 by ring, show j1 + j2 - j3 + (j3 - j2 + m1) + 1 = j1 + m1 + 1 by ring]
      linear_combination (sign (j1 - j2 - m3) * tri j1 j2 j3 * (q j2 m2 * q j3 m3) *
        racah (j3 - j2 + m1 + 1) (j3 - j1 - m2) (j1 + j2 - j3) (j1 - m1 - 1) (j2 + m2)) * up_q h1'.1 (by omega)
  have t2 : up j2 m2 * threeJ j1 m1 j2 (m2 + 1) j3 m3 =
      K * (((j2 + m2 + 1 : ℤ) : ℝ) * racah (j3 - j2 + m1) (j3 - j1 - m2 - 1) (j1 + j2 - j3) (j1 - m1) (j2 + m2 + 1)) := by
    by_cases e : m2 = j2
    · rw [e, up_top, zero_mul, racah_zero (by intro t; omega)]
      ring
    · rw [threeJ_eq (by omega) h1 (by unfold Mag; omega) h3 ht, show j3 - j1 - (m2 + 1) = j3 - j1 - m2 - 1 by ring,
        show j2 + (m2 + 1) = j2 + m2 + 1 by ring]
      linear_combination (sign (j1 - j2 - m3) * tri j1 j2 j3 * (q j1 m1 * q j3 m3) *
        racah (j3 - j2 + m1) (j3 - j1 - m2 - 1) (j1 + j2 - j3) (j1 - m1) (j2 + m2 + 1)) * up_q h2'.1 (by omega)
  have t3 : up j3 m3 * threeJ j1 m1 j2 m2 j3 (m3 + 1) =
      -K * (((j3 - j1 - m2 + (j1 - m1) : ℤ) : ℝ) * racah (j3 - j2 + m1) (j3 - j1 - m2) (j1 + j2 - j3) (j1 - m1) (j2 + m2)) := by
    by_cases e : m3 = j3
    · rw [e, up_top, zero_mul, racah_zero (by intro t; omega)]
      ring
    · have hsg : sign (j1 - j2 - (m3 + 1)) = -sign (j1 - j2 - m3) := by
        rw [show j1 - j2 - (m3 + 1) = j1 - j2 - m3 + -1 by ring, sign_add, sign_neg, sign_one]
        ring
      rw [threeJ_eq (by omega) h1 h2 (by unfold Mag; omega) ht, hsg, show j3 - j1 - m2 + (j1 - m1) = j3 + m3 + 1 by omega]
      linear_combination (-sign (j1 - j2 - m3) * tri j1 j2 j3 * (q j1 m1 * q j2 m2) *
        racah (j3 - j2 + m1) (j3 - j1 - m2) (j1 + j2 - j3) (j1 - m1) (j2 + m2)) * up_q h3'.1 (by omega)
  have hr := racah_rec (j3 - j2 + m1) (j3 - j1 - m2) (j1 + j2 - j3) (j1 - m1) (j2 + m2) (by omega)
  rw [t1, t2, t3]
  linear_combination K * hr

theorem q_neg (j m : ℤ) : q j (-m) = q j m := by
  unfold q
  rw [show j - -m = j + m by ring, show j + -m = j - m by ring, mul_comm]

theorem Mag.neg {j m : ℤ} (h : Mag j m) : Mag j (-m) := by
  unfold Mag at *
  omega

theorem sign_congr {m n : ℤ} (h : (m - n) % 2 = 0) : sign m = sign n := by
  unfold sign
  rw [show m % 2 = n % 2 by omega]

/-- **C122.** Reversing all magnetic numbers gives the sign `(-1)^(j1+j2+j3)`. -/
theorem C122_reflect (j1 m1 j2 m2 j3 m3 : ℤ) :
    threeJ j1 (-m1) j2 (-m2) j3 (-m3) = (-1 : ℝ) ^ (j1 + j2 + j3) * threeJ j1 m1 j2 m2 j3 m3 := by
  by_cases h : m1 + m2 + m3 = 0 ∧ Mag j1 m1 ∧ Mag j2 m2 ∧ Mag j3 m3 ∧ Tri j1 j2 j3
  swap
  · rw [threeJ_zero h, threeJ_zero, mul_zero]
    rintro ⟨h0, h1, h2, h3, ht⟩
    apply h
    refine ⟨by omega, ?_, ?_, ?_, ht⟩
    · simpa using h1.neg
    · simpa using h2.neg
    · simpa using h3.neg
  obtain ⟨h0, h1, h2, h3, ht⟩ := h
  rw [threeJ_eq h0 h1 h2 h3 ht, threeJ_eq (by omega) h1.neg h2.neg h3.neg ht, q_neg, q_neg, q_neg]
  have hr := racah_reverse (j3 - j2 + m1) (j3 - j1 - m2) (j1 + j2 - j3) (j1 - m1) (j2 + m2)
  rw [show j1 - m1 - (j1 + j2 - j3) = j3 - j2 + -m1 by ring, show j2 + m2 - (j1 + j2 - j3) = j3 - j1 - -m2 by ring,
    show j3 - j2 + m1 + (j1 + j2 - j3) = j1 - -m1 by ring, show j3 - j1 - m2 + (j1 + j2 - j3) = j2 + -m2 by ring] at hr
  rw [hr, ← sign_zpow, sign_congr (m := j1 - j2 - -m3) (n := j1 - j2 - m3) (by omega),
    sign_congr (m := j1 + j2 - j3) (n := j1 + j2 + j3) (by omega)]
  ring

/-- **C122.** Exchanging the first two columns gives the sign `(-1)^(j1+j2+j3)`. -/
theorem C122_swap (j1 m1 j2 m2 j3 m3 : ℤ) :
    threeJ j2 m2 j1 m1 j3 m3 = (-1 : ℝ) ^ (j1 + j2 + j3) * threeJ j1 m1 j2 m2 j3 m3 := by
  by_cases h : m1 + m2 + m3 = 0 ∧ Mag j1 m1 ∧ Mag j2 m2 ∧ Mag j3 m3 ∧ Tri j1 j2 j3
  swap
  · rw [threeJ_zero h, threeJ_zero, mul_zero]
    rintro ⟨h0, h1, h2, h3, ht⟩
    apply h
    unfold Tri at *
    rw [abs_sub_comm] at ht
    exact ⟨by omega, h2, h1, h3, by omega, ht.2⟩
  obtain ⟨h0, h1, h2, h3, ht⟩ := h
  have ht' : Tri j2 j1 j3 := by
    unfold Tri at *
    rw [abs_sub_comm] at ht
    exact ⟨by omega, ht.2⟩
  rw [threeJ_eq h0 h1 h2 h3 ht, threeJ_eq (by omega) h2 h1 h3 ht']
  have hr := racah_reverse (j3 - j2 + m1) (j3 - j1 - m2) (j1 + j2 - j3) (j1 - m1) (j2 + m2)
  have hsym : racah (j3 - j1 + m2) (j3 - j2 - m1) (j2 + j1 - j3) (j2 - m2) (j1 + m1) =
      racah (j1 - m1 - (j1 + j2 - j3)) (j2 + m2 - (j1 + j2 - j3)) (j1 + j2 - j3) (j3 - j2 + m1 + (j1 + j2 - j3)) (j3 - j1 - m2 + (j1 + j2 - j3)) := by
    rw [show j1 - m1 - (j1 + j2 - j3) = j3 - j2 - m1 by ring, show j2 + m2 - (j1 + j2 - j3) = j3 - j1 + m2 by ring,
      show j3 - j2 + m1 + (j1 + j2 - j3) = j1 + m1 by ring, show j3 - j1 - m2 + (j1 + j2 - j3) = j2 - m2 by ring, add_comm j2 j1]
    unfold racah rterm
    apply Finset.sum_congr rfl
    intro t _
    ring
  have htri : tri j2 j1 j3 = tri j1 j2 j3 := by
    unfold tri
    rw [show j2 + j1 - j3 = j1 + j2 - j3 by ring, show j2 - j1 + j3 = -j1 + j2 + j3 by ring, show -j2 + j1 + j3 = j1 - j2 + j3 by ring,
      show j2 + j1 + j3 + 1 = j1 + j2 + j3 + 1 by ring]
    congr 1
    ring
  rw [hsym, hr, htri, ← sign_zpow, sign_congr (m := j2 - j1 - m3) (n := j1 - j2 - m3) (by omega),
    sign_congr (m := j1 + j2 - j3) (n := j1 + j2 + j3) (by omega)]
  ring

/-- **C122.** Lowering. -/
theorem C122_lower (j1 m1 j2 m2 j3 m3 : ℤ) (h1 : Mag j1 m1) (h2 : Mag j2 m2) (h3 : Mag j3 m3) :
    up j1 (m1 - 1) * threeJ j1 (m1 - 1) j2 m2 j3 m3 + up j2 (m2 - 1) * threeJ j1 m1 j2 (m2 - 1) j3 m3 +
      up j3 (m3 - 1) * threeJ j1 m1 j2 m2 j3 (m3 - 1) = 0 := by
  have h := C122_raise j1 (-m1) j2 (-m2) j3 (-m3) h1.neg h2.neg h3.neg
  have e : ∀ m : ℤ, -m + 1 = -(m - 1) := fun m => by ring
  have u : ∀ j m : ℤ, up j (-m) = up j (m - 1) := fun j m => by rw [← up_reflect j (m - 1)]; congr 1; ring
  rw [e, e, e, C122_reflect, C122_reflect, C122_reflect, u, u, u] at h
  have hn : ((-1 : ℝ) ^ (j1 + j2 + j3)) ≠ 0 := zpow_ne_zero _ (by norm_num)
  apply mul_left_cancel₀ hn
  linear_combination h

/-! ### orthogonality -/

/-- the raising operator is the transpose of the lowering operator -/
theorem sum_shift (j : ℤ) (f g : ℤ → ℝ) :
    ∑ m ∈ Icc (-j) j, f m * (up j m * g (m + 1)) = ∑ m ∈ Icc (-j) j, up j (m - 1) * f (m - 1) * g m := by
  by_cases hj : j < 0
  · rw [Finset.Icc_eq_empty (by omega)]
    simp
  have h1 : ∑ m ∈ Icc (-j) j, f m * (up j m * g (m + 1)) = ∑ m ∈ Icc (-j - 1) j, f m * (up j m * g (m + 1)) := by
    apply Finset.sum_subset
    · intro x hx
      rw [Finset.mem_Icc] at *
      omega
    · intro x hx hx'
      rw [Finset.mem_Icc] at *
      rw [show x = -j - 1 by omega, up_bottom]
      ring
  have h2 : ∑ m ∈ Icc (-j) j, up j (m - 1) * f (m - 1) * g m = ∑ m ∈ Icc (-j - 1) (j - 1), f m * (up j m * g (m + 1)) := by
    have : Icc (-j) j = (Icc (-j - 1) (j - 1)).map (addRightEmbedding 1) := by
      rw [Finset.map_add_right_Icc]
      congr 1 <;> ring
    rw [this, Finset.sum_map]
    apply Finset.sum_congr rfl
    intro m _
    simp only [addRightEmbedding_apply, add_sub_cancel_right]
    ring
  have h3 : ∑ m ∈ Icc (-j - 1) (j - 1), f m * (up j m * g (m + 1)) = ∑ m ∈ Icc (-j - 1) j, f m * (up j m * g (m + 1)) := by
    apply Finset.sum_subset
    · intro x hx
      rw [Finset.mem_Icc] at *
      omega
    · intro x hx hx'
      rw [Finset.mem_Icc] at *
      rw [show x = j by omega, up_top]
      ring
  rw [h1, h2, h3]

/-- overlap of two coupled states -/
noncomputable def overlap (j1 j2 j m j' m' : ℤ) : ℝ :=
  ∑ m1 ∈ Icc (-j1) j1, ∑ m2 ∈ Icc (-j2) j2, threeJ j1 m1 j2 m2 j m * threeJ j1 m1 j2 m2 j' m'

theorem overlap_comm (j1 j2 j m j' m' : ℤ) : overlap j1 j2 j m j' m' = overlap j1 j2 j' m' j m := by
  unfold overlap
  apply Finset.sum_congr rfl; intro _ _
  apply Finset.sum_congr rfl; intro _ _
  ring

theorem overlap_shift (j1 j2 j m j' m' : ℤ) (h : Mag j m) (h' : Mag j' m') :
    up j' m' * overlap j1 j2 j m j' (m' + 1) = up j (m - 1) * overlap j1 j2 j (m - 1) j' m' := by
  let V := fun m1 m2 => threeJ j1 m1 j2 m2 j m
  let W := fun m1 m2 => threeJ j1 m1 j2 m2 j' m'
  have e1 : ∑ m1 ∈ Icc (-j1) j1, ∑ m2 ∈ Icc (-j2) j2, V m1 m2 * (up j1 m1 * W (m1 + 1) m2) =
      ∑ m1 ∈ Icc (-j1) j1, ∑ m2 ∈ Icc (-j2) j2, up j1 (m1 - 1) * V (m1 - 1) m2 * W m1 m2 := by
    rw [Finset.sum_comm, Finset.sum_comm (s := Icc (-j1) j1)]
    apply Finset.sum_congr rfl; intro m2 _
    exact sum_shift j1 (fun m1 => V m1 m2) (fun m1 => W m1 m2)
  have e2 : ∑ m1 ∈ Icc (-j1) j1, ∑ m2 ∈ Icc (-j2) j2, V m1 m2 * (up j2 m2 * W m1 (m2 + 1)) =
      ∑ m1 ∈ Icc (-j1) j1, ∑ m2 ∈ Icc (-j2) j2, up j2 (m2 - 1) * V m1 (m2 - 1) * W m1 m2 := by
    apply Finset.sum_congr rfl; intro m1 _
    exact sum_shift j2 (fun m2 => V m1 m2) (fun m2 => W m1 m2)
  have e3 : -(up j' m' * overlap j1 j2 j m j' (m' + 1)) =
      ∑ m1 ∈ Icc (-j1) j1, ∑ m2 ∈ Icc (-j2) j2, (V m1 m2 * (up j1 m1 * W (m1 + 1) m2) + V m1 m2 * (up j2 m2 * W m1 (m2 + 1))) := by
    unfold overlap
    rw [Finset.mul_sum, ← Finset.sum_neg_distrib]
    apply Finset.sum_congr rfl; intro m1 hm1
    rw [Finset.mul_sum, ← Finset.sum_neg_distrib]
    apply Finset.sum_congr rfl; intro m2 hm2
    have := C122_raise j1 m1 j2 m2 j' m' (Finset.mem_Icc.mp hm1) (Finset.mem_Icc.mp hm2) h'
    simp only [V, W]
    linear_combination -(threeJ j1 m1 j2 m2 j m) * this
  have e4 : -(up j (m - 1) * overlap j1 j2 j (m - 1) j' m') =
      ∑ m1 ∈ Icc (-j1) j1, ∑ m2 ∈ Icc (-j2) j2, (up j1 (m1 - 1) * V (m1 - 1) m2 * W m1 m2 + up j2 (m2 - 1) * V m1 (m2 - 1) * W m1 m2) := by
    unfold overlap
    rw [Finset.mul_sum, ← Finset.sum_neg_distrib]
    apply Finset.sum_congr rfl; intro m1 hm1
    rw [Finset.mul_sum, ← Finset.sum_neg_distrib]
    apply Finset.sum_congr rfl; intro m2 hm2
    have := C122_lower j1 m1 j2 m2 j m (Finset.mem_Icc.mp hm1) (Finset.mem_Icc.mp hm2) h
    simp only [V, W]
    linear_combination -(threeJ j1 m1 j2 m2 j' m') * this
  simp only [Finset.sum_add_distrib] at e3 e4
  rw [e1, e2, ← e4] at e3
  linarith

theorem up_ne {j m : ℤ} (h1 : -j ≤ m) (h2 : m < j) : up j m ≠ 0 := by
  unfold up
  apply (Real.sqrt_pos.mpr _).ne'
  apply mul_pos <;> exact_mod_cast (by omega)

theorem overlap_lt {j1 j2 j j' : ℤ} (hj : 0 ≤ j) (h : j < j') (k : ℕ) (hk : (k : ℤ) ≤ 2 * j) : overlap j1 j2 j (j - k) j' (j - k) = 0 := by
  induction k with
  | zero =>
    have h1 := overlap_shift j1 j2 j' (j + 1) j j (by unfold Mag; omega) (by unfold Mag; omega)
    rw [up_top, zero_mul, show j + 1 - 1 = j by ring, overlap_comm] at h1
    simpa using (mul_eq_zero.mp h1.symm).resolve_left (up_ne (by omega) h)
  | succ k ih =>
    push_cast at hk ⊢
    have h0 := ih (by omega)
    have h1 := overlap_shift j1 j2 j' (j - k) j (j - (k + 1)) (by unfold Mag; omega) (by unfold Mag; omega)
    rw [show j - ((k : ℤ) + 1) + 1 = j - k by ring, overlap_comm, h0, mul_zero, show j - (k : ℤ) - 1 = j - (k + 1) by ring, overlap_comm] at h1
    exact (mul_eq_zero.mp h1.symm).resolve_left (up_ne (by omega) (by omega))

theorem overlap_ne {j1 j2 j m j' m' : ℤ} (h : m ≠ m') : overlap j1 j2 j m j' m' = 0 := by
  unfold overlap
  apply Finset.sum_eq_zero; intro m1 _
  apply Finset.sum_eq_zero; intro m2 _
  by_cases e : m1 + m2 + m = 0
  · rw [threeJ_zero (m3 := m') (by omega), mul_zero]
  · rw [threeJ_zero (by omega), zero_mul]

theorem overlap_norm (j1 j2 j : ℤ) (k : ℕ) (hk : (k : ℤ) ≤ 2 * j) :
    overlap j1 j2 j (-j + k) j (-j + k) = overlap j1 j2 j (-j) j (-j) := by
  induction k with
  | zero => simp
  | succ k ih =>
    push_cast at hk ⊢
    rw [← ih (by omega)]
    have h1 := overlap_shift j1 j2 j (-j + (k + 1)) j (-j + k) (by unfold Mag; omega) (by unfold Mag; omega)
    rw [show -j + (k : ℤ) + 1 = -j + (k + 1) by ring, show -j + ((k : ℤ) + 1) - 1 = -j + k by ring] at h1
    exact mul_left_cancel₀ (up_ne (by omega) (by omega)) h1

theorem vandermonde (A B c : ℕ) : ∑ d ∈ range (c + 1), (A + c - d).choose A * (B + d).choose B = (A + B + c + 1).choose (A + B + 1) := by
  induction B generalizing c with
  | zero =>
    induction c with
    | zero => simp
    | succ c ih =>
      rw [Finset.sum_range_succ'] 
      have : ∀ d ∈ range (c + 1), (A + (c + 1) - (d + 1)).choose A * (0 + (d + 1)).choose 0 = (A + c - d).choose A * (0 + d).choose 0 := by
        intro d _
        rw [show A + (c + 1) - (d + 1) = A + c - d by omega]
        simp
      rw [Finset.sum_congr rfl this, ih]
      have hp := Nat.choose_succ_succ (A + c + 1) A
      simp only [Nat.add_zero, Nat.sub_zero, Nat.choose_zero_right, Nat.mul_one, Nat.succ_eq_add_one] at *
      rw [show A + (c + 1) + 1 = A + c + 1 + 1 by ring, show A + (c + 1) = A + c + 1 by ring, hp]
      ring
  | succ B ihB =>
    induction c with
    | zero => simp
    | succ c ih =>
      have e : ∀ d ∈ range (c + 1 + 1), (A + (c + 1) - d).choose A * (B + 1 + d).choose (B + 1) =
          (A + (c + 1) - d).choose A * (B + d).choose B + (A + (c + 1) - d).choose A * (B + d).choose (B + 1) := by
        intro d _
        rw [show B + 1 + d = B + d + 1 by ring, Nat.choose_succ_succ]
        ring
      rw [Finset.sum_congr rfl e, Finset.sum_add_distrib, ihB, Finset.sum_range_succ']
      have e2 : ∀ d ∈ range (c + 1), (A + (c + 1) - (d + 1)).choose A * (B + (d + 1)).choose (B + 1) = (A + c - d).choose A * (B + 1 + d).choose (B + 1) := by
        intro d _
        rw [show A + (c + 1) - (d + 1) = A + c - d by omega, show B + (d + 1) = B + 1 + d by ring]
      rw [Finset.sum_congr rfl e2, ih]
      have := Nat.choose_succ_succ (A + B + c + 2) (A + B + 1)
      simp only [Nat.add_zero, Nat.choose_succ_self, Nat.mul_zero, Nat.succ_eq_add_one] at *
      rw [show A + (B + 1) + (c + 1) + 1 = A + B + c + 2 + 1 by ring, show A + (B + 1) + 1 = A + B + 1 + 1 by ring, this,
        show A + B + (c + 1) + 1 = A + B + c + 2 by ring, show A + (B + 1) + c + 1 = A + B + c + 2 by ring]

theorem racah_single (a c d e : ℤ) (hd : 0 ≤ d) (hc : d ≤ c) : racah a (-d) c d e = sign d * (rf d * rf (a + d) * rf (c - d) * rf (e - d)) := by
  unfold racah
  rw [Finset.sum_eq_single d.toNat]
  · rw [show ((d.toNat : ℕ) : ℤ) = d by omega]
    unfold rterm
    have : rf 0 = 1 := by simp [rf]
    rw [neg_add_cancel, sub_self, this]
    ring
  · intro t _ ht
    unfold rterm
    rcases lt_or_gt_of_ne ht with h | h
    · rw [rf_neg (n := -d + (t : ℤ)) (by omega)]
      ring
    · rw [rf_neg (n := d - (t : ℤ)) (by omega)]
      ring
  · intro h
    rw [Finset.mem_range] at h
    omega

theorem threeJ_stretched {j1 j2 j3 : ℤ} (ht : Tri j1 j2 j3) (d : ℤ) (hd : 0 ≤ d) (hc : d ≤ j1 + j2 - j3) :
    threeJ j1 (j1 - d) j2 (j3 - j1 + d) j3 (-j3) = sign (j1 - j2 + j3 + d) * tri j1 j2 j3 *
      (q j1 (j1 - d) * q j2 (j3 - j1 + d) * q j3 (-j3)) * (rf d * rf (j1 - j2 + j3) * rf (j1 + j2 - j3 - d) * rf (-j1 + j2 + j3)) := by
  have hta := abs_le.mp ht.2
  have htb := ht.1
  rw [threeJ_eq (by ring) (by unfold Mag; omega) (by unfold Mag; omega) (by unfold Mag; omega) ht,
    show j3 - j1 - (j3 - j1 + d) = -d by ring, show j1 - (j1 - d) = d by ring, racah_single _ _ _ _ hd hc,
    show j3 - j2 + (j1 - d) + d = j1 - j2 + j3 by ring, show j2 + (j3 - j1 + d) - d = -j1 + j2 + j3 by ring,
    show j1 - j2 - -j3 = j1 - j2 + j3 by ring, sign_add (j1 - j2 + j3) d]
  ring

theorem fact_nat (n : ℕ) : fact n = n.factorial := by simp [fact]

theorem rf_nat (n : ℕ) : rf n = (n.factorial : ℝ)⁻¹ := by simp [rf]

theorem choose_fact (A n : ℕ) : (((A + n).choose A : ℕ) : ℝ) = (A + n).factorial / (A.factorial * n.factorial) := by
  rw [Nat.cast_choose ℝ (by omega), show A + n - A = n by omega]

theorem overlap_bottom {j1 j2 j3 : ℤ} (ht : Tri j1 j2 j3) : overlap j1 j2 j3 (-j3) j3 (-j3) = 1 / (2 * j3 + 1) := by
  have hta := abs_le.mp ht.2
  have htb := ht.1
  obtain ⟨c, hc⟩ : ∃ c : ℕ, (c : ℤ) = j1 + j2 - j3 := ⟨(j1 + j2 - j3).toNat, by omega⟩
  obtain ⟨A, hA⟩ : ∃ A : ℕ, (A : ℤ) = j1 - j2 + j3 := ⟨(j1 - j2 + j3).toNat, by omega⟩
  obtain ⟨B, hB⟩ : ∃ B : ℕ, (B : ℤ) = -j1 + j2 + j3 := ⟨(-j1 + j2 + j3).toNat, by omega⟩
  have hj : ((2 * j3 : ℤ)) = ((A + B : ℕ) : ℤ) := by push_cast; omega
  -- only the terms m2 = j3 - m1, m1 = j1 - d
  have e1 : overlap j1 j2 j3 (-j3) j3 (-j3) = ∑ d ∈ range (c + 1), threeJ j1 (j1 - d) j2 (j3 - j1 + d) j3 (-j3) ^ 2 := by
    unfold overlap
    rw [← Finset.sum_subset (s₁ := (range (c + 1)).image fun d : ℕ => j1 - (d : ℤ))]
    · rw [Finset.sum_image (by intro x _ y _ h; simpa using h)]
      apply Finset.sum_congr rfl
      intro d hd
      rw [Finset.mem_range] at hd
      rw [Finset.sum_eq_single (j3 - j1 + d)]
      · ring
      · intro m2 _ hne
        rw [threeJ_zero (by omega), zero_mul]
      · intro h
        rw [Finset.mem_Icc] at h
        omega
    · intro x hx
      rw [Finset.mem_image] at hx
      obtain ⟨d, hd, rfl⟩ := hx
      rw [Finset.mem_range] at hd
      rw [Finset.mem_Icc]
      omega
    · intro x hx hx'
      apply Finset.sum_eq_zero
      intro m2 hm2
      rw [threeJ_zero, zero_mul]
      rintro ⟨h0, h1, h2, -, -⟩
      unfold Mag at h1 h2
      apply hx'
      rw [Finset.mem_image]
      exact ⟨(j1 - x).toNat, by rw [Finset.mem_range]; omega, by omega⟩
  have e2 : ∀ d ∈ range (c + 1), threeJ j1 (j1 - d) j2 (j3 - j1 + d) j3 (-j3) ^ 2 =
      (c.factorial : ℝ) * (A + B).factorial / (A + B + c + 1).factorial * (((A + c - d).choose A * (B + d).choose B : ℕ) : ℝ) := by
    intro d hd
    rw [Finset.mem_range] at hd
    obtain ⟨n, rfl⟩ : ∃ n, c = d + n := ⟨c - d, by omega⟩
    rw [threeJ_stretched ht d (by omega) (by omega)]
    have s1 : sign (j1 - j2 + j3 + d) ^ 2 = 1 := by rw [pow_two, sign_sq]
    have s2 : tri j1 j2 j3 ^ 2 = ((d + n).factorial : ℝ) * A.factorial * B.factorial / (A + B + (d + n) + 1).factorial := by
      unfold tri
      have p1 := fact_pos (j1 + j2 - j3)
      have p2 := fact_pos (j1 - j2 + j3)
      have p3 := fact_pos (-j1 + j2 + j3)
      have p4 := fact_pos (j1 + j2 + j3 + 1)
      rw [Real.sq_sqrt (by positivity), ← hc, ← hA, ← hB, show j1 + j2 + j3 + 1 = ((A + B + (d + n) + 1 : ℕ) : ℤ) by push_cast at *; omega,
        fact_nat, fact_nat, fact_nat, fact_nat]
    have sq : ∀ j m : ℤ, q j m ^ 2 = fact (j - m) * fact (j + m) := by
      intro j m
      unfold q
      exact Real.sq_sqrt (mul_pos (fact_pos _) (fact_pos _)).le
    rw [mul_pow, mul_pow, mul_pow, mul_pow, mul_pow, s1, s2, sq, sq, sq]
    rw [show j1 - (j1 - (d : ℤ)) = (d : ℕ) by ring, show j1 + (j1 - (d : ℤ)) = ((A + n : ℕ) : ℤ) by push_cast at *; omega,
      show j2 - (j3 - j1 + (d : ℤ)) = (n : ℕ) by push_cast at *; omega, show j2 + (j3 - j1 + (d : ℤ)) = ((B + d : ℕ) : ℤ) by push_cast at *; omega,
      show j3 - -j3 = ((A + B : ℕ) : ℤ) by rw [← hj]; ring, show j3 + -j3 = ((0 : ℕ) : ℤ) by simp, ← hA, ← hB,
      show j1 + j2 - j3 - (d : ℤ) = (n : ℕ) by push_cast at *; omega]
    simp only [fact_nat, rf_nat]
    rw [show A + (d + n) - d = A + n by omega]
    push_cast
    rw [choose_fact, choose_fact]
    have f : ∀ k : ℕ, (k.factorial : ℝ) ≠ 0 := fun k => by positivity
    have f1 := f d; have f2 := f n; have f3 := f A; have f4 := f B; have f5 := f (A + B + (d + n) + 1)
    simp only [Nat.factorial_zero, Nat.cast_one]
    field_simp
  rw [e1, Finset.sum_congr rfl e2, ← Finset.mul_sum, ← Nat.cast_sum, vandermonde]
  rw [show A + B + c + 1 = (A + B + 1) + c by ring, choose_fact, Nat.factorial_succ (A + B)]
  have f : ∀ k : ℕ, (k.factorial : ℝ) ≠ 0 := fun k => by positivity
  have f1 := f c; have f2 := f (A + B); have f3 := f (A + B + 1 + c)
  have hj' : (2 * (j3 : ℝ)) = (A : ℝ) + B := by exact_mod_cast hj
  rw [hj']
  push_cast
  have f4 : (A : ℝ) + B + 1 ≠ 0 := by positivity
  field_simp

/-- **C122.** Orthogonality: for momenta obeying the triangle condition the symbols with given third columns are orthogonal, with norm
`1 / (2 j + 1)`. -/
theorem C122_orthogonal (j1 j2 j m j' m' : ℤ) (ht : |j1 - j2| ≤ j ∧ j ≤ j1 + j2) (hm : |m| ≤ j) (hm' : |m'| ≤ j') :
    ∑ m1 ∈ Icc (-j1) j1, ∑ m2 ∈ Icc (-j2) j2, threeJ j1 m1 j2 m2 j m * threeJ j1 m1 j2 m2 j' m' =
      if j = j' ∧ m = m' then 1 / (2 * (j : ℝ) + 1) else 0 := by
  change overlap j1 j2 j m j' m' = _
  have h := abs_le.mp hm
  have h' := abs_le.mp hm'
  split_ifs with e
  · obtain ⟨rfl, rfl⟩ := e
    have := overlap_norm j1 j2 j (m + j).toNat (by omega)
    rw [show -j + ((m + j).toNat : ℤ) = m by omega] at this
    rw [this, overlap_bottom ⟨ht.2, ht.1⟩]
  · by_cases em : m = m'
    · subst em
      rcases lt_trichotomy j j' with hlt | heq | hgt
      · have := overlap_lt (j1 := j1) (j2 := j2) (by omega) hlt (j - m).toNat (by omega)
        rwa [show j - ((j - m).toNat : ℤ) = m by omega] at this
      · exact absurd ⟨heq, rfl⟩ e
      · have := overlap_lt (j1 := j1) (j2 := j2) (by omega) hgt (j' - m).toNat (by omega)
        rw [show j' - ((j' - m).toNat : ℤ) = m by omega] at this
        rw [overlap_comm, this]
    · exact overlap_ne em

theorem q_pos (j m : ℤ) : 0 < q j m := Real.sqrt_pos.mpr (mul_pos (fact_pos _) (fact_pos _))

theorem tri_pos (j1 j2 j3 : ℤ) : 0 < tri j1 j2 j3 :=
  Real.sqrt_pos.mpr (div_pos (mul_pos (mul_pos (fact_pos _) (fact_pos _)) (fact_pos _)) (fact_pos _))

theorem rf_pos {n : ℤ} (h : 0 ≤ n) : 0 < rf n := by
  rw [rf_fact h]
  exact inv_pos.mpr (fact_pos _)

/-- **C122.** Phase: the Condon-Shortley convention, `(-1)^(j1 - j2 + j3)` times the symbol with `m1 = j1`, `m3 = -j3` is positive. With
the recursion and the norm this fixes every symbol. -/
theorem C122_phase (j1 j2 j3 : ℤ) (ht : |j1 - j2| ≤ j3 ∧ j3 ≤ j1 + j2) :
    0 < (-1 : ℝ) ^ (j1 - j2 + j3) * threeJ j1 j1 j2 (j3 - j1) j3 (-j3) := by
  have hta := abs_le.mp ht.1
  have h := threeJ_stretched (j1 := j1) (j2 := j2) (j3 := j3) ⟨ht.2, ht.1⟩ 0 le_rfl (by omega)
  rw [sub_zero, add_zero, add_zero, sub_zero] at h
  rw [h, ← sign_zpow]
  have := sign_sq (j1 - j2 + j3)
  have p1 := tri_pos j1 j2 j3
  have p2 := q_pos j1 j1
  have p3 := q_pos j2 (j3 - j1)
  have p4 := q_pos j3 (-j3)
  have p5 := rf_pos (n := 0) le_rfl
  have p6 := rf_pos (n := j1 - j2 + j3) (by omega)
  have p7 := rf_pos (n := j1 + j2 - j3) (by omega)
  have p8 := rf_pos (n := -j1 + j2 + j3) (by omega)
  have hp : 0 < tri j1 j2 j3 * (q j1 j1 * q j2 (j3 - j1) * q j3 (-j3)) * (rf 0 * rf (j1 - j2 + j3) * rf (j1 + j2 - j3) * rf (-j1 + j2 + j3)) := by
    positivity
  calc (0 : ℝ) < _ := hp
    _ = _ := by linear_combination (-(tri j1 j2 j3 * (q j1 j1 * q j2 (j3 - j1) * q j3 (-j3)) *
        (rf 0 * rf (j1 - j2 + j3) * rf (j1 + j2 - j3) * rf (-j1 + j2 + j3)))) * this

/-! ### Clebsch-Gordan coefficients -/

theorem documentedCG_sign (j1 m1 j2 m2 j3 m3 : ℤ) :
    documentedCG j1 m1 j2 m2 j3 m3 = Real.sqrt ((2 * j3 + 1 : ℤ) : ℝ) * sign (j1 - j2 + m3) * threeJ j1 m1 j2 m2 j3 (-m3) := by
  unfold documentedCG
  rw [sign_zpow]
  ring

/-- **C123.** `clebsch_gordan` agrees with its documentation exactly when the symbol vanishes, `j1 - j2 + m3 % 2` is zero, or
`j1 - j2 + m3` is odd. -/
theorem C123_iff (j1 m1 j2 m2 j3 m3 : ℤ) : clebschGordan j1 m1 j2 m2 j3 m3 = documentedCG j1 m1 j2 m2 j3 m3 ↔
    threeJ j1 m1 j2 m2 j3 (-m3) = 0 ∨ j1 - j2 + m3 % 2 = 0 ∨ Odd (j1 - j2 + m3) := by
  rw [documentedCG_sign]
  unfold clebschGordan
  by_cases h0 : threeJ j1 m1 j2 m2 j3 (-m3) = 0
  · simp [h0]
  have hj : 0 ≤ j3 := by
    have := C122_selection _ _ _ _ _ _ h0
    exact le_trans (abs_nonneg _) this.2.2.2.1
  have hs : Real.sqrt ((2 * j3 + 1 : ℤ) : ℝ) ≠ 0 := (Real.sqrt_pos.mpr (by exact_mod_cast (by omega))).ne'
  rw [mul_left_inj' h0, mul_right_inj' hs]
  simp only [h0, false_or]
  unfold sign
  rw [Int.odd_iff]
  by_cases e1 : j1 - j2 + m3 % 2 = 0
  · have e2 : ¬ (j1 - j2 + m3) % 2 ≠ 0 := by omega
    rw [if_neg (not_not.mpr e1), if_neg e2]
    simp [e1]
  · rw [if_pos e1]
    by_cases e2 : (j1 - j2 + m3) % 2 = 0
    · rw [if_neg (not_not.mpr e2)]
      norm_num
      omega
    · rw [if_pos e2]
      simp
      omega

theorem threeJ_scalar (j m : ℤ) (h : Mag j m) : threeJ j m 0 0 j (-m) = sign (j + m) / Real.sqrt ((2 * j + 1 : ℤ) : ℝ) := by
  have h' := h
  unfold Mag at h'
  have ht : Tri j 0 j := by unfold Tri; rw [sub_zero, abs_of_nonneg (by omega)]; omega
  rw [threeJ_eq (by ring) h (by unfold Mag; omega) h.neg ht, q_neg]
  have s1 : tri j 0 j = 1 / Real.sqrt ((2 * j + 1 : ℤ) : ℝ) := by
    obtain ⟨n, rfl⟩ : ∃ n : ℕ, j = n := ⟨j.toNat, by omega⟩
    unfold tri
    rw [show (n : ℤ) + 0 - n = ((0 : ℕ) : ℤ) by simp, show (n : ℤ) - 0 + n = ((2 * n : ℕ) : ℤ) by push_cast; ring,
      show -(n : ℤ) + 0 + n = ((0 : ℕ) : ℤ) by simp, show (n : ℤ) + 0 + n + 1 = ((2 * n + 1 : ℕ) : ℤ) by push_cast; ring]
    simp only [fact_nat, Nat.factorial_zero, Nat.factorial_succ (2 * n)]
    rw [one_div, ← Real.sqrt_inv]
    congr 1
    have : ((2 * n).factorial : ℝ) ≠ 0 := by positivity
    push_cast
    field_simp
  have s2 : q j m * q j m = fact (j - m) * fact (j + m) := Real.mul_self_sqrt (mul_pos (fact_pos _) (fact_pos _)).le
  have s3 : q 0 0 = 1 := by simp [q, fact]
  have s4 : racah (j - 0 + m) (j - j - 0) (j + 0 - j) (j - m) (0 + 0) = (fact (j + m))⁻¹ * (fact (j - m))⁻¹ := by
    rw [← rf_fact (by omega), ← rf_fact (by omega)]
    unfold racah rterm
    rw [show (j + 0 - j + 1).toNat = 1 by omega]
    simp [sign, show rf 0 = 1 by simp [rf]]
  rw [s4, s3, s1, show j - 0 - -m = j + m by ring]
  have f1 := (fact_pos (j + m)).ne'
  have f2 := (fact_pos (j - m)).ne'
  have : q j m * 1 * q j m = fact (j - m) * fact (j + m) := by rw [mul_one, s2]
  rw [this]
  field_simp

theorem threeJ_zero_zero (j : ℤ) (hj : 0 ≤ j) : threeJ j 0 0 0 j 0 = sign j / Real.sqrt ((2 * j + 1 : ℤ) : ℝ) := by
  have := threeJ_scalar j 0 (by unfold Mag; omega)
  rwa [neg_zero, add_zero] at this

/-- **C123.** The sign is wrong for `⟨2 0 0 0 | 2 0⟩`: the code returns -1, the coefficient is 1. -/
theorem C123_wrong_sign : clebschGordan 2 0 0 0 2 0 = -1 ∧ documentedCG 2 0 0 0 2 0 = 1 := by
  have h := threeJ_zero_zero 2 (by norm_num)
  have h5 : Real.sqrt ((2 * 2 + 1 : ℤ) : ℝ) ≠ 0 := (Real.sqrt_pos.mpr (by norm_num)).ne'
  rw [documentedCG_sign]
  unfold clebschGordan
  rw [neg_zero, h]
  constructor
  · rw [if_pos (by norm_num), show sign 2 = 1 by simp [sign]]
    field_simp
  · rw [show sign (2 - 0 + 0) = 1 by simp [sign], show sign 2 = 1 by simp [sign]]
    field_simp

/-- **C123.** The coefficients of the code are orthonormal, as the documented ones are, and differ from them at most by the sign. -/
theorem C123_orthonormal (j1 j2 j m j' m' : ℤ) (ht : |j1 - j2| ≤ j ∧ j ≤ j1 + j2) (hm : |m| ≤ j) (hm' : |m'| ≤ j') :
    (∑ m1 ∈ Icc (-j1) j1, ∑ m2 ∈ Icc (-j2) j2, clebschGordan j1 m1 j2 m2 j m * clebschGordan j1 m1 j2 m2 j' m' = if j = j' ∧ m = m' then 1 else 0) ∧
    (∑ m1 ∈ Icc (-j1) j1, ∑ m2 ∈ Icc (-j2) j2, documentedCG j1 m1 j2 m2 j m * documentedCG j1 m1 j2 m2 j' m' = if j = j' ∧ m = m' then 1 else 0) ∧
    ∀ m1 m2, |clebschGordan j1 m1 j2 m2 j m| = |documentedCG j1 m1 j2 m2 j m| := by
  have ho := C122_orthogonal j1 j2 j (-m) j' (-m') ht (by rwa [abs_neg]) (by rwa [abs_neg])
  have hj : (0 : ℝ) < ((2 * j + 1 : ℤ) : ℝ) := by
    have := abs_nonneg m
    exact_mod_cast (by omega)
  have hsum : ∀ s s' : ℝ, ∑ m1 ∈ Icc (-j1) j1, ∑ m2 ∈ Icc (-j2) j2, (Real.sqrt ((2 * j + 1 : ℤ) : ℝ) * s * threeJ j1 m1 j2 m2 j (-m)) *
      (Real.sqrt ((2 * j' + 1 : ℤ) : ℝ) * s' * threeJ j1 m1 j2 m2 j' (-m')) =
      Real.sqrt ((2 * j + 1 : ℤ) : ℝ) * s * (Real.sqrt ((2 * j' + 1 : ℤ) : ℝ) * s') * if j = j' ∧ m = m' then 1 / (2 * (j : ℝ) + 1) else 0 := by
    intro s s'
    simp only [neg_inj] at ho
    rw [← ho, Finset.mul_sum]
    apply Finset.sum_congr rfl; intro m1 _
    rw [Finset.mul_sum]
    apply Finset.sum_congr rfl; intro m2 _
    ring
  have fin : ∀ s s' : ℝ, (j = j' ∧ m = m' → s * s' = 1) →
      Real.sqrt ((2 * j + 1 : ℤ) : ℝ) * s * (Real.sqrt ((2 * j' + 1 : ℤ) : ℝ) * s') * (if j = j' ∧ m = m' then 1 / (2 * (j : ℝ) + 1) else 0) =
      if j = j' ∧ m = m' then 1 else 0 := by
    intro s s' hs
    split_ifs with e
    · have h1 := hs e
      obtain ⟨rfl, rfl⟩ := e
      have h2 := Real.mul_self_sqrt hj.le
      have h3 : (2 * (j : ℝ) + 1) ≠ 0 := by
        have := hj.ne'
        push_cast at this
        exact this
      rw [mul_one_div, div_eq_one_iff_eq h3]
      push_cast at *
      linear_combination (s * s') * h2 + (2 * (j : ℝ) + 1) * h1
    · ring
  refine ⟨?_, ?_, ?_⟩
  · unfold clebschGordan
    rw [hsum, fin]
    rintro ⟨rfl, rfl⟩
    split_ifs <;> norm_num
  · simp only [documentedCG_sign]
    rw [hsum, fin]
    rintro ⟨rfl, rfl⟩
    exact sign_sq _
  · intro m1 m2
    rw [documentedCG_sign]
    unfold clebschGordan
    rw [abs_mul, abs_mul, abs_mul, abs_mul]
    congr 2
    unfold sign
    split_ifs <;> norm_num

-- the symbol (1 0, 0 0, 1 0) is -1/√3; the symbols (1 m1, 1 m2, 2 m3) are not zero
example : threeJ 1 0 0 0 1 0 = -1 / Real.sqrt 3 ∧ 0 < threeJ 1 1 1 1 2 (-2) := by
  constructor
  · rw [threeJ_zero_zero 1 (by norm_num), show sign 1 = -1 from sign_one]
    norm_num
  · have := C122_phase 1 1 2 (by norm_num)
    norm_num at this
    exact this

-- a coefficient with the right sign: ⟨1 m1 1 m2 | 2 0⟩, j1 = j2 and m3 even
example (m1 m2 : ℤ) : clebschGordan 1 m1 1 m2 2 0 = documentedCG 1 m1 1 m2 2 0 := (C123_iff _ _ _ _ _ _).mpr (Or.inr (Or.inl (by norm_num)))

end Verif.ThreeJ
