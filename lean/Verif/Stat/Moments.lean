import Mathlib.Algebra.Field.Basic
import Mathlib.Algebra.CharZero.Defs
import Mathlib.Algebra.Module.Basic
import Mathlib.Algebra.BigOperators.Intervals
import Mathlib.Tactic.Linarith
import Mathlib.Tactic.Ring
import Mathlib.Tactic.FieldSimp
import Mathlib.Tactic.LinearCombination
import Mathlib.Tactic.Module

/-!
# Means and squared deviations

Used by the statements about the statistics module. The data are elements of a module `V` over the field `R` of the real numbers of the code; `real(conj(x) * x)` is
the square of a symmetric bilinear form (for real and complex numbers, or for one element of an array of these).
-/

namespace Verif.Stat

set_option linter.unusedSectionVars false

/-- a symmetric bilinear form; `real(conj(x) * y)` in the code -/
structure Form (R V : Type) [Field R] [AddCommGroup V] [Module R V] where
  b : V → V → R
  add_left : ∀ x y z, b (x + y) z = b x z + b y z
  smul_left : ∀ (r : R) x y, b (r • x) y = r * b x y
  symm : ∀ x y, b x y = b y x

section
variable {R V : Type} [Field R] [AddCommGroup V] [Module R V]

/-- `real(conj(x) * x)` -/
def Form.sq (F : Form R V) (x : V) : R := F.b x x

theorem Form.add_right (F : Form R V) (x y z : V) : F.b x (y + z) = F.b x y + F.b x z := by
  rw [F.symm, F.add_left, F.symm y, F.symm z]

theorem Form.smul_right (F : Form R V) (r : R) (x y : V) : F.b x (r • y) = r * F.b x y := by
  rw [F.symm, F.smul_left, F.symm y]

theorem Form.sq_add (F : Form R V) (x y : V) : F.sq (x + y) = F.sq x + 2 * F.b x y + F.sq y := by
  unfold Form.sq
  rw [F.add_left, F.add_right, F.add_right, F.symm y x]
  ring

theorem Form.sq_smul (F : Form R V) (r : R) (x : V) : F.sq (r • x) = r ^ 2 * F.sq x := by
  unfold Form.sq
  rw [F.smul_left, F.smul_right]
  ring

theorem Form.zero_left (F : Form R V) (y : V) : F.b 0 y = 0 := by
  have := F.smul_left 0 0 y
  rwa [zero_smul, zero_mul] at this

theorem Form.sq_zero (F : Form R V) : F.sq 0 = 0 := F.zero_left 0

theorem Form.sum_left (F : Form R V) {ι : Type} (s : Finset ι) (f : ι → V) (y : V) : F.b (∑ i ∈ s, f i) y = ∑ i ∈ s, F.b (f i) y := by
  classical
  induction s using Finset.induction_on with
  | empty => simp [F.zero_left]
  | insert a s ha ih => rw [Finset.sum_insert ha, Finset.sum_insert ha, F.add_left, ih]

/-- the mean of the first `k` values -/
def mu (R : Type) [Field R] [Module R V] (k : Nat) (b : Nat → V) : V := (k : R)⁻¹ • ∑ i ∈ Finset.range k, b i

/-- the sum of the squared deviations from the mean of the first `k` values -/
def dev (F : Form R V) (k : Nat) (b : Nat → V) : R := ∑ i ∈ Finset.range k, F.sq (b i - mu R k b)

variable [CharZero R]

theorem sum_eq_mu (k : Nat) (b : Nat → V) : ∑ i ∈ Finset.range k, b i = (k : R) • mu R k b := by
  rcases Nat.eq_zero_or_pos k with h | h
  · subst h
    simp
  · rw [mu, smul_smul, mul_inv_cancel₀ (Nat.cast_ne_zero.mpr (by omega)), one_smul]

/-- squared deviations from another point -/
theorem dev_shift (F : Form R V) (k : Nat) (b : Nat → V) (c : V) :
    ∑ i ∈ Finset.range k, F.sq (b i - c) = dev F k b + (k : R) * F.sq (mu R k b - c) := by
  have h : ∀ i ∈ Finset.range k, F.sq (b i - c) = F.sq (b i - mu R k b) + 2 * F.b (b i - mu R k b) (mu R k b - c) + F.sq (mu R k b - c) := by
    intro i _
    rw [← F.sq_add]
    congr 1
    rw [sub_add_sub_cancel]
  rw [Finset.sum_congr rfl h, Finset.sum_add_distrib, Finset.sum_add_distrib, ← Finset.mul_sum, ← F.sum_left, Finset.sum_sub_distrib, sum_eq_mu (R := R) k b]
  simp only [Finset.sum_const, Finset.card_range, nsmul_eq_mul]
  rw [← Nat.cast_smul_eq_nsmul R, sub_self, F.zero_left]
  simp [dev]

theorem mu_succ (k : Nat) (b : Nat → V) : mu R (k + 1) b = mu R k b + ((k + 1 : Nat) : R)⁻¹ • (b k - mu R k b) := by
  have hk : ((k : R) + 1) ≠ 0 := by
    have := Nat.cast_ne_zero (R := R).mpr (Nat.succ_ne_zero k)
    push_cast at this
    exact this
  rw [mu, Finset.sum_range_succ, sum_eq_mu (R := R)]
  push_cast
  rw [smul_add, smul_sub, smul_smul, ← add_sub_assoc, add_sub_right_comm]
  congr 1
  have e : ((k : R) + 1)⁻¹ * k = 1 - ((k : R) + 1)⁻¹ := by
    field_simp
    ring
  rw [e, sub_smul, one_smul]

theorem dev_succ (F : Form R V) (k : Nat) (b : Nat → V) :
    dev F (k + 1) b = dev F k b + (k : R) / ((k + 1 : Nat) : R) * F.sq (b k - mu R k b) := by
  have hk : ((k : R) + 1) ≠ 0 := by
    have := Nat.cast_ne_zero (R := R).mpr (Nat.succ_ne_zero k)
    push_cast at this
    exact this
  rw [dev, Finset.sum_range_succ, dev_shift, mu_succ]
  have e1 : mu R k b - (mu R k b + ((k + 1 : Nat) : R)⁻¹ • (b k - mu R k b)) = (-((k + 1 : Nat) : R)⁻¹) • (b k - mu R k b) := by module
  have e2 : b k - (mu R k b + ((k + 1 : Nat) : R)⁻¹ • (b k - mu R k b)) = (1 - ((k + 1 : Nat) : R)⁻¹) • (b k - mu R k b) := by module
  rw [e1, e2, F.sq_smul, F.sq_smul]
  push_cast
  field_simp
  ring

theorem mu_congr {k : Nat} {a b : Nat → V} (h : ∀ i < k, a i = b i) : mu R k a = mu R k b := by
  unfold mu
  rw [Finset.sum_congr rfl (fun i hi => h i (Finset.mem_range.mp hi))]

theorem dev_congr (F : Form R V) {k : Nat} {a b : Nat → V} (h : ∀ i < k, a i = b i) : dev F k a = dev F k b := by
  unfold dev
  rw [mu_congr h]
  exact Finset.sum_congr rfl (fun i hi => by rw [h i (Finset.mem_range.mp hi)])

end

end Verif.Stat
