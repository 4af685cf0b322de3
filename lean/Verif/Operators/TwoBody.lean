import Mathlib.Algebra.Algebra.Basic
import Mathlib.Algebra.BigOperators.Ring.Finset
import Mathlib.Algebra.Module.BigOperators
import Mathlib.Data.Fintype.BigOperators
import Mathlib.Data.Matrix.Mul
import Mathlib.Tactic.Ring
import Mathlib.Tactic.Abel
import Mathlib.Tactic.NoncommRing

/-!
# One- and two-body operators in an algebra with canonical anticommutation relations

Used for the Hamiltonians and observables of `python/triqs/operators/util` (C113-C121). Independent of the code.
-/

namespace Verif.TwoBody

variable {R : Type} [CommRing R] {A : Type} [Ring A] [Algebra R A] {X : Type} [Fintype X] [DecidableEq X]

/-- canonical anticommutation relations of creation operators `cr` and annihilation operators `an` -/
structure Car (cr an : X → A) : Prop where
  cc : ∀ x y, cr x * cr y = -(cr y * cr x)
  aa : ∀ x y, an x * an y = -(an y * an x)
  ac : ∀ x y, an x * cr y = (if x = y then 1 else 0) - cr y * an x

/-- `sum M_xy c†_x c_y` -/
def one (cr an : X → A) (M : X → X → R) : A := ∑ x, ∑ y, M x y • (cr x * an y)

/-- `sum U_xyzw c†_x c†_y c_w c_z` -/
def two (cr an : X → A) (U : X → X → X → X → R) : A := ∑ x, ∑ y, ∑ z, ∑ w, U x y z w • (cr x * cr y * an w * an z)

/-- commutator -/
def comm (a b : A) : A := a * b - b * a

omit [DecidableEq X] [Ring A] in
theorem swap3 {B : Type} [AddCommMonoid B] (f : X → X → X → B) : ∑ z, ∑ w, ∑ a, f z w a = ∑ a, ∑ w, ∑ z, f z w a := by
  calc ∑ z, ∑ w, ∑ a, f z w a = ∑ z, ∑ a, ∑ w, f z w a := Finset.sum_congr rfl fun z _ => Finset.sum_comm
    _ = ∑ a, ∑ z, ∑ w, f z w a := Finset.sum_comm
    _ = _ := Finset.sum_congr rfl fun a _ => Finset.sum_comm

omit [DecidableEq X] in
theorem swap4 {B : Type} [AddCommMonoid B] (f : X → X → X → X → B) : ∑ y, ∑ z, ∑ w, ∑ a, f y z w a = ∑ a, ∑ z, ∑ w, ∑ y, f y z w a := by
  calc ∑ y, ∑ z, ∑ w, ∑ a, f y z w a = ∑ y, ∑ a, ∑ w, ∑ z, f y z w a := Finset.sum_congr rfl fun y _ => swap3 (f y)
    _ = ∑ a, ∑ y, ∑ w, ∑ z, f y z w a := Finset.sum_comm
    _ = _ := Finset.sum_congr rfl fun a _ => swap3 fun y w z => f y z w a

omit [DecidableEq X] in
theorem swap5 {B : Type} [AddCommMonoid B] (f : X → X → X → X → X → B) : ∑ x, ∑ y, ∑ z, ∑ w, ∑ a, f x y z w a = ∑ a, ∑ y, ∑ z, ∑ w, ∑ x, f x y z w a := by
  calc ∑ x, ∑ y, ∑ z, ∑ w, ∑ a, f x y z w a = ∑ x, ∑ a, ∑ z, ∑ w, ∑ y, f x y z w a := Finset.sum_congr rfl fun x _ => swap4 (f x)
    _ = ∑ a, ∑ x, ∑ z, ∑ w, ∑ y, f x y z w a := Finset.sum_comm
    _ = _ := Finset.sum_congr rfl fun a _ => swap4 fun x z w y => f x y z w a

theorem comm_mul (a b c : A) : comm a (b * c) = comm a b * c + b * comm a c := by
  unfold comm
  noncomm_ring

theorem comm_sum {κ : Type} (s : Finset κ) (a : A) (f : κ → A) : comm a (∑ k ∈ s, f k) = ∑ k ∈ s, comm a (f k) := by
  unfold comm
  rw [Finset.mul_sum, Finset.sum_mul, Finset.sum_sub_distrib]

theorem sum_comm_left {κ : Type} (s : Finset κ) (a : A) (f : κ → A) : comm (∑ k ∈ s, f k) a = ∑ k ∈ s, comm (f k) a := by
  unfold comm
  rw [Finset.mul_sum, Finset.sum_mul, Finset.sum_sub_distrib]

theorem comm_smul (r : R) (a b : A) : comm a (r • b) = r • comm a b := by
  unfold comm
  rw [mul_smul_comm, smul_mul_assoc, smul_sub]

theorem smul_comm_left (r : R) (a b : A) : comm (r • a) b = r • comm a b := by
  unfold comm
  rw [mul_smul_comm, smul_mul_assoc, smul_sub]

theorem comm_add (a b c : A) : comm a (b + c) = comm a b + comm a c := by
  unfold comm
  noncomm_ring

theorem add_comm_left (a b c : A) : comm (a + b) c = comm a c + comm b c := by
  unfold comm
  noncomm_ring

theorem comm_eq_zero (a b : A) : comm a b = 0 ↔ a * b = b * a := sub_eq_zero

variable {cr an : X → A} (h : Car cr an)
include h

theorem comm_cr (M : X → X → R) (z : X) : comm (one cr an M) (cr z) = ∑ x, M x z • cr x := by
  unfold one
  rw [sum_comm_left]
  apply Finset.sum_congr rfl
  intro x _
  rw [sum_comm_left]
  have : ∀ y, comm (M x y • (cr x * an y)) (cr z) = if y = z then M x z • cr x else 0 := by
    intro y
    rw [smul_comm_left]
    unfold comm
    rw [mul_assoc, h.ac, mul_sub, ← mul_assoc (cr x) (cr z), h.cc x z]
    split_ifs with hy
    · subst hy
      congr 1
      noncomm_ring
    · rw [mul_zero, zero_sub, show -(-(cr z * cr x) * an y) - cr z * (cr x * an y) = 0 by noncomm_ring, smul_zero]
  simp only [this]
  rw [Finset.sum_ite_eq' Finset.univ z]
  simp

theorem comm_an (M : X → X → R) (z : X) : comm (one cr an M) (an z) = -∑ y, M z y • an y := by
  unfold one
  rw [sum_comm_left]
  have : ∀ x, comm (∑ y, M x y • (cr x * an y)) (an z) = if x = z then -∑ y, M z y • an y else 0 := by
    intro x
    rw [sum_comm_left]
    have e : ∀ y, comm (M x y • (cr x * an y)) (an z) = M x y • (if x = z then -an y else 0) := by
      intro y
      rw [smul_comm_left]
      congr 1
      unfold comm
      rw [← mul_assoc (an z), h.ac, sub_mul, mul_assoc, mul_assoc, h.aa y z]
      by_cases hx : x = z
      · subst hx
        rw [if_pos rfl, if_pos rfl]
        noncomm_ring
      · rw [if_neg (Ne.symm hx), if_neg hx]
        noncomm_ring
    simp only [e]
    split_ifs with hx
    · subst hx
      rw [← Finset.sum_neg_distrib]
      apply Finset.sum_congr rfl
      intro y _
      rw [smul_neg]
    · simp
  simp only [this]
  rw [Finset.sum_ite_eq' Finset.univ z]
  simp

/-- the commutator of two one-body operators is the operator of the commutator of the matrices -/
theorem comm_one (M N : X → X → R) :
    comm (one cr an M) (one cr an N) = one cr an fun x y => ∑ a, (M x a * N a y - N x a * M a y) := by
  conv_lhs => rw [show one cr an N = ∑ x, ∑ y, N x y • (cr x * an y) from rfl]
  rw [comm_sum]
  simp only [comm_sum, comm_smul, comm_mul, comm_cr h, comm_an h]
  unfold one
  have e1 : ∑ x, ∑ y, N x y • ((∑ a, M a x • cr a) * an y) = ∑ x, ∑ y, (∑ a, M x a * N a y) • (cr x * an y) := by
    simp only [Finset.sum_mul, Finset.smul_sum, Finset.sum_smul, smul_mul_assoc, smul_smul]
    rw [swap3]
    apply Finset.sum_congr rfl; intro a _; apply Finset.sum_congr rfl; intro y _; apply Finset.sum_congr rfl; intro x _
    rw [mul_comm]
  have e2 : ∑ x, ∑ y, N x y • (cr x * -∑ a, M y a • an a) = -∑ x, ∑ y, (∑ a, N x a * M a y) • (cr x * an y) := by
    simp only [mul_neg, smul_neg, Finset.sum_neg_distrib, neg_inj]
    simp only [Finset.mul_sum, Finset.smul_sum, Finset.sum_smul, mul_smul_comm, smul_smul]
    apply Finset.sum_congr rfl; intro x _
    rw [Finset.sum_comm]
  simp only [smul_add, Finset.sum_add_distrib]
  rw [e1, e2, ← sub_eq_add_neg, ← Finset.sum_sub_distrib]
  apply Finset.sum_congr rfl; intro x _
  rw [← Finset.sum_sub_distrib]
  apply Finset.sum_congr rfl; intro y _
  rw [← sub_smul, Finset.sum_sub_distrib]

/-- the commutator of a one-body with a two-body operator -/
theorem comm_two (M : X → X → R) (U : X → X → X → X → R) :
    comm (one cr an M) (two cr an U) = two cr an fun x y z w =>
      ∑ a, (M x a * U a y z w + M y a * U x a z w - U x y a w * M a z - U x y z a * M a w) := by
  conv_lhs => rw [show two cr an U = ∑ x, ∑ y, ∑ z, ∑ w, U x y z w • (cr x * cr y * an w * an z) from rfl]
  simp only [comm_sum, comm_smul, comm_mul, comm_cr h, comm_an h]
  unfold two
  have e1 : ∑ x, ∑ y, ∑ z, ∑ w, U x y z w • ((∑ a, M a x • cr a) * cr y * an w * an z) =
      ∑ x, ∑ y, ∑ z, ∑ w, (∑ a, M x a * U a y z w) • (cr x * cr y * an w * an z) := by
    simp only [Finset.sum_mul, Finset.smul_sum, Finset.sum_smul, smul_mul_assoc, smul_smul]
    rw [swap5]
    apply Finset.sum_congr rfl; intro a _; apply Finset.sum_congr rfl; intro y _; apply Finset.sum_congr rfl; intro z _
    apply Finset.sum_congr rfl; intro w _; apply Finset.sum_congr rfl; intro x _
    rw [mul_comm]
  have e2 : ∑ x, ∑ y, ∑ z, ∑ w, U x y z w • (cr x * (∑ a, M a y • cr a) * an w * an z) =
      ∑ x, ∑ y, ∑ z, ∑ w, (∑ a, M y a * U x a z w) • (cr x * cr y * an w * an z) := by
    simp only [Finset.sum_mul, Finset.mul_sum, Finset.smul_sum, Finset.sum_smul, smul_mul_assoc, mul_smul_comm, smul_smul]
    apply Finset.sum_congr rfl; intro x _
    rw [swap4]
    apply Finset.sum_congr rfl; intro a _; apply Finset.sum_congr rfl; intro z _
    apply Finset.sum_congr rfl; intro w _; apply Finset.sum_congr rfl; intro y _
    rw [mul_comm]
  have e3 : ∑ x, ∑ y, ∑ z, ∑ w, U x y z w • (cr x * cr y * (-∑ a, M w a • an a) * an z) =
      -∑ x, ∑ y, ∑ z, ∑ w, (∑ a, U x y z a * M a w) • (cr x * cr y * an w * an z) := by
    simp only [mul_neg, neg_mul, smul_neg, Finset.sum_neg_distrib, neg_inj]
    simp only [Finset.sum_mul, Finset.mul_sum, Finset.smul_sum, Finset.sum_smul, smul_mul_assoc, mul_smul_comm, smul_smul]
    apply Finset.sum_congr rfl; intro x _; apply Finset.sum_congr rfl; intro y _; apply Finset.sum_congr rfl; intro z _
    rw [Finset.sum_comm]
  have e4 : ∑ x, ∑ y, ∑ z, ∑ w, U x y z w • (cr x * cr y * an w * (-∑ a, M z a • an a)) =
      -∑ x, ∑ y, ∑ z, ∑ w, (∑ a, U x y a w * M a z) • (cr x * cr y * an w * an z) := by
    simp only [mul_neg, neg_mul, smul_neg, Finset.sum_neg_distrib, neg_inj]
    simp only [Finset.sum_mul, Finset.mul_sum, Finset.smul_sum, Finset.sum_smul, smul_mul_assoc, mul_smul_comm, smul_smul]
    apply Finset.sum_congr rfl; intro x _; apply Finset.sum_congr rfl; intro y _
    rw [swap3]
  simp only [add_mul, smul_add, Finset.sum_add_distrib]
  rw [e1, e2, e3, e4]
  simp only [← Finset.sum_neg_distrib, ← Finset.sum_add_distrib]
  apply Finset.sum_congr rfl; intro x _; apply Finset.sum_congr rfl; intro y _
  apply Finset.sum_congr rfl; intro z _; apply Finset.sum_congr rfl; intro w _
  rw [← neg_smul, ← neg_smul, ← add_smul, ← add_smul, ← add_smul]
  congr 1
  simp only [Finset.sum_sub_distrib, Finset.sum_add_distrib]
  ring

end Verif.TwoBody
