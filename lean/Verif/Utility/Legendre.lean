import Mathlib.Algebra.Polynomial.Derivative
import Mathlib.Algebra.Polynomial.Taylor
import Mathlib.Algebra.Polynomial.HasseDeriv
import Mathlib.Analysis.SpecialFunctions.Integrals.Basic
import Mathlib.Analysis.Calculus.Deriv.Polynomial
import Mathlib.MeasureTheory.Integral.IntervalIntegral.FundThmCalculus
import Mathlib.Tactic.LinearCombination
import Mathlib.Tactic.FieldSimp
import Mathlib.Tactic.Ring

/-!
# Property C58: Legendre polynomials, tails of Legendre functions and their discontinuity

Source: `/repo/c++/triqs/utility/legendre.hpp`, `/repo/c++/triqs/utility/legendre.cpp`, `evaluate` in
`/repo/c++/triqs/mesh/legendre.hpp`, `/repo/c++/triqs/gfs/functions/legendre.cpp`.

Simplifications: exact numbers, counters unbounded. One component of the target at a time. `legendre_T` is modelled in
`Verif.Gfs.LegendreMatsubara`.
-/

namespace Verif.Legendre
open Polynomial

/-! ## Model -/

/-- `class legendre_generator`, legendre.hpp:42-46 -/
structure Gen (K : Type) where
  x : K
  n : ℕ
  a0 : K
  a1 : K

/-- `cyclicArray[i]` -/
def Gen.get {K : Type} (g : Gen K) (i : ℕ) : K := if i = 0 then g.a0 else g.a1

/-- `reset`, legendre.hpp:61-66 -/
def Gen.reset {K : Type} [One K] (x : K) : Gen K := ⟨x, 0, 1, x⟩

/-- `next`, legendre.hpp:49-59: value and new state -/
def Gen.next {K : Type} [Field K] (g : Gen K) : K × Gen K :=
  if g.n > 1 then
    let eo := g.n % 2
    let v := ((2 * g.n - 1 : ℕ) * g.x * g.get (1 - eo) - (g.n - 1 : ℕ) * g.get eo) / g.n
    (v, if eo = 0 then { g with n := g.n + 1, a0 := v } else { g with n := g.n + 1, a1 := v })
  else (g.get g.n, { g with n := g.n + 1 })

/-- the values of the first `k` calls -/
def Gen.values {K : Type} [Field K] : ℕ → Gen K → List K
  | 0, _ => []
  | k + 1, g => g.next.1 :: Gen.values k g.next.2

/-- first loop of `legendre_t`, legendre.cpp:52: `for (i = l+p-1; (i > l-p+1) && (i > 1); i--) f *= i`; `i` counts the steps
still possible -/
noncomputable def mulLoop (low : ℤ) : ℕ → ℝ → ℝ
  | 0, f => f
  | i + 1, f => if ((i + 1 : ℕ) : ℤ) > low ∧ i + 1 > 1 then mulLoop low i (f * (i + 1 : ℕ)) else f
/-- second loop, legendre.cpp:53: `for (i = p-1; i > 1; i--) f /= i` -/
noncomputable def divLoop : ℕ → ℝ → ℝ
  | 0, f => f
  | i + 1, f => if i + 1 > 1 then divLoop i (f / (i + 1 : ℕ)) else f

/-- `legendre_t`, legendre.cpp:42-56, without the assertion (`NDEBUG`): for `p ≥ 0`, `l ≥ 0`. -/
noncomputable def legendreT (l p : ℕ) : ℝ :=
  if (l + p) % 2 = 0 ∨ p > l + 1 then 0
  else (-1) ^ p * 2 * Real.sqrt (2 * l + 1) * divLoop (p - 1) (mulLoop ((l : ℤ) - p + 1) (l + p - 1) 1)

/-- `evaluate`, mesh/legendre.hpp:169-174, with `n` coefficients `f` -/
noncomputable def evaluate (beta : ℝ) (n : ℕ) (f : ℕ → ℂ) (tau : ℝ) : ℂ :=
  (((Gen.reset (2 * tau / beta - 1)).values n).mapIdx fun (l : ℕ) (v : ℝ) => f l * (Real.sqrt (2 * l + 1) : ℂ) * (v : ℂ) / (beta : ℂ)).sum

/-- `get_tail`, functions/legendre.cpp:34-45: row `p` -/
noncomputable def getTail (beta : ℝ) (n : ℕ) (f : ℕ → ℂ) (p : ℕ) : ℂ :=
  (List.range n).foldl (fun t l => t + ((legendreT l p / beta ^ p : ℝ) : ℂ) * f l) 0

/-- `enforce_discontinuity`, functions/legendre.cpp:48-62: the new coefficients -/
noncomputable def enforceDisc (beta : ℝ) (n : ℕ) (f : ℕ → ℂ) (disc : ℝ) : ℕ → ℂ :=
  let t : ℕ → ℝ := fun l => legendreT l 1 / beta
  let norm := (List.range n).foldl (fun s l => s + t l * t l) 0
  let corr := (List.range n).foldl (fun s l => s + (t l : ℂ) * f l) 0
  fun l => f l + ((disc : ℂ) - corr) * (t l : ℂ) / (norm : ℂ)

/-! ## Specification -/

/-- Legendre polynomials by the formula of Rodrigues -/
noncomputable def P (K : Type) [Field K] (n : ℕ) : K[X] := C (1 / (2 ^ n * (n.factorial : K))) * derivative^[n] ((X ^ 2 - 1) ^ n)

/-- the function of imaginary time with Legendre coefficients `f`, as a polynomial in `tau` -/
noncomputable def gTau (beta : ℝ) (n : ℕ) (f : ℕ → ℂ) : ℂ[X] :=
  ∑ l ∈ Finset.range n, C (f l * (Real.sqrt (2 * l + 1) : ℂ) / (beta : ℂ)) * (P ℂ l).comp (C (2 / (beta : ℂ)) * X - 1)

/-! ## Proofs -/

section Rodrigues
variable {K : Type} [Field K]

variable (K) in
noncomputable def u : K[X] := X ^ 2 - 1

theorem deriv_u (n : ℕ) : derivative (u K ^ (n + 1)) = ((2 * (n + 1) : ℕ) : K[X]) * (u K ^ n * X) := by
  unfold u
  rw [derivative_pow]
  simp
  ring

theorem R_succ (n : ℕ) : derivative^[n + 1] ((u K) ^ (n + 1)) =
    (2 * ((n : K[X]) + 1)) * (derivative^[n] ((u K) ^ n) * X + (n : K[X]) * derivative^[n - 1] ((u K) ^ n)) := by
  rw [Function.iterate_succ_apply, deriv_u, iterate_derivative_natCast_mul, iterate_derivative_mul_X]
  simp

theorem T_succ (n : ℕ) : derivative^[n + 1] ((u K) ^ (n + 2)) =
    (2 * ((n : K[X]) + 2)) * (derivative^[n] ((u K) ^ (n + 1)) * X + (n : K[X]) * derivative^[n - 1] ((u K) ^ (n + 1))) := by
  rw [Function.iterate_succ_apply, deriv_u, iterate_derivative_natCast_mul, iterate_derivative_mul_X]
  simp only [nsmul_eq_mul]
  push_cast
  ring

theorem T_succ' (n : ℕ) : derivative^[n + 1] ((u K) ^ (n + 2)) =
    (derivative^[n + 1] ((u K) ^ (n + 1)) * X + ((n : K[X]) + 1) * derivative^[n] ((u K) ^ (n + 1))) * X +
    ((n : K[X]) + 1) * (derivative^[n] ((u K) ^ (n + 1)) * X + (n : K[X]) * derivative^[n - 1] ((u K) ^ (n + 1))) -
    derivative^[n + 1] ((u K) ^ (n + 1)) := by
  have h : (u K) ^ (n + 2) = (u K) ^ (n + 1) * X * X - (u K) ^ (n + 1) := by unfold u; ring
  rw [h, iterate_derivative_sub, iterate_derivative_mul_X, iterate_derivative_mul_X, Nat.add_sub_cancel, iterate_derivative_mul_X]
  simp
  ring

theorem R_rec (n : ℕ) : derivative^[n + 2] ((u K) ^ (n + 2)) =
    2 * (2 * (n : K[X]) + 3) * X * derivative^[n + 1] ((u K) ^ (n + 1)) - 4 * ((n : K[X]) + 1) ^ 2 * derivative^[n] ((u K) ^ n) := by
  rcases n with _ | n
  · have h2 := R_succ (K := K) 1
    have h1 := R_succ (K := K) 0
    simp at h1 h2 ⊢
    rw [h2, h1]
    unfold u
    ring
  · have h3 := R_succ (K := K) (n + 2)
    have h2 := R_succ (K := K) (n + 1)
    have ht := T_succ (K := K) n
    have ht' := T_succ' (K := K) n
    simp only [show n + 2 - 1 = n + 1 from rfl, show n + 1 - 1 = n from rfl] at h2 h3
    push_cast at *
    generalize derivative^[n + 2 + 1] ((u K) ^ (n + 2 + 1)) = R3 at *
    change _ = 2 * (2 * ((n : K[X]) + 1) + 3) * X * derivative^[n + 2] ((u K) ^ (n + 2)) - _
    change derivative^[n + 2] ((u K) ^ (n + 2)) = _ at h2
    change R3 = _
    generalize derivative^[n + 2] ((u K) ^ (n + 2)) = R2 at *
    generalize derivative^[n + 1] ((u K) ^ (n + 1)) = R1 at *
    generalize derivative^[n + 1] ((u K) ^ (n + 2)) = T2 at *
    generalize derivative^[n] ((u K) ^ (n + 1)) = T1 at *
    generalize derivative^[n - 1] ((u K) ^ (n + 1)) = V at *
    generalize (n : K[X]) = m at *
    linear_combination h3 + 2 * (m + 2) * (2 * (m + 2) * ht' - (m + 1) * ht - X * h2)

theorem P_zero : P K 0 = 1 := by simp [P]

theorem P_one [CharZero K] : P K 1 = X := by
  simp [P]
  rw [show (1 + 1 : K[X]) = C 2 by rw [map_ofNat]; norm_num, ← mul_assoc, ← C_mul]
  simp

/-- the recurrence of the generator -/
theorem P_rec [CharZero K] (n : ℕ) (x : K) :
    (P K (n + 2)).eval x = (((2 * (n + 2) - 1 : ℕ) : K) * x * (P K (n + 1)).eval x - ((n + 2 - 1 : ℕ) : K) * (P K n).eval x) / ((n + 2 : ℕ) : K) := by
  have hf : ∀ m : ℕ, ((m.factorial : ℕ) : K) ≠ 0 := fun m => by exact_mod_cast Nat.factorial_ne_zero m
  have h2 : (2 : K) ≠ 0 := two_ne_zero
  have hn1 : (n : K) + 1 ≠ 0 := by exact_mod_cast Nat.succ_ne_zero n
  have hn2 : (n : K) + 2 ≠ 0 := by exact_mod_cast Nat.succ_ne_zero (n + 1)
  have e1 : (2 * (n + 2) - 1 : ℕ) = 2 * n + 3 := by omega
  have e2 : (n + 2 - 1 : ℕ) = n + 1 := by omega
  rw [e1, e2]
  simp only [P, show (X : K[X]) ^ 2 - 1 = u K from rfl, eval_mul, eval_C, R_rec]
  simp only [eval_sub, eval_mul, eval_X, eval_add, eval_pow, eval_natCast, eval_ofNat, eval_one]
  generalize eval x (derivative^[n + 1] (u K ^ (n + 1))) = A
  generalize eval x (derivative^[n] (u K ^ n)) = B
  have hfn := hf n
  rw [Nat.factorial_succ (n + 1), Nat.factorial_succ n]
  push_cast
  have hn2' : (n : K) + 1 + 1 ≠ 0 := by rw [add_assoc]; norm_num; exact hn2
  field_simp
  ring

end Rodrigues

/-! ### the generator -/

/-- invariant of the generator after `n` calls -/
def Inv {K : Type} [Field K] (x : K) (g : Gen K) : Prop :=
  g.x = x ∧ (g.n ≤ 1 → g.a0 = (P K 0).eval x ∧ g.a1 = (P K 1).eval x) ∧
    (∀ m, g.n = m + 2 → g.get (m % 2) = (P K m).eval x ∧ g.get ((m + 1) % 2) = (P K (m + 1)).eval x)

theorem next_spec {K : Type} [Field K] [CharZero K] {x : K} {g : Gen K} (h : Inv x g) :
    g.next.1 = (P K g.n).eval x ∧ g.next.2.n = g.n + 1 ∧ Inv x g.next.2 := by
  obtain ⟨hx, h1, h2⟩ := h
  by_cases hn : g.n > 1
  · obtain ⟨m, hm⟩ : ∃ m, g.n = m + 2 := ⟨g.n - 2, by omega⟩
    obtain ⟨ha, hb⟩ := h2 m hm
    have heo : g.n % 2 = m % 2 := by omega
    have hv : ((2 * g.n - 1 : ℕ) * g.x * g.get (1 - g.n % 2) - (g.n - 1 : ℕ) * g.get (g.n % 2)) / g.n = (P K g.n).eval x := by
      have e : 1 - g.n % 2 = (m + 1) % 2 := by omega
      rw [e, heo, ha, hb, hm, P_rec, hx]
    unfold Gen.next
    rw [if_pos hn]
    refine ⟨hv, ?_, ?_⟩
    · simp only
      split <;> rfl
    · simp only [hv]
      rcases Nat.mod_two_eq_zero_or_one m with hm2 | hm2
      · rw [heo, if_pos hm2]
        refine ⟨hx, fun hc => ?_, ?_⟩
        · simp only at hc; omega
        · intro k hk
          simp only at hk
          obtain rfl : k = m + 1 := by omega
          have e1 : (m + 1) % 2 = 1 := by omega
          have e2 : (m + 1 + 1) % 2 = 0 := by omega
          rw [e1] at hb
          rw [e1, e2]
          simp only [Gen.get, one_ne_zero, if_false, if_true] at hb ⊢
          exact ⟨hb, by rw [hm]⟩
      · rw [heo, if_neg (by omega)]
        refine ⟨hx, fun hc => ?_, ?_⟩
        · simp only at hc; omega
        · intro k hk
          simp only at hk
          obtain rfl : k = m + 1 := by omega
          have e1 : (m + 1) % 2 = 0 := by omega
          have e2 : (m + 1 + 1) % 2 = 1 := by omega
          rw [e1] at hb
          rw [e1, e2]
          simp only [Gen.get, one_ne_zero, if_false, if_true] at hb ⊢
          exact ⟨hb, by rw [hm]⟩
  · obtain ⟨ha, hb⟩ := h1 (by omega)
    unfold Gen.next
    rw [if_neg hn]
    have hcase : g.n = 0 ∨ g.n = 1 := by omega
    refine ⟨?_, rfl, hx, fun _ => ⟨ha, hb⟩, ?_⟩
    · rcases hcase with h0 | h0 <;> simp [h0, Gen.get, ha, hb]
    · intro m hm
      simp only at hm
      obtain rfl : m = 0 := by omega
      exact ⟨ha, hb⟩

theorem inv_reset {K : Type} [Field K] [CharZero K] (x : K) : Inv x (Gen.reset x) :=
  ⟨rfl, fun _ => ⟨by simp [P_zero, Gen.reset], by simp [P_one, Gen.reset]⟩, fun m hm => by simp [Gen.reset] at hm⟩

theorem values_spec {K : Type} [Field K] [CharZero K] {x : K} (k : ℕ) : ∀ g : Gen K, Inv x g →
    g.values k = (List.range k).map (fun i => (P K (g.n + i)).eval x) := by
  induction k with
  | zero => intro g _; rfl
  | succ k ih =>
    intro g hg
    obtain ⟨h1, h2, h3⟩ := next_spec hg
    rw [Gen.values, ih _ h3, h1, h2, List.range_succ_eq_map]
    simp only [List.map_cons, List.map_map, add_zero]
    congr 1
    apply List.map_congr_left
    intro i _
    simp only [Function.comp, Nat.succ_eq_add_one]
    congr 2
    ring

/-- **C58, generator.** After `reset(x)` the calls of `next` return the Legendre polynomials `P_0(x), P_1(x), …`, for every
`x` and every number of calls. -/
theorem C58_generator {K : Type} [Field K] [CharZero K] (x : K) (k : ℕ) :
    (Gen.reset x).values k = (List.range k).map (fun i => (P K i).eval x) := by
  rw [values_spec k _ (inv_reset x)]
  simp [Gen.reset]

/-- `P_4(1/2) = -37/128` -/
example : (Gen.reset (1 / 2 : ℚ)).values 5 = [1, 1 / 2, -1 / 8, -7 / 16, -37 / 128] := by decide +kernel

/-! ### boundary values of the derivatives -/

section Boundary
variable {K : Type} [Field K] [CharZero K]

theorem iter_deriv_eval (p : K[X]) (m : ℕ) (r : K) : (derivative^[m] p).eval r = (m.factorial : K) * (taylor r p).coeff m := by
  rw [taylor_coeff, ← factorial_smul_hasseDeriv]
  simp

theorem iterate_derivative_add' (p : K[X]) (k l : ℕ) : derivative^[k] (derivative^[l] p) = derivative^[l + k] p := by
  rw [add_comm, Function.iterate_add_apply]

theorem taylor_u (l : ℕ) (e : K) (he : e * e = 1) : taylor e ((X ^ 2 - 1 : K[X]) ^ l) = X ^ l * (X + C (2 * e)) ^ l := by
  rw [taylor_pow, ← mul_pow]
  congr 1
  rw [map_sub, taylor_pow, taylor_X, taylor_one]
  have : (C e : K[X]) * C e = 1 := by rw [← C_mul, he, C_1]
  rw [C_mul, map_ofNat, C_1]
  linear_combination this

/-- derivatives of the Legendre polynomials at `e = ±1` -/
theorem P_deriv_eval (l k : ℕ) (hk : k ≤ l) (e : K) (he : e * e = 1) :
    (derivative^[k] (P K l)).eval e = e ^ (l - k) * (((l + k).factorial : K) / (2 ^ k * k.factorial * (l - k).factorial)) := by
  have hf : ∀ m : ℕ, ((m.factorial : ℕ) : K) ≠ 0 := fun m => by exact_mod_cast Nat.factorial_ne_zero m
  rw [P, iterate_derivative_C_mul, iterate_derivative_add', eval_mul, eval_C, iter_deriv_eval, taylor_u l e he, add_comm l k,
    coeff_X_pow_mul, coeff_X_add_C_pow]
  have hch : ((l.choose k : ℕ) : K) = (l.factorial : K) / (k.factorial * (l - k).factorial) := by
    rw [eq_div_iff (mul_ne_zero (hf _) (hf _))]
    exact_mod_cast by rw [← mul_assoc]; exact Nat.choose_mul_factorial_mul_factorial hk
  rw [hch, mul_pow]
  have h2 : (2 : K) ^ l = 2 ^ k * 2 ^ (l - k) := by rw [← pow_add, Nat.add_sub_cancel' hk]
  rw [h2]
  have h3 : (2 : K) ^ k ≠ 0 := pow_ne_zero _ two_ne_zero
  have h4 : (2 : K) ^ (l - k) ≠ 0 := pow_ne_zero _ two_ne_zero
  have h5 := hf l
  have h6 := hf k
  have h7 := hf (l - k)
  field_simp

theorem P_deriv_zero (l k : ℕ) (hk : l < k) (e : K) (he : e * e = 1) : (derivative^[k] (P K l)).eval e = 0 := by
  rw [P, iterate_derivative_C_mul, iterate_derivative_add', eval_mul, eval_C, iter_deriv_eval, taylor_u l e he, add_comm l k,
    coeff_X_pow_mul, coeff_X_add_C_pow, Nat.choose_eq_zero_of_lt hk]
  simp

end Boundary

theorem divLoop_eq (k : ℕ) : ∀ f, divLoop k f = f / (k.factorial : ℝ) := by
  induction k with
  | zero => intro f; simp [divLoop]
  | succ k ih =>
    intro f
    rw [divLoop]
    split
    · rw [ih, Nat.factorial_succ]; push_cast; rw [div_div]
    · obtain rfl : k = 0 := by omega
      simp

theorem mulLoop_eq (low : ℕ) (k : ℕ) : ∀ f, low ≤ k → mulLoop (low : ℤ) k f = f * ((k.factorial : ℝ) / (low.factorial : ℝ)) := by
  have hf : ∀ m : ℕ, ((m.factorial : ℕ) : ℝ) ≠ 0 := fun m => by exact_mod_cast Nat.factorial_ne_zero m
  induction k with
  | zero =>
    intro f hl
    obtain rfl : low = 0 := by omega
    simp [mulLoop]
  | succ k ih =>
    intro f hl
    rw [mulLoop]
    split
    · rename_i hc
      rw [ih _ (by omega), Nat.factorial_succ]
      push_cast
      ring
    · rename_i hc
      rcases eq_or_lt_of_le hl with h | h
      · rw [h, div_self (hf _), mul_one]
      · obtain ⟨rfl, rfl⟩ : k = 0 ∧ low = 0 := by omega
        simp

/-- **C58, `legendre_t`.** For every `l` and `p ≥ 1`. -/
theorem C58_coefficients (l p : ℕ) (hp : 1 ≤ p) :
    legendreT l p = if p ≤ l + 1 ∧ (l + p) % 2 = 1 then
      (-1) ^ p * 2 * Real.sqrt (2 * l + 1) * ((l + p - 1).factorial / ((p - 1).factorial * (l + 1 - p).factorial)) else 0 := by
  unfold legendreT
  by_cases h : (l + p) % 2 = 0 ∨ p > l + 1
  · rw [if_pos h, if_neg (by omega)]
  · rw [if_neg h, if_pos (by omega), divLoop_eq]
    have : ((l : ℤ) - p + 1) = ((l + 1 - p : ℕ) : ℤ) := by omega
    rw [this, mulLoop_eq _ _ _ (by omega), one_mul, div_div]
    ring

example : legendreT 4 3 = -(360 * Real.sqrt 9) := by
  rw [C58_coefficients 4 3 (by norm_num), if_pos (by norm_num)]
  norm_num [Nat.factorial]
  ring

theorem foldl_add_eq {A : Type} [AddCommMonoid A] (f : ℕ → A) (n : ℕ) : (List.range n).foldl (fun t l => t + f l) 0 = ∑ l ∈ Finset.range n, f l := by
  induction n with
  | zero => simp
  | succ n ih => rw [List.range_succ, List.foldl_append, ih, Finset.sum_range_succ]; rfl

theorem sum_mapIdx (n : ℕ) (v : ℕ → ℝ) (h : ℕ → ℝ → ℂ) :
    (((List.range n).map v).mapIdx h).sum = ∑ l ∈ Finset.range n, h l (v l) := by
  induction n with
  | zero => simp
  | succ n ih =>
    rw [List.range_succ, List.map_append, List.mapIdx_append, List.sum_append, ih, Finset.sum_range_succ]
    simp

theorem P_map (l : ℕ) (x : ℝ) : (P ℂ l).eval (x : ℂ) = (((P ℝ l).eval x : ℝ) : ℂ) := by
  have : P ℂ l = (P ℝ l).map Complex.ofRealHom := by
    rw [P, P, Polynomial.map_mul, map_C, ← iterate_derivative_map]
    simp
  rw [this, ← Complex.ofRealHom_eq_coe, eval_map, eval₂_at_apply, Complex.ofRealHom_eq_coe]

/-- **C58, evaluation.** The evaluator returns the Legendre series `Σ_l sqrt(2l+1)/beta P_l(2 tau/beta - 1) G_l`. -/
theorem C58_evaluate (beta : ℝ) (n : ℕ) (f : ℕ → ℂ) (tau : ℝ) : evaluate beta n f tau = (gTau beta n f).eval (tau : ℂ) := by
  rw [evaluate, C58_generator, sum_mapIdx, gTau, eval_finsetSum]
  apply Finset.sum_congr rfl
  intro l _
  rw [eval_mul, eval_C, eval_comp, eval_sub, eval_mul, eval_C, eval_X, eval_one, ← P_map]
  push_cast
  rw [show (2 : ℂ) / beta * tau - 1 = 2 * tau / beta - 1 by ring]
  ring

theorem iter_deriv_comp (q : ℂ[X]) (a : ℂ) (k : ℕ) :
    derivative^[k] (q.comp (C a * X - 1)) = C (a ^ k) * (derivative^[k] q).comp (C a * X - 1) := by
  induction k generalizing q with
  | zero => simp
  | succ k ih =>
    rw [Function.iterate_succ_apply, Function.iterate_succ_apply, derivative_comp]
    simp only [derivative_sub, derivative_mul, derivative_C, zero_mul, derivative_X, mul_one, zero_add, derivative_one, sub_zero]
    rw [iterate_derivative_C_mul, ih, pow_succ, C_mul]
    ring

theorem iter_deriv_gTau (beta : ℝ) (n : ℕ) (f : ℕ → ℂ) (k : ℕ) (t : ℂ) : (derivative^[k] (gTau beta n f)).eval t =
    ∑ l ∈ Finset.range n, f l * (Real.sqrt (2 * l + 1) : ℂ) / (beta : ℂ) * ((2 / (beta : ℂ)) ^ k * (derivative^[k] (P ℂ l)).eval (2 / beta * t - 1)) := by
  rw [gTau, iterate_derivative_sum, eval_finsetSum]
  apply Finset.sum_congr rfl
  intro l _
  rw [iterate_derivative_C_mul, iter_deriv_comp]
  simp [eval_comp]

/-- **C58, tail.** For every `p ≥ 1` row `p` of `get_tail` is the boundary value
`(-1)^p (G^(p-1)(0) + G^(p-1)(beta))` of the function the coefficients stand for. -/
theorem C58_tail_boundary (beta : ℝ) (hb : beta ≠ 0) (n : ℕ) (f : ℕ → ℂ) (p : ℕ) :
    getTail beta n f (p + 1) = (-1) ^ (p + 1) *
      ((derivative^[p] (gTau beta n f)).eval 0 + (derivative^[p] (gTau beta n f)).eval (beta : ℂ)) := by
  have hb' : (beta : ℂ) ≠ 0 := by exact_mod_cast hb
  rw [iter_deriv_gTau, iter_deriv_gTau, getTail, foldl_add_eq, ← Finset.sum_add_distrib, Finset.mul_sum]
  apply Finset.sum_congr rfl
  intro l _
  have e0 : 2 / (beta : ℂ) * 0 - 1 = -1 := by ring
  have e1 : 2 / (beta : ℂ) * beta - 1 = 1 := by field_simp; norm_num
  rw [e0, e1, C58_coefficients _ _ (by omega)]
  by_cases hp : p ≤ l
  · rw [P_deriv_eval l p hp (-1) (by ring), P_deriv_eval l p hp 1 (by ring), one_pow, one_mul]
    have h2 : (2 : ℂ) ^ p ≠ 0 := pow_ne_zero _ two_ne_zero
    have h3 : ((p.factorial : ℕ) : ℂ) ≠ 0 := by exact_mod_cast Nat.factorial_ne_zero p
    have h4 : (((l - p).factorial : ℕ) : ℂ) ≠ 0 := by exact_mod_cast Nat.factorial_ne_zero (l - p)
    by_cases hodd : (l + (p + 1)) % 2 = 1
    · rw [if_pos ⟨by omega, hodd⟩]
      have he : Even (l - p) := by rw [Nat.even_iff]; omega
      rw [he.neg_one_pow, show l + (p + 1) - 1 = l + p by omega, show p + 1 - 1 = p by omega, show l + 1 - (p + 1) = l - p by omega]
      push_cast
      rw [div_pow]
      field_simp
      ring
    · rw [if_neg (by omega)]
      have he : Odd (l - p) := by rw [Nat.odd_iff]; omega
      rw [he.neg_one_pow]
      simp
  · rw [P_deriv_zero l p (by omega) (-1) (by ring), P_deriv_zero l p (by omega) 1 (by ring), if_neg (by omega)]
    simp

theorem gTau_degree (beta : ℝ) (n : ℕ) (f : ℕ → ℂ) : derivative^[n] (gTau beta n f) = 0 := by
  rw [gTau, iterate_derivative_sum]
  apply Finset.sum_eq_zero
  intro l hl
  rw [iterate_derivative_C_mul, iter_deriv_comp]
  have : derivative^[n] (P ℂ l) = 0 := by
    rw [P, iterate_derivative_C_mul, iterate_derivative_add', iterate_derivative_eq_zero, mul_zero]
    have h1 : ((X ^ 2 - 1 : ℂ[X]) ^ l).natDegree ≤ l * 2 := by
      apply natDegree_pow_le_of_le
      compute_degree
    have := Finset.mem_range.mp hl
    omega
  rw [this]
  simp

/-- integration by parts of a polynomial against an exponential -/
theorem integral_exp_poly (q : ℂ[X]) (n : ℕ) (hq : derivative^[n] q = 0) (c : ℂ) (hc : c ≠ 0) (beta : ℝ) :
    ∫ t in (0 : ℝ)..beta, Complex.exp (c * t) * q.eval (t : ℂ) =
      (Complex.exp (c * beta) * ∑ j ∈ Finset.range n, (-1) ^ j * (derivative^[j] q).eval (beta : ℂ) / c ^ (j + 1)) -
      ∑ j ∈ Finset.range n, (-1) ^ j * (derivative^[j] q).eval 0 / c ^ (j + 1) := by
  set F : ℝ → ℂ := fun t => Complex.exp (c * t) * ∑ j ∈ Finset.range n, (-1) ^ j * (derivative^[j] q).eval (t : ℂ) / c ^ (j + 1) with hF
  have hder : ∀ t : ℝ, HasDerivAt F (Complex.exp (c * t) * q.eval (t : ℂ)) t := by
    intro t
    have h1 : HasDerivAt (fun z : ℂ => Complex.exp (c * z)) (Complex.exp (c * t) * c) (t : ℂ) := by
      have h := (hasDerivAt_id (t : ℂ)).const_mul c
      simp only [id, mul_one] at h
      exact h.cexp
    have h2 : HasDerivAt (fun z : ℂ => ∑ j ∈ Finset.range n, (-1) ^ j * (derivative^[j] q).eval z / c ^ (j + 1))
        (∑ j ∈ Finset.range n, (-1) ^ j * (derivative^[j + 1] q).eval (t : ℂ) / c ^ (j + 1)) (t : ℂ) := by
      apply HasDerivAt.fun_sum
      intro j _
      have h := ((derivative^[j] q).hasDerivAt (t : ℂ)).const_mul ((-1 : ℂ) ^ j)
      rw [← Function.iterate_succ_apply' derivative j q] at h
      exact h.div_const _
    have h3 := (h1.mul h2).comp_ofReal
    convert! h3 using 1
    have htel : ∀ m, c * (∑ j ∈ Finset.range m, (-1) ^ j * (derivative^[j] q).eval (t : ℂ) / c ^ (j + 1)) +
        (∑ j ∈ Finset.range m, (-1) ^ j * (derivative^[j + 1] q).eval (t : ℂ) / c ^ (j + 1)) =
        q.eval (t : ℂ) - (-1) ^ m * (derivative^[m] q).eval (t : ℂ) / c ^ m := by
      intro m
      induction m with
      | zero => simp
      | succ m ih =>
        rw [Finset.sum_range_succ, Finset.sum_range_succ, mul_add]
        have e : c * ((-1) ^ m * (derivative^[m] q).eval (t : ℂ) / c ^ (m + 1)) = (-1) ^ m * (derivative^[m] q).eval (t : ℂ) / c ^ m := by
          rw [pow_succ]; field_simp
        rw [e]
        have e2 : (-1 : ℂ) ^ (m + 1) * (derivative^[m + 1] q).eval (t : ℂ) / c ^ (m + 1) = - ((-1) ^ m * (derivative^[m + 1] q).eval (t : ℂ) / c ^ (m + 1)) := by
          rw [pow_succ (-1 : ℂ)]; ring
        rw [e2]
        linear_combination ih
    have := htel n
    rw [hq] at this
    simp only [eval_zero, mul_zero, zero_div, sub_zero] at this
    rw [← this]
    ring
  have hcont : Continuous (fun t : ℝ => Complex.exp (c * t) * q.eval (t : ℂ)) := by
    apply Continuous.mul
    · fun_prop
    · exact (continuous_iff_continuousAt.mpr fun z => (q.hasDerivAt z).continuousAt).comp Complex.continuous_ofReal
  rw [intervalIntegral.integral_eq_sub_of_hasDerivAt (fun t _ => hder t) (hcont.intervalIntegrable _ _)]
  simp [hF]

/-- **C58, tail and transform.** At every fermionic Matsubara frequency the transform of the function the coefficients stand
for is exactly the sum over the rows `1, …, n` of `get_tail` divided by powers of the frequency. -/
theorem C58_tail_transform_partial (beta : ℝ) (hb : 0 < beta) (n : ℕ) (f : ℕ → ℂ) (k : ℤ) :
    let w : ℂ := Complex.I * (Real.pi * (2 * k + 1) / beta : ℝ);
    ∫ t in (0 : ℝ)..beta, Complex.exp (w * t) * evaluate beta n f t = ∑ p ∈ Finset.range n, getTail beta n f (p + 1) / w ^ (p + 1) := by
  intro w
  have hw : w ≠ 0 := by
    have hk : (2 * (k : ℝ) + 1) ≠ 0 := by
      have : (2 * k + 1 : ℤ) ≠ 0 := by omega
      exact_mod_cast this
    have : Real.pi * (2 * k + 1) / beta ≠ 0 := div_ne_zero (mul_ne_zero Real.pi_ne_zero hk) hb.ne'
    exact mul_ne_zero Complex.I_ne_zero (by exact_mod_cast this)
  have hexp : Complex.exp (w * beta) = -1 := by
    have hb' : (beta : ℂ) ≠ 0 := by exact_mod_cast hb.ne'
    have : w * beta = Real.pi * Complex.I + k * (2 * Real.pi * Complex.I) := by
      simp only [w]
      push_cast
      field_simp
      ring
    rw [this, Complex.exp_add, Complex.exp_pi_mul_I, Complex.exp_int_mul_two_pi_mul_I, mul_one]
  simp only [C58_evaluate]
  rw [integral_exp_poly _ n (gTau_degree beta n f) w hw, hexp, Finset.mul_sum, ← Finset.sum_sub_distrib]
  apply Finset.sum_congr rfl
  intro p _
  rw [C58_tail_boundary beta hb.ne' n f p, pow_succ (-1 : ℂ)]
  ring

/-- **C58 fails for the zeroth moment**: the transform has no constant term (previous theorem), and `get_tail` asks for
`legendre_t(l, 0)`, which an assertion forbids and which is `2 sqrt(2l+1)` for odd `l`: with `G_1 = 1` row 0 is `2 sqrt 3`. -/
theorem C58_zeroth_moment (beta : ℝ) : getTail beta 2 (fun l => if l = 1 then 1 else 0) 0 = ((2 * Real.sqrt 3 : ℝ) : ℂ) ∧ 2 * Real.sqrt 3 ≠ 0 := by
  have h1 : legendreT 1 0 = 2 * Real.sqrt 3 := by
    unfold legendreT
    rw [if_neg (by norm_num)]
    simp [divLoop, mulLoop]
    norm_num
  constructor
  · simp [getTail, List.range_succ, h1]
  · positivity

/-! ### the discontinuity -/

theorem norm_pos (beta : ℝ) (hb : beta ≠ 0) (n : ℕ) (hn : 1 ≤ n) :
    0 < ∑ l ∈ Finset.range n, legendreT l 1 / beta * (legendreT l 1 / beta) := by
  apply Finset.sum_pos'
  · intro l _
    exact mul_self_nonneg _
  · refine ⟨0, Finset.mem_range.mpr hn, ?_⟩
    apply mul_self_pos.mpr
    apply div_ne_zero _ hb
    rw [C58_coefficients 0 1 le_rfl]
    simp

/-- **C58, discontinuity.** After `enforce_discontinuity` the first moment computed by `get_tail` is exactly the requested
value, and `-(G(0) - G(0⁻)) = -(G(0) + G(beta))` is the requested value for the function itself; for every number of
coefficients but zero and all data. -/
theorem C58_discontinuity (beta : ℝ) (hb : beta ≠ 0) (n : ℕ) (hn : 1 ≤ n) (f : ℕ → ℂ) (disc : ℝ) :
    getTail beta n (enforceDisc beta n f disc) 1 = disc ∧
    -(evaluate beta n (enforceDisc beta n f disc) 0 + evaluate beta n (enforceDisc beta n f disc) beta) = disc := by
  have h1 : getTail beta n (enforceDisc beta n f disc) 1 = disc := by
    have hpos := norm_pos beta hb n hn
    rw [getTail, foldl_add_eq]
    unfold enforceDisc
    simp only [foldl_add_eq, pow_one]
    set N := ∑ l ∈ Finset.range n, legendreT l 1 / beta * (legendreT l 1 / beta) with hN
    set Cr := ∑ l ∈ Finset.range n, ((legendreT l 1 / beta : ℝ) : ℂ) * f l with hC
    have hN' : (N : ℂ) ≠ 0 := by exact_mod_cast hpos.ne'
    have hsum : ∑ l ∈ Finset.range n, ((legendreT l 1 / beta : ℝ) : ℂ) * (f l + ((disc : ℂ) - Cr) * ((legendreT l 1 / beta : ℝ) : ℂ) / (N : ℂ)) =
        Cr + ((disc : ℂ) - Cr) / (N : ℂ) * ∑ l ∈ Finset.range n, ((legendreT l 1 / beta : ℝ) : ℂ) * ((legendreT l 1 / beta : ℝ) : ℂ) := by
      rw [hC, Finset.mul_sum, ← Finset.sum_add_distrib]
      apply Finset.sum_congr rfl
      intro l _
      ring
    rw [hsum]
    have hNc : ∑ l ∈ Finset.range n, ((legendreT l 1 / beta : ℝ) : ℂ) * ((legendreT l 1 / beta : ℝ) : ℂ) = (N : ℂ) := by
      rw [hN]; push_cast; rfl
    rw [hNc, div_mul_cancel₀ _ hN']
    ring
  refine ⟨h1, ?_⟩
  have h2 := C58_tail_boundary beta hb n (enforceDisc beta n f disc) 0
  rw [zero_add, h1] at h2
  rw [C58_evaluate, C58_evaluate, h2]
  simp

/-- without coefficients nothing can be imposed (the code divides zero by zero) -/
theorem C58_no_coefficients (beta : ℝ) (f : ℕ → ℂ) (disc : ℝ) : getTail beta 0 (enforceDisc beta 0 f disc) 1 = 0 := by
  simp [getTail]

/-- one coefficient `G_0 = 5` at `beta = 2`: imposing 1 gives `G_0 = -1`, the function `-1/2` -/
example : enforceDisc 2 1 (fun _ => 5) 1 0 = -1 := by
  have h : legendreT 0 1 = -2 := by
    rw [C58_coefficients 0 1 le_rfl]
    simp
  simp [enforceDisc, List.range_succ, h]

end Verif.Legendre
