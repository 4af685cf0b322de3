import Verif.Utility.Legendre
import Verif.Gfs.FourierMatsubara
import Mathlib.MeasureTheory.Integral.IntervalIntegral.TrapezoidalRule
import Mathlib.MeasureTheory.Integral.IntervalIntegral.IntegrationByParts
import Mathlib.Analysis.SpecialFunctions.Pow.Real

/-!
# Transformation between Legendre coefficients, Matsubara frequencies and imaginary time

Source: `legendre_T` and `mod_cyl_bessel_i` in `/repo/c++/triqs/utility/legendre.cpp:23-40, 58-61`,
`/repo/c++/triqs/gfs/transform/legendre_matsubara.hpp:36-119`.

Simplifications: exact numbers, one component of the target. The Bessel functions of boost are parameters; the theorems assume that
they are given by the integral of Poisson for the orders `l + 1/2` and positive arguments (`PoissonJ`, `PoissonI`). The inverse
transformation from Matsubara frequencies, which calls `fourier` and then the one modelled here, is not modelled.
-/

namespace Verif.LegMat

open Polynomial Verif.Legendre Verif.Matsubara

/-! ## Model -/

/-- `legendre_T`, legendre.cpp:23-40; `J` is `boost::math::cyl_bessel_j` -/
noncomputable def legendreTnl (J : ℝ → ℝ → ℝ) (n : ℤ) (l : ℕ) : ℂ :=
  let neg := decide (n < 0);
  let k : ℤ := if neg then |n + 1| else n;
  let res : ℂ := ((Real.sqrt (2 * l + 1) / Real.sqrt (2 * k + 1) : ℝ) : ℂ) * Complex.exp (Complex.I * (k + 1 / 2) * Real.pi) * Complex.I ^ l *
    ((J (l + 1 / 2) ((k + 1 / 2) * Real.pi) : ℝ) : ℂ);
  if neg then (starRingEnd ℂ) res else res

/-- `mod_cyl_bessel_i`, legendre.cpp:58-61; `I` is `boost::math::cyl_bessel_i` -/
noncomputable def modCylBesselI (I : ℝ → ℝ → ℝ) (n : ℕ) (x : ℝ) : ℝ :=
  if x = 0 then (if n = 0 then 1 else 0) else Real.sqrt (Real.pi / (2 * x)) * I (n + 1 / 2) x

/-- `legendre_matsubara_direct` to Matsubara frequencies, legendre_matsubara.hpp:38-50: the value at index `n` from `N` coefficients -/
noncomputable def directFreq (J : ℝ → ℝ → ℝ) (N : ℕ) (gl : ℕ → ℂ) (n : ℤ) : ℂ :=
  (List.range N).foldl (fun g l => g + legendreTnl J n l * gl l) 0

/-- the loop over the coefficients at one point, legendre_matsubara.hpp:66-67 -/
noncomputable def directLoop (beta : ℝ) (gl : ℕ → ℂ) : List ℕ → Gen ℝ → ℂ → ℂ
  | [], _, g => g
  | l :: ls, L, g => directLoop beta gl ls L.next.2 (g + (Real.sqrt (2 * l + 1) / beta : ℝ) * gl l * (L.next.1 : ℂ))

/-- `legendre_matsubara_direct` to imaginary time, legendre_matsubara.hpp:56-69; `beta` is that of the imaginary-time mesh -/
noncomputable def directTau (beta : ℝ) (N : ℕ) (gl : ℕ → ℂ) (tau : ℝ) : ℂ := directLoop beta gl (List.range N) (Gen.reset (2 * tau / beta - 1)) 0

/-- the loop over the coefficients at the point with value `g`, legendre_matsubara.hpp:115-116 -/
noncomputable def inverseLoop (coef : ℝ) (g : ℂ) : List ℕ → Gen ℝ → (ℕ → ℂ) → (ℕ → ℂ)
  | [], _, gl => gl
  | l :: ls, L, gl => inverseLoop coef g ls L.next.2 (Function.update gl l (gl l + ((coef * Real.sqrt (2 * l + 1) * L.next.1 : ℝ) : ℂ) * g))

/-- `legendre_matsubara_inverse` from imaginary time, legendre_matsubara.hpp:96-119: `N + 1` points, `Nl` coefficients -/
noncomputable def inverseTau (beta : ℝ) (N Nl : ℕ) (gt : ℕ → ℂ) : ℕ → ℂ := fun l =>
  (List.range (N + 1)).foldl (fun gl t =>
    inverseLoop (if t = 0 ∨ t = N then 0.5 else 1) (gt t) (List.range Nl) (Gen.reset (2 * Fourier.tauPt beta N t / beta - 1)) gl) (fun _ => 0) l *
    ((beta / N : ℝ) : ℂ)

/-! ## Specification -/

/-- Bessel functions of the first kind of the orders `l + 1/2`: integral of Poisson -/
def PoissonJ (J : ℝ → ℝ → ℝ) : Prop := ∀ (l : ℕ) (x : ℝ), 0 < x →
  J (l + 1 / 2) x = (x / 2) ^ ((l : ℝ) + 1 / 2) / (Real.sqrt Real.pi * l.factorial) * ∫ t in (-1 : ℝ)..1, (1 - t ^ 2) ^ l * Real.cos (x * t)

/-- modified Bessel functions of the first kind of the orders `l + 1/2`: integral of Poisson -/
def PoissonI (I : ℝ → ℝ → ℝ) : Prop := ∀ (l : ℕ) (x : ℝ), 0 < x →
  I (l + 1 / 2) x = (x / 2) ^ ((l : ℝ) + 1 / 2) / (Real.sqrt Real.pi * l.factorial) * ∫ t in (-1 : ℝ)..1, (1 - t ^ 2) ^ l * Real.exp (x * t)

/-- Legendre coefficient of a function of imaginary time -/
noncomputable def coefficient (beta : ℝ) (l : ℕ) (g : ℝ → ℂ) : ℂ :=
  Real.sqrt (2 * l + 1) * ∫ t in (0 : ℝ)..beta, (((P ℝ l).eval (2 * t / beta - 1) : ℝ) : ℂ) * g t

/-! ## Proofs -/

theorem cont_eval (q : ℂ[X]) : Continuous fun t : ℝ => q.eval (t : ℂ) := (continuous_iff_continuousAt.mpr fun z => (q.hasDerivAt z).continuousAt).comp Complex.continuous_ofReal

theorem cont_exp (z : ℂ) : Continuous fun t : ℝ => Complex.exp (z * t) := by fun_prop

/-- integration by parts -/
theorem parts (z : ℂ) (q : ℂ[X]) : ∫ t in (-1 : ℝ)..1, Complex.exp (z * t) * (derivative q).eval (t : ℂ) =
    Complex.exp z * q.eval 1 - Complex.exp (-z) * q.eval (-1) - z * ∫ t in (-1 : ℝ)..1, Complex.exp (z * t) * q.eval (t : ℂ) := by
  have hder : ∀ t : ℝ, HasDerivAt (fun t : ℝ => Complex.exp (z * t) * q.eval (t : ℂ))
      (z * (Complex.exp (z * t) * q.eval (t : ℂ)) + Complex.exp (z * t) * (derivative q).eval (t : ℂ)) t := by
    intro t
    have h1 : HasDerivAt (fun w : ℂ => Complex.exp (z * w)) (Complex.exp (z * t) * z) (t : ℂ) := by
      have h := (hasDerivAt_id (t : ℂ)).const_mul z
      simp only [id, mul_one] at h
      exact h.cexp
    have h2 := (h1.mul (q.hasDerivAt (t : ℂ))).comp_ofReal
    convert! h2 using 1
    ring
  have i1 : IntervalIntegrable (fun t : ℝ => z * (Complex.exp (z * t) * q.eval (t : ℂ))) MeasureTheory.volume (-1) 1 :=
    (continuous_const.mul ((cont_exp z).mul (cont_eval q))).intervalIntegrable _ _
  have i2 : IntervalIntegrable (fun t : ℝ => Complex.exp (z * t) * (derivative q).eval (t : ℂ)) MeasureTheory.volume (-1) 1 :=
    ((cont_exp z).mul (cont_eval _)).intervalIntegrable _ _
  have := intervalIntegral.integral_eq_sub_of_hasDerivAt (fun t _ => hder t) (i1.add i2)
  rw [intervalIntegral.integral_add i1 i2, intervalIntegral.integral_const_mul] at this
  rw [eq_sub_iff_add_eq, add_comm, this]
  simp

theorem boundary (l j : ℕ) (hj : j < l) (e : ℂ) (he : e * e = 1) : (derivative^[j] ((X ^ 2 - 1 : ℂ[X]) ^ l)).eval e = 0 := by
  rw [iter_deriv_eval, taylor_u l e he, coeff_X_pow_mul', if_neg (by omega), mul_zero]

theorem iter_parts (z : ℂ) (l k : ℕ) (hk : k ≤ l) :
    ∫ t in (-1 : ℝ)..1, Complex.exp (z * t) * (derivative^[k] ((X ^ 2 - 1 : ℂ[X]) ^ l)).eval (t : ℂ) =
      (-z) ^ k * ∫ t in (-1 : ℝ)..1, Complex.exp (z * t) * ((X ^ 2 - 1 : ℂ[X]) ^ l).eval (t : ℂ) := by
  induction k with
  | zero => simp
  | succ k ih =>
    rw [Function.iterate_succ_apply', parts, boundary l k (by omega) 1 (by ring), boundary l k (by omega) (-1) (by ring), ih (by omega), pow_succ]
    ring

/-- transform of a Legendre polynomial with an exponential -/
theorem exp_P (z : ℂ) (l : ℕ) : ∫ t in (-1 : ℝ)..1, Complex.exp (z * t) * (P ℂ l).eval (t : ℂ) =
    z ^ l / (2 ^ l * l.factorial) * ∫ t in (-1 : ℝ)..1, Complex.exp (z * t) * (((1 - t ^ 2) ^ l : ℝ) : ℂ) := by
  have e1 : ∀ t : ℝ, Complex.exp (z * t) * (P ℂ l).eval (t : ℂ) =
      (1 / (2 ^ l * (l.factorial : ℂ))) * (Complex.exp (z * t) * (derivative^[l] ((X ^ 2 - 1 : ℂ[X]) ^ l)).eval (t : ℂ)) := by
    intro t
    rw [P, eval_mul, eval_C]
    ring
  have e2 : ∀ t : ℝ, Complex.exp (z * t) * ((X ^ 2 - 1 : ℂ[X]) ^ l).eval (t : ℂ) = (-1) ^ l * (Complex.exp (z * t) * (((1 - t ^ 2) ^ l : ℝ) : ℂ)) := by
    intro t
    simp only [eval_pow, eval_sub, eval_X, eval_one]
    push_cast
    rw [show ((t : ℂ) ^ 2 - 1) = (-1) * (1 - (t : ℂ) ^ 2) by ring, mul_pow]
    ring
  simp only [e1]
  rw [intervalIntegral.integral_const_mul, iter_parts z l l le_rfl]
  simp only [e2]
  rw [intervalIntegral.integral_const_mul, ← mul_assoc, ← mul_assoc]
  congr 1
  rw [neg_pow z]
  have : ((-1 : ℂ) ^ l) * (-1) ^ l = 1 := by rw [← mul_pow]; simp
  linear_combination (z ^ l / (2 ^ l * l.factorial)) * this

theorem scale (beta : ℝ) (hb : 0 < beta) (g : ℝ → ℂ) : ∫ t in (0 : ℝ)..beta, g (2 * t / beta - 1) = (beta / 2 : ℝ) * ∫ x in (-1 : ℝ)..1, g x := by
  have h := intervalIntegral.integral_comp_mul_sub (a := 0) (b := beta) (c := 2 / beta) g (by positivity) 1
  rw [show (2 / beta * 0 - 1 : ℝ) = -1 by ring, show (2 / beta * beta - 1 : ℝ) = 1 by field_simp; ring] at h
  simp only [show ∀ t : ℝ, 2 * t / beta - 1 = 2 / beta * t - 1 from fun t => by ring]
  rw [h, Complex.real_smul, inv_div]

/-- transform of a Legendre polynomial on `[0, beta]` -/
theorem transform_P (beta : ℝ) (hb : 0 < beta) (c : ℂ) (l : ℕ) :
    ∫ t in (0 : ℝ)..beta, Complex.exp (c * t) * (((P ℝ l).eval (2 * t / beta - 1) : ℝ) : ℂ) =
      (beta / 2 : ℝ) * (Complex.exp (c * beta / 2) * ((c * beta / 2) ^ l / (2 ^ l * l.factorial) *
        ∫ t in (-1 : ℝ)..1, Complex.exp (c * beta / 2 * t) * (((1 - t ^ 2) ^ l : ℝ) : ℂ))) := by
  have hb' : (beta : ℂ) ≠ 0 := by exact_mod_cast hb.ne'
  rw [← exp_P, ← intervalIntegral.integral_const_mul, ← scale beta hb]
  apply intervalIntegral.integral_congr
  intro t _
  simp only
  rw [← P_map, ← mul_assoc, ← Complex.exp_add]
  congr 2
  push_cast
  field_simp
  ring

theorem sin_zero (y : ℝ) (l : ℕ) : ∫ t in (-1 : ℝ)..1, (1 - t ^ 2) ^ l * Real.sin (y * t) = 0 := by
  have h := intervalIntegral.integral_comp_neg (a := -1) (b := 1) (fun t : ℝ => (1 - t ^ 2) ^ l * Real.sin (y * t))
  simp only [neg_neg, neg_sq, mul_neg, Real.sin_neg] at h
  rw [intervalIntegral.integral_neg] at h
  linarith

theorem exp_cos (y : ℝ) (l : ℕ) : ∫ t in (-1 : ℝ)..1, Complex.exp (Complex.I * y * t) * (((1 - t ^ 2) ^ l : ℝ) : ℂ) =
    ((∫ t in (-1 : ℝ)..1, (1 - t ^ 2) ^ l * Real.cos (y * t) : ℝ) : ℂ) := by
  have e : ∀ t : ℝ, Complex.exp (Complex.I * y * t) * (((1 - t ^ 2) ^ l : ℝ) : ℂ) =
      (((1 - t ^ 2) ^ l * Real.cos (y * t) : ℝ) : ℂ) + Complex.I * (((1 - t ^ 2) ^ l * Real.sin (y * t) : ℝ) : ℂ) := by
    intro t
    rw [show Complex.I * y * t = ((y * t : ℝ) : ℂ) * Complex.I by push_cast; ring, Complex.exp_mul_I, ← Complex.ofReal_cos, ← Complex.ofReal_sin]
    push_cast
    ring
  simp only [e]
  have i1 : IntervalIntegrable (fun t : ℝ => (((1 - t ^ 2) ^ l * Real.cos (y * t) : ℝ) : ℂ)) MeasureTheory.volume (-1) 1 :=
    (by fun_prop : Continuous fun t : ℝ => (((1 - t ^ 2) ^ l * Real.cos (y * t) : ℝ) : ℂ)).intervalIntegrable _ _
  have i2 : IntervalIntegrable (fun t : ℝ => Complex.I * (((1 - t ^ 2) ^ l * Real.sin (y * t) : ℝ) : ℂ)) MeasureTheory.volume (-1) 1 :=
    (by fun_prop : Continuous fun t : ℝ => Complex.I * (((1 - t ^ 2) ^ l * Real.sin (y * t) : ℝ) : ℂ)).intervalIntegrable _ _
  rw [intervalIntegral.integral_add i1 i2, intervalIntegral.integral_const_mul, intervalIntegral.integral_ofReal, intervalIntegral.integral_ofReal, sin_zero]
  simp

theorem half_pow (x : ℝ) (hx : 0 < x) (l : ℕ) : (x / 2) ^ ((l : ℝ) + 1 / 2) = (x / 2) ^ l * Real.sqrt (x / 2) := by
  rw [Real.rpow_add (by positivity), Real.rpow_natCast, Real.sqrt_eq_rpow]

/-- one non-negative frequency -/
theorem core_T (J : ℝ → ℝ → ℝ) (hJ : PoissonJ J) (k : ℤ) (hk : 0 ≤ k) (l : ℕ) :
    ((Real.sqrt (2 * l + 1) / Real.sqrt (2 * k + 1) : ℝ) : ℂ) * Complex.exp (Complex.I * (k + 1 / 2) * Real.pi) * Complex.I ^ l *
      ((J (l + 1 / 2) ((k + 1 / 2) * Real.pi) : ℝ) : ℂ) =
    Real.sqrt (2 * l + 1) / 2 * (Complex.exp (Complex.I * ((k + 1 / 2) * Real.pi : ℝ)) * ((Complex.I * ((k + 1 / 2) * Real.pi : ℝ)) ^ l / (2 ^ l * l.factorial) *
      ((∫ t in (-1 : ℝ)..1, (1 - t ^ 2) ^ l * Real.cos (((k + 1 / 2) * Real.pi) * t) : ℝ) : ℂ))) := by
  have hk' : (0 : ℝ) ≤ k := by exact_mod_cast hk
  have hy : 0 < ((k : ℝ) + 1 / 2) * Real.pi := mul_pos (by linarith) Real.pi_pos
  rw [hJ l _ hy, half_pow _ hy]
  set Cc := ∫ t in (-1 : ℝ)..1, (1 - t ^ 2) ^ l * Real.cos (((k + 1 / 2) * Real.pi) * t)
  have hs : Real.sqrt ((k + 1 / 2) * Real.pi / 2) = Real.sqrt (2 * k + 1) * Real.sqrt Real.pi / 2 := by
    rw [← Real.sqrt_mul (by linarith), show ((k : ℝ) + 1 / 2) * Real.pi / 2 = (2 * k + 1) * Real.pi / 2 ^ 2 by ring, Real.sqrt_div' _ (by norm_num), Real.sqrt_sq (by norm_num)]
  have h1 : Real.sqrt (2 * k + 1) ≠ 0 := (Real.sqrt_pos.mpr (by linarith)).ne'
  have h2 : Real.sqrt Real.pi ≠ 0 := (Real.sqrt_pos.mpr Real.pi_pos).ne'
  have h3 : (l.factorial : ℝ) ≠ 0 := by exact_mod_cast Nat.factorial_ne_zero l
  have key : Real.sqrt (2 * l + 1) / Real.sqrt (2 * k + 1) * (((k + 1 / 2) * Real.pi / 2) ^ l * Real.sqrt ((k + 1 / 2) * Real.pi / 2) / (Real.sqrt Real.pi * l.factorial) * Cc) =
      Real.sqrt (2 * l + 1) / 2 * (((k + 1 / 2) * Real.pi) ^ l / (2 ^ l * l.factorial) * Cc) := by
    rw [hs, div_pow]
    field_simp
  rw [show Complex.I * (k + 1 / 2) * Real.pi = Complex.I * ((k + 1 / 2) * Real.pi : ℝ) by push_cast; ring, mul_pow]
  have key' := congrArg (fun r : ℝ => (r : ℂ)) key
  rw [Complex.ofReal_mul] at key'
  rw [show ∀ a b c d : ℂ, a * b * c * d = b * c * (a * d) from fun a b c d => by ring, key']
  push_cast
  ring

/-- **C96, transformation matrix.** For every integer `n` and every `l`, `legendre_T(n, l)` is
`sqrt(2l+1)/beta` times the transform of `P_l(2 tau / beta - 1)` at the fermionic Matsubara frequency `(2n+1) pi / beta`. -/
theorem C96_matrix (J : ℝ → ℝ → ℝ) (hJ : PoissonJ J) (beta : ℝ) (hb : 0 < beta) (n : ℤ) (l : ℕ) :
    legendreTnl J n l = Real.sqrt (2 * l + 1) / beta *
      Fourier.transform beta (Complex.I * (Real.pi * (2 * n + 1) / beta : ℝ)) fun t => (((P ℝ l).eval (2 * t / beta - 1) : ℝ) : ℂ) := by
  have hb' : (beta : ℂ) ≠ 0 := by exact_mod_cast hb.ne'
  unfold Fourier.transform
  rw [transform_P beta hb]
  have hz : Complex.I * (Real.pi * (2 * n + 1) / beta : ℝ) * beta / 2 = Complex.I * ((n + 1 / 2) * Real.pi : ℝ) := by
    push_cast
    field_simp
  rw [hz, exp_cos]
  have hpre : ∀ w : ℂ, Real.sqrt (2 * l + 1) / beta * ((beta / 2 : ℝ) * w) = Real.sqrt (2 * l + 1) / 2 * w := by
    intro w
    push_cast
    field_simp
  rw [hpre]
  unfold legendreTnl
  by_cases hn : n < 0
  · simp only [hn, decide_true, if_true]
    have hk : |n + 1| = -n - 1 := by rw [abs_of_nonpos (by omega)]; ring
    rw [hk]
    rw [core_T J hJ (-n - 1) (by omega) l]
    have hy : ((-n - 1 : ℤ) + 1 / 2 : ℝ) * Real.pi = -((n + 1 / 2) * Real.pi) := by push_cast; ring
    rw [hy]
    simp only [neg_mul, Real.cos_neg, map_mul, map_div₀, map_pow, Complex.conj_ofReal, ← Complex.exp_conj, Complex.conj_I, map_ofNat, map_natCast]
    rw [Complex.ofReal_neg, mul_neg, neg_neg]
  · simp only [hn, decide_false, Bool.false_eq_true, if_false]
    exact core_T J hJ n (by omega) l

/-- **C96, frequencies.** The values at the fermionic Matsubara frequencies are the transform of the function the coefficients stand for
(the one the evaluator of C58 returns). -/
theorem C96_direct_frequency (J : ℝ → ℝ → ℝ) (hJ : PoissonJ J) (m : Mesh) (hst : m.stat = .fermion) (hb : 0 < m.beta) (N : ℕ) (gl : ℕ → ℂ) (n : ℤ) :
    directFreq J N gl n = Fourier.transform m.beta (Fourier.iw m n) (evaluate m.beta N gl) := by
  have hw : Fourier.iw m n = Complex.I * (Real.pi * (2 * n + 1) / m.beta : ℝ) := by
    rw [Fourier.iw_eq, hst]
    simp only [Stat.toInt]
    push_cast
    ring
  unfold directFreq
  rw [foldl_add_eq, hw]
  set w := Complex.I * (Real.pi * (2 * n + 1) / m.beta : ℝ)
  have e : ∀ t : ℝ, evaluate m.beta N gl t = ∑ l ∈ Finset.range N, (Real.sqrt (2 * l + 1) / m.beta * gl l) * (((P ℝ l).eval (2 * t / m.beta - 1) : ℝ) : ℂ) := by
    intro t
    rw [evaluate, C58_generator, sum_mapIdx]
    apply Finset.sum_congr rfl
    intro l _
    ring
  unfold Fourier.transform
  simp only [e, Finset.mul_sum]
  rw [intervalIntegral.integral_finset_sum]
  · apply Finset.sum_congr rfl
    intro l _
    rw [C96_matrix J hJ m.beta hb n l, mul_assoc, mul_comm (Fourier.transform _ _ _), ← mul_assoc]
    unfold Fourier.transform
    rw [← intervalIntegral.integral_const_mul]
    apply intervalIntegral.integral_congr
    intro t _
    simp only
    ring
  · intro l _
    apply Continuous.intervalIntegrable
    have hp : Continuous fun t : ℝ => (P ℝ l).eval (2 * t / m.beta - 1) := (continuous_iff_continuousAt.mpr fun z => ((P ℝ l).hasDerivAt z).continuousAt).comp (by fun_prop)
    exact (cont_exp w).mul (continuous_const.mul (Complex.continuous_ofReal.comp hp))

theorem directLoop_eq (beta : ℝ) (gl : ℕ → ℂ) (ls : List ℕ) : ∀ (L : Gen ℝ) (g : ℂ),
    directLoop beta gl ls L g = g + (List.zipWith (fun (l : ℕ) (v : ℝ) => (Real.sqrt (2 * l + 1) / beta : ℝ) * gl l * (v : ℂ)) ls (L.values ls.length)).sum := by
  induction ls with
  | nil => intro L g; simp [directLoop]
  | cons l ls ih =>
    intro L g
    rw [directLoop, ih]
    simp [Gen.values, add_assoc]

/-- **C96, imaginary time.** The transformation to imaginary time evaluates the Legendre series. -/
theorem C96_direct_time (beta : ℝ) (N : ℕ) (gl : ℕ → ℂ) (tau : ℝ) : directTau beta N gl tau = evaluate beta N gl tau := by
  unfold directTau
  rw [directLoop_eq, zero_add, List.length_range, evaluate, C58_generator, sum_mapIdx]
  rw [List.zipWith_map_right, List.zipWith_self]
  change ∑ a ∈ Finset.range N, _ = _
  apply Finset.sum_congr rfl
  intro l _
  push_cast
  ring

/-- **C96 fails for bosons**: `legendre_T` knows fermionic frequencies only, and nothing looks at the statistics of the mesh.
The function `1` at `beta = 1` has the transform one at the bosonic frequency zero; the value computed is `2i/pi`. -/
theorem C96_bosons (J : ℝ → ℝ → ℝ) (hJ : PoissonJ J) : ∃ m : Mesh, m.stat = .boson ∧ 0 < m.beta ∧
    directFreq J 1 (fun _ => 1) 0 ≠ Fourier.transform m.beta (Fourier.iw m 0) (evaluate m.beta 1 fun _ => 1) := by
  refine ⟨⟨1, .boson, 1, false, 0, 0⟩, rfl, one_pos, ?_⟩
  have e1 : ∀ t : ℝ, evaluate 1 1 (fun _ => 1) t = 1 := by
    intro t
    rw [evaluate, C58_generator, sum_mapIdx]
    simp [P_zero]
  have hf := C96_direct_frequency J hJ ⟨1, .fermion, 1, false, 0, -1⟩ rfl one_pos 1 (fun _ => 1) 0
  rw [hf]
  unfold Fourier.transform
  simp only [e1, Fourier.iw_eq, Stat.toInt, mul_one]
  have h1 : ∫ t in (0 : ℝ)..1, Complex.exp ((Real.pi * Complex.I * (2 * (0 : ℤ) + (1 : ℤ)) / (1 : ℝ) : ℂ) * t) = 2 * Complex.I / Real.pi := by
    have hc : (Real.pi * Complex.I : ℂ) ≠ 0 := mul_ne_zero (by exact_mod_cast Real.pi_ne_zero) Complex.I_ne_zero
    have := integral_exp_mul_complex (a := 0) (b := 1) hc
    simp only [Int.cast_zero, mul_zero, Int.cast_one, zero_add, mul_one, Complex.ofReal_one, div_one]
    rw [this]
    simp only [Complex.ofReal_one, mul_one, Complex.exp_pi_mul_I, Complex.ofReal_zero, mul_zero, Complex.exp_zero]
    have hp : (Real.pi : ℂ) ≠ 0 := by exact_mod_cast Real.pi_ne_zero
    rw [div_eq_div_iff hc hp]
    linear_combination (-2 * Real.pi) * Complex.I_sq
  have h2 : ∫ t in (0 : ℝ)..1, Complex.exp ((Real.pi * Complex.I * (2 * (0 : ℤ) + (0 : ℤ)) / (1 : ℝ) : ℂ) * t) = 1 := by simp
  rw [h1, h2]
  intro h
  have := congrArg Complex.re h
  simp at this

/-! ### the inverse transformation -/

theorem values_length (k : ℕ) : ∀ L : Gen ℝ, (L.values k).length = k := by
  induction k with
  | zero => intro L; rfl
  | succ k ih => intro L; simp [Gen.values, ih]

theorem inverseLoop_eq (coef : ℝ) (g : ℂ) (ls : List ℕ) : ∀ (L : Gen ℝ) (gl : ℕ → ℂ), ls.Nodup →
    (∀ l, l ∉ ls → inverseLoop coef g ls L gl l = gl l) ∧
    ∀ i (hi : i < ls.length), inverseLoop coef g ls L gl ls[i] = gl ls[i] + ((coef * Real.sqrt (2 * (ls[i] : ℕ) + 1) * (L.values ls.length).getD i 0 : ℝ) : ℂ) * g := by
  induction ls with
  | nil => intro L gl _; exact ⟨fun l _ => rfl, fun i hi => absurd hi (by simp)⟩
  | cons a ls ih =>
    intro L gl hnd
    obtain ⟨ha, hnd⟩ := List.nodup_cons.mp hnd
    obtain ⟨h1, h2⟩ := ih L.next.2 (Function.update gl a (gl a + ((coef * Real.sqrt (2 * a + 1) * L.next.1 : ℝ) : ℂ) * g)) hnd
    refine ⟨fun l hl => ?_, fun i hi => ?_⟩
    · rw [List.mem_cons, not_or] at hl
      rw [inverseLoop, h1 l hl.2, Function.update_of_ne hl.1]
    · cases i with
      | zero =>
        rw [inverseLoop]
        simp only [List.getElem_cons_zero]
        rw [h1 a ha, Function.update_self]
        simp [Gen.values]
      | succ i =>
        rw [inverseLoop]
        simp only [List.getElem_cons_succ]
        have hi' : i < ls.length := by simpa using hi
        rw [h2 i hi', Function.update_of_ne]
        · simp [Gen.values]
        · intro h
          exact ha (h ▸ List.getElem_mem _)

theorem inverseTau_eq (beta : ℝ) (N Nl : ℕ) (gt : ℕ → ℂ) (l : ℕ) (hl : l < Nl) : inverseTau beta N Nl gt l =
    (∑ t ∈ Finset.range (N + 1), (((if t = 0 ∨ t = N then 0.5 else 1) * Real.sqrt (2 * l + 1) * (P ℝ l).eval (2 * Fourier.tauPt beta N t / beta - 1) : ℝ) : ℂ) * gt t) * ((beta / N : ℝ) : ℂ) := by
  unfold inverseTau
  congr 1
  have key : ∀ (ts : List ℕ) (gl : ℕ → ℂ), ts.foldl (fun gl t =>
      inverseLoop (if t = 0 ∨ t = N then 0.5 else 1) (gt t) (List.range Nl) (Gen.reset (2 * Fourier.tauPt beta N t / beta - 1)) gl) gl l =
      gl l + (ts.map fun t => (((if t = 0 ∨ t = N then 0.5 else 1) * Real.sqrt (2 * l + 1) * (P ℝ l).eval (2 * Fourier.tauPt beta N t / beta - 1) : ℝ) : ℂ) * gt t).sum := by
    intro ts
    induction ts with
    | nil => intro gl; simp
    | cons t ts ih =>
      intro gl
      rw [List.foldl_cons, ih, List.map_cons, List.sum_cons, ← add_assoc]
      congr 1
      have h := (inverseLoop_eq (if t = 0 ∨ t = N then 0.5 else 1) (gt t) (List.range Nl) (Gen.reset (2 * Fourier.tauPt beta N t / beta - 1)) gl List.nodup_range).2 l
        (by simpa using hl)
      rw [List.getElem_range] at h
      rw [h, List.length_range, C58_generator, List.getD_eq_getElem?_getD, List.getElem?_map, List.getElem?_range hl]
      rfl
  rw [key, zero_add]
  rfl

/-- the trapezoidal rule for real functions -/
theorem trap_real (f f' f'' : ℝ → ℝ) (beta : ℝ) (hb : 0 < beta) (N : ℕ) (hN : 0 < N) (h1 : ∀ t ∈ Set.Icc 0 beta, HasDerivAt f (f' t) t)
    (h2 : ∀ t ∈ Set.Icc 0 beta, HasDerivAt f' (f'' t) t) (z : ℝ) (hz : ∀ t ∈ Set.Icc 0 beta, |f'' t| ≤ z) :
    |(∑ t ∈ Finset.range (N + 1), (if t = 0 ∨ t = N then 0.5 else 1) * f (Fourier.tauPt beta N t)) * (beta / N) - ∫ t in (0 : ℝ)..beta, f t| ≤ beta ^ 3 * z / (12 * N ^ 2) := by
  have hu : Set.uIcc 0 beta = Set.Icc 0 beta := Set.uIcc_of_lt hb
  have ud := uniqueDiffOn_Icc hb
  have d1 : ∀ t ∈ Set.Icc 0 beta, derivWithin f (Set.Icc 0 beta) t = f' t := fun t ht => (h1 t ht).hasDerivWithinAt.derivWithin (ud t ht)
  have hdf : DifferentiableOn ℝ f (Set.uIcc 0 beta) := by
    rw [hu]; exact fun t ht => (h1 t ht).differentiableAt.differentiableWithinAt
  have hddf : DifferentiableOn ℝ (derivWithin f (Set.uIcc 0 beta)) (Set.uIcc 0 beta) := by
    rw [hu]
    exact DifferentiableOn.congr (f := f') (fun t ht => (h2 t ht).differentiableAt.differentiableWithinAt) d1
  have hz0 : 0 ≤ z := (abs_nonneg _).trans (hz 0 (Set.left_mem_Icc.mpr hb.le))
  have hb2 : ∀ x, |iteratedDerivWithin 2 f (Set.uIcc 0 beta) x| ≤ z := by
    intro x
    rw [hu, iteratedDerivWithin_succ, iteratedDerivWithin_one]
    by_cases hx : x ∈ Set.Icc 0 beta
    · rw [derivWithin_congr d1 (d1 x hx), (h2 x hx).hasDerivWithinAt.derivWithin (ud x hx)]
      exact hz x hx
    · rw [derivWithin_zero_of_notMem_closure (by rwa [closure_Icc]), abs_zero]
      exact hz0
  have := trapezoidal_error_le hdf hddf hb2 hN
  rw [sub_zero, abs_of_pos hb] at this
  convert! this using 2
  unfold trapezoidal_error trapezoidal_integral
  congr 1
  have hN' : (N : ℝ) ≠ 0 := by exact_mod_cast hN.ne'
  obtain ⟨M, rfl⟩ : ∃ M, N = M + 1 := ⟨N - 1, by omega⟩
  rw [Finset.sum_range_succ, Finset.sum_range_succ', sub_zero, mul_comm]
  congr 1
  rw [if_pos (Or.inl rfl), if_pos (Or.inr rfl), Nat.add_sub_cancel]
  have e0 : Fourier.tauPt beta (M + 1) 0 = 0 := by simp [Fourier.tauPt]
  have e1 : Fourier.tauPt beta (M + 1) (M + 1) = beta := by unfold Fourier.tauPt; field_simp
  rw [e0, e1]
  have e2 : ∑ k ∈ Finset.range M, (if k + 1 = 0 ∨ k + 1 = M + 1 then (0.5 : ℝ) else 1) * f (Fourier.tauPt beta (M + 1) (k + 1)) =
      ∑ k ∈ Finset.range M, f (0 + ((k : ℝ) + 1) * beta / ((M + 1 : ℕ) : ℝ)) := by
    apply Finset.sum_congr rfl
    intro k hk
    have hk := Finset.mem_range.mp hk
    rw [if_neg (by omega), one_mul]
    congr 1
    unfold Fourier.tauPt
    push_cast
    ring
  rw [e2]
  norm_num
  ring

/-- the trapezoidal rule for complex functions -/
theorem trap (f f' f'' : ℝ → ℂ) (beta : ℝ) (hb : 0 < beta) (N : ℕ) (hN : 0 < N) (h1 : ∀ t ∈ Set.Icc 0 beta, HasDerivAt f (f' t) t)
    (h2 : ∀ t ∈ Set.Icc 0 beta, HasDerivAt f' (f'' t) t) (z : ℝ) (hz : ∀ t ∈ Set.Icc 0 beta, ‖f'' t‖ ≤ z) :
    ‖(∑ t ∈ Finset.range (N + 1), (((if t = 0 ∨ t = N then 0.5 else 1 : ℝ)) : ℂ) * f (Fourier.tauPt beta N t)) * ((beta / N : ℝ) : ℂ) - ∫ t in (0 : ℝ)..beta, f t‖ ≤
      beta ^ 3 * z / (12 * N ^ 2) := by
  set E := (∑ t ∈ Finset.range (N + 1), (((if t = 0 ∨ t = N then 0.5 else 1 : ℝ)) : ℂ) * f (Fourier.tauPt beta N t)) * ((beta / N : ℝ) : ℂ) - ∫ t in (0 : ℝ)..beta, f t with hE
  have hz0 : 0 ≤ z := (norm_nonneg _).trans (hz 0 (Set.left_mem_Icc.mpr hb.le))
  by_cases h0 : E = 0
  · rw [h0, norm_zero]; positivity
  set u : ℂ := (starRingEnd ℂ) E / ‖E‖ with hu
  have hun : ‖u‖ = 1 := by
    rw [hu, norm_div, RCLike.norm_conj, Complex.norm_real, norm_norm, div_self (norm_ne_zero_iff.mpr h0)]
  have hre : (u * E).re = ‖E‖ := by
    have : u * E = ‖E‖ := by
      rw [hu, div_mul_eq_mul_div, ← Complex.normSq_eq_conj_mul_self, Complex.normSq_eq_norm_sq, sq]
      push_cast
      rw [mul_div_assoc, div_self (by exact_mod_cast norm_ne_zero_iff.mpr h0), mul_one]
    rw [this, Complex.ofReal_re]
  have hd : ∀ (g : ℝ → ℂ) (g' : ℂ) (t : ℝ), HasDerivAt g g' t → HasDerivAt (fun t => (u * g t).re) (u * g').re t := by
    intro g g' t h
    exact (Complex.reCLM.hasFDerivAt.comp_hasDerivAt t (h.const_mul u))
  have hcont : ContinuousOn f (Set.uIcc 0 beta) := by
    rw [Set.uIcc_of_lt hb]; exact fun t ht => (h1 t ht).continuousAt.continuousWithinAt
  have hr := trap_real (fun t => (u * f t).re) (fun t => (u * f' t).re) (fun t => (u * f'' t).re) beta hb N hN
    (fun t ht => hd f _ t (h1 t ht)) (fun t ht => hd f' _ t (h2 t ht)) z (fun t ht => by
      refine (Complex.abs_re_le_norm _).trans ?_
      rw [norm_mul, hun, one_mul]
      exact hz t ht)
  have hint : ∫ t in (0 : ℝ)..beta, (u * f t).re = (u * ∫ t in (0 : ℝ)..beta, f t).re := by
    rw [← intervalIntegral.integral_const_mul]
    have hi : IntervalIntegrable (fun t => u * f t) MeasureTheory.volume 0 beta := (continuousOn_const.mul hcont).intervalIntegrable
    exact Complex.reCLM.intervalIntegral_comp_comm hi
  rw [← hre]
  refine (le_abs_self _).trans (le_of_eq_of_le ?_ hr)
  congr 1
  rw [hint, hE, mul_sub, Complex.sub_re]
  congr 1
  rw [← mul_assoc, Complex.re_mul_ofReal, Finset.mul_sum, Complex.re_sum]
  congr 1
  apply Finset.sum_congr rfl
  intro t _
  rw [mul_left_comm, Complex.re_ofReal_mul]

/-- **C97.** The coefficients computed from the values of a function at the `N + 1` mesh points are its Legendre coefficients up to the error of the trapezoidal rule. -/
theorem C97_inverse (beta : ℝ) (hb : 0 < beta) (N Nl l : ℕ) (hN : 0 < N) (hl : l < Nl) (g F' F'' : ℝ → ℂ)
    (h1 : ∀ t ∈ Set.Icc 0 beta, HasDerivAt (fun t => ((Real.sqrt (2 * l + 1) * (P ℝ l).eval (2 * t / beta - 1) : ℝ) : ℂ) * g t) (F' t) t)
    (h2 : ∀ t ∈ Set.Icc 0 beta, HasDerivAt F' (F'' t) t) (z : ℝ) (hz : ∀ t ∈ Set.Icc 0 beta, ‖F'' t‖ ≤ z) :
    ‖inverseTau beta N Nl (fun t => g (Fourier.tauPt beta N t)) l - coefficient beta l g‖ ≤ beta ^ 3 * z / (12 * N ^ 2) := by
  have := trap _ F' F'' beta hb N hN h1 h2 z hz
  rw [inverseTau_eq beta N Nl _ l hl]
  unfold coefficient
  rw [← intervalIntegral.integral_const_mul]
  convert! this using 3
  · congr 1
    apply Finset.sum_congr rfl
    intro t _
    push_cast
    ring
  · apply intervalIntegral.integral_congr
    intro t _
    simp only
    push_cast
    ring

/-! ### orthogonality -/

theorem contR (q : ℝ[X]) : Continuous fun t : ℝ => q.eval t := continuous_iff_continuousAt.mpr fun z => (q.hasDerivAt z).continuousAt

theorem partsR (p q : ℝ[X]) : ∫ t in (-1 : ℝ)..1, (derivative p).eval t * q.eval t =
    p.eval 1 * q.eval 1 - p.eval (-1) * q.eval (-1) - ∫ t in (-1 : ℝ)..1, p.eval t * (derivative q).eval t := by
  have i1 : IntervalIntegrable (fun t => (derivative p).eval t * q.eval t) MeasureTheory.volume (-1) 1 := ((contR _).mul (contR _)).intervalIntegrable _ _
  have i2 : IntervalIntegrable (fun t => p.eval t * (derivative q).eval t) MeasureTheory.volume (-1) 1 := ((contR _).mul (contR _)).intervalIntegrable _ _
  rw [eq_sub_iff_add_eq, ← intervalIntegral.integral_add i1 i2]
  exact intervalIntegral.integral_eq_sub_of_hasDerivAt (f := fun t => p.eval t * q.eval t) (fun t _ => (p.hasDerivAt t).mul (q.hasDerivAt t))
    ((((contR _).mul (contR _)).add ((contR _).mul (contR _))).intervalIntegrable _ _)

theorem iter_partsR (l k : ℕ) (hk : k ≤ l) : ∀ q : ℝ[X],
    ∫ t in (-1 : ℝ)..1, (derivative^[k] ((X ^ 2 - 1 : ℝ[X]) ^ l)).eval t * q.eval t = (-1) ^ k * ∫ t in (-1 : ℝ)..1, ((X ^ 2 - 1 : ℝ[X]) ^ l).eval t * (derivative^[k] q).eval t := by
  have hbd : ∀ j < l, ∀ e : ℝ, e * e = 1 → (derivative^[j] ((X ^ 2 - 1 : ℝ[X]) ^ l)).eval e = 0 := by
    intro j hj e he
    rw [iter_deriv_eval, taylor_u l e he, coeff_X_pow_mul', if_neg (by omega), mul_zero]
  induction k with
  | zero => intro q; simp
  | succ k ih =>
    intro q
    rw [Function.iterate_succ_apply', partsR, hbd k (by omega) 1 (by ring), hbd k (by omega) (-1) (by ring), ih (by omega), pow_succ, Function.iterate_succ_apply]
    ring

theorem low_degree (l : ℕ) (q : ℝ[X]) (hq : q.natDegree < l) : ∫ t in (-1 : ℝ)..1, (P ℝ l).eval t * q.eval t = 0 := by
  have h := iter_partsR l l le_rfl q
  rw [iterate_derivative_eq_zero hq] at h
  simp only [eval_zero, mul_zero, intervalIntegral.integral_zero] at h
  unfold P
  simp only [eval_mul, eval_C, mul_assoc]
  rw [intervalIntegral.integral_const_mul, h, mul_zero]

theorem P_natDegree (l : ℕ) : (P ℝ l).natDegree ≤ l := by
  unfold P
  refine (natDegree_C_mul_le _ _).trans ((natDegree_iterate_derivative _ _).trans ?_)
  have : ((X ^ 2 - 1 : ℝ[X]) ^ l).natDegree ≤ l * 2 := by
    refine natDegree_pow_le.trans (Nat.mul_le_mul_left l ?_)
    rw [show (1 : ℝ[X]) = C 1 by simp]
    exact (natDegree_X_pow_sub_C (n := 2) (r := (1 : ℝ))).le
  omega

theorem orthogonal (l m : ℕ) (h : l ≠ m) : ∫ t in (-1 : ℝ)..1, (P ℝ l).eval t * (P ℝ m).eval t = 0 := by
  rcases Nat.lt_or_gt_of_ne h with h | h
  · simp only [mul_comm ((P ℝ l).eval _)]
    exact low_degree m _ ((P_natDegree l).trans_lt h)
  · exact low_degree l _ ((P_natDegree m).trans_lt h)

theorem recI (n : ℕ) (q : ℝ[X]) : ((n : ℝ) + 2) * ∫ t in (-1 : ℝ)..1, (P ℝ (n + 2)).eval t * q.eval t =
    (2 * n + 3) * (∫ t in (-1 : ℝ)..1, t * (P ℝ (n + 1)).eval t * q.eval t) - (n + 1) * ∫ t in (-1 : ℝ)..1, (P ℝ n).eval t * q.eval t := by
  have i1 : IntervalIntegrable (fun t => (2 * (n : ℝ) + 3) * (t * (P ℝ (n + 1)).eval t * q.eval t)) MeasureTheory.volume (-1) 1 :=
    (continuous_const.mul ((continuous_id.mul (contR _)).mul (contR _))).intervalIntegrable _ _
  have i2 : IntervalIntegrable (fun t => ((n : ℝ) + 1) * ((P ℝ n).eval t * q.eval t)) MeasureTheory.volume (-1) 1 :=
    (continuous_const.mul ((contR _).mul (contR _))).intervalIntegrable _ _
  rw [← intervalIntegral.integral_const_mul, ← intervalIntegral.integral_const_mul, ← intervalIntegral.integral_const_mul, ← intervalIntegral.integral_sub i1 i2]
  apply intervalIntegral.integral_congr
  intro t _
  simp only
  rw [P_rec n t]
  have h2 : ((n + 2 : ℕ) : ℝ) ≠ 0 := by positivity
  rw [show (2 * (n + 2) - 1 : ℕ) = 2 * n + 3 by omega, show (n + 2 - 1 : ℕ) = n + 1 by omega]
  push_cast at h2 ⊢
  field_simp

theorem norm_P (l : ℕ) : ∫ t in (-1 : ℝ)..1, (P ℝ l).eval t * (P ℝ l).eval t = 2 / (2 * l + 1) := by
  induction l with
  | zero => simp [P_zero]; norm_num
  | succ n ih =>
    have h1 := recI n (P ℝ n)
    rw [orthogonal (n + 2) n (by omega), mul_zero, ih] at h1
    have h2 : ((n : ℝ) + 1) * ∫ t in (-1 : ℝ)..1, (P ℝ (n + 1)).eval t * (P ℝ (n + 1)).eval t =
        (2 * n + 1) * ∫ t in (-1 : ℝ)..1, t * (P ℝ (n + 1)).eval t * (P ℝ n).eval t := by
      cases n with
      | zero => simp [P_zero, P_one]
      | succ k =>
        have h3 := recI k (P ℝ (k + 2))
        rw [orthogonal k (k + 2) (by omega), mul_zero, sub_zero] at h3
        have e : ∀ t : ℝ, t * (P ℝ (k + 2)).eval t * (P ℝ (k + 1)).eval t = t * (P ℝ (k + 1)).eval t * (P ℝ (k + 2)).eval t := fun t => by ring
        simp only [show k + 1 + 1 = k + 2 from rfl, e]
        push_cast
        rw [show ((k : ℝ) + 1 + 1) = k + 2 by ring, h3]
        ring
    have p1 : (n : ℝ) + 1 ≠ 0 := by positivity
    have p2 : 2 * (n : ℝ) + 1 ≠ 0 := by positivity
    have p3 : 2 * (n : ℝ) + 3 ≠ 0 := by positivity
    have h4 : ∫ t in (-1 : ℝ)..1, t * (P ℝ (n + 1)).eval t * (P ℝ n).eval t = (n + 1) * (2 / (2 * n + 1)) / (2 * n + 3) := by
      rw [eq_div_iff p3]; linarith
    rw [h4] at h2
    have h5 : ∫ t in (-1 : ℝ)..1, (P ℝ (n + 1)).eval t * (P ℝ (n + 1)).eval t = (2 * n + 1) * ((n + 1) * (2 / (2 * n + 1)) / (2 * n + 3)) / (n + 1) := by
      rw [eq_div_iff p1, ← h2]; ring
    rw [h5]
    push_cast
    have p4 : 2 * ((n : ℝ) + 1) + 1 ≠ 0 := by positivity
    field_simp
    ring

theorem evaluate_sum (beta : ℝ) (N : ℕ) (gl : ℕ → ℂ) (t : ℝ) :
    evaluate beta N gl t = ∑ l ∈ Finset.range N, (Real.sqrt (2 * l + 1) / beta * gl l) * (((P ℝ l).eval (2 * t / beta - 1) : ℝ) : ℂ) := by
  rw [evaluate, C58_generator, sum_mapIdx]
  apply Finset.sum_congr rfl
  intro l _
  ring

/-- **C97, Legendre series.** The coefficients of the function the evaluator returns are the coefficients it is made of. -/
theorem C97_series (beta : ℝ) (hb : 0 < beta) (N : ℕ) (f : ℕ → ℂ) (l : ℕ) : coefficient beta l (evaluate beta N f) = if l < N then f l else 0 := by
  have hb' : (beta : ℂ) ≠ 0 := by exact_mod_cast hb.ne'
  unfold coefficient
  have e : ∀ t : ℝ, (((P ℝ l).eval (2 * t / beta - 1) : ℝ) : ℂ) * evaluate beta N f t =
      ∑ m ∈ Finset.range N, (Real.sqrt (2 * m + 1) / beta * f m) * (fun x : ℝ => (((P ℝ l).eval x * (P ℝ m).eval x : ℝ) : ℂ)) (2 * t / beta - 1) := by
    intro t
    rw [evaluate_sum, Finset.mul_sum]
    apply Finset.sum_congr rfl
    intro m _
    simp only
    push_cast
    ring
  simp only [e]
  have hc : ∀ q : ℝ[X], Continuous fun t : ℝ => q.eval (2 * t / beta - 1) := fun q => (contR q).comp (by fun_prop)
  have hi : ∀ m : ℕ, IntervalIntegrable (fun t : ℝ => (Real.sqrt (2 * m + 1) / beta * f m) * (((P ℝ l).eval (2 * t / beta - 1) * (P ℝ m).eval (2 * t / beta - 1) : ℝ) : ℂ)) MeasureTheory.volume 0 beta :=
    fun m => (continuous_const.mul (Complex.continuous_ofReal.comp ((hc _).mul (hc _)))).intervalIntegrable _ _
  rw [intervalIntegral.integral_finset_sum (fun m _ => hi m), Finset.mul_sum]
  have term : ∀ m : ℕ, (Real.sqrt (2 * l + 1) : ℂ) * (∫ t in (0 : ℝ)..beta, (Real.sqrt (2 * m + 1) / beta * f m) * (((P ℝ l).eval (2 * t / beta - 1) * (P ℝ m).eval (2 * t / beta - 1) : ℝ) : ℂ)) =
      if m = l then f l else 0 := by
    intro m
    rw [intervalIntegral.integral_const_mul, scale beta hb (fun x : ℝ => (((P ℝ l).eval x * (P ℝ m).eval x : ℝ) : ℂ)), intervalIntegral.integral_ofReal]
    by_cases h : m = l
    · subst h
      rw [if_pos rfl, norm_P]
      have hs : (Real.sqrt (2 * m + 1) : ℂ) * Real.sqrt (2 * m + 1) = 2 * m + 1 := by
        rw [← Complex.ofReal_mul, Real.mul_self_sqrt (by positivity)]
        push_cast; rfl
      have h0 : (2 * (m : ℂ) + 1) ≠ 0 := by exact_mod_cast (by positivity : (2 * (m : ℝ) + 1) ≠ 0)
      push_cast
      field_simp
      linear_combination f m * hs
    · rw [if_neg h, orthogonal l m (fun e => h e.symm)]
      simp
  rw [Finset.sum_congr rfl fun m _ => term m, Finset.sum_ite_eq']
  simp

/-- derivatives of polynomials in `t` -/
theorem poly_deriv (q : ℂ[X]) (t : ℝ) : HasDerivAt (fun t : ℝ => q.eval (t : ℂ)) ((derivative q).eval (t : ℂ)) t := (q.hasDerivAt (t : ℂ)).comp_ofReal

/-- **C97, round trip.** Coefficients transformed to imaginary time on `N + 1` points and back are recovered in the limit of fine meshes, with an
error that decreases like `1 / N^2`. -/
theorem C97_round_trip (beta : ℝ) (hb : 0 < beta) (Nl : ℕ) (f : ℕ → ℂ) (l : ℕ) (hl : l < Nl) :
    ∃ z : ℝ, ∀ N : ℕ, 0 < N → ‖inverseTau beta N Nl (fun t => directTau beta Nl f (Fourier.tauPt beta N t)) l - f l‖ ≤ beta ^ 3 * z / (12 * N ^ 2) := by
  set q : ℂ[X] := C (Real.sqrt (2 * l + 1) : ℂ) * (P ℂ l).comp (C (2 / (beta : ℂ)) * X - 1) * gTau beta Nl f with hq
  have hF : ∀ t : ℝ, ((Real.sqrt (2 * l + 1) * (P ℝ l).eval (2 * t / beta - 1) : ℝ) : ℂ) * directTau beta Nl f t = q.eval (t : ℂ) := by
    intro t
    rw [C96_direct_time, C58_evaluate, hq, eval_mul, eval_mul, eval_C, eval_comp, eval_sub, eval_mul, eval_C, eval_X, eval_one, Complex.ofReal_mul, ← P_map]
    congr 3
    push_cast
    ring
  have hc : ContinuousOn (fun t : ℝ => ‖(derivative (derivative q)).eval (t : ℂ)‖) (Set.Icc 0 beta) := (cont_eval _).norm.continuousOn
  obtain ⟨z, hz⟩ := isCompact_Icc.bddAbove_image hc
  refine ⟨z, fun N hN => ?_⟩
  have h := C97_inverse beta hb N Nl l hN hl (directTau beta Nl f) (fun t => (derivative q).eval (t : ℂ)) (fun t => (derivative (derivative q)).eval (t : ℂ))
    (fun t _ => by simp only [hF]; exact poly_deriv q t) (fun t _ => poly_deriv _ t) z (fun t ht => hz ⟨t, ht, rfl⟩)
  have hd : directTau beta Nl f = evaluate beta Nl f := funext fun t => C96_direct_time beta Nl f t
  rw [show coefficient beta l (directTau beta Nl f) = f l by rw [hd, C97_series beta hb, if_pos hl]] at h
  exact h

/-- Bessel functions with the integral of Poisson exist -/
theorem poisson_exists : (∃ J, PoissonJ J) ∧ ∃ I, PoissonI I := by
  constructor
  · refine ⟨fun nu x => (x / 2) ^ nu / (Real.sqrt Real.pi * (⌊nu⌋₊).factorial) * ∫ t in (-1 : ℝ)..1, (1 - t ^ 2) ^ ⌊nu⌋₊ * Real.cos (x * t), fun l x _ => ?_⟩
    have : ⌊(l : ℝ) + 1 / 2⌋₊ = l := by
      rw [Nat.floor_eq_iff (by positivity)]; constructor <;> linarith
    simp only [this]
  · refine ⟨fun nu x => (x / 2) ^ nu / (Real.sqrt Real.pi * (⌊nu⌋₊).factorial) * ∫ t in (-1 : ℝ)..1, (1 - t ^ 2) ^ ⌊nu⌋₊ * Real.exp (x * t), fun l x _ => ?_⟩
    have : ⌊(l : ℝ) + 1 / 2⌋₊ = l := by
      rw [Nat.floor_eq_iff (by positivity)]; constructor <;> linarith
    simp only [this]

/-- the constant function `1` at `beta = 2` has the coefficient `G_0 = 2`; the trapezoidal rule is exact for it, with any number of points -/
example (N : ℕ) (hN : 0 < N) : inverseTau 2 N 3 (fun _ => 1) 0 = 2 := by
  have h := C97_inverse 2 two_pos N 3 0 hN (by norm_num) (fun _ => 1) (fun _ => 0) (fun _ => 0)
    (fun t _ => by simp only [P_zero, eval_one]; exact hasDerivAt_const _ _) (fun t _ => hasDerivAt_const _ _) 0 (fun _ _ => by simp)
  rw [mul_zero, zero_div, norm_le_zero_iff, sub_eq_zero] at h
  rw [h]
  simp [coefficient, P_zero]

end Verif.LegMat
