import Verif.AtomDiag.Lehmann
import Verif.Gfs.LegendreMatsubara

/-!
# Model of the Legendre coefficients of the atomic Green's function

Source: `/repo/c++/triqs/atom_diag/impl/gf.cpp:252-290`. Simplifications as in `Verif.AtomDiag.Lehmann` and
`Verif.Gfs.LegendreMatsubara`.
-/

namespace Verif.Diag

open Polynomial Verif.Legendre Verif.LegMat

/-! ## Model -/

/-- one term of the coefficient `l`, gf.cpp:259-263; `copysign(1, -x)` is `-1` for `x = 0` (negative zero) -/
noncomputable def legTerm (I : ℝ → ℝ → ℝ) (beta : ℝ) (l : ℕ) (t : ℝ × ℂ) : ℂ :=
  let x := beta * t.1 / 2;
  let w := -beta / (2 * Real.cosh x);
  t.2 * (w : ℂ) * (Real.sqrt (2 * l + 1) : ℂ) * ((if l % 2 = 0 then 1 else if -x > 0 then 1 else -1 : ℝ) : ℂ) * ((modCylBesselI I l |x| : ℝ) : ℂ)

/-- `atomic_g_l`, gf.cpp:271-277, coefficient `l` -/
noncomputable def gL (I : ℝ → ℝ → ℝ) (beta : ℝ) (ts : List (ℝ × ℂ)) (l : ℕ) : ℂ := ts.foldl (fun g t => g + legTerm I beta l t) 0

/-! ## Proofs -/

/-- the modified spherical Bessel functions -/
theorem mod_eq (I : ℝ → ℝ → ℝ) (hI : PoissonI I) (l : ℕ) (x : ℝ) (hx : 0 ≤ x) :
    modCylBesselI I l x = 1 / 2 * (x ^ l / (2 ^ l * l.factorial) * ∫ t in (-1 : ℝ)..1, (1 - t ^ 2) ^ l * Real.exp (x * t)) := by
  unfold modCylBesselI
  by_cases h0 : x = 0
  · rw [if_pos h0, h0]
    by_cases hl : l = 0
    · subst hl; norm_num
    · rw [if_neg hl, zero_pow hl]; ring
  · have hx : 0 < x := lt_of_le_of_ne hx (Ne.symm h0)
    rw [if_neg h0, hI l x hx, half_pow x hx]
    set Cc := ∫ t in (-1 : ℝ)..1, (1 - t ^ 2) ^ l * Real.exp (x * t)
    have hs : Real.sqrt (Real.pi / (2 * x)) * Real.sqrt (x / 2) = Real.sqrt Real.pi / 2 := by
      rw [← Real.sqrt_mul (by positivity), show Real.pi / (2 * x) * (x / 2) = Real.pi / 2 ^ 2 by field_simp, Real.sqrt_div' _ (by norm_num), Real.sqrt_sq (by norm_num)]
    have h2 : Real.sqrt Real.pi ≠ 0 := (Real.sqrt_pos.mpr Real.pi_pos).ne'
    have h3 : (l.factorial : ℝ) ≠ 0 := by exact_mod_cast Nat.factorial_ne_zero l
    calc Real.sqrt (Real.pi / (2 * x)) * ((x / 2) ^ l * Real.sqrt (x / 2) / (Real.sqrt Real.pi * l.factorial) * Cc)
        = (Real.sqrt (Real.pi / (2 * x)) * Real.sqrt (x / 2)) * ((x / 2) ^ l / (Real.sqrt Real.pi * l.factorial) * Cc) := by ring
      _ = _ := by rw [hs, div_pow]; field_simp

theorem exp_even (y : ℝ) (l : ℕ) : ∫ t in (-1 : ℝ)..1, (1 - t ^ 2) ^ l * Real.exp (-y * t) = ∫ t in (-1 : ℝ)..1, (1 - t ^ 2) ^ l * Real.exp (y * t) := by
  have h := intervalIntegral.integral_comp_neg (a := -1) (b := 1) (fun t : ℝ => (1 - t ^ 2) ^ l * Real.exp (y * t))
  simp only [neg_neg, neg_sq, mul_neg] at h
  rw [← h]
  simp only [neg_mul]

/-- sign and absolute value in the code -/
theorem sign_pow (x : ℝ) (l : ℕ) : (if l % 2 = 0 then 1 else if -x > 0 then 1 else -1 : ℝ) * |x| ^ l = (-x) ^ l := by
  by_cases h : l % 2 = 0
  · rw [if_pos h, one_mul, Even.pow_abs (Nat.even_iff.mpr h), Even.neg_pow (Nat.even_iff.mpr h)]
  · rw [if_neg h]
    by_cases hx : -x > 0
    · rw [if_pos hx, one_mul, abs_of_neg (by linarith)]
    · have ho : Odd l := Nat.odd_iff.mpr (by omega)
      rw [if_neg hx, abs_of_nonneg (by linarith), ho.neg_pow]
      ring

/-- **C98, one pole.** -/
theorem legTerm_eq (I : ℝ → ℝ → ℝ) (hI : PoissonI I) (beta : ℝ) (hb : 0 < beta) (l : ℕ) (t : ℝ × ℂ) : legTerm I beta l t = coefficient beta l fun tau => tauTerm beta tau t := by
  obtain ⟨p, r⟩ := t
  unfold coefficient
  simp only [tauTerm_eq]
  have hb' : (beta : ℂ) ≠ 0 := by exact_mod_cast hb.ne'
  have hd : (1 + Real.exp (-beta * p) : ℝ) ≠ 0 := by positivity
  have e1 : ∀ tau : ℝ, (((P ℝ l).eval (2 * tau / beta - 1) : ℝ) : ℂ) * (r * ((-(Real.exp (-tau * p) / (1 + Real.exp (-beta * p))) : ℝ) : ℂ)) =
      (-r / ((1 + Real.exp (-beta * p) : ℝ) : ℂ)) * (Complex.exp ((-p : ℝ) * tau) * (((P ℝ l).eval (2 * tau / beta - 1) : ℝ) : ℂ)) := by
    intro tau
    rw [show ((-p : ℝ) : ℂ) * tau = ((-tau * p : ℝ) : ℂ) by push_cast; ring, ← Complex.ofReal_exp]
    push_cast
    ring
  simp only [e1]
  rw [intervalIntegral.integral_const_mul, transform_P beta hb]
  set x := beta * p / 2 with hx
  have hz : ((-p : ℝ) : ℂ) * beta / 2 = ((-x : ℝ) : ℂ) := by rw [hx]; push_cast; ring
  rw [hz]
  have e2 : ∫ t in (-1 : ℝ)..1, Complex.exp (((-x : ℝ) : ℂ) * t) * (((1 - t ^ 2) ^ l : ℝ) : ℂ) = ((∫ t in (-1 : ℝ)..1, (1 - t ^ 2) ^ l * Real.exp (|x| * t) : ℝ) : ℂ) := by
    have h1 : ∀ t : ℝ, Complex.exp (((-x : ℝ) : ℂ) * t) * (((1 - t ^ 2) ^ l : ℝ) : ℂ) = (((1 - t ^ 2) ^ l * Real.exp (-x * t) : ℝ) : ℂ) := by
      intro t
      rw [← Complex.ofReal_mul, ← Complex.ofReal_exp, ← Complex.ofReal_mul, mul_comm]
    simp only [h1]
    rw [intervalIntegral.integral_ofReal, exp_even]
    rcases abs_cases x with ⟨h, _⟩ | ⟨h, _⟩
    · rw [h]
    · rw [h, exp_even]
  rw [e2]
  unfold legTerm
  simp only
  rw [mod_eq I hI l |beta * p / 2| (abs_nonneg _), ← hx]
  set Cc := ∫ t in (-1 : ℝ)..1, (1 - t ^ 2) ^ l * Real.exp (|x| * t)
  have hc : 1 + Real.exp (-beta * p) = 2 * Real.cosh x * Real.exp (-x) := by
    rw [Real.cosh_eq, show -beta * p = -x + -x by rw [hx]; ring, Real.exp_add]
    have : Real.exp x * Real.exp (-x) = 1 := by rw [← Real.exp_add, add_neg_cancel, Real.exp_zero]
    linear_combination -this
  have hch : Real.cosh x ≠ 0 := (Real.cosh_pos x).ne'
  have hex : Real.exp (-x) ≠ 0 := (Real.exp_pos _).ne'
  have key : -beta / (2 * Real.cosh x) * Real.sqrt (2 * l + 1) * (if l % 2 = 0 then 1 else if -x > 0 then 1 else -1) * (1 / 2 * (|x| ^ l / (2 ^ l * l.factorial) * Cc)) =
      Real.sqrt (2 * l + 1) * (-1 / (1 + Real.exp (-beta * p)) * (beta / 2 * (Real.exp (-x) * ((-x) ^ l / (2 ^ l * l.factorial) * Cc)))) := by
    rw [← sign_pow x l, hc]
    generalize (if l % 2 = 0 then (1 : ℝ) else if -x > 0 then 1 else -1) = sg
    have h3 : (l.factorial : ℝ) ≠ 0 := by exact_mod_cast Nat.factorial_ne_zero l
    field_simp
  have key' := congrArg (fun y : ℝ => r * (y : ℂ)) key
  rw [show Complex.exp ((-x : ℝ) : ℂ) = ((Real.exp (-x) : ℝ) : ℂ) by rw [Complex.ofReal_exp]]
  push_cast at key' ⊢
  linear_combination key'

/-- **C98.** The coefficients computed term by term from the Lehmann representation are the Legendre coefficients of the function of
imaginary time, for any list of poles and residues and every `l`. -/
theorem C98_legendre (I : ℝ → ℝ → ℝ) (hI : PoissonI I) (beta : ℝ) (hb : 0 < beta) (ts : List (ℝ × ℂ)) (l : ℕ) : gL I beta ts l = coefficient beta l (gTau beta ts) := by
  have hP : Continuous fun t : ℝ => (((P ℝ l).eval (2 * t / beta - 1) : ℝ) : ℂ) := Complex.continuous_ofReal.comp ((contR _).comp (by fun_prop))
  unfold gL
  rw [foldl_list, zero_add]
  induction ts with
  | nil => simp [coefficient, gTau]
  | cons t ts ih =>
    rw [List.map_cons, List.sum_cons, ih, legTerm_eq I hI beta hb]
    unfold coefficient
    rw [← mul_add]
    have ht : Continuous fun tau => tauTerm beta tau t := by
      have h := continuous_gTau beta [t]
      have e : gTau beta [t] = fun tau => tauTerm beta tau t := by funext tau; simp [gTau]
      rwa [e] at h
    have i1 : IntervalIntegrable (fun tau => (((P ℝ l).eval (2 * tau / beta - 1) : ℝ) : ℂ) * tauTerm beta tau t) MeasureTheory.volume 0 beta := (hP.mul ht).intervalIntegrable _ _
    have i2 : IntervalIntegrable (fun tau => (((P ℝ l).eval (2 * tau / beta - 1) : ℝ) : ℂ) * gTau beta ts tau) MeasureTheory.volume 0 beta :=
      (hP.mul (continuous_gTau beta ts)).intervalIntegrable _ _
    rw [← intervalIntegral.integral_add i1 i2]
    congr 2
    funext tau
    rw [gTau_cons, ← tauTerm_oneFermion]
    ring

/-- the pole zero with residue one: `G(tau) = -1/2`, so that `G_0 = -beta/2` and all other coefficients vanish -/
example (I : ℝ → ℝ → ℝ) (beta : ℝ) : gL I beta [(0, 1)] 0 = -beta / 2 ∧ gL I beta [(0, 1)] 3 = 0 := by
  constructor <;> simp [gL, legTerm, modCylBesselI]

end Verif.Diag
