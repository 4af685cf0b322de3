import Mathlib.Analysis.SpecialFunctions.Integrals.Basic
import Mathlib.Analysis.SpecialFunctions.Complex.LogDeriv
import Mathlib.Analysis.SpecialFunctions.Pow.Continuity
import Mathlib.Analysis.SpecificLimits.Normed
import Mathlib.MeasureTheory.Integral.DominatedConvergence
import Mathlib.MeasureTheory.Integral.IntervalIntegral.IntegrationByParts
import Mathlib.Data.Matrix.Basic
import Mathlib.Tactic.LinearCombination
import Mathlib.Tactic.FieldSimp

/-!
# Property C139: semicircular and flat densities of states

Sources: `/repo/python/triqs/gf/descriptors.py` (`SemiCircular`, `Flat`).

Simplifications: exact numbers without signed zeros; `cmath.sqrt` and `numpy.log` are the principal branches.
-/

namespace Verif.Descriptors
open MeasureTheory intervalIntegral

/-! ## Model -/

/-- `cmath.sqrt` -/
noncomputable def csqrt (z : ℂ) : ℂ := z ^ (1 / 2 : ℂ)

open Classical in
/-- `copysign(1, x)` -/
noncomputable def copysign (x : ℝ) : ℝ := if x < 0 then -1 else 1

/-- lines 92-94, without the factor `Id` -/
noncomputable def semiIm (D mu : ℝ) (om : ℂ) : ℂ :=
  let z := om + mu
  (z - Complex.I * copysign z.im * csqrt (D * D - z ^ 2)) / D / D * 2

open Classical in
/-- lines 96-101 -/
noncomputable def semiRe (D mu : ℝ) (om : ℝ) : ℂ :=
  let x := om + mu
  if x > -D ∧ x < D then 2 / (D : ℂ) ^ 2 * (x - Complex.I * csqrt ((D : ℂ) ^ 2 - (x : ℂ) ^ 2))
  else 2 / (D : ℂ) ^ 2 * (x - copysign x * csqrt ((x : ℂ) ^ 2 - (D : ℂ) ^ 2))

/-- line 134, without the factor `Id` -/
noncomputable def flatIm (D : ℝ) (om : ℂ) : ℂ := -1 / (2 * (D : ℂ)) * Complex.log ((om - D) / (om + D))

open Classical in
/-- lines 136-140, without the factor `Id`; `none`: the result is infinite -/
noncomputable def flatRe (D : ℝ) (om : ℝ) : Option ℂ :=
  if om = D ∨ om = -D then none
  else some (if om > -D ∧ om < D then
      -(Real.log (|om - D| / |om + D|) : ℂ) / (2 * D) - Complex.I * Real.pi / (2 * D)
    else -(Real.log (|om - D| / |om + D|) : ℂ) / (2 * D))

/-- the matrices assigned at a Matsubara frequency, lines 94 and 134: the factor is the identity -/
noncomputable def withId {o : Type} [DecidableEq o] (v : ℂ) : Matrix o o ℂ := v • (1 : Matrix o o ℂ)

/-- the matrix assigned at a real frequency by `SemiCircular`, lines 98-101: there is no factor, so that
`res[n,...] = f(om)` sets all elements -/
noncomputable def semiReMatrix {o : Type} (D mu om : ℝ) : Matrix o o ℂ := fun _ _ => semiRe D mu om

/-! ## Specification -/

/-- the semicircular density of states -/
noncomputable def semiDos (D w : ℝ) : ℝ := 2 * Real.sqrt (D ^ 2 - w ^ 2) / (Real.pi * D ^ 2)

/-- its Hilbert transform -/
noncomputable def semiHilbert (D : ℝ) (z : ℂ) : ℂ := ∫ w in (-D)..D, (semiDos D w : ℂ) / (z - w)

/-- the Hilbert transform of the flat density of states `1/(2D)` -/
noncomputable def flatHilbert (D : ℝ) (z : ℂ) : ℂ := ∫ w in (-D)..D, (1 / (2 * D) : ℂ) / (z - w)

/-! ## Proofs -/

theorem csqrt_sq (z : ℂ) : csqrt z ^ 2 = z := by
  unfold csqrt
  rw [← Complex.cpow_nat_mul]
  simp

theorem csqrt_re (z : ℂ) : 0 ≤ (csqrt z).re := by
  by_cases hz : z = 0
  · subst hz; simp [csqrt]
  unfold csqrt
  rw [Complex.cpow_def_of_ne_zero hz, Complex.exp_re]
  refine mul_nonneg (Real.exp_pos _).le (Real.cos_nonneg_of_mem_Icc ⟨?_, ?_⟩)
  · have := Complex.neg_pi_lt_arg z
    have h : (Complex.log z * (1 / 2 : ℂ)).im = Complex.arg z / 2 := by
      rw [show (1 / 2 : ℂ) = ((1 / 2 : ℝ) : ℂ) by norm_num, Complex.im_mul_ofReal, Complex.log_im]; ring
    rw [h]; linarith
  · have := Complex.arg_le_pi z
    have h : (Complex.log z * (1 / 2 : ℂ)).im = Complex.arg z / 2 := by
      rw [show (1 / 2 : ℂ) = ((1 / 2 : ℝ) : ℂ) by norm_num, Complex.im_mul_ofReal, Complex.log_im]; ring
    rw [h]; linarith

theorem csqrt_ofReal (x : ℝ) (hx : 0 ≤ x) : csqrt (x : ℂ) = (Real.sqrt x : ℝ) := by
  unfold csqrt
  rw [Real.sqrt_eq_rpow, Complex.ofReal_cpow hx]
  norm_num

/-- `Σ v^n sin((n+1) θ) = sin θ / (1 - 2 v cos θ + v²)` -/
theorem hasSum_sin (v : ℂ) (hv : ‖v‖ < 1) (t : ℝ) :
    HasSum (fun n : ℕ => v ^ n * Complex.sin ((n + 1 : ℕ) * t)) (Complex.sin t / (1 - 2 * v * Complex.cos t + v ^ 2)) := by
  set e := Complex.exp (t * Complex.I) with he
  set e' := Complex.exp (-t * Complex.I) with he'
  have hee : e * e' = 1 := by rw [he, he', ← Complex.exp_add]; simp
  have hn : ‖e‖ = 1 := Complex.norm_exp_ofReal_mul_I t
  have hn' : ‖e'‖ = 1 := by
    have := Complex.norm_exp_ofReal_mul_I (-t)
    rw [he']; push_cast at this; exact this
  have h1 : ‖v * e‖ < 1 := by rw [norm_mul, hn, mul_one]; exact hv
  have h2 : ‖v * e'‖ < 1 := by rw [norm_mul, hn', mul_one]; exact hv
  have s1 := (hasSum_geometric_of_norm_lt_one h1).mul_left e
  have s2 := (hasSum_geometric_of_norm_lt_one h2).mul_left e'
  have s := (s1.sub s2).mul_left (Complex.I / 2 * (-1))
  have hne1 : 1 - v * e ≠ 0 := fun h => by
    have : v * e = 1 := (sub_eq_zero.1 h).symm
    rw [this] at h1; simp at h1
  have hne2 : 1 - v * e' ≠ 0 := fun h => by
    have : v * e' = 1 := (sub_eq_zero.1 h).symm
    rw [this] at h2; simp at h2
  have hc : Complex.cos t = (e + e') / 2 := rfl
  have hs : Complex.sin t = (e' - e) * Complex.I / 2 := rfl
  have hden : 1 - 2 * v * Complex.cos t + v ^ 2 = (1 - v * e) * (1 - v * e') := by
    rw [hc]; linear_combination (-(v ^ 2)) * hee
  have hlim : Complex.I / 2 * (-1) * (e * (1 - v * e)⁻¹ - e' * (1 - v * e')⁻¹) = Complex.sin t / (1 - 2 * v * Complex.cos t + v ^ 2) := by
    rw [hden, hs, eq_div_iff (mul_ne_zero hne1 hne2)]
    have hA := inv_mul_cancel₀ hne1
    have hB := inv_mul_cancel₀ hne2
    linear_combination (-(Complex.I / 2) * e * (1 - v * e')) * hA + (Complex.I / 2 * e' * (1 - v * e)) * hB
  rw [hlim] at s
  refine s.congr_fun ?_
  intro n
  have hp : ∀ k : ℕ, Complex.exp ((k : ℂ) * t * Complex.I) = e ^ k := by
    intro k; rw [he, ← Complex.exp_nat_mul]; ring_nf
  have hp' : ∀ k : ℕ, Complex.exp (-((k : ℂ) * t) * Complex.I) = e' ^ k := by
    intro k; rw [he', ← Complex.exp_nat_mul]; ring_nf
  show _ = _
  unfold Complex.sin
  rw [hp, hp']
  ring

theorem integral_cos_nat (m : ℕ) : ∫ t in (0 : ℝ)..Real.pi, Real.cos (m * t) = if m = 0 then Real.pi else 0 := by
  by_cases hm : m = 0
  · subst hm; simp
  · have h : (m : ℝ) ≠ 0 := by exact_mod_cast hm
    rw [intervalIntegral.integral_comp_mul_left (fun x => Real.cos x) h, if_neg hm]
    simp [integral_cos, Real.sin_nat_mul_pi]

theorem integral_sin_sin (n : ℕ) :
    ∫ t in (0 : ℝ)..Real.pi, Real.sin t * Real.sin ((n + 1 : ℕ) * t) = if n = 0 then Real.pi / 2 else 0 := by
  have h : ∀ t : ℝ, Real.sin t * Real.sin ((n + 1 : ℕ) * t) = (1 / 2) * Real.cos ((n : ℕ) * t) - (1 / 2) * Real.cos ((n + 2 : ℕ) * t) := by
    intro t
    have h1 : ((n + 1 : ℕ) : ℝ) * t = n * t + t := by push_cast; ring
    have h2 : ((n + 2 : ℕ) : ℝ) * t = n * t + 2 * t := by push_cast; ring
    rw [h1, h2, Real.sin_add, Real.cos_add, Real.cos_two_mul, Real.sin_two_mul]
    have := Real.sin_sq_add_cos_sq t
    linear_combination (Real.cos (n * t)) * this
  simp only [h]
  rw [intervalIntegral.integral_sub, intervalIntegral.integral_const_mul, intervalIntegral.integral_const_mul, integral_cos_nat,
    integral_cos_nat, if_neg (show ¬ n + 2 = 0 by omega)]
  · split <;> ring
  · exact (Continuous.intervalIntegrable (by fun_prop) _ _)
  · exact (Continuous.intervalIntegrable (by fun_prop) _ _)

/-- the integral behind the semicircle -/
theorem integral_kernel (v : ℂ) (hv : ‖v‖ < 1) :
    ∫ t in (0 : ℝ)..Real.pi, Complex.sin t * (Complex.sin t / (1 - 2 * v * Complex.cos t + v ^ 2)) = (Real.pi / 2 : ℂ) := by
  have hsum := intervalIntegral.hasSum_integral_of_dominated_convergence (a := 0) (b := Real.pi) (μ := volume)
    (F := fun (n : ℕ) (t : ℝ) => Complex.sin t * (v ^ n * Complex.sin ((n + 1 : ℕ) * t)))
    (f := fun t : ℝ => Complex.sin t * (Complex.sin t / (1 - 2 * v * Complex.cos t + v ^ 2)))
    (fun n _ => ‖v‖ ^ n) (fun n => Continuous.aestronglyMeasurable (by fun_prop))
    (fun n => Filter.Eventually.of_forall fun t _ => by
      have h1 : ‖Complex.sin (t : ℂ)‖ ≤ 1 := by rw [← Complex.ofReal_sin, Complex.norm_real]; exact Real.abs_sin_le_one t
      have h2 : ‖Complex.sin ((n + 1 : ℕ) * (t : ℂ))‖ ≤ 1 := by
        rw [show ((n + 1 : ℕ) : ℂ) * (t : ℂ) = (((n + 1 : ℕ) * t : ℝ) : ℂ) by push_cast; ring, ← Complex.ofReal_sin, Complex.norm_real]
        exact Real.abs_sin_le_one _
      rw [norm_mul, norm_mul, norm_pow]
      have := pow_nonneg (norm_nonneg v) n
      nlinarith [norm_nonneg (Complex.sin (t : ℂ)), norm_nonneg (Complex.sin ((n + 1 : ℕ) * (t : ℂ))), mul_le_mul h1 h2 (norm_nonneg _) zero_le_one])
    (Filter.Eventually.of_forall fun t _ => summable_geometric_of_lt_one (norm_nonneg v) hv)
    (intervalIntegrable_const)
    (Filter.Eventually.of_forall fun t _ => (hasSum_sin v hv t).mul_left (Complex.sin t))
  have hterm : ∀ n : ℕ, ∫ t in (0 : ℝ)..Real.pi, Complex.sin t * (v ^ n * Complex.sin ((n + 1 : ℕ) * t)) =
      if n = 0 then (Real.pi / 2 : ℂ) else 0 := by
    intro n
    have h1 : ∀ t : ℝ, Complex.sin t * (v ^ n * Complex.sin ((n + 1 : ℕ) * t)) = v ^ n * ((Real.sin t * Real.sin ((n + 1 : ℕ) * t) : ℝ) : ℂ) := by
      intro t; push_cast; ring
    simp only [h1]
    rw [intervalIntegral.integral_const_mul, intervalIntegral.integral_ofReal, integral_sin_sin]
    by_cases hn : n = 0
    · subst hn; simp
    · simp [hn]
  simp only [hterm] at hsum
  exact hsum.unique (hasSum_ite_eq 0 (Real.pi / 2 : ℂ)) 

/-- the Hilbert transform in terms of the root inside of the unit circle -/
theorem semiHilbert_root (D : ℝ) (hD : 0 < D) (u : ℂ) (hu0 : u ≠ 0) (hu : ‖u‖ < 1) (z : ℂ) (hz : z = D / 2 * (u + u⁻¹))
    (hout : ∀ w : ℝ, -D ≤ w → w ≤ D → z ≠ w) : semiHilbert D z = 2 * u / D := by
  have hDc : (D : ℂ) ≠ 0 := by exact_mod_cast hD.ne'
  have hpi : (Real.pi : ℂ) ≠ 0 := by exact_mod_cast Real.pi_ne_zero
  have hsub := intervalIntegral.integral_deriv_smul_comp'' (a := 0) (b := Real.pi) (f := fun t => -(D * Real.cos t))
    (f' := fun t => D * Real.sin t) (g := fun w : ℝ => (semiDos D w : ℂ) / (z - w))
    (by fun_prop)
    (fun t _ => by
      have := ((Real.hasDerivAt_cos t).const_mul D).fun_neg
      simpa using this.hasDerivWithinAt)
    (by fun_prop)
    (by
      intro w hw
      obtain ⟨t, -, rfl⟩ := hw
      have h1 : -(D * Real.cos t) ≤ D := by nlinarith [Real.neg_one_le_cos t]
      have h2 : -D ≤ -(D * Real.cos t) := by nlinarith [Real.cos_le_one t]
      have hne : z - ((-(D * Real.cos t) : ℝ) : ℂ) ≠ 0 := sub_ne_zero.2 (hout _ h2 h1)
      refine ContinuousAt.continuousWithinAt ?_
      refine ContinuousAt.div ?_ (by fun_prop) hne
      unfold semiDos
      fun_prop)
  simp only [Real.cos_zero, Real.cos_pi, mul_one, mul_neg, neg_neg] at hsub
  unfold semiHilbert
  rw [← hsub]
  have hint : ∀ t ∈ Set.uIcc (0 : ℝ) Real.pi, (D * Real.sin t) • ((fun w : ℝ => (semiDos D w : ℂ) / (z - w)) ∘ fun t => -(D * Real.cos t)) t =
      (4 * u / (Real.pi * D)) * (Complex.sin t * (Complex.sin t / (1 - 2 * (-u) * Complex.cos t + (-u) ^ 2))) := by
    intro t ht
    rw [Set.uIcc_of_le Real.pi_pos.le] at ht
    have hs : 0 ≤ Real.sin t := Real.sin_nonneg_of_nonneg_of_le_pi ht.1 ht.2
    have hdos : semiDos D (-(D * Real.cos t)) = 2 * Real.sin t / (Real.pi * D) := by
      unfold semiDos
      have : D ^ 2 - (-(D * Real.cos t)) ^ 2 = (D * Real.sin t) ^ 2 := by
        have := Real.sin_sq_add_cos_sq t
        linear_combination (-(D ^ 2)) * this
      rw [this, Real.sqrt_sq (mul_nonneg hD.le hs)]
      have := Real.pi_ne_zero
      field_simp
    have h1 : -(D * Real.cos t) ≤ D := by nlinarith [Real.neg_one_le_cos t]
    have h2 : -D ≤ -(D * Real.cos t) := by nlinarith [Real.cos_le_one t]
    have hne : z - ((-(D * Real.cos t) : ℝ) : ℂ) ≠ 0 := sub_ne_zero.2 (hout _ h2 h1)
    have hden : z - ((-(D * Real.cos t) : ℝ) : ℂ) = D / (2 * u) * (1 - 2 * (-u) * Complex.cos t + (-u) ^ 2) := by
      rw [hz]; push_cast; field_simp; ring
    have hne2 : (1 - 2 * (-u) * Complex.cos t + (-u) ^ 2) ≠ 0 := by
      intro h; rw [hden, h, mul_zero] at hne; exact hne rfl
    simp only [Function.comp_apply]
    rw [hdos, hden, Complex.real_smul]
    push_cast
    field_simp
    ring
  rw [intervalIntegral.integral_congr hint, intervalIntegral.integral_const_mul, integral_kernel (-u) (by rwa [norm_neg])]
  field_simp
  ring

/-- off the real axis the formula of the code is the root inside of the unit circle -/
theorem root_inside (D : ℝ) (hD : 0 < D) (z : ℂ) (hz : z.im ≠ 0) :
    ‖(z - Complex.I * copysign z.im * csqrt (D * D - z ^ 2)) / D‖ < 1 ∧
      (z - Complex.I * copysign z.im * csqrt (D * D - z ^ 2)) * (z + Complex.I * copysign z.im * csqrt (D * D - z ^ 2)) = D * D := by
  set s := csqrt (D * D - z ^ 2) with hs
  have hsq : s ^ 2 = D * D - z ^ 2 := csqrt_sq _
  have hre : 0 ≤ s.re := csqrt_re _
  set c := copysign z.im with hc
  have hc2 : c * c = 1 := by rw [hc]; unfold copysign; split <;> norm_num
  have hcz : 0 < c * z.im := by
    rw [hc]; unfold copysign
    split
    · rename_i h; linarith
    · rename_i h; rcases lt_or_gt_of_ne hz with h1 | h1
      · exact absurd h1 h
      · linarith
  have hprod : (z - Complex.I * c * s) * (z + Complex.I * c * s) = D * D := by
    have hc2' : (c : ℂ) * c = 1 := by exact_mod_cast hc2
    linear_combination hsq - (Complex.I ^ 2 * s ^ 2) * hc2' - s ^ 2 * Complex.I_sq
  refine ⟨?_, hprod⟩
  have e1 := congrArg Complex.re hsq
  have e2 := congrArg Complex.im hsq
  simp only [pow_two, Complex.mul_re, Complex.mul_im, Complex.sub_re, Complex.sub_im, Complex.ofReal_re, Complex.ofReal_im, mul_zero, zero_mul,
    sub_zero, add_zero] at e1 e2
  have hpos : 0 < s.re := by
    rcases hre.lt_or_eq with h | h
    · exact h
    · exfalso
      rw [← h] at e1 e2
      have : z.re = 0 := by
        have h3 : z.re * z.im = 0 := by linarith
        exact (mul_eq_zero.1 h3).resolve_right hz
      rw [this] at e1
      nlinarith [sq_nonneg s.im, sq_nonneg z.im, mul_pos hD hD]
  have hcross : 0 < c * (z.im * s.re - z.re * s.im) := by
    have h3 : z.re * s.im * s.re = -(z.re * z.re * z.im) := by
      have : s.re * s.im = -(z.re * z.im) := by linarith
      linear_combination z.re * this
    have h4 : 0 < c * (z.im * s.re - z.re * s.im) * s.re := by
      have : c * (z.im * s.re - z.re * s.im) * s.re = c * z.im * (s.re * s.re) + c * z.im * (z.re * z.re) := by linear_combination (-c) * h3
      rw [this]
      have := mul_pos hcz (mul_pos hpos hpos)
      have := mul_nonneg hcz.le (mul_self_nonneg z.re)
      linarith
    exact (pos_iff_pos_of_mul_pos h4).2 hpos
  have hlt : Complex.normSq (z - Complex.I * c * s) < Complex.normSq (z + Complex.I * c * s) := by
    simp only [Complex.normSq_apply, Complex.sub_re, Complex.sub_im, Complex.add_re, Complex.add_im, Complex.mul_re, Complex.mul_im,
      Complex.I_re, Complex.I_im, Complex.ofReal_re, Complex.ofReal_im]
    nlinarith
  have hmul : Complex.normSq (z - Complex.I * c * s) * Complex.normSq (z + Complex.I * c * s) = (D * D) * (D * D) := by
    rw [← Complex.normSq_mul, hprod]; simp [Complex.normSq_apply]
  have hD2 : Complex.normSq (z - Complex.I * c * s) < D * D := by
    have h0 := Complex.normSq_nonneg (z - Complex.I * c * s)
    by_contra hge
    push Not at hge
    have : D * D * (D * D) < Complex.normSq (z - Complex.I * c * s) * Complex.normSq (z + Complex.I * c * s) := by
      have := mul_pos hD hD
      nlinarith
    linarith
  rw [norm_div, Complex.norm_real, Real.norm_eq_abs, abs_of_pos hD, div_lt_one hD]
  have : ‖z - Complex.I * c * s‖ ^ 2 < D ^ 2 := by rw [← Complex.normSq_eq_norm_sq, pow_two]; exact hD2
  exact lt_of_pow_lt_pow_left₀ 2 hD.le this

/-- C139: at Matsubara frequencies the function is the Hilbert transform of the semicircle with the centre `-mu`. -/
theorem C139_semi_im (D mu : ℝ) (hD : 0 < D) (om : ℂ) (hom : om.im ≠ 0) : semiIm D mu om = semiHilbert D (om + mu) := by
  have hDc : (D : ℂ) ≠ 0 := by exact_mod_cast hD.ne'
  have him : (om + mu).im ≠ 0 := by simpa using hom
  obtain ⟨h1, h2⟩ := root_inside D hD (om + mu) him
  set z := om + (mu : ℂ) with hz
  set r := z - Complex.I * copysign z.im * csqrt (D * D - z ^ 2) with hr
  have hr0 : r ≠ 0 := by
    intro h; rw [h, zero_mul] at h2
    exact mul_ne_zero hDc hDc h2.symm
  rw [semiHilbert_root D hD (r / D) (div_ne_zero hr0 hDc) h1 z ?_ ?_]
  · show r / D / D * 2 = _
    ring
  · have h3 : (r / D)⁻¹ = (z + Complex.I * copysign z.im * csqrt (D * D - z ^ 2)) / D := by
      rw [inv_div, div_eq_div_iff hr0 hDc]; linear_combination -h2
    rw [h3]
    field_simp
    rw [hr]
    ring
  · intro w _ _ h
    rw [h] at him
    simp at him

theorem copysign_one {x : ℝ} (h : 0 < x) : copysign x = 1 := by unfold copysign; rw [if_neg (by linarith)]

/-- C139: at real frequencies inside of the band it is the limit of the Hilbert transform from above. -/
theorem C139_semi_re_in (D mu om : ℝ) (h1 : -D < om + mu) (h2 : om + mu < D) :
    Filter.Tendsto (fun eta : ℝ => semiHilbert D ((om + mu : ℝ) + eta * Complex.I)) (nhdsWithin 0 (Set.Ioi 0)) (nhds (semiRe D mu om)) := by
  have hD : 0 < D := by linarith
  set x := om + mu with hx
  have hval : semiRe D mu om = ((x : ℂ) - Complex.I * csqrt (D * D - (x : ℂ) ^ 2)) / D / D * 2 := by
    unfold semiRe
    simp only
    rw [← hx, if_pos ⟨h1, h2⟩, pow_two (D : ℂ)]
    ring
  have hslit : ((D : ℂ) * D - ((x : ℂ) + ((0 : ℝ) : ℂ) * Complex.I) ^ 2) ∈ Complex.slitPlane := by
    left
    have : ((D : ℂ) * D - ((x : ℂ) + ((0 : ℝ) : ℂ) * Complex.I) ^ 2) = ((D * D - x ^ 2 : ℝ) : ℂ) := by push_cast; ring
    rw [this, Complex.ofReal_re]
    nlinarith
  have hcont : ContinuousAt (fun eta : ℝ => (((x : ℂ) + eta * Complex.I) - Complex.I * csqrt (D * D - ((x : ℂ) + eta * Complex.I) ^ 2)) / D / D * 2) 0 := by
    have hs : ContinuousAt (fun eta : ℝ => csqrt (D * D - ((x : ℂ) + eta * Complex.I) ^ 2)) 0 := by
      unfold csqrt
      exact ContinuousAt.cpow (by fun_prop) continuousAt_const hslit
    exact ((((by fun_prop : ContinuousAt (fun eta : ℝ => (x : ℂ) + eta * Complex.I) 0).sub (continuousAt_const.mul hs)).div_const _).div_const _).mul_const _
  have ht := hcont.tendsto
  simp only [Complex.ofReal_zero, zero_mul, add_zero] at ht
  rw [← hval] at ht
  refine (ht.mono_left nhdsWithin_le_nhds).congr' ?_
  filter_upwards [self_mem_nhdsWithin] with eta heta
  have him : (((om : ℝ) : ℂ) + eta * Complex.I).im = eta := by simp
  have := C139_semi_im D mu hD ((om : ℂ) + eta * Complex.I) (by rw [him]; exact (ne_of_gt heta))
  have hz : (om : ℂ) + eta * Complex.I + mu = (x : ℂ) + eta * Complex.I := by rw [hx]; push_cast; ring
  rw [hz] at this
  rw [← this]
  unfold semiIm
  simp only
  rw [hz]
  have him2 : ((x : ℂ) + eta * Complex.I).im = eta := by simp
  rw [him2, copysign_one heta]
  simp

theorem copysign_abs (x : ℝ) : copysign x * x = |x| ∧ copysign x * copysign x = 1 := by
  unfold copysign
  split
  · rename_i h; rw [abs_of_neg h]; norm_num
  · rename_i h; rw [abs_of_nonneg (not_lt.1 h)]; norm_num

/-- C139: outside of the band it is the Hilbert transform. -/
theorem C139_semi_re_out (D mu om : ℝ) (hD : 0 < D) (h : D < |om + mu|) : semiRe D mu om = semiHilbert D ((om + mu : ℝ) : ℂ) := by
  have hDc : (D : ℂ) ≠ 0 := by exact_mod_cast hD.ne'
  set x := om + mu with hx
  have hn : ¬ (x > -D ∧ x < D) := by
    rintro ⟨a, b⟩
    exact absurd (abs_lt.2 ⟨a, b⟩) (not_lt.2 h.le)
  obtain ⟨c1, c2⟩ := copysign_abs x
  set c := copysign x with hc
  set s := Real.sqrt (x ^ 2 - D ^ 2) with hs
  have hsq : s * s = x ^ 2 - D ^ 2 := Real.mul_self_sqrt (by nlinarith [abs_nonneg x, sq_abs x])
  have hs0 : 0 ≤ s := Real.sqrt_nonneg _
  have hxx : |x| * |x| = x ^ 2 := by rw [abs_mul_abs_self]; ring
  have hval : semiRe D mu om = 2 / (D : ℂ) ^ 2 * ((x - c * s : ℝ) : ℂ) := by
    unfold semiRe
    simp only
    rw [← hx, if_neg hn]
    have : csqrt ((x : ℂ) ^ 2 - (D : ℂ) ^ 2) = (s : ℝ) := by
      rw [hs, ← csqrt_ofReal _ (by nlinarith [abs_nonneg x, sq_abs x])]
      push_cast; rfl
    rw [this]
    push_cast; ring
  have habs : c * (x - c * s) = |x| - s := by linear_combination c1 - s * c2
  have hlt : |x| - s < D := by nlinarith
  have hgt : 0 < |x| - s := by nlinarith
  have hcabs : |c| = 1 := by
    rcases mul_self_eq_one_iff.1 c2 with h | h <;> rw [h] <;> norm_num
  have hu : |x - c * s| = |x| - s := by
    have := abs_mul c (x - c * s)
    rw [hcabs, one_mul] at this
    rw [← this, habs, abs_of_pos hgt]
  have hu0 : x - c * s ≠ 0 := by
    intro h0; rw [h0, abs_zero] at hu; linarith
  have hprod : (x - c * s) * (x + c * s) = D * D := by linear_combination (-(s * s)) * c2 - hsq
  rw [hval, semiHilbert_root D hD (((x - c * s : ℝ) : ℂ) / D) (div_ne_zero (by exact_mod_cast hu0) hDc) ?_ (x : ℂ) ?_ ?_]
  · field_simp
  · rw [norm_div, Complex.norm_real, Complex.norm_real, Real.norm_eq_abs, Real.norm_eq_abs, hu, abs_of_pos hD, div_lt_one hD]
    exact hlt
  · have h3 : (((x - c * s : ℝ) : ℂ) / D)⁻¹ = ((x + c * s : ℝ) : ℂ) / D := by
      rw [inv_div, div_eq_div_iff (by exact_mod_cast hu0) hDc]
      exact_mod_cast (by linarith : D * D = (x + c * s) * (x - c * s))
    rw [h3]
    field_simp
    push_cast
    ring
  · intro w hw1 hw2 heq
    have : x = w := by exact_mod_cast heq
    rw [this] at h
    exact absurd (abs_le.2 ⟨hw1, hw2⟩) (not_le.2 h)

/-- integrals with the semicircle as integrals over an angle -/
theorem semi_angle (D : ℝ) (hD : 0 < D) (k : ℝ → ℂ) :
    ∫ w in (-D)..D, (semiDos D w : ℂ) * k w =
      ∫ t in (0 : ℝ)..Real.pi, ((2 / Real.pi * Real.sin t ^ 2 : ℝ) : ℂ) * k (-(D * Real.cos t)) := by
  have hsub := intervalIntegral.integral_deriv_smul_comp_of_deriv_nonneg (a := 0) (b := Real.pi) (f := fun t => -(D * Real.cos t))
    (f' := fun t => D * Real.sin t) (g := fun w : ℝ => (semiDos D w : ℂ) * k w)
    (by fun_prop)
    (fun t _ => by
      have := ((Real.hasDerivAt_cos t).const_mul D).fun_neg
      simpa using this)
    (fun t ht => by
      rw [min_eq_left Real.pi_pos.le, max_eq_right Real.pi_pos.le] at ht
      exact mul_nonneg hD.le (Real.sin_nonneg_of_nonneg_of_le_pi ht.1.le ht.2.le))
  simp only [Real.cos_zero, Real.cos_pi, mul_one, mul_neg, neg_neg] at hsub
  rw [← hsub]
  refine intervalIntegral.integral_congr fun t ht => ?_
  rw [Set.uIcc_of_le Real.pi_pos.le] at ht
  have hs : 0 ≤ Real.sin t := Real.sin_nonneg_of_nonneg_of_le_pi ht.1 ht.2
  have hdos : semiDos D (-(D * Real.cos t)) * (D * Real.sin t) = 2 / Real.pi * Real.sin t ^ 2 := by
    unfold semiDos
    have : D ^ 2 - (-(D * Real.cos t)) ^ 2 = (D * Real.sin t) ^ 2 := by
      have := Real.sin_sq_add_cos_sq t
      linear_combination (-(D ^ 2)) * this
    rw [this, Real.sqrt_sq (mul_nonneg hD.le hs)]
    have := Real.pi_ne_zero
    field_simp
  simp only [Function.comp_apply]
  rw [← hdos, Complex.real_smul]
  push_cast
  ring

/-- C139: the density of states is normalised. -/
theorem C139_semi_norm (D : ℝ) (hD : 0 < D) : ∫ w in (-D)..D, semiDos D w = 1 := by
  have h := semi_angle D hD (fun _ => 1)
  simp only [mul_one] at h
  rw [intervalIntegral.integral_ofReal, intervalIntegral.integral_ofReal, intervalIntegral.integral_const_mul, integral_sin_sq] at h
  have h2 : ∫ w in (-D)..D, semiDos D w = 2 / Real.pi * ((Real.sin 0 * Real.cos 0 - Real.sin Real.pi * Real.cos Real.pi + Real.pi - 0) / 2) := by
    exact_mod_cast h
  rw [h2]
  have := Real.pi_ne_zero
  simp

/-- C139: at the edges of the band it is the Hilbert transform, too. -/
theorem C139_semi_edge (D mu om : ℝ) (hD : 0 < D) (h : |om + mu| = D) : semiRe D mu om = semiHilbert D ((om + mu : ℝ) : ℂ) := by
  have hDc : (D : ℂ) ≠ 0 := by exact_mod_cast hD.ne'
  have hpi : (Real.pi : ℂ) ≠ 0 := by exact_mod_cast Real.pi_ne_zero
  set x := om + mu with hx
  have hval : semiRe D mu om = 2 / (D : ℂ) ^ 2 * x := by
    unfold semiRe
    simp only
    rw [← hx, if_neg (by rintro ⟨a, b⟩; exact absurd (abs_lt.2 ⟨a, b⟩) (not_lt.2 h.ge))]
    have : (x : ℂ) ^ 2 - (D : ℂ) ^ 2 = ((0 : ℝ) : ℂ) := by
      have : x ^ 2 = D ^ 2 := by rw [← sq_abs, h]
      rw [← Complex.ofReal_pow, ← Complex.ofReal_pow, this]; simp
    rw [this, csqrt_ofReal 0 le_rfl]
    simp
  have hc2 : x / D * (x / D) = 1 := by
    have : x * x = D * D := by rw [← abs_mul_abs_self, h]
    field_simp
    linarith
  rw [hval]
  unfold semiHilbert
  simp only [div_eq_mul_inv (_ : ℂ) (_ - _)]
  rw [semi_angle D hD (fun w : ℝ => ((x : ℂ) - w)⁻¹)]
  have hint : ∫ t in (0 : ℝ)..Real.pi, ((2 / Real.pi * Real.sin t ^ 2 : ℝ) : ℂ) * ((x : ℂ) - ((-(D * Real.cos t) : ℝ) : ℂ))⁻¹ =
      ∫ t in (0 : ℝ)..Real.pi, ((2 / (Real.pi * D) * (x / D - Real.cos t) : ℝ) : ℂ) := by
    refine intervalIntegral.integral_congr_Ioo_of_le Real.pi_pos.le fun t ht => ?_
    have h1 : Real.cos t < 1 := by
      have := Real.cos_lt_cos_of_nonneg_of_le_pi le_rfl ht.2.le ht.1
      rwa [Real.cos_zero] at this
    have h2 : -1 < Real.cos t := by
      have := Real.cos_lt_cos_of_nonneg_of_le_pi ht.1.le le_rfl ht.2
      rwa [Real.cos_pi] at this
    have hne : x + D * Real.cos t ≠ 0 := by
      rcases mul_self_eq_one_iff.1 hc2 with h3 | h3
      · have : x = D := by field_simp at h3; exact h3
        rw [this]; nlinarith
      · have : x = -D := by field_simp at h3; linarith
        rw [this]; nlinarith
    have h4 : 2 / Real.pi * Real.sin t ^ 2 * (x + D * Real.cos t)⁻¹ = 2 / (Real.pi * D) * (x / D - Real.cos t) := by
      have h5 := Real.sin_sq_add_cos_sq t
      have h6 : x * x = D * D := by rw [← abs_mul_abs_self, h]
      have := Real.pi_ne_zero
      field_simp
      linear_combination (D ^ 2) * h5 - h6
    show ((2 / Real.pi * Real.sin t ^ 2 : ℝ) : ℂ) * ((x : ℂ) - ((-(D * Real.cos t) : ℝ) : ℂ))⁻¹ = ((2 / (Real.pi * D) * (x / D - Real.cos t) : ℝ) : ℂ)
    rw [← h4]
    push_cast
    ring_nf
  rw [hint, intervalIntegral.integral_ofReal, intervalIntegral.integral_const_mul, intervalIntegral.integral_sub
    (Continuous.intervalIntegrable (by fun_prop) _ _) (Continuous.intervalIntegrable (by fun_prop) _ _), intervalIntegral.integral_const, integral_cos]
  simp
  field_simp

/-- C139: at the zero frequency of a bosonic mesh the value is the limit from above if the frequency is inside of the band. -/
theorem C139_semi_zero (D mu : ℝ) (h1 : -D < mu) (h2 : mu < D) : semiIm D mu 0 = semiRe D mu 0 := by
  have hD : (D : ℂ) ≠ 0 := by
    have : D ≠ 0 := by linarith
    exact_mod_cast this
  have hc : copysign 0 = 1 := by simp [copysign]
  unfold semiIm semiRe
  simp only [zero_add, Complex.ofReal_im, hc, Complex.ofReal_one, mul_one]
  rw [if_pos ⟨h1, h2⟩, pow_two (D : ℂ)]
  field_simp

theorem csqrt_neg (y : ℝ) (hy : 0 ≤ y) : csqrt ((-y : ℝ) : ℂ) = Complex.I * (Real.sqrt y : ℝ) := by
  unfold csqrt
  rw [Complex.ofReal_cpow_of_nonpos (by linarith)]
  have h1 : (-((-y : ℝ) : ℂ)) = (y : ℂ) := by push_cast; ring
  rw [h1]
  have h2 : Complex.exp (Real.pi * Complex.I * (1 / 2)) = Complex.I := by
    rw [show (Real.pi : ℂ) * Complex.I * (1 / 2) = Real.pi / 2 * Complex.I by ring, Complex.exp_pi_div_two_mul_I]
  rw [h2, mul_comm]
  congr 1
  exact csqrt_ofReal y hy

/-- C139: but not if the chemical potential is above the band; then it is the other root. -/
theorem C139_semi_zero_wrong (D mu : ℝ) (hD : 0 < D) (h : D < mu) : semiIm D mu 0 ≠ semiHilbert D mu := by
  have hDc : (D : ℂ) ≠ 0 := by exact_mod_cast hD.ne'
  have habs : |mu| = mu := abs_of_pos (by linarith)
  have hre := C139_semi_re_out D mu 0 hD (by rw [zero_add, habs]; exact h)
  rw [zero_add] at hre
  rw [← hre]
  have hpos : 0 < mu ^ 2 - D ^ 2 := by nlinarith
  have hs : 0 < Real.sqrt (mu ^ 2 - D ^ 2) := Real.sqrt_pos.2 hpos
  have hl : semiIm D mu 0 = ((2 / D ^ 2 * (mu + Real.sqrt (mu ^ 2 - D ^ 2)) : ℝ) : ℂ) := by
    unfold semiIm
    simp only [zero_add, Complex.ofReal_im]
    have h1 : (D : ℂ) * D - (mu : ℂ) ^ 2 = ((-(mu ^ 2 - D ^ 2) : ℝ) : ℂ) := by push_cast; ring
    rw [h1, csqrt_neg _ hpos.le, copysign, if_neg (lt_irrefl 0)]
    push_cast
    have := Complex.I_mul_I
    field_simp
    linear_combination (-(Real.sqrt (mu ^ 2 - D ^ 2) : ℂ)) * this
  have hr : semiRe D mu 0 = ((2 / D ^ 2 * (mu - Real.sqrt (mu ^ 2 - D ^ 2)) : ℝ) : ℂ) := by
    unfold semiRe
    simp only [zero_add]
    rw [if_neg (by intro hh; linarith [hh.2]), copysign_one (by linarith)]
    have h1 : (mu : ℂ) ^ 2 - (D : ℂ) ^ 2 = ((mu ^ 2 - D ^ 2 : ℝ) : ℂ) := by push_cast; ring
    rw [h1, csqrt_ofReal _ hpos.le]
    push_cast
    ring
  rw [hl, hr]
  intro heq
  have heq' : 2 / D ^ 2 * (mu + Real.sqrt (mu ^ 2 - D ^ 2)) = 2 / D ^ 2 * (mu - Real.sqrt (mu ^ 2 - D ^ 2)) := by exact_mod_cast heq
  have h2 : 2 / D ^ 2 ≠ 0 := by positivity
  have := mul_left_cancel₀ h2 heq'
  linarith

/-- C139: at real frequencies all elements of a matrix are set to this value, which is not zero. -/
theorem C139_semi_offdiagonal {o : Type} [DecidableEq o] (D mu om : ℝ) (hD : 0 < D) (a b : o) (hab : a ≠ b) :
    semiReMatrix D mu om a b ≠ withId (semiRe D mu om) a b := by
  have hDc : (D : ℂ) ≠ 0 := by exact_mod_cast hD.ne'
  unfold semiReMatrix withId
  rw [Matrix.smul_apply, Matrix.one_apply_ne hab, smul_zero]
  unfold semiRe
  simp only
  set x := om + mu
  have h2 : 2 / (D : ℂ) ^ 2 ≠ 0 := div_ne_zero two_ne_zero (pow_ne_zero _ hDc)
  split
  · rename_i h
    refine mul_ne_zero h2 fun h0 => ?_
    have h1 : (D : ℂ) ^ 2 - (x : ℂ) ^ 2 = ((D ^ 2 - x ^ 2 : ℝ) : ℂ) := by push_cast; ring
    have hpos : 0 < D ^ 2 - x ^ 2 := by nlinarith [h.1, h.2]
    rw [h1, csqrt_ofReal _ hpos.le] at h0
    have := congrArg Complex.im h0
    simp at this
    have hs := Real.sqrt_pos.2 hpos
    linarith
  · rename_i h
    refine mul_ne_zero h2 fun h0 => ?_
    have h1 : (x : ℂ) ^ 2 - (D : ℂ) ^ 2 = ((x ^ 2 - D ^ 2 : ℝ) : ℂ) := by push_cast; ring
    have hge : D ≤ |x| := by
      by_contra hlt
      exact h (by have := abs_lt.1 (not_le.1 hlt); exact ⟨this.1, this.2⟩)
    have hpos : 0 ≤ x ^ 2 - D ^ 2 := by nlinarith [sq_abs x]
    rw [h1, csqrt_ofReal _ hpos] at h0
    have h3 : x - copysign x * Real.sqrt (x ^ 2 - D ^ 2) = 0 := by exact_mod_cast h0
    obtain ⟨c1, c2⟩ := copysign_abs x
    have h4 : |x| = Real.sqrt (x ^ 2 - D ^ 2) := by linear_combination (copysign x) * h3 - c1 + (Real.sqrt (x ^ 2 - D ^ 2)) * c2
    have h5 := Real.mul_self_sqrt hpos
    rw [← h4, abs_mul_abs_self] at h5
    nlinarith

/-! ### the flat density of states -/

theorem flat_logs (D : ℝ) (z : ℂ) (hz : z.im ≠ 0) :
    flatHilbert D z = 1 / (2 * D) * (Complex.log (z + D) - Complex.log (z - D)) := by
  have hsl : ∀ w : ℝ, z - w ∈ Complex.slitPlane := fun w => Or.inr (by simpa using hz)
  have hd : ∀ w : ℝ, HasDerivAt (fun w : ℝ => -Complex.log (z - w)) (1 / (z - w)) w := by
    intro w
    have h1 : HasDerivAt (fun w : ℝ => z - (w : ℂ)) (-1) w := by
      simpa using (Complex.ofRealCLM.hasDerivAt (x := w)).const_sub z
    have h2 := (h1.clog_real (hsl w)).fun_neg
    rw [neg_div, neg_neg] at h2
    exact h2
  have hint : ∫ w in (-D)..D, 1 / (z - (w : ℂ)) = -Complex.log (z - (D : ℝ)) - -Complex.log (z - ((-D : ℝ) : ℂ)) := by
    apply intervalIntegral.integral_eq_sub_of_hasDerivAt (fun w _ => hd w)
    refine Continuous.intervalIntegrable ?_ _ _
    exact continuous_const.div (by fun_prop) fun w h => by
      have := hsl w; rw [h] at this; exact Complex.zero_notMem_slitPlane this
  unfold flatHilbert
  have : ∀ w : ℝ, (1 / (2 * D) : ℂ) / (z - w) = 1 / (2 * D) * (1 / (z - w)) := fun w => by ring
  simp only [this]
  rw [intervalIntegral.integral_const_mul, hint]
  push_cast
  ring_nf

/-- C139: at Matsubara frequencies `Flat` is the Hilbert transform of the flat density of states. -/
theorem C139_flat_im (D : ℝ) (om : ℂ) (hom : om.im ≠ 0) : flatIm D om = flatHilbert D om := by
  rw [flat_logs D om hom]
  have h1 : (om - D).im = om.im := by simp
  have h2 : (om + D).im = om.im := by simp
  have hm : om - D ≠ 0 := fun h => hom (by rw [← h1, h]; simp)
  have hp : om + D ≠ 0 := fun h => hom (by rw [← h2, h]; simp)
  have hap : (om + D).arg ≠ Real.pi := by
    rw [Ne, Complex.arg_eq_pi_iff]; rintro ⟨-, h⟩; exact hom (by rw [← h2, h])
  have key : Complex.log ((om - D) / (om + D)) = Complex.log (om - D) - Complex.log (om + D) := by
    rw [div_eq_mul_inv, (Complex.log_mul_eq_add_log_iff hm (inv_ne_zero hp)).2, Complex.log_inv _ hap]
    · ring
    · rw [Complex.arg_inv, if_neg hap]
      have a1 := Complex.arg_le_pi (om - D)
      have a2 := Complex.neg_pi_lt_arg (om - D)
      have a3 := Complex.arg_le_pi (om + D)
      have a4 := Complex.neg_pi_lt_arg (om + D)
      rcases lt_or_gt_of_ne hom with h | h
      · have b1 := Complex.arg_neg_iff.2 (by rw [h1]; exact h : (om - D).im < 0)
        have b2 := Complex.arg_neg_iff.2 (by rw [h2]; exact h : (om + D).im < 0)
        constructor <;> linarith
      · have b1 := Complex.arg_nonneg_iff.2 (by rw [h1]; exact h.le : 0 ≤ (om - D).im)
        have b2 := Complex.arg_nonneg_iff.2 (by rw [h2]; exact h.le : 0 ≤ (om + D).im)
        have b3 : (om + D).arg < Real.pi := lt_of_le_of_ne a3 hap
        constructor <;> linarith
  unfold flatIm
  rw [key]
  ring

/-- C139: at real frequencies inside of the band it is the limit from above. -/
theorem C139_flat_re_in (D om : ℝ) (h1 : -D < om) (h2 : om < D) :
    ∃ v, flatRe D om = some v ∧
      Filter.Tendsto (fun eta : ℝ => flatHilbert D (om + eta * Complex.I)) (nhdsWithin 0 (Set.Ioi 0)) (nhds v) := by
  have hD : 0 < D := by linarith
  refine ⟨_, by unfold flatRe; rw [if_neg (by push Not; exact ⟨by linarith, by linarith⟩), if_pos ⟨h1, h2⟩], ?_⟩
  have hp : Filter.Tendsto (fun eta : ℝ => Complex.log ((om : ℂ) + eta * Complex.I + D)) (nhdsWithin 0 (Set.Ioi 0))
      (nhds (Real.log |om + D| : ℂ)) := by
    have hc : ContinuousAt (fun eta : ℝ => Complex.log ((om : ℂ) + eta * Complex.I + D)) 0 := by
      refine ContinuousAt.clog (by fun_prop) (Or.inl ?_)
      simp; linarith
    have := hc.tendsto
    simp only [Complex.ofReal_zero, zero_mul, add_zero] at this
    have hv : Complex.log ((om : ℂ) + D) = (Real.log |om + D| : ℂ) := by
      rw [Real.log_abs, ← Complex.ofReal_add, ← Complex.ofReal_log (by linarith)]
    rw [hv] at this
    exact this.mono_left nhdsWithin_le_nhds
  have hm : Filter.Tendsto (fun eta : ℝ => Complex.log ((om : ℂ) + eta * Complex.I - D)) (nhdsWithin 0 (Set.Ioi 0))
      (nhds ((Real.log |om - D| : ℂ) + Real.pi * Complex.I)) := by
    have hl := Complex.tendsto_log_nhdsWithin_im_nonneg_of_re_neg_of_im_zero (z := ((om - D : ℝ) : ℂ)) (by rw [Complex.ofReal_re]; linarith)
      (Complex.ofReal_im _)
    rw [Complex.norm_real, Real.norm_eq_abs] at hl
    refine hl.comp (tendsto_nhdsWithin_iff.2 ⟨?_, ?_⟩)
    · have hc : ContinuousAt (fun eta : ℝ => (om : ℂ) + eta * Complex.I - D) 0 := by fun_prop
      have := hc.tendsto
      simp only [Complex.ofReal_zero, zero_mul, add_zero] at this
      rw [← Complex.ofReal_sub] at this
      exact this.mono_left nhdsWithin_le_nhds
    · filter_upwards [self_mem_nhdsWithin] with eta heta
      have : (0 : ℝ) < eta := heta
      simpa using this.le
  have ht := (hp.sub hm).const_mul (1 / (2 * (D : ℂ)))
  have hval : 1 / (2 * (D : ℂ)) * ((Real.log |om + D| : ℂ) - ((Real.log |om - D| : ℂ) + Real.pi * Complex.I)) =
      -(Real.log (|om - D| / |om + D|) : ℂ) / (2 * D) - Complex.I * Real.pi / (2 * D) := by
    rw [Real.log_div (abs_ne_zero.2 (by linarith)) (abs_ne_zero.2 (by linarith))]
    push_cast
    ring
  rw [hval] at ht
  refine ht.congr' ?_
  filter_upwards [self_mem_nhdsWithin] with eta heta
  have : (0 : ℝ) < eta := heta
  exact (flat_logs D _ (by simpa using this.ne')).symm

/-- C139: outside of the band it is the Hilbert transform; at the edges it is infinite. -/
theorem C139_flat_re_out (D om : ℝ) (hD : 0 < D) :
    (D < |om| → flatRe D om = some (flatHilbert D om)) ∧ (|om| = D → flatRe D om = none) := by
  constructor
  · intro h
    have hn : ¬ (om > -D ∧ om < D) := by
      rintro ⟨a, b⟩
      exact absurd (abs_lt.2 ⟨a, b⟩) (not_lt.2 h.le)
    have hne1 : om ≠ D := by rintro rfl; rw [abs_of_pos hD] at h; exact lt_irrefl _ h
    have hne2 : om ≠ -D := by rintro rfl; rw [abs_neg, abs_of_pos hD] at h; exact lt_irrefl _ h
    unfold flatRe
    rw [if_neg (by push Not; exact ⟨hne1, hne2⟩), if_neg hn]
    congr 1
    unfold flatHilbert
    have h1 : ∀ w : ℝ, (1 / (2 * D) : ℂ) / ((om : ℂ) - w) = 1 / (2 * D) * (((om - w)⁻¹ : ℝ) : ℂ) := by
      intro w; push_cast; ring
    simp only [h1]
    rw [intervalIntegral.integral_const_mul, intervalIntegral.integral_ofReal,
      intervalIntegral.integral_comp_sub_left (fun x : ℝ => x⁻¹) om, integral_inv]
    · have : |om - D| / |om + D| = |(om - -D) / (om - D)|⁻¹ := by rw [abs_div, inv_div, sub_neg_eq_add]
      rw [this, Real.log_inv, Real.log_abs]
      push_cast
      ring
    · rw [Set.mem_uIcc]
      rcases lt_abs.1 h with h2 | h2
      · rintro (⟨a, b⟩ | ⟨a, b⟩) <;> linarith
      · rintro (⟨a, b⟩ | ⟨a, b⟩) <;> linarith
  · intro h
    unfold flatRe
    rw [if_pos]
    rcases eq_or_eq_neg_of_abs_eq h with h1 | h1
    · exact Or.inl h1
    · exact Or.inr h1

/-- C139: at the zero frequency of a bosonic mesh `Flat` is the limit from above. -/
theorem C139_flat_zero (D : ℝ) (hD : 0 < D) : flatRe D 0 = some (flatIm D 0) := by
  have hDc : (D : ℂ) ≠ 0 := by exact_mod_cast hD.ne'
  unfold flatRe flatIm
  rw [if_neg (by push Not; exact ⟨by linarith, by linarith⟩), if_pos ⟨by linarith, hD⟩]
  congr 1
  have h1 : ((0 : ℂ) - D) / (0 + D) = -1 := by rw [zero_sub, zero_add, neg_div, div_self hDc]
  have h2 : |0 - D| / |0 + D| = 1 := by rw [zero_sub, zero_add, abs_neg, div_self (abs_ne_zero.2 hD.ne')]
  rw [h1, h2, Complex.log_neg_one]
  simp
  ring

/-! ### Examples -/

/-- the value used in the single-site DMFT of the Bethe lattice at `i`, with the half bandwidth 2 -/
example : semiHilbert 2 Complex.I = semiIm 2 0 Complex.I := by
  rw [C139_semi_im 2 0 (by norm_num) _ (by simp)]
  simp

/-- bosons with the chemical potential 2, half bandwidth 1 -/
example : semiIm 1 2 0 ≠ semiHilbert 1 2 := by
  have := C139_semi_zero_wrong 1 2 (by norm_num) (by norm_num)
  simpa using this

/-- a function of two orbitals at the centre of the band -/
example : (semiReMatrix 1 0 0 : Matrix (Fin 2) (Fin 2) ℂ) 0 1 ≠ withId (semiRe 1 0 0) 0 1 :=
  C139_semi_offdiagonal 1 0 0 (by norm_num) 0 1 (by decide)

/-- above the band -/
example : flatRe 1 3 = some (flatHilbert 1 3) := by
  have := (C139_flat_re_out 1 3 (by norm_num)).1 (by norm_num)
  simpa using this

end Verif.Descriptors
