import Mathlib.Analysis.SpecialFunctions.Integrals.Basic
import Mathlib.Analysis.SpecialFunctions.ExpDeriv
import Mathlib.MeasureTheory.Integral.IntervalIntegral.IntegrationByParts
import Mathlib.Analysis.Complex.RealDeriv
import Mathlib.Algebra.Polynomial.Taylor
import Mathlib.Tactic.FieldSimp
import Mathlib.Tactic.LinearCombination

/-!
# Model of the moments deduced from a function of imaginary time

Source: `/repo/c++/triqs/gfs/transform/fourier_matsubara.cpp:39-114`, one component of the target.

Simplifications: `double` is an exact number; of the matrix `V_inv` the two rows that are used are modelled, with the digits
of the source.
-/

namespace Verif.TauMoments

open Complex

/-! ## Model -/

/-- first row of `V_inv`, fourier_matsubara.cpp:52-53 -/
def row0 : List ℚ := [8.000000000008853, -28.000000000055913, 56.000000000151815, -70.00000000021936, 56.00000000020795,
  -28.000000000115904, 8.00000000003683, -1.0000000000049232]
/-- second row of `V_inv`, fourier_matsubara.cpp:52-68 -/
def row1 : List ℚ := [-13.742857142879107, 62.10000000013776, -133.5333333337073, 172.75000000055635, -141.00000000052023,
  71.43333333362274, -20.600000000091182, 2.592857142869304]

/-- a row of the product of `V_inv` with `d_vec`; `d m` is the element `m - 1` of the column -/
noncomputable def apply (r : List ℚ) (d : ℕ → ℂ) : ℂ := ∑ m ∈ Finset.range 8, ((r.getD m 0 : ℚ) : ℂ) * d (m + 1)

/-- `d_vec_left(m - 1)`, fourier_matsubara.cpp:47: `delta * m` is the mesh point `m` -/
noncomputable def dLeft (g : ℕ → ℂ) (delta : ℝ) (m : ℕ) : ℂ := (g m - g 0) / ((delta * m : ℝ) : ℂ)
/-- `d_vec_right(m - 1)`, fourier_matsubara.cpp:48 -/
noncomputable def dRight (g : ℕ → ℂ) (nTau : ℕ) (delta : ℝ) (m : ℕ) : ℂ := (g (nTau - 1) - g (nTau - 1 - m)) / ((delta * m : ℝ) : ℂ)

/-- moments zero to three -/
structure Tail where
  m0 : ℂ
  m1 : ℂ
  m2 : ℂ
  m3 : ℂ

/-- `fit_tail`, fourier_matsubara.cpp:39-92; `sign = -1` for fermions, `1` for bosons. `none`: points outside of the mesh. -/
noncomputable def fitTail (g : ℕ → ℂ) (nTau : ℕ) (delta : ℝ) (sign : ℝ) : Option Tail :=
  if nTau < 9 then none
  else some ⟨0, -(g 0 - sign * g (nTau - 1)),
    apply row0 (dLeft g delta) - sign * apply row0 (dRight g nTau delta),
    -(apply row1 (dLeft g delta) + sign * apply row1 (dRight g nTau delta)) * 2 / delta⟩

/-- the test of the data, fourier_matsubara.cpp:101-108 -/
noncomputable def der1 (g : ℕ → ℂ) (nTau : ℕ) (delta : ℝ) : ℝ := (‖g 1 - g 0‖ + ‖g (nTau - 2) - g (nTau - 1)‖) / delta
noncomputable def der2 (g : ℕ → ℂ) (nTau : ℕ) (delta : ℝ) : ℝ := 0.5 * (‖g 2 - g 0‖ + ‖g (nTau - 3) - g (nTau - 1)‖) / delta

open Classical in
/-- the moments used by the direct transform when none are given, fourier_matsubara.cpp:100-114 -/
noncomputable def deduced (g : ℕ → ℂ) (nTau : ℕ) (delta : ℝ) (sign : ℝ) : Option Tail :=
  if nTau < 3 then none
  else if der1 g nTau delta < 0.95 * der2 g nTau delta ∨ der1 g nTau delta > 1.05 * der2 g nTau delta then some ⟨0, 0, 0, 0⟩
  else fitTail g nTau delta sign

/-! ## Specification -/

/-- the function sampled on the mesh of `nTau` points from `0` to `beta` -/
def Samples (g : ℕ → ℂ) (G : ℝ → ℂ) (beta : ℝ) (nTau : ℕ) : Prop := ∀ j : ℕ, j < nTau → g j = G (beta / (nTau - 1 : ℕ) * j)

/-! ## Proofs -/

/-- one integration by parts -/
theorem by_parts (beta : ℝ) (z : ℂ) (hz : z ≠ 0) (F F' : ℝ → ℂ) (hF : ∀ t, HasDerivAt F (F' t) t) (hc : Continuous F') :
    ∫ t in (0 : ℝ)..beta, exp (z * t) * F t = (exp (z * beta) * F beta - F 0) / z - (∫ t in (0 : ℝ)..beta, exp (z * t) * F' t) / z := by
  have hE : ∀ t : ℝ, HasDerivAt (fun t : ℝ => exp (z * t) / z) (exp (z * t)) t := by
    intro t
    have h1 : HasDerivAt (fun t : ℝ => z * (t : ℂ)) z t := by
      simpa using (Complex.ofRealCLM.hasDerivAt (x := t)).const_mul z
    have h2 := h1.cexp.div_const z
    rwa [mul_div_assoc, div_self hz, mul_one] at h2
  have hcF : Continuous F := continuous_iff_continuousAt.mpr fun t => (hF t).continuousAt
  have h := intervalIntegral.integral_mul_deriv_eq_deriv_mul (a := 0) (b := beta) (u := F) (v := fun t : ℝ => exp (z * t) / z)
    (u' := F') (v' := fun t : ℝ => exp (z * t)) (fun t _ => hF t) (fun t _ => hE t) (hc.intervalIntegrable _ _)
    ((by fun_prop : Continuous fun t : ℝ => exp (z * t)).intervalIntegrable _ _)
  have e1 : ∫ t in (0 : ℝ)..beta, exp (z * t) * F t = ∫ t in (0 : ℝ)..beta, F t * exp (z * t) := by
    congr 1; funext t; ring
  have e2 : ∫ t in (0 : ℝ)..beta, F' t * (exp (z * t) / z) = (∫ t in (0 : ℝ)..beta, exp (z * t) * F' t) / z := by
    rw [← intervalIntegral.integral_div]
    congr 1; funext t; ring
  rw [e1, h, e2]
  simp
  ring

/-- **C86, meaning of the moments.** For a function with three continuous derivatives and a frequency with
`exp(z beta) = s` (`-1` for fermions, `1` for bosons): the transform is
`(s G(beta) - G(0)) / z + (G'(0) - s G'(beta)) / z^2 + (s G''(beta) - G''(0)) / z^3` up to the transform of `-G'''` over `z^3`. -/
theorem C86_meaning (beta : ℝ) (z s : ℂ) (hz : z ≠ 0) (hs : exp (z * beta) = s) (G G1 G2 G3 : ℝ → ℂ) (h1 : ∀ t, HasDerivAt G (G1 t) t)
    (h2 : ∀ t, HasDerivAt G1 (G2 t) t) (h3 : ∀ t, HasDerivAt G2 (G3 t) t) (hc : Continuous G3) :
    ∫ t in (0 : ℝ)..beta, exp (z * t) * G t = (s * G beta - G 0) / z + (G1 0 - s * G1 beta) / z ^ 2 +
      (s * G2 beta - G2 0) / z ^ 3 - (∫ t in (0 : ℝ)..beta, exp (z * t) * G3 t) / z ^ 3 := by
  have c2 : Continuous G2 := continuous_iff_continuousAt.mpr fun t => (h3 t).continuousAt
  have c1 : Continuous G1 := continuous_iff_continuousAt.mpr fun t => (h2 t).continuousAt
  rw [by_parts beta z hz G G1 h1 c1, by_parts beta z hz G1 G2 h2 c2, by_parts beta z hz G2 G3 h3 hc, hs]
  field_simp
  ring

/-- error of the rows of `V_inv` -/
def err (r : List ℚ) (e j : ℕ) : ℚ := (((List.range 8).map fun m : ℕ => r.getD m 0 * ((m + 1 : ℕ) : ℚ) ^ j).sum) - if j = e then 1 else 0

theorem err_bounds : (∀ j : Fin 8, |err row0 0 j.val| ≤ 1 / 1000000) ∧ (∀ j : Fin 8, |err row1 1 j.val| ≤ 1 / 1000000) := by
  decide +kernel

theorem apply_poly (r : List ℚ) (e : ℕ) (he : e < 8) (d c : ℕ → ℂ)
    (hd : ∀ m, 1 ≤ m → m ≤ 8 → d m = ∑ j ∈ Finset.range 8, c j * (m : ℂ) ^ j) :
    apply r d = c e + ∑ j ∈ Finset.range 8, ((err r e j : ℚ) : ℂ) * c j := by
  have h1 : apply r d = ∑ j ∈ Finset.range 8, (∑ m ∈ Finset.range 8, ((r.getD m 0 : ℚ) : ℂ) * ((m + 1 : ℕ) : ℂ) ^ j) * c j := by
    unfold apply
    rw [Finset.sum_congr rfl (fun m hm => by rw [hd (m + 1) (by omega) (by have := Finset.mem_range.mp hm; omega)])]
    simp only [Finset.mul_sum, Finset.sum_mul]
    rw [Finset.sum_comm]
    apply Finset.sum_congr rfl
    intro j _
    apply Finset.sum_congr rfl
    intro m _
    ring
  have h2 : ∀ j, (∑ m ∈ Finset.range 8, ((r.getD m 0 : ℚ) : ℂ) * ((m + 1 : ℕ) : ℂ) ^ j) =
      (if j = e then 1 else 0) + ((err r e j : ℚ) : ℂ) := by
    intro j
    unfold err
    rw [show (((List.range 8).map fun m : ℕ => r.getD m 0 * ((m + 1 : ℕ) : ℚ) ^ j).sum) =
      ∑ m ∈ Finset.range 8, r.getD m 0 * ((m + 1 : ℕ) : ℚ) ^ j from rfl]
    split <;> push_cast <;> ring
  rw [h1, Finset.sum_congr rfl (fun j _ => by rw [h2 j, add_mul]), Finset.sum_add_distrib]
  congr 1
  rw [Finset.sum_eq_single e]
  · simp
  · intro j _ hj; simp [hj]
  · intro h; exact absurd (Finset.mem_range.mpr he) h

theorem err_sum_bound (r : List ℚ) (e : ℕ) (h : ∀ j : Fin 8, |err r e j.val| ≤ 1 / 1000000) (c : ℕ → ℂ) :
    ‖∑ j ∈ Finset.range 8, ((err r e j : ℚ) : ℂ) * c j‖ ≤ (1 / 1000000) * ∑ j ∈ Finset.range 8, ‖c j‖ := by
  refine (norm_sum_le _ _).trans ?_
  rw [Finset.mul_sum]
  apply Finset.sum_le_sum
  intro j hj
  rw [norm_mul]
  apply mul_le_mul_of_nonneg_right _ (norm_nonneg _)
  have h1 := h ⟨j, Finset.mem_range.mp hj⟩
  have h2 : ‖((err r e j : ℚ) : ℂ)‖ = ((|err r e j| : ℚ) : ℝ) := by
    rw [show ((err r e j : ℚ) : ℂ) = (((err r e j : ℚ) : ℝ) : ℂ) from by push_cast; rfl, Complex.norm_real, Real.norm_eq_abs]
    push_cast; rfl
  rw [h2]
  have h3 : (|err r e j| : ℚ) ≤ 1 / 1000000 := h1
  have h4 : ((|err r e j| : ℚ) : ℝ) ≤ ((1 / 1000000 : ℚ) : ℝ) := by exact_mod_cast h3
  simpa using h4

/-- the general form: expansions of degree eight at both ends -/
theorem fitTail_expansion (g : ℕ → ℂ) (nTau : ℕ) (hn : 9 ≤ nTau) (delta : ℝ) (hd : 0 < delta) (sign : ℝ) (hs : |sign| ≤ 1) (a b : ℕ → ℂ)
    (ha : ∀ m : ℕ, m ≤ 8 → g m = ∑ j ∈ Finset.range 9, a j * ((delta * m : ℝ) : ℂ) ^ j)
    (hb : ∀ m : ℕ, m ≤ 8 → g (nTau - 1 - m) = ∑ j ∈ Finset.range 9, b j * ((-(delta * m) : ℝ) : ℂ) ^ j) :
    ∃ t, fitTail g nTau delta sign = some t ∧ t.m0 = 0 ∧ t.m1 = sign * b 0 - a 0 ∧
      ‖t.m2 - (a 1 - sign * b 1)‖ ≤ 1 / 1000000 * ∑ j ∈ Finset.range 8, (‖a (j + 1)‖ + ‖b (j + 1)‖) * delta ^ j ∧
      ‖t.m3 - (sign * (2 * b 2) - 2 * a 2)‖ ≤ 2 / 1000000 / delta * ∑ j ∈ Finset.range 8, (‖a (j + 1)‖ + ‖b (j + 1)‖) * delta ^ j := by
  have hdC : (delta : ℂ) ≠ 0 := by exact_mod_cast hd.ne'
  have ha0 : g 0 = a 0 := by
    rw [ha 0 (by omega), Finset.sum_range_succ']
    simp
  have hb0 : g (nTau - 1) = b 0 := by
    have := hb 0 (by omega)
    rw [Nat.sub_zero] at this
    rw [this, Finset.sum_range_succ']
    simp
  have hl : ∀ m : ℕ, 1 ≤ m → m ≤ 8 → dLeft g delta m = ∑ j ∈ Finset.range 8, (a (j + 1) * (delta : ℂ) ^ j) * (m : ℂ) ^ j := by
    intro m h1 h8
    have hm : (m : ℂ) ≠ 0 := by
      have : m ≠ 0 := by omega
      exact_mod_cast this
    unfold dLeft
    rw [ha0, ha m h8, Finset.sum_range_succ']
    simp only [pow_zero, mul_one, add_sub_cancel_right]
    rw [Finset.sum_div]
    apply Finset.sum_congr rfl
    intro j _
    push_cast
    field_simp
    ring
  have hr : ∀ m : ℕ, 1 ≤ m → m ≤ 8 → dRight g nTau delta m =
      ∑ j ∈ Finset.range 8, (b (j + 1) * (-(delta : ℂ)) ^ j) * (m : ℂ) ^ j := by
    intro m h1 h8
    have hm : (m : ℂ) ≠ 0 := by
      have : m ≠ 0 := by omega
      exact_mod_cast this
    unfold dRight
    rw [hb0, hb m h8, Finset.sum_range_succ']
    simp only [pow_zero, mul_one, sub_add_cancel_right]
    rw [neg_div, Finset.sum_div, ← Finset.sum_neg_distrib]
    apply Finset.sum_congr rfl
    intro j _
    push_cast
    rw [pow_succ, neg_pow ((delta : ℂ) * m), neg_pow (delta : ℂ)]
    field_simp
    ring
  have hsum : ∀ (r : List ℚ) (e : ℕ), (∀ j : Fin 8, |err r e j.val| ≤ 1 / 1000000) → ∀ x : ℂ, ‖x‖ ≤ 1 →
      ‖(∑ j ∈ Finset.range 8, ((err r e j : ℚ) : ℂ) * (a (j + 1) * (delta : ℂ) ^ j)) +
        x * ∑ j ∈ Finset.range 8, ((err r e j : ℚ) : ℂ) * (b (j + 1) * (-(delta : ℂ)) ^ j)‖ ≤
      1 / 1000000 * ∑ j ∈ Finset.range 8, (‖a (j + 1)‖ + ‖b (j + 1)‖) * delta ^ j := by
    intro r e he x hx
    have b1 := err_sum_bound r e he (fun j => a (j + 1) * (delta : ℂ) ^ j)
    have b2 := err_sum_bound r e he (fun j => b (j + 1) * (-(delta : ℂ)) ^ j)
    have hnd : ‖(delta : ℂ)‖ = delta := by rw [Complex.norm_real, Real.norm_eq_abs, abs_of_pos hd]
    simp only [norm_mul, norm_pow, norm_neg, hnd] at b1 b2
    refine (norm_add_le _ _).trans ?_
    rw [norm_mul]
    have b3 : ‖x‖ * ‖∑ j ∈ Finset.range 8, ((err r e j : ℚ) : ℂ) * (b (j + 1) * (-(delta : ℂ)) ^ j)‖ ≤
        1 * (1 / 1000000 * ∑ j ∈ Finset.range 8, ‖b (j + 1)‖ * delta ^ j) :=
      mul_le_mul hx b2 (norm_nonneg _) zero_le_one
    simp only [add_mul, Finset.sum_add_distrib, mul_add]
    linarith
  have hsC : ‖(sign : ℂ)‖ ≤ 1 := by rw [Complex.norm_real, Real.norm_eq_abs]; exact hs
  refine ⟨_, if_neg (by omega), rfl, ?_, ?_, ?_⟩
  · simp only [ha0, hb0]; ring
  · simp only
    rw [apply_poly row0 0 (by norm_num) _ _ hl, apply_poly row0 0 (by norm_num) _ _ hr]
    have := hsum row0 0 err_bounds.1 (-(sign : ℂ)) (by rw [norm_neg]; exact hsC)
    refine le_trans (le_of_eq ?_) this
    congr 1
    simp only [pow_zero, mul_one, zero_add]
    ring
  · simp only
    rw [apply_poly row1 1 (by norm_num) _ _ hl, apply_poly row1 1 (by norm_num) _ _ hr]
    have h5 := hsum row1 1 err_bounds.2 (sign : ℂ) hsC
    set E := (∑ j ∈ Finset.range 8, ((err row1 1 j : ℚ) : ℂ) * (a (j + 1) * (delta : ℂ) ^ j)) +
        (sign : ℂ) * ∑ j ∈ Finset.range 8, ((err row1 1 j : ℚ) : ℂ) * (b (j + 1) * (-(delta : ℂ)) ^ j) with hE
    have e : -(a (1 + 1) * (delta : ℂ) ^ 1 + (∑ j ∈ Finset.range 8, ((err row1 1 j : ℚ) : ℂ) * (a (j + 1) * (delta : ℂ) ^ j)) +
        (sign : ℂ) * (b (1 + 1) * (-(delta : ℂ)) ^ 1 + ∑ j ∈ Finset.range 8, ((err row1 1 j : ℚ) : ℂ) * (b (j + 1) * (-(delta : ℂ)) ^ j))) * 2 / delta -
        (sign * (2 * b 2) - 2 * a 2) = -(2 / (delta : ℂ)) * E := by
      rw [hE]
      simp only [pow_one]
      norm_num
      field_simp
      ring
    rw [e, norm_mul, norm_neg, norm_div, Complex.norm_real, Real.norm_eq_abs, abs_of_pos hd]
    have h6 : ‖(2 : ℂ)‖ = 2 := by simp
    rw [h6]
    calc 2 / delta * ‖E‖ ≤ 2 / delta * (1 / 1000000 * ∑ j ∈ Finset.range 8, (‖a (j + 1)‖ + ‖b (j + 1)‖) * delta ^ j) :=
          mul_le_mul_of_nonneg_left h5 (by positivity)
      _ = _ := by ring

open Polynomial in
/-- **C86.** A polynomial of degree at most eight, sampled on an imaginary-time mesh of at least nine points: the zeroth
moment is zero, the first is `s G(beta) - G(0)`; the second and third are `G'(0) - s G'(beta)` and `s G''(beta) - G''(0)`
up to the rounding of the constants in the source, which is bounded by a millionth of the sum of the terms of the two
expansions. -/
theorem C86_polynomials (P : ℂ[X]) (hP : P.natDegree ≤ 8) (beta : ℝ) (hb : 0 < beta) (nTau : ℕ) (hn : 9 ≤ nTau) (sign : ℝ)
    (hs : sign = 1 ∨ sign = -1) (g : ℕ → ℂ) (hg : Samples g (fun t => P.eval (t : ℂ)) beta nTau) :
    let delta := beta / (nTau - 1 : ℕ);
    let bound := ∑ j ∈ Finset.range 8, (‖P.coeff (j + 1)‖ + ‖(taylor (beta : ℂ) P).coeff (j + 1)‖) * delta ^ j;
    ∃ t, fitTail g nTau delta sign = some t ∧ t.m0 = 0 ∧ t.m1 = sign * P.eval (beta : ℂ) - P.eval 0 ∧
      ‖t.m2 - (P.derivative.eval 0 - sign * P.derivative.eval (beta : ℂ))‖ ≤ 1 / 1000000 * bound ∧
      ‖t.m3 - (sign * P.derivative.derivative.eval (beta : ℂ) - P.derivative.derivative.eval 0)‖ ≤ 2 / 1000000 / delta * bound := by
  intro delta bound
  have hnn : (0 : ℝ) < ((nTau - 1 : ℕ) : ℝ) := by
    have : 0 < nTau - 1 := by omega
    exact_mod_cast this
  have hd : 0 < delta := div_pos hb hnn
  have hend : delta * ((nTau - 1 : ℕ) : ℝ) = beta := by simp only [delta]; field_simp
  have hev : ∀ (Q : ℂ[X]), Q.natDegree ≤ 8 → ∀ x : ℂ, Q.eval x = ∑ j ∈ Finset.range 9, Q.coeff j * x ^ j := by
    intro Q hQ x
    rw [eval_eq_sum_range' (show Q.natDegree < 9 by omega)]
  have hT : (taylor (beta : ℂ) P).natDegree ≤ 8 := by rw [natDegree_taylor]; exact hP
  obtain ⟨t, h1, h2, h3, h4, h5⟩ := fitTail_expansion g nTau hn delta hd sign (by rcases hs with h | h <;> simp [h])
    (fun j => P.coeff j) (fun j => (taylor (beta : ℂ) P).coeff j)
    (by
      intro m hm
      rw [hg m (by omega)]
      exact hev P hP _)
    (by
      intro m hm
      rw [hg (nTau - 1 - m) (by omega), ← hev _ hT, taylor_eval]
      beta_reduce
      congr 1
      have : ((nTau - 1 - m : ℕ) : ℝ) = ((nTau - 1 : ℕ) : ℝ) - m := by
        rw [Nat.cast_sub (by omega)]
      rw [this]
      have h9 : beta / ((nTau - 1 : ℕ) : ℝ) * (((nTau - 1 : ℕ) : ℝ) - m) = -(delta * m) + beta := by
        rw [mul_sub]
        simp only [delta] at hend ⊢
        rw [hend]; ring
      rw [h9]
      push_cast
      ring)
  have c0 : ∀ Q : ℂ[X], Q.coeff 1 = Q.derivative.eval 0 ∧ 2 * Q.coeff 2 = Q.derivative.derivative.eval 0 := by
    intro Q
    rw [← coeff_zero_eq_eval_zero, ← coeff_zero_eq_eval_zero, coeff_derivative, coeff_derivative, coeff_derivative]
    constructor <;> push_cast <;> ring
  have ct : (taylor (beta : ℂ) P).coeff 0 = P.eval (beta : ℂ) ∧ (taylor (beta : ℂ) P).coeff 1 = P.derivative.eval (beta : ℂ) ∧
      2 * (taylor (beta : ℂ) P).coeff 2 = P.derivative.derivative.eval (beta : ℂ) := by
    refine ⟨taylor_coeff_zero _ _, taylor_coeff_one _ _, ?_⟩
    have h6 := (c0 (taylor (beta : ℂ) P)).2
    have h7 : (taylor (beta : ℂ) P).derivative = taylor (beta : ℂ) P.derivative := by
      simp [taylor_apply, derivative_comp]
    have h8 : (taylor (beta : ℂ) P.derivative).derivative = taylor (beta : ℂ) P.derivative.derivative := by
      simp [taylor_apply, derivative_comp]
    rw [h6, h7, h8, taylor_eval, zero_add]
  refine ⟨t, h1, h2, ?_, ?_, ?_⟩
  · rw [h3, ct.1, coeff_zero_eq_eval_zero]
  · rw [← (c0 P).1, ← ct.2.1]; exact h4
  · rw [← (c0 P).2, ← ct.2.2]; exact h5

/-- **C86, short meshes**: with three to eight points the fit reads points that do not exist. -/
theorem C86_short_mesh (g : ℕ → ℂ) (nTau : ℕ) (h : nTau < 9) (delta sign : ℝ) : fitTail g nTau delta sign = none := if_pos h

/-- **C86, smooth functions are refused**: for `G(tau) = tau^2 (1 - tau)^2` and every mesh of at least nine points, however
fine, the test takes the function for noisy and all moments are set to zero, although the third moment is `-4` for
fermions. -/
theorem C86_smooth_refused (nTau : ℕ) (hn : 9 ≤ nTau) (g : ℕ → ℂ) (hg : Samples g (fun t => ((t ^ 2 * (1 - t) ^ 2 : ℝ) : ℂ)) 1 nTau) (sign : ℝ) :
    deduced g nTau (1 / (nTau - 1 : ℕ)) sign = some ⟨0, 0, 0, 0⟩ := by
  have hN : (8 : ℝ) ≤ ((nTau - 1 : ℕ) : ℝ) := by
    have : 8 ≤ nTau - 1 := by omega
    exact_mod_cast this
  set L : ℝ := ((nTau - 1 : ℕ) : ℝ) with hL
  have hL0 : 0 < L := by linarith
  set d : ℝ := 1 / L with hd
  have hd0 : 0 < d := by positivity
  have hd8 : d ≤ 1 / 8 := by
    rw [hd]
    exact one_div_le_one_div_of_le (by norm_num) hN
  have hdL : d * L = 1 := by rw [hd]; field_simp
  have v : ∀ j : ℕ, j < nTau → g j = (((d * j) ^ 2 * (1 - d * j) ^ 2 : ℝ) : ℂ) := fun j hj => hg j hj
  have c2 : ((nTau - 2 : ℕ) : ℝ) = L - 1 := by
    rw [hL, show nTau - 2 = nTau - 1 - 1 from by omega, Nat.cast_sub (by omega)]; simp
  have c3 : ((nTau - 3 : ℕ) : ℝ) = L - 2 := by
    rw [hL, show nTau - 3 = nTau - 1 - 2 from by omega, Nat.cast_sub (by omega)]; simp
  have nrm : ∀ x : ℝ, 0 ≤ x → ‖(x : ℂ)‖ = x := by
    intro x hx; rw [Complex.norm_real, Real.norm_eq_abs, abs_of_nonneg hx]
  have g0 : g 0 = 0 := by rw [v 0 (by omega)]; simp
  have g1 : g 1 = ((d ^ 2 * (1 - d) ^ 2 : ℝ) : ℂ) := by rw [v 1 (by omega)]; simp
  have g2 : g 2 = (((2 * d) ^ 2 * (1 - 2 * d) ^ 2 : ℝ) : ℂ) := by
    rw [v 2 (by omega)]; congr 1; push_cast; ring
  have ge : g (nTau - 1) = 0 := by
    rw [v _ (by omega), ← hL, hdL]; simp
  have ge1 : g (nTau - 2) = ((d ^ 2 * (1 - d) ^ 2 : ℝ) : ℂ) := by
    rw [v _ (by omega), c2, mul_sub, hdL]; congr 1; ring
  have ge2 : g (nTau - 3) = (((2 * d) ^ 2 * (1 - 2 * d) ^ 2 : ℝ) : ℂ) := by
    rw [v _ (by omega), c3, mul_sub, hdL]; congr 1; ring
  unfold deduced
  rw [if_neg (by omega), if_pos]
  left
  unfold der1 der2
  rw [g0, g1, g2, ge, ge1, ge2, sub_zero, sub_zero, nrm _ (by positivity), nrm _ (by positivity)]
  rw [show (0.95 : ℝ) * (0.5 * ((2 * d) ^ 2 * (1 - 2 * d) ^ 2 + (2 * d) ^ 2 * (1 - 2 * d) ^ 2) / d) =
    (0.95 * (0.5 * ((2 * d) ^ 2 * (1 - 2 * d) ^ 2 + (2 * d) ^ 2 * (1 - 2 * d) ^ 2))) / d from by ring]
  apply div_lt_div_of_pos_right _ hd0
  have key : (1 - d) ^ 2 < 1.9 * (1 - 2 * d) ^ 2 := by nlinarith
  have : 0 < d ^ 2 := by positivity
  nlinarith

/-- **C86, data that is fitted.** Linear functions pass the test. -/
theorem C86_linear_accepted (a b : ℂ) (nTau : ℕ) (hn : 3 ≤ nTau) (beta : ℝ) (hb : 0 < beta) (g : ℕ → ℂ)
    (hg : Samples g (fun t => a + b * t) beta nTau) (sign : ℝ) :
    deduced g nTau (beta / (nTau - 1 : ℕ)) sign = fitTail g nTau (beta / (nTau - 1 : ℕ)) sign := by
  have hL0 : (0 : ℝ) < ((nTau - 1 : ℕ) : ℝ) := by
    have : 0 < nTau - 1 := by omega
    exact_mod_cast this
  set d : ℝ := beta / (nTau - 1 : ℕ) with hd
  have hd0 : 0 < d := by positivity
  have v : ∀ j k : ℕ, j < nTau → k < nTau → ‖g j - g k‖ = ‖b‖ * (d * |(j : ℝ) - k|) := by
    intro j k hj hk
    rw [hg j hj, hg k hk]
    rw [show a + b * ((d * j : ℝ) : ℂ) - (a + b * ((d * k : ℝ) : ℂ)) = b * ((d * (j - k) : ℝ) : ℂ) from by push_cast; ring]
    rw [norm_mul, Complex.norm_real, Real.norm_eq_abs, abs_mul, abs_of_pos hd0]
  have c2 : ((nTau - 2 : ℕ) : ℝ) = ((nTau - 1 : ℕ) : ℝ) - 1 := by
    rw [show nTau - 2 = nTau - 1 - 1 from by omega, Nat.cast_sub (by omega)]; simp
  have c3 : ((nTau - 3 : ℕ) : ℝ) = ((nTau - 1 : ℕ) : ℝ) - 2 := by
    rw [show nTau - 3 = nTau - 1 - 2 from by omega, Nat.cast_sub (by omega)]; norm_num
  have h1 : der1 g nTau d = 2 * ‖b‖ := by
    unfold der1
    rw [v 1 0 (by omega) (by omega), v (nTau - 2) (nTau - 1) (by omega) (by omega), c2]
    rw [show ((nTau - 1 : ℕ) : ℝ) - 1 - ((nTau - 1 : ℕ) : ℝ) = -1 from by ring]
    simp
    field_simp
    ring
  have h2 : der2 g nTau d = 2 * ‖b‖ := by
    unfold der2
    rw [v 2 0 (by omega) (by omega), v (nTau - 3) (nTau - 1) (by omega) (by omega), c3]
    rw [show ((nTau - 1 : ℕ) : ℝ) - 2 - ((nTau - 1 : ℕ) : ℝ) = -2 from by ring]
    simp
    field_simp
    ring
  unfold deduced
  rw [if_neg (by omega), if_neg]
  rw [h1, h2]
  have := norm_nonneg b
  rintro (h | h) <;> linarith

/-- **C86, noise.** Data that alternates between two values is refused. -/
theorem C86_noise_refused (nTau : ℕ) (hn : 3 ≤ nTau) (delta : ℝ) (hd : 0 < delta) (x y : ℂ) (hxy : x ≠ y) (sign : ℝ) :
    deduced (fun j => if j % 2 = 0 then x else y) nTau delta sign = some ⟨0, 0, 0, 0⟩ := by
  have hp : 0 < ‖y - x‖ := norm_pos_iff.mpr (sub_ne_zero.mpr (Ne.symm hxy))
  have h2 : der2 (fun j => if j % 2 = 0 then x else y) nTau delta = 0 := by
    unfold der2
    beta_reduce
    rw [show (nTau - 3) % 2 = (nTau - 1) % 2 from by omega]
    simp
  have h1 : 0 < der1 (fun j => if j % 2 = 0 then x else y) nTau delta := by
    unfold der1
    have := norm_nonneg ((if (nTau - 2) % 2 = 0 then x else y) - if (nTau - 1) % 2 = 0 then x else y)
    apply div_pos _ hd
    simpa using add_pos_of_pos_of_nonneg hp this
  unfold deduced
  rw [if_neg (by omega), if_pos]
  right
  rw [h2]
  linarith

/-- `G(tau) = tau - 1/4` on nine points, fermions: `m1 = -1/2`, `m2 = 2` up to one part in `10^6` -/
example : ∃ t, fitTail (fun j => ((1 / 8 * j - 1 / 4 : ℝ) : ℂ)) 9 (1 / 8) (-1) = some t ∧ t.m1 = -(1 / 2) ∧ ‖t.m2 - 2‖ ≤ 2 / 1000000 := by
  obtain ⟨t, h1, -, h3, h4, -⟩ := fitTail_expansion (fun j => ((1 / 8 * j - 1 / 4 : ℝ) : ℂ)) 9 (by norm_num) (1 / 8) (by norm_num) (-1)
    (by norm_num) (fun j => if j = 0 then -(1 / 4) else if j = 1 then 1 else 0) (fun j => if j = 0 then 3 / 4 else if j = 1 then 1 else 0)
    (by intro m _; simp [Finset.sum_range_succ]; ring)
    (by
      intro m hm
      have : ((9 - 1 - m : ℕ) : ℝ) = 8 - m := by rw [Nat.cast_sub (by omega)]; norm_num
      rw [this]
      simp [Finset.sum_range_succ]; ring)
  refine ⟨t, h1, ?_, ?_⟩
  · rw [h3]; norm_num
  · have e : (fun j => if j = 0 then -(1 / 4) else if j = 1 then 1 else 0 : ℕ → ℂ) 1 -
        ((-1 : ℝ) : ℂ) * (fun j => if j = 0 then 3 / 4 else if j = 1 then 1 else 0 : ℕ → ℂ) 1 = 2 := by norm_num
    rw [e] at h4
    refine h4.trans (le_of_eq ?_)
    simp [Finset.sum_range_succ]
    norm_num

end Verif.TauMoments
