import Verif.Gfs.Dft
import Verif.Mesh.Linear
import Verif.Mesh.EqAdjoint
import Mathlib.Analysis.SpecialFunctions.ImproperIntegrals
import Mathlib.Analysis.SpecialFunctions.Sqrt
import Mathlib.Analysis.Complex.Basic
import Mathlib.Analysis.Normed.Group.Bounded
import Mathlib.Topology.Algebra.Field

/-!
# Property C76: Fourier transforms between real time and real frequency

Source: `/repo/c++/triqs/gfs/transform/fourier_real.cpp`.

Simplifications: exact real and complex numbers; one component of the target; the FFT is the sum
it computes (`Dft.lean`); the moments are given (with vanishing zeroth moment); no known moments
means zero moments (lines 41-43, 88-90).
-/

namespace Verif.FourierReal
open Complex Verif.Fourier
open Verif (Linear.Mesh)

/-! ## Model -/

/-- `th_expo`, fourier_real.cpp:27 -/
noncomputable def thExpo (t a : ℝ) : ℂ :=
  if t > 0 then -I * Real.exp (-a * t) else if t < 0 then 0 else -(1 / 2) * I * Real.exp (-a * t)
/-- `th_expo_neg`, fourier_real.cpp:28 -/
noncomputable def thExpoNeg (t a : ℝ) : ℂ :=
  if t < 0 then I * Real.exp (a * t) else if t > 0 then 0 else (1 / 2) * I * Real.exp (a * t)
/-- `th_expo_inv`, fourier_real.cpp:29 -/
noncomputable def thExpoInv (w a : ℝ) : ℂ := 1 / (w + I * a)
/-- `th_expo_neg_inv`, fourier_real.cpp:30 -/
noncomputable def thExpoNegInv (w a : ℝ) : ℂ := 1 / (w - I * a)

/-- value of a mesh point -/
noncomputable def val (m : Linear.Mesh ℝ) (j : ℕ) : ℝ := (Linear.toValue m j).getD 0

/-- the width of the model, fourier_real.cpp:64 and 110 -/
noncomputable def width (w : Linear.Mesh ℝ) : ℝ := w.delta * Real.sqrt w.L

/-- the amplitudes, fourier_real.cpp:70 and 121 -/
noncomputable def amp1 (m1 m2 : ℂ) (a : ℝ) : ℂ := (m1 + I * m2 / a) / 2
noncomputable def amp2 (m1 m2 : ℂ) (a : ℝ) : ℂ := (m1 - I * m2 / a) / 2

noncomputable def modelTime (m1 m2 : ℂ) (a t : ℝ) : ℂ := amp1 m1 m2 a * thExpo t a + amp2 m1 m2 a * thExpoNeg t a
noncomputable def modelFreq (m1 m2 : ℂ) (a w : ℝ) : ℂ := amp1 m1 m2 a * thExpoInv w a + amp2 m1 m2 a * thExpoNegInv w a

/-- the two tests of the meshes, fourier_real.cpp:52-55 and 103-106 -/
noncomputable def compatible (t w : Linear.Mesh ℝ) : Prop :=
  w.L = t.L ∧ ¬ |t.delta * w.delta * t.L / (2 * Real.pi) - 1| > 1e-10

open Classical in
/-- direct transform, fourier_real.cpp:36-79; `none` is an exception. -/
noncomputable def direct (wm tm : Linear.Mesh ℝ) (m1 m2 : ℂ) (gt : ℕ → ℂ) : Option (ℕ → ℂ) :=
  if compatible tm wm then
    let L := tm.L.toNat
    let a := width wm
    let gin := fun j => (gt j - modelTime m1 m2 a (val tm j)) * exp (I * val tm j * wm.xmin)
    let gout := dft 1 L gin
    some (fun k => tm.delta * exp (I * (val wm k - wm.xmin) * tm.xmin) * gout k + modelFreq m1 m2 a (val wm k))
  else none

open Classical in
/-- inverse transform, fourier_real.cpp:83-131; `none` is an exception. -/
noncomputable def inverse (tm wm : Linear.Mesh ℝ) (m1 m2 : ℂ) (gw : ℕ → ℂ) : Option (ℕ → ℂ) :=
  if compatible tm wm then
    let L := wm.L.toNat
    let a := width wm
    let gin := fun k => (gw k - modelFreq m1 m2 a (val wm k)) * exp (-I * val wm k * tm.xmin)
    let gout := dft (-1) L gin
    let corr : ℝ := 1 / (tm.delta * L)
    some (fun j => corr * exp (I * wm.xmin * (tm.xmin - val tm j)) * gout j + modelTime m1 m2 a (val tm j))
  else none

/-! ## Proofs -/

theorem compatible_ne {t w : Linear.Mesh ℝ} (h : compatible t w) : t.delta ≠ 0 ∧ w.delta ≠ 0 ∧ t.L ≠ 0 := by
  have h2 := h.2
  refine ⟨?_, ?_, ?_⟩ <;> intro hz <;> apply h2 <;> rw [hz] <;> norm_num

/-- **C76.** Whenever the meshes are accepted, frequency → time → frequency and
time → frequency → time with the same moments are the identity on the mesh. -/
theorem C76_round_trips (tm wm : Linear.Mesh ℝ) (h : compatible tm wm) (m1 m2 : ℂ) (g : ℕ → ℂ) :
    (∃ gt gw, inverse tm wm m1 m2 g = some gt ∧ direct wm tm m1 m2 gt = some gw ∧ ∀ k < wm.L.toNat, gw k = g k) ∧
    (∃ gw gt, direct wm tm m1 m2 g = some gw ∧ inverse tm wm m1 m2 gw = some gt ∧ ∀ j < tm.L.toNat, gt j = g j) := by
  obtain ⟨hd, _, hL⟩ := compatible_ne h
  have hLL := h.1
  have hdc : (tm.delta : ℂ) ≠ 0 := by exact_mod_cast hd
  unfold inverse direct
  simp only [if_pos h, Option.some.injEq, exists_and_left, exists_eq_left', hLL]
  constructor
  · intro k hk
    have hL0 : tm.L.toNat ≠ 0 := by omega
    have hLc : (tm.L.toNat : ℂ) ≠ 0 := by exact_mod_cast hL0
    rw [dft_congr 1 tm.L.toNat (g := fun j => (((1 / (tm.delta * tm.L.toNat) : ℝ) : ℂ) * exp (I * wm.xmin * tm.xmin)) *
      dft (-1) tm.L.toNat (fun k => (g k - modelFreq m1 m2 (width wm) (val wm k)) * exp (-I * val wm k * tm.xmin)) j)]
    · rw [dft_smul, dft_inverse 1 (Or.inl rfl) _ hk]
      have e : exp (I * (val wm k - wm.xmin) * tm.xmin) * (exp (I * wm.xmin * tm.xmin) * exp (-I * val wm k * tm.xmin)) = 1 := by
        rw [← exp_add, ← exp_add, ← exp_zero]
        congr 1
        ring
      push_cast
      generalize exp (I * (val wm k - wm.xmin) * tm.xmin) = A at e ⊢
      generalize exp (I * wm.xmin * tm.xmin) = B at e ⊢
      generalize exp (-I * val wm k * tm.xmin) = C at e ⊢
      generalize modelFreq m1 m2 (width wm) (val wm k) = F
      field_simp
      linear_combination (g k - F) * e
    · intro j _
      rw [add_sub_cancel_right]
      have e : exp (I * wm.xmin * (tm.xmin - val tm j)) * exp (I * val tm j * wm.xmin) = exp (I * wm.xmin * tm.xmin) := by
        rw [← exp_add]
        congr 1
        ring
      rw [← e]
      ring
  · intro j hj
    have hL0 : tm.L.toNat ≠ 0 := by omega
    have hLc : (tm.L.toNat : ℂ) ≠ 0 := by exact_mod_cast hL0
    rw [dft_congr (-1) tm.L.toNat (g := fun k => (tm.delta * exp (-(I * wm.xmin * tm.xmin))) *
      dft (-(-1)) tm.L.toNat (fun j => (g j - modelTime m1 m2 (width wm) (val tm j)) * exp (I * val tm j * wm.xmin)) k)]
    · rw [dft_smul, dft_inverse (-1) (Or.inr rfl) _ hj]
      have e : exp (I * wm.xmin * (tm.xmin - val tm j)) * (exp (-(I * wm.xmin * tm.xmin)) * exp (I * val tm j * wm.xmin)) = 1 := by
        rw [← exp_add, ← exp_add, ← exp_zero]
        congr 1
        ring
      push_cast
      generalize exp (I * wm.xmin * (tm.xmin - val tm j)) = A at e ⊢
      generalize exp (-(I * wm.xmin * tm.xmin)) = B at e ⊢
      generalize exp (I * val tm j * wm.xmin) = C at e ⊢
      generalize modelTime m1 m2 (width wm) (val tm j) = F
      field_simp
      linear_combination (g j - F) * e
    · intro k _
      rw [add_sub_cancel_right]
      have e : exp (I * (val wm k - wm.xmin) * tm.xmin) * exp (-I * val wm k * tm.xmin) = exp (-(I * wm.xmin * tm.xmin)) := by
        rw [← exp_add]
        congr 1
        ring
      rw [← e, neg_neg]
      ring

theorem val_eq {a b : ℝ} {n : ℤ} (hab : a < b) (hn : 2 ≤ n) {m : Linear.Mesh ℝ} (hm : Linear.mk' a b n = some m) {j : ℕ} (hj : (j : ℤ) < n) :
    val m j = a + j * m.delta ∧ m.xmin = a ∧ m.L = n := by
  rw [Linear.mk'_eq hab hn] at hm
  obtain rfl := Option.some.inj hm
  have hn1 : (n : ℝ) - 1 ≠ 0 := by
    have : (2 : ℝ) ≤ n := by exact_mod_cast hn
    linarith
  refine ⟨?_, rfl, rfl⟩
  unfold val Linear.toValue Linear.validIndex
  simp only [Nat.cast_nonneg, decide_true, Bool.true_and, hj, if_true, Option.getD_some]
  rw [if_neg (by omega)]
  push_cast
  field_simp
  ring

/-- **C76.** On meshes with `δt δω L = 2π` the direct transform is the Riemann sum
`δt Σ_j exp(i ω_k t_j) (g(t_j) - model(t_j))` plus the model at `ω_k`; with vanishing moments it is the
Riemann sum of `g`. -/
theorem C76_riemann_sum {a b c d : ℝ} {n : ℤ} (hab : a < b) (hcd : c < d) (hn : 2 ≤ n) {tm wm : Linear.Mesh ℝ}
    (ht : Linear.mk' a b n = some tm) (hw : Linear.mk' c d n = some wm) (h : tm.delta * wm.delta * n = 2 * Real.pi)
    (m1 m2 : ℂ) (g : ℕ → ℂ) :
    ∃ gw, direct wm tm m1 m2 g = some gw ∧ ∀ k < n.toNat,
      gw k = tm.delta * ∑ j ∈ Finset.range n.toNat, (g j - modelTime m1 m2 (width wm) (val tm j)) * exp (I * val wm k * val tm j)
        + modelFreq m1 m2 (width wm) (val wm k) := by
  obtain ⟨_, htx, htL⟩ := val_eq hab hn ht (j := 0) (by omega)
  obtain ⟨_, hwx, hwL⟩ := val_eq hcd hn hw (j := 0) (by omega)
  have hc : compatible tm wm := by
    refine ⟨by rw [htL, hwL], ?_⟩
    rw [htL, h, div_self (by positivity)]
    norm_num
  unfold direct
  simp only [if_pos hc, Option.some.injEq, exists_eq_left', htL]
  intro k hk
  congr 1
  rw [mul_assoc]
  congr 1
  unfold dft
  rw [Finset.mul_sum]
  apply Finset.sum_congr rfl
  intro j hj
  have hj' := Finset.mem_range.mp hj
  obtain ⟨ht1, _, _⟩ := val_eq hab hn ht (j := j) (by omega)
  obtain ⟨hw1, _, _⟩ := val_eq hcd hn hw (j := k) (by omega)
  have hL0 : ((n.toNat : ℕ) : ℂ) ≠ 0 := by
    have : n.toNat ≠ 0 := by omega
    exact_mod_cast this
  have hcast : ((n.toNat : ℕ) : ℂ) = (n : ℂ) := by
    have : ((n.toNat : ℕ) : ℤ) = n := Int.toNat_of_nonneg (by omega)
    exact_mod_cast this
  have hcc : (tm.delta : ℂ) * wm.delta * n = 2 * Real.pi := by exact_mod_cast h
  have key : exp (I * (val wm k - wm.xmin) * tm.xmin) * (exp (I * val tm j * wm.xmin) * phase n.toNat (1 * (j * k)))
      = exp (I * val wm k * val tm j) := by
    rw [phase_eq_exp, ← exp_add, ← exp_add]
    congr 1
    rw [ht1, hw1, htx, hwx, ← hcc, ← hcast]
    push_cast
    field_simp
    ring
  rw [← key]
  ring

/-- **C76.** The model has first and second moments `m1` and `m2`. -/
theorem C76_model_moments (m1 m2 : ℂ) {a : ℝ} (ha : a ≠ 0) (z : ℂ) (hz : z ≠ 0) (h1 : z + I * a ≠ 0) (h2 : z - I * a ≠ 0) :
    amp1 m1 m2 a / (z + I * a) + amp2 m1 m2 a / (z - I * a) = m1 / z + m2 / z ^ 2
      - a ^ 2 * (m1 * z + m2) / (z ^ 2 * (z + I * a) * (z - I * a)) := by
  have hac : (a : ℂ) ≠ 0 := by exact_mod_cast ha
  unfold amp1 amp2
  field_simp
  ring_nf
  simp only [I_sq, I_pow_three, I_pow_four]
  ring

/-- **C76.** The two halves of the model are Fourier transforms of each other: the integral of
`exp(iωt)` times the model over the negative and positive half lines is the model in frequency. -/
theorem C76_model_transform (m1 m2 : ℂ) {a : ℝ} (ha : 0 < a) (w : ℝ) :
    (∫ t in Set.Iic (0 : ℝ), exp (I * w * t) * modelTime m1 m2 a t) +
      (∫ t in Set.Ioi (0 : ℝ), exp (I * w * t) * modelTime m1 m2 a t) = modelFreq m1 m2 a w := by
  have hne1 : (w + I * a : ℂ) ≠ 0 := by
    intro h; have := congrArg Complex.im h; simp at this; linarith
  have hne2 : (w - I * a : ℂ) ≠ 0 := by
    intro h; have := congrArg Complex.im h; simp at this; linarith
  have e1 : (∫ t in Set.Ioi (0 : ℝ), exp (I * w * t) * modelTime m1 m2 a t) = amp1 m1 m2 a * thExpoInv w a := by
    rw [MeasureTheory.setIntegral_congr_fun (g := fun t : ℝ => (-I * amp1 m1 m2 a) * exp ((I * w - a) * t)) measurableSet_Ioi]
    · rw [MeasureTheory.integral_const_mul, integral_exp_mul_complex_Ioi (by simpa using ha)]
      unfold thExpoInv
      have : (I * w - a : ℂ) = I * (w + I * a) := by
        linear_combination (-(a : ℂ)) * I_sq
      rw [this]
      simp only [ofReal_zero, mul_zero, exp_zero]
      field_simp
    · intro t ht
      have ht' : (0 : ℝ) < t := ht
      simp only [modelTime, thExpo, thExpoNeg, if_pos ht', if_neg (not_lt.mpr ht'.le), gt_iff_lt, mul_zero, add_zero]
      rw [show (I * w - a) * (t : ℂ) = I * w * t + (-a * t : ℝ) by push_cast; ring, exp_add, ofReal_exp]
      ring
  have e2 : (∫ t in Set.Iic (0 : ℝ), exp (I * w * t) * modelTime m1 m2 a t) = amp2 m1 m2 a * thExpoNegInv w a := by
    rw [MeasureTheory.integral_Iic_eq_integral_Iio]
    rw [MeasureTheory.setIntegral_congr_fun (g := fun t : ℝ => (I * amp2 m1 m2 a) * exp ((I * w + a) * t)) measurableSet_Iio]
    · rw [MeasureTheory.integral_const_mul, ← MeasureTheory.integral_Iic_eq_integral_Iio, integral_exp_mul_complex_Iic (by simpa using ha)]
      unfold thExpoNegInv
      have : (I * w + a : ℂ) = I * (w - I * a) := by
        linear_combination (a : ℂ) * I_sq
      rw [this]
      simp only [ofReal_zero, mul_zero, exp_zero]
      field_simp
    · intro t ht
      have ht' : t < (0 : ℝ) := ht
      simp only [modelTime, thExpo, thExpoNeg, if_pos ht', if_neg (not_lt.mpr ht'.le), gt_iff_lt, mul_zero, zero_add]
      rw [show (I * w + a) * (t : ℂ) = I * w * t + (a * t : ℝ) by push_cast; ring, exp_add, ofReal_exp]
      ring
  rw [e1, e2, modelFreq, add_comm]

/-- jump of the model at `t = 0` -/
theorem C76_model_jump (m1 m2 : ℂ) (a : ℝ) :
    amp1 m1 m2 a * (-I) - amp2 m1 m2 a * I = -I * m1 ∧ modelTime m1 m2 a 0 = (amp1 m1 m2 a * (-I) + amp2 m1 m2 a * I) / 2 := by
  refine ⟨by unfold amp1 amp2; ring, ?_⟩
  simp [modelTime, thExpo, thExpoNeg]
  ring

/-- **C76.** The transform accepts every adjoint mesh, and the round trip is then the identity. -/
theorem C76_adjoint_accepted {a b : ℝ} (hab : a < b) {n : ℤ} (hn : 2 ≤ n) (sh : Bool) :
    ∃ t w, Linear.mk' a b n = some t ∧ MeshEq.adjReal Real.pi t sh = some w ∧ compatible t w := by
  obtain ⟨t, w, _, h1, h2, _, h3, h4, _⟩ := MeshEq.C51_real_adjoint Real.pi a b Real.pi_pos hab n hn sh sh
  refine ⟨t, w, h1, h2, ?_, ?_⟩
  · rw [h3]
    rw [Linear.mk'_eq hab hn] at h1
    obtain rfl := Option.some.inj h1
    rfl
  · have : t.L = n := by
      rw [Linear.mk'_eq hab hn] at h1
      obtain rfl := Option.some.inj h1
      rfl
    rw [this, h4, div_self (by positivity)]
    norm_num

/-- example: the mesh of 4 points on `[0, 3]` and its adjoint, moments 1 and 2 -/
example (g : ℕ → ℂ) : ∃ t w gw gt, Linear.mk' (0 : ℝ) 3 4 = some t ∧ MeshEq.adjReal Real.pi t false = some w ∧
    direct w t 1 2 g = some gw ∧ inverse t w 1 2 gw = some gt ∧ gt 3 = g 3 := by
  obtain ⟨t, w, h1, h2, h3⟩ := C76_adjoint_accepted (a := 0) (b := 3) (by norm_num) (n := 4) (by norm_num) false
  obtain ⟨_, gw, gt, h4, h5, h6⟩ := C76_round_trips t w h3 1 2 g
  refine ⟨t, w, gw, gt, h1, h2, h4, h5, h6 3 ?_⟩
  have : t.L = 4 := by
    rw [Linear.mk'_eq (by norm_num) (by norm_num)] at h1
    obtain rfl := Option.some.inj h1
    rfl
  rw [this]
  decide

/-- meshes of different sizes are refused -/
example (g : ℕ → ℂ) : direct ⟨3, 0, 1, 1, none⟩ ⟨4, 0, 1, 1, none⟩ 1 2 g = none := by
  simp [direct, compatible]

end Verif.FourierReal
