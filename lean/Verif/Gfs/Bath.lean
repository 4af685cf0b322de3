import Verif.Lattice.HilbertTransform
import Mathlib.Analysis.SpecialFunctions.Integrals.Basic
import Mathlib.Analysis.SpecialFunctions.Trigonometric.Basic
import Mathlib.LinearAlgebra.Matrix.PosDef
import Mathlib.LinearAlgebra.Matrix.SchurComplement

/-!
# Property C136: hybridisation function of a discrete bath

Sources: `/repo/python/triqs/gf/tools.py` (`make_delta`).

Simplifications: exact real and complex arithmetic; the division by zero at a frequency equal to a bath energy is excluded by
hypothesis; the loop over blocks is not modelled. The data of the result is a function of the data index.
-/

namespace Verif.Bath

open Matrix Verif.HilbertTransform
open scoped ComplexOrder

/-! ## Model -/

/-- `numpy.linspace(a, b, n)` -/
noncomputable def linspace (a b : ℂ) (n i : ℕ) : ℂ := if n ≤ 1 then a else a + (i : ℂ) * ((b - a) / ((n : ℂ) - 1))

/-- the value of a mesh of Matsubara frequencies, c++/triqs/mesh/domains/matsubara.hpp:55: `s` is 1 for fermions, 0 for bosons -/
noncomputable def matsubara (beta : ℝ) (s : ℕ) (n : ℤ) : ℂ := Complex.I * Real.pi * (2 * n + s) / beta

/-- line 319 -/
noncomputable def oneFreq (z : ℂ) (e : ℝ) : ℂ := 1 / (z - e)

open Classical in
/-- lines 322-323; `(eps < 0.0) * eps` is `e` for negative `e` and zero otherwise -/
noncomputable def oneTau (beta tau e : ℝ) : ℝ :=
  -Real.exp (-tau * e + beta * (if e < 0 then e else 0)) / (1 + Real.exp (-beta * |e|))

variable {o b : Type*} [Fintype o] [DecidableEq o] [Fintype b] [DecidableEq b]

/-- line 325, for one value of the mesh -/
def contract (V : Matrix o b ℂ) (one : b → ℂ) : Matrix o o ℂ := fun k l => ∑ j, V k j * one j * star (V l j)

inductive Mesh where
  | imfreq (beta : ℝ) (s : ℕ) (first last : ℤ)
  | imtime (beta : ℝ) (s : ℕ) (n : ℕ)
  | other

/-- the argument `eps`: a numpy array or a Python list -/
inductive Energies where
  | array (e : List ℝ)
  | list (e : List ℝ)

def Energies.get : Energies → List ℝ
  | .array e => e
  | .list e => e

inductive Outcome (o : Type*) where
  | ok (data : ℕ → Matrix o o ℂ)
  | assertion
  | type
  | unbound

/-- `make_delta` for one block, lines 313-327. `eps[None, :]` of a list is a `TypeError`; for other meshes `one_fermion` is
not set. -/
noncomputable def makeDelta {m : ℕ} (V : Matrix o (Fin m) ℂ) (eps : Energies) (mesh : Mesh) : Outcome o :=
  if m ≠ eps.get.length then .assertion
  else match mesh, eps with
    | .other, _ => .unbound
    | _, .list _ => .type
    | .imfreq beta s first last, .array e =>
      .ok fun i => contract V (fun j => oneFreq
        (linspace (matsubara beta s first) (matsubara beta s last) (last - first + 1).toNat i) (e.getD j 0))
    | .imtime beta _ n, .array e =>
      .ok fun i => contract V (fun j => ((oneTau beta (linspace 0 beta n i).re (e.getD j 0) : ℝ) : ℂ))

/-! ## Specification -/

/-- the hybridisation function with the bath energies `e`: `Σ_j V_kj (z - e_j)⁻¹ conj(V_lj)` -/
noncomputable def hyb (V : Matrix o b ℂ) (e : b → ℝ) (z : ℂ) : Matrix o o ℂ := fun k l => ∑ j, V k j * (z - e j)⁻¹ * star (V l j)

/-- the formula of the documentation for imaginary times -/
noncomputable def fermionTau (beta tau e : ℝ) : ℝ := -Real.exp (-tau * e) / (1 + Real.exp (-beta * e))

/-! ## Proofs -/

theorem contract_eq (V : Matrix o b ℂ) (one : b → ℂ) : contract V one = V * diagonal one * Vᴴ := by
  ext k l
  rw [Matrix.mul_apply]
  simp [contract, mul_diagonal, conjTranspose_apply]

theorem hyb_eq (V : Matrix o b ℂ) (e : b → ℝ) (z : ℂ) : hyb V e z = contract V (fun j => oneFreq z (e j)) := by
  ext k l
  simp [hyb, contract, oneFreq]

/-- C136: the points used for Matsubara frequencies are those of the mesh. -/
theorem C136_freq_points (beta : ℝ) (s : ℕ) (first last : ℤ) (h : first ≤ last) (i : ℕ) (hi : first + i ≤ last) :
    linspace (matsubara beta s first) (matsubara beta s last) (last - first + 1).toNat i = matsubara beta s (first + i) := by
  unfold linspace
  split
  · rename_i h1
    have : i = 0 := by omega
    simp [this]
  · rename_i h1
    have hc : (((last - first + 1).toNat : ℕ) : ℂ) = (last : ℂ) - first + 1 := by
      have h2 : (((last - first + 1).toNat : ℕ) : ℤ) = last - first + 1 := Int.toNat_of_nonneg (by omega)
      rw [show (((last - first + 1).toNat : ℕ) : ℂ) = ((((last - first + 1).toNat : ℕ) : ℤ) : ℂ) by push_cast; rfl, h2]
      push_cast
      ring
    have hne : ((last : ℂ) - first) ≠ 0 := by
      rw [sub_ne_zero]
      intro h2
      have : last = first := by exact_mod_cast h2
      omega
    rw [hc, add_sub_cancel_right]
    have h3 : matsubara beta s last - matsubara beta s first = ((last : ℂ) - first) * (2 * Complex.I * Real.pi / beta) := by
      unfold matsubara; ring
    rw [h3, mul_div_cancel_left₀ _ hne]
    unfold matsubara
    push_cast
    ring

/-- C136: and those used for imaginary times. -/
theorem C136_tau_points (beta : ℝ) (n i : ℕ) (hn : 2 ≤ n) :
    linspace 0 beta n i = ((beta * i / (n - 1) : ℝ) : ℂ) := by
  unfold linspace
  rw [if_neg (by omega)]
  push_cast
  ring

/-- C136: the formula used for imaginary times is the one of the documentation. -/
theorem C136_tau (beta tau e : ℝ) : oneTau beta tau e = fermionTau beta tau e := by
  unfold oneTau fermionTau
  by_cases h : e < 0
  · rw [if_pos h, abs_of_neg h, Real.exp_add]
    have h1 : Real.exp (-beta * e) = (Real.exp (beta * e))⁻¹ := by rw [← Real.exp_neg]; ring_nf
    rw [h1, show -beta * -e = beta * e by ring]
    have := Real.exp_pos (beta * e)
    field_simp
    ring
  · rw [if_neg h, abs_of_nonneg (not_lt.1 h)]
    ring_nf

/-- C136: for times of the mesh and any bath energy the exponents are not positive, so there is no overflow; the values lie
between -1 and 0. -/
theorem C136_stable (beta tau e : ℝ) (h0 : 0 ≤ tau) (h1 : tau ≤ beta) :
    -tau * e + beta * (open Classical in if e < 0 then e else 0) ≤ 0 ∧ -beta * |e| ≤ 0 ∧
      -1 < oneTau beta tau e ∧ oneTau beta tau e < 0 := by
  have hb : 0 ≤ beta := h0.trans h1
  have ha : -tau * e + beta * (open Classical in if e < 0 then e else 0) ≤ 0 := by
    by_cases h : e < 0
    · rw [if_pos h]; nlinarith
    · rw [if_neg h]; nlinarith [not_lt.1 h]
  refine ⟨ha, by nlinarith [abs_nonneg e], ?_, ?_⟩
  · unfold oneTau
    have hp : 0 < 1 + Real.exp (-beta * |e|) := by positivity
    rw [lt_div_iff₀ hp]
    have := Real.exp_le_one_iff.2 ha
    have := Real.exp_pos (-beta * |e|)
    linarith
  · unfold oneTau
    have hp : 0 < 1 + Real.exp (-beta * |e|) := by positivity
    apply div_neg_of_neg_of_pos _ hp
    linarith [Real.exp_pos (-tau * e + beta * (open Classical in if e < 0 then e else 0))]

theorem integral_exp (beta e : ℝ) (w : ℂ) (h : w ≠ e) :
    ∫ tau in (0 : ℝ)..beta, Complex.exp (w * tau) * ((fermionTau beta tau e : ℝ) : ℂ) =
      (1 - Complex.exp (w * beta) * Complex.exp (-(beta * e))) / (1 + Complex.exp (-(beta * e))) / (w - e) := by
  have hc : w - e ≠ 0 := sub_ne_zero.2 h
  have h1 : ∀ tau : ℝ, Complex.exp (w * tau) * ((fermionTau beta tau e : ℝ) : ℂ) =
      (-1 / (1 + Complex.exp (-(beta * e)))) * Complex.exp ((w - e) * tau) := by
    intro tau
    unfold fermionTau
    push_cast
    rw [show (w - e) * (tau : ℂ) = w * tau + -tau * e by ring, Complex.exp_add, show -(beta : ℂ) * e = -(beta * e) by ring]
    ring
  simp only [h1]
  rw [intervalIntegral.integral_const_mul, integral_exp_mul_complex hc]
  rw [show (w - e) * (beta : ℂ) = w * beta + -(beta * e) by ring, Complex.exp_add]
  simp only [Complex.ofReal_zero, mul_zero, Complex.exp_zero]
  ring

theorem exp_matsubara (beta : ℝ) (hb : beta ≠ 0) (s : ℕ) (hs : s = 0 ∨ s = 1) (n : ℤ) :
    Complex.exp (matsubara beta s n * beta) = if s = 1 then -1 else 1 := by
  have hb' : (beta : ℂ) ≠ 0 := by exact_mod_cast hb
  have h1 : matsubara beta s n * beta = (n : ℂ) * (2 * Real.pi * Complex.I) + s * (Real.pi * Complex.I) := by
    unfold matsubara
    field_simp
  rw [h1, Complex.exp_add, Complex.exp_int_mul_two_pi_mul_I, one_mul]
  rcases hs with rfl | rfl
  · simp
  · simp [Complex.exp_pi_mul_I]

theorem one_add_exp_ne (x : ℝ) : (1 : ℂ) + Complex.exp (-(x : ℂ)) ≠ 0 := by
  have : (1 : ℂ) + Complex.exp (-(x : ℂ)) = ((1 + Real.exp (-x) : ℝ) : ℂ) := by push_cast; rfl
  rw [this]
  exact_mod_cast (by positivity : (1 + Real.exp (-x)) ≠ 0)

/-- C136: for fermions the two branches of the function describe the same bath: the Fourier transform of the values for
imaginary times gives the values for the Matsubara frequencies. -/
theorem C136_fourier (beta e : ℝ) (hb : 0 < beta) (n : ℤ) :
    ∫ tau in (0 : ℝ)..beta, Complex.exp (matsubara beta 1 n * tau) * ((oneTau beta tau e : ℝ) : ℂ) = oneFreq (matsubara beta 1 n) e := by
  have hne : matsubara beta 1 n ≠ e := by
    intro h
    have him := congrArg Complex.im h
    have : (matsubara beta 1 n).im = Real.pi * (2 * n + 1) / beta := by
      unfold matsubara
      rw [Complex.div_ofReal_im]
      congr 1
      simp [Complex.mul_im, Complex.mul_re]
    rw [this, Complex.ofReal_im, div_eq_zero_iff] at him
    rcases him with h1 | h1
    · rcases mul_eq_zero.1 h1 with h2 | h2
      · exact Real.pi_ne_zero h2
      · have : (2 * n + 1 : ℤ) = 0 := by exact_mod_cast h2
        omega
    · exact hb.ne' h1
  simp only [C136_tau]
  rw [integral_exp beta e _ hne, exp_matsubara beta hb.ne' 1 (Or.inr rfl)]
  unfold oneFreq
  have := one_add_exp_ne (beta * e)
  push_cast at this
  simp only [if_true, neg_mul, one_mul, sub_neg_eq_add]
  rw [div_self this]

/-- C136: for bosons they do not: the transform has the additional factor `tanh(beta e / 2)`. -/
theorem C136_boson (beta e : ℝ) (hb : 0 < beta) (he : e ≠ 0) (n : ℤ) :
    ∫ tau in (0 : ℝ)..beta, Complex.exp (matsubara beta 0 n * tau) * ((oneTau beta tau e : ℝ) : ℂ) =
      ((Real.tanh (beta * e / 2) : ℝ) : ℂ) * oneFreq (matsubara beta 0 n) e := by
  have hne : matsubara beta 0 n ≠ e := by
    intro h
    have hre := congrArg Complex.re h
    have : (matsubara beta 0 n).re = 0 := by
      unfold matsubara
      rw [Complex.div_ofReal_re]
      simp [Complex.mul_im, Complex.mul_re]
    rw [this, Complex.ofReal_re] at hre
    exact he hre.symm
  simp only [C136_tau]
  rw [integral_exp beta e _ hne, exp_matsubara beta hb.ne' 0 (Or.inl rfl)]
  unfold oneFreq
  rw [if_neg (by norm_num), one_mul, div_eq_mul_one_div]
  congr 1
  rw [Real.tanh_eq_sinh_div_cosh, Real.sinh_eq, Real.cosh_eq]
  have hx : Real.exp (-(beta * e)) = Real.exp (-(beta * e / 2)) * Real.exp (-(beta * e / 2)) := by
    rw [← Real.exp_add]; ring_nf
  have hy : Real.exp (beta * e / 2) * Real.exp (-(beta * e / 2)) = 1 := by rw [← Real.exp_add]; simp
  have h2 : (1 - Complex.exp (-(beta * e))) / (1 + Complex.exp (-(beta * e))) =
      (((1 - Real.exp (-(beta * e))) / (1 + Real.exp (-(beta * e))) : ℝ) : ℂ) := by push_cast; rfl
  rw [h2]
  congr 1
  have p1 := Real.exp_pos (beta * e / 2)
  have p2 := Real.exp_pos (-(beta * e / 2))
  rw [hx]
  rw [div_eq_div_iff (by positivity) (by positivity)]
  set a := Real.exp (beta * e / 2)
  set c := Real.exp (-(beta * e / 2))
  linear_combination (-c) * hy

theorem star_oneFreq (z : ℂ) (e : ℝ) : star (oneFreq z e) = oneFreq (star z) e := by
  simp [oneFreq]

/-- C136: the result at the conjugate frequency is the adjoint matrix. -/
theorem C136_hermitian (V : Matrix o b ℂ) (e : b → ℝ) (z : ℂ) :
    (contract V (fun j => oneFreq z (e j)))ᴴ = contract V (fun j => oneFreq (star z) (e j)) := by
  ext k l
  simp only [conjTranspose_apply, contract, star_sum, star_mul', star_star, star_oneFreq]
  exact Finset.sum_congr rfl fun j _ => by ring

theorem contract_posSemidef (V : Matrix o b ℂ) (d : b → ℂ) (h : ∀ j, 0 ≤ d j) : (contract V d).PosSemidef := by
  rw [contract_eq]
  exact (PosSemidef.diagonal (fun j => h j)).mul_mul_conjTranspose_same V

theorem imPart_contract (V : Matrix o b ℂ) (d : b → ℂ) : imPart (contract V d) = contract V (fun j => ((d j).im : ℂ)) := by
  ext k l
  simp only [imPart, Matrix.smul_apply, Matrix.sub_apply, conjTranspose_apply, contract, star_sum, star_mul', star_star, smul_eq_mul]
  rw [← Finset.sum_sub_distrib, Finset.mul_sum]
  refine Finset.sum_congr rfl fun j _ => ?_
  have : d j - star (d j) = 2 * (d j).im * Complex.I := by
    apply Complex.ext <;> simp; ring
  calc 1 / (2 * Complex.I) * (V k j * d j * star (V l j) - star (V l j) * star (d j) * V k j)
      = V k j * ((1 / (2 * Complex.I)) * (d j - star (d j))) * star (V l j) := by ring
    _ = V k j * ((d j).im : ℂ) * star (V l j) := by
        rw [this]
        have hI : Complex.I ≠ 0 := Complex.I_ne_zero
        field_simp

/-- C136: above the real axis the imaginary part of the result is not positive. -/
theorem C136_causal (V : Matrix o b ℂ) (e : b → ℝ) (z : ℂ) (hz : 0 < z.im) :
    (imPart (-contract V (fun j => oneFreq z (e j)))).PosSemidef := by
  have h : -contract V (fun j => oneFreq z (e j)) = contract V (fun j => -oneFreq z (e j)) := by
    ext k l; simp [contract]
  rw [h, imPart_contract]
  apply contract_posSemidef
  intro j
  have him : (-oneFreq z (e j)).im = z.im / Complex.normSq (z - e j) := by
    unfold oneFreq
    rw [one_div, Complex.neg_im, Complex.inv_im]
    simp [neg_div]
  rw [him]
  have : 0 ≤ z.im / Complex.normSq (z - e j) := div_nonneg hz.le (Complex.normSq_nonneg _)
  exact_mod_cast this

/-- C136: for imaginary times minus the result is positive semidefinite. -/
theorem C136_tau_negative (V : Matrix o b ℂ) (e : b → ℝ) (beta tau : ℝ) :
    (-contract V (fun j => ((oneTau beta tau (e j) : ℝ) : ℂ))).PosSemidef := by
  have h : -contract V (fun j => ((oneTau beta tau (e j) : ℝ) : ℂ)) = contract V (fun j => ((-oneTau beta tau (e j) : ℝ) : ℂ)) := by
    ext k l; simp [contract]
  rw [h]
  apply contract_posSemidef
  intro j
  have : 0 ≤ -oneTau beta tau (e j) := by
    rw [C136_tau]; unfold fermionTau
    rw [neg_div, neg_neg]; positivity
  exact_mod_cast this

/-- C136: the first moment `V Vᴴ` is minus the sum of the values at the times 0 and beta; this is used for the initial guess
of `discretize_bath`, tools.py:457. -/
theorem C136_moment_tau (V : Matrix o b ℂ) (e : b → ℝ) (beta : ℝ) :
    -contract V (fun j => ((oneTau beta 0 (e j) : ℝ) : ℂ)) - contract V (fun j => ((oneTau beta beta (e j) : ℝ) : ℂ)) = V * Vᴴ := by
  ext k l
  simp only [Matrix.sub_apply, Matrix.neg_apply, contract, Matrix.mul_apply, conjTranspose_apply]
  rw [← Finset.sum_neg_distrib, ← Finset.sum_sub_distrib]
  refine Finset.sum_congr rfl fun j _ => ?_
  have : -oneTau beta 0 (e j) - oneTau beta beta (e j) = 1 := by
    rw [C136_tau, C136_tau]; unfold fermionTau
    have : (1 + Real.exp (-beta * e j)) ≠ 0 := by positivity
    field_simp
    simp
  have h2 : -((oneTau beta 0 (e j) : ℝ) : ℂ) - ((oneTau beta beta (e j) : ℝ) : ℂ) = 1 := by exact_mod_cast this
  linear_combination (V k j * star (V l j)) * h2

/-- C136: the same moment from the high frequencies. -/
theorem C136_moment (V : Matrix o b ℂ) (e : b → ℝ) :
    Filter.Tendsto (fun z : ℂ => z • contract V (fun j => oneFreq z (e j))) (Bornology.cobounded ℂ) (nhds (V * Vᴴ)) := by
  refine tendsto_pi_nhds.2 fun k => tendsto_pi_nhds.2 fun l => ?_
  simp only [Matrix.smul_apply, contract, Matrix.mul_apply, conjTranspose_apply, smul_eq_mul, Finset.mul_sum]
  refine tendsto_finset_sum _ fun j _ => ?_
  have h1 : Filter.Tendsto (fun z : ℂ => z * oneFreq z (e j)) (Bornology.cobounded ℂ) (nhds 1) := by
    have h2 : Filter.Tendsto (fun z : ℂ => (1 - (e j : ℂ) * z⁻¹)⁻¹) (Bornology.cobounded ℂ) (nhds ((1 - (e j : ℂ) * 0)⁻¹)) :=
      ((tendsto_const_nhds.sub (tendsto_const_nhds.mul Filter.tendsto_inv₀_cobounded)).inv₀ (by simp))
    rw [mul_zero, sub_zero, inv_one] at h2
    refine h2.congr' ?_
    filter_upwards [Bornology.eventually_ne_cobounded (0 : ℂ)] with z hz
    unfold oneFreq
    rw [show (1 : ℂ) - e j * z⁻¹ = (z - e j) / z by field_simp, inv_div, mul_one_div]
  have h3 := (h1.const_mul (V k j)).mul_const (star (V l j))
  rw [mul_one] at h3
  refine h3.congr fun z => ?_
  ring

/-- C136: what the function is for: eliminating the bath levels from the Hamiltonian `h`, `V`, `e` of impurity and bath leaves
an impurity with this hybridisation. -/
theorem C136_bath (h : Matrix o o ℂ) (V : Matrix o b ℂ) (e : b → ℝ) (z : ℂ) (hz : ∀ j, z ≠ e j)
    (hu : IsUnit (fromBlocks (z • (1 : Matrix o o ℂ) - h) (-V) (-Vᴴ) (diagonal fun j => z - (e j : ℂ))).det) :
    (fromBlocks (z • (1 : Matrix o o ℂ) - h) (-V) (-Vᴴ) (diagonal fun j => z - (e j : ℂ)))⁻¹.toBlocks₁₁ =
      (z • (1 : Matrix o o ℂ) - h - contract V (fun j => oneFreq z (e j)))⁻¹ := by
  set A := fromBlocks (z • (1 : Matrix o o ℂ) - h) (-V) (-Vᴴ) (diagonal fun j => z - (e j : ℂ)) with hA
  have h1 : A * A⁻¹ = 1 := mul_nonsing_inv _ hu
  rw [← fromBlocks_toBlocks (A⁻¹), hA, fromBlocks_multiply, ← fromBlocks_one, fromBlocks_inj] at h1
  obtain ⟨e1, -, e2, -⟩ := h1
  rw [← hA] at e1 e2
  symm
  apply inv_eq_right_inv
  set G := A⁻¹.toBlocks₁₁
  set F := A⁻¹.toBlocks₂₁
  have hF : F = diagonal (fun j => oneFreq z (e j)) * (Vᴴ * G) := by
    have h2 : diagonal (fun j => z - (e j : ℂ)) * F = Vᴴ * G := by
      rw [Matrix.neg_mul, neg_add_eq_zero] at e2
      exact e2.symm
    rw [← h2, ← Matrix.mul_assoc, diagonal_mul_diagonal]
    have h3 : (diagonal fun j => oneFreq z (e j) * (z - (e j : ℂ))) = (1 : Matrix b b ℂ) := by
      rw [← diagonal_one]
      congr 1
      funext j
      unfold oneFreq
      exact one_div_mul_cancel (sub_ne_zero.2 (hz j))
    rw [h3, Matrix.one_mul]
  rw [hF, Matrix.neg_mul] at e1
  rw [contract_eq, Matrix.sub_mul, Matrix.mul_assoc, Matrix.mul_assoc, sub_eq_add_neg]
  exact e1

open Classical in
/-- C136: which arguments give a result, and which result: only numpy arrays of energies, although a list is documented. -/
theorem C136_outcome {m : ℕ} (V : Matrix o (Fin m) ℂ) (eps : Energies) (mesh : Mesh) :
    (∃ d, makeDelta V eps mesh = .ok d) ↔ (∃ e, eps = .array e ∧ e.length = m) ∧ mesh ≠ .other := by
  unfold makeDelta
  by_cases h : m = eps.get.length
  · rw [if_neg (not_not.2 h)]
    cases eps <;> cases mesh <;> simp_all [Energies.get]
  · rw [if_pos h]
    cases eps with
    | array e => simp only [Energies.get] at h; simp [Ne.symm h]
    | list e => simp

/-- C136: the values of the result for the Matsubara frequencies of the mesh. -/
theorem C136_value_freq {m : ℕ} (V : Matrix o (Fin m) ℂ) (e : List ℝ) (he : e.length = m) (beta : ℝ) (s : ℕ) (first last : ℤ)
    (h : first ≤ last) : ∃ d, makeDelta V (.array e) (.imfreq beta s first last) = .ok d ∧
      ∀ i : ℕ, first + i ≤ last → d i = hyb V (fun j => e.getD j 0) (matsubara beta s (first + i)) := by
  refine ⟨_, by unfold makeDelta; rw [if_neg (by simp [Energies.get, he])], ?_⟩
  intro i hi
  rw [hyb_eq, C136_freq_points beta s first last h i hi]

/-- C136: and for the times of the mesh. -/
theorem C136_value_tau {m : ℕ} (V : Matrix o (Fin m) ℂ) (e : List ℝ) (he : e.length = m) (beta : ℝ) (s n : ℕ) (hn : 2 ≤ n) :
    ∃ d, makeDelta V (.array e) (.imtime beta s n) = .ok d ∧
      ∀ i k l, d i k l = ∑ j, V k j * ((fermionTau beta (beta * i / (n - 1)) (e.getD j 0) : ℝ) : ℂ) * star (V l j) := by
  refine ⟨_, by unfold makeDelta; rw [if_neg (by simp [Energies.get, he])], ?_⟩
  intro i k l
  simp only [contract, C136_tau, C136_tau_points beta n i hn, Complex.ofReal_re]

/-! ### Examples -/

/-- one level: `4/(z - 1)` at the Matsubara frequencies -/
example : ∃ d, makeDelta (o := Fin 1) !![2] (.array [1]) (.imfreq 10 1 (-3) 2) = .ok d ∧
    d 3 0 0 = 4 * (matsubara 10 1 0 - 1)⁻¹ := by
  obtain ⟨d, h1, h2⟩ := C136_value_freq (o := Fin 1) !![2] [1] rfl 10 1 (-3) 2 (by norm_num)
  refine ⟨d, h1, ?_⟩
  rw [h2 3 (by norm_num)]
  simp [hyb]
  ring

/-- at half of the period a level at zero gives `-1/2` -/
example : oneTau 10 5 0 = -(1 / 2) := by
  rw [C136_tau]; simp [fermionTau]; norm_num

/-- a list of energies, as documented, is refused -/
example : makeDelta (o := Fin 1) !![2] (.list [1]) (.imfreq 10 1 (-3) 2) = .type := by
  simp [makeDelta, Energies.get]

/-- two orbitals and three levels: the first moment -/
example (e : Fin 3 → ℝ) : (-contract (!![1, 2, 0; 0, 1, 3] : Matrix (Fin 2) (Fin 3) ℂ) (fun j => ((oneTau 10 0 (e j) : ℝ) : ℂ)) -
    contract !![1, 2, 0; 0, 1, 3] (fun j => ((oneTau 10 10 (e j) : ℝ) : ℂ))) 0 1 = 2 := by
  rw [C136_moment_tau]
  simp [Matrix.mul_apply, Fin.sum_univ_three]

end Verif.Bath
