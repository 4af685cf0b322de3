import Mathlib.Algebra.Polynomial.Roots
import Mathlib.Data.Complex.BigOperators
import Mathlib.Algebra.BigOperators.Field
import Mathlib.Tactic.FieldSimp
import Mathlib.Tactic.LinearCombination
import Mathlib.LinearAlgebra.Matrix.Hermitian
import Mathlib.Analysis.InnerProductSpace.PiL2
import Mathlib.Analysis.InnerProductSpace.Projection.Minimal
import Verif.Utility.Legendre

/-!
# Property C138: Legendre fit of an imaginary-time function

Sources: `/repo/python/triqs/gf/tools.py` (`fit_legendre`), `/repo/c++/triqs/mesh/bases/linear.hpp`.

`numpy.polynomial.legendre.legfit` is a parameter: a function which gives, for each column of the data, coefficients with the
least sum of squared deviations. The evaluation of the result is the model of the C++ evaluator (C58).

Simplifications: exact numbers, so that legfit does not cut off small singular values.
-/

namespace Verif.FitLegendre
open Verif.Legendre Polynomial

/-! ## Model -/

/-- a point of the imaginary-time mesh, linear.hpp:51,154-159 -/
noncomputable def tauPoint (beta : ℝ) (N i : ℕ) : ℝ := if N = 1 then 0 else beta * i / (N - 1 : ℕ)

/-- line 241 -/
noncomputable def xPoint (beta : ℝ) (N i : ℕ) : ℝ := 2 * tauPoint beta N i / beta - 1

/-- data and its Hermitian conjugate at each time, lines 243-250 -/
noncomputable def herm {o : Type} (g : ℕ → Matrix o o ℂ) (i : ℕ) (a b : o) : ℂ := (1 / 2) * (g i a b + star (g i b a))

/-- `leg.legfit(x, y, order - 1)` for one column of data -/
abbrev LegFit := (x : ℕ → ℝ) → (N order : ℕ) → (y : ℕ → ℝ) → ℕ → ℝ

/-- `fit_legendre`, lines 241-267. `legfit` raises an error for a negative degree and without points (`none`). -/
noncomputable def fitLegendre {o : Type} (legfit : LegFit) (beta : ℝ) (N order : ℕ) (g : ℕ → Matrix o o ℂ) : Option (ℕ → Matrix o o ℂ) :=
  if order = 0 ∨ N = 0 then none
  else some fun l a b =>
    let cRe := legfit (xPoint beta N) N order (fun i => (herm g i a b).re) l
    let cIm := legfit (xPoint beta N) N order (fun i => (herm g i a b).im) l
    ((cRe : ℂ) + Complex.I * (cIm : ℂ)) / ((Real.sqrt (2 * l + 1) / beta : ℝ) : ℂ)

/-! ## Specification -/

/-- sum of squared deviations of a Legendre series from the data -/
noncomputable def dev (x : ℕ → ℝ) (N order : ℕ) (y c : ℕ → ℝ) : ℝ :=
  ∑ i ∈ Finset.range N, (∑ l ∈ Finset.range order, c l * (P ℝ l).eval (x i) - y i) ^ 2

/-- the contract of `legfit` -/
def LeastSquares (legfit : LegFit) : Prop := ∀ x N order y c, dev x N order y (legfit x N order y) ≤ dev x N order y c

/-- sum of the squared deviations of the function with Legendre coefficients `h` from the data, over all times and matrix
elements -/
noncomputable def distance {o : Type} [Fintype o] (beta : ℝ) (N order : ℕ) (g h : ℕ → Matrix o o ℂ) : ℝ :=
  ∑ i ∈ Finset.range N, ∑ a, ∑ b, Complex.normSq (evaluate beta order (fun l => h l a b) (tauPoint beta N i) - g i a b)

/-! ## Proofs -/

theorem P_natDegree (l : ℕ) : (P ℝ l).natDegree ≤ l := by
  unfold P
  refine (natDegree_C_mul_le _ _).trans ((natDegree_iterate_derivative _ l).trans ?_)
  have h1 : ((X ^ 2 - 1 : ℝ[X]) ^ l).natDegree ≤ l * 2 := by
    refine natDegree_pow_le.trans (Nat.mul_le_mul_left l ?_)
    have : (X ^ 2 - 1 : ℝ[X]) = X ^ 2 - C 1 := by simp
    rw [this, natDegree_X_pow_sub_C]
  omega

/-- the Legendre polynomials are linearly independent -/
theorem P_independent (n : ℕ) (c : ℕ → ℝ) (h : ∑ l ∈ Finset.range n, C (c l) * P ℝ l = 0) : ∀ l < n, c l = 0 := by
  induction n with
  | zero => intro l hl; omega
  | succ n ih =>
    have hd : derivative^[n] (∑ l ∈ Finset.range (n + 1), C (c l) * P ℝ l) = 0 := by rw [h]; simp
    have h1 := congrArg (eval 1) hd
    rw [iterate_derivative_sum, eval_finset_sum, Finset.sum_range_succ] at h1
    simp only [iterate_derivative_C_mul, eval_mul, eval_C, eval_zero] at h1
    have h2 : ∑ l ∈ Finset.range n, c l * eval 1 (derivative^[n] (P ℝ l)) = 0 :=
      Finset.sum_eq_zero fun l hl => by rw [P_deriv_zero l n (Finset.mem_range.1 hl) 1 (by norm_num), mul_zero]
    rw [h2, zero_add, P_deriv_eval n n le_rfl 1 (by norm_num)] at h1
    have hn : c n = 0 := by
      rcases mul_eq_zero.1 h1 with h3 | h3
      · exact h3
      · exfalso
        have : (0 : ℝ) < 1 ^ (n - n) * (((n + n).factorial : ℝ) / (2 ^ n * n.factorial * (n - n).factorial)) := by positivity
        exact this.ne' h3
    rw [Finset.sum_range_succ, hn] at h
    simp only [map_zero, zero_mul, add_zero] at h
    intro l hl
    rcases Nat.lt_succ_iff_lt_or_eq.1 hl with h3 | rfl
    · exact ih h l h3
    · exact hn

/-- a Legendre series which vanishes at as many points as it has coefficients is zero -/
theorem series_zero (x : ℕ → ℝ) (N order : ℕ) (hN : order ≤ N) (hx : ∀ i < N, ∀ j < N, x i = x j → i = j) (c : ℕ → ℝ)
    (h : ∀ i < N, ∑ l ∈ Finset.range order, c l * (P ℝ l).eval (x i) = 0) : ∀ l < order, c l = 0 := by
  apply P_independent
  set p := ∑ l ∈ Finset.range order, C (c l) * P ℝ l with hp
  by_contra hne
  rcases Nat.eq_zero_or_pos order with rfl | hpos
  · exact hne (by rw [hp]; simp)
  have hdeg : p.natDegree ≤ order - 1 := by
    rw [hp]
    refine natDegree_sum_le_of_forall_le _ _ fun l hl => ?_
    have := Finset.mem_range.1 hl
    exact (natDegree_C_mul_le _ _).trans ((P_natDegree l).trans (by omega))
  have hroots : ((Finset.range N).image x).card ≤ p.natDegree := by
    refine (Finset.card_le_card (t := p.roots.toFinset) ?_).trans ((Multiset.toFinset_card_le _).trans (card_roots' p))
    intro r hr
    obtain ⟨i, hi, rfl⟩ := Finset.mem_image.1 hr
    rw [Multiset.mem_toFinset, mem_roots hne, IsRoot.def, hp, eval_finset_sum]
    simpa using h i (Finset.mem_range.1 hi)
  rw [Finset.card_image_of_injOn (by
    intro i hi j hj h
    exact hx i (by simpa using hi) j (by simpa using hj) h), Finset.card_range] at hroots
  omega

/-- the solution of the least squares problem is unique -/
theorem lsq_unique (x : ℕ → ℝ) (N order : ℕ) (hN : order ≤ N) (hx : ∀ i < N, ∀ j < N, x i = x j → i = j) (y c d : ℕ → ℝ)
    (hc : ∀ e, dev x N order y c ≤ dev x N order y e) (hd : dev x N order y d ≤ dev x N order y c) : ∀ l < order, c l = d l := by
  have hm := hc (fun l => (c l + d l) / 2)
  have key : ∀ i, (∑ l ∈ Finset.range order, (c l + d l) / 2 * (P ℝ l).eval (x i) - y i) ^ 2 =
      ((∑ l ∈ Finset.range order, c l * (P ℝ l).eval (x i) - y i) ^ 2 + (∑ l ∈ Finset.range order, d l * (P ℝ l).eval (x i) - y i) ^ 2) / 2 -
        (∑ l ∈ Finset.range order, (c l - d l) * (P ℝ l).eval (x i)) ^ 2 / 4 := by
    intro i
    have h1 : ∑ l ∈ Finset.range order, (c l + d l) / 2 * (P ℝ l).eval (x i) =
        (∑ l ∈ Finset.range order, c l * (P ℝ l).eval (x i) + ∑ l ∈ Finset.range order, d l * (P ℝ l).eval (x i)) / 2 := by
      rw [← Finset.sum_add_distrib, Finset.sum_div]
      exact Finset.sum_congr rfl fun l _ => by ring
    have h2 : ∑ l ∈ Finset.range order, (c l - d l) * (P ℝ l).eval (x i) =
        ∑ l ∈ Finset.range order, c l * (P ℝ l).eval (x i) - ∑ l ∈ Finset.range order, d l * (P ℝ l).eval (x i) := by
      rw [← Finset.sum_sub_distrib]
      exact Finset.sum_congr rfl fun l _ => by ring
    rw [h1, h2]
    ring
  have h3 : dev x N order y (fun l => (c l + d l) / 2) = (dev x N order y c + dev x N order y d) / 2 -
      (∑ i ∈ Finset.range N, (∑ l ∈ Finset.range order, (c l - d l) * (P ℝ l).eval (x i)) ^ 2) / 4 := by
    unfold dev
    rw [Finset.sum_congr rfl fun i _ => key i, Finset.sum_sub_distrib, ← Finset.sum_div, ← Finset.sum_div, Finset.sum_add_distrib]
  have h4 : ∑ i ∈ Finset.range N, (∑ l ∈ Finset.range order, (c l - d l) * (P ℝ l).eval (x i)) ^ 2 = 0 := by
    have h5 : 0 ≤ ∑ i ∈ Finset.range N, (∑ l ∈ Finset.range order, (c l - d l) * (P ℝ l).eval (x i)) ^ 2 :=
      Finset.sum_nonneg fun i _ => sq_nonneg _
    linarith
  rw [Finset.sum_eq_zero_iff_of_nonneg fun i _ => sq_nonneg _] at h4
  intro l hl
  have := series_zero x N order hN hx (fun l => c l - d l)
    (fun i hi => pow_eq_zero_iff (two_ne_zero) |>.1 (h4 i (Finset.mem_range.2 hi))) l hl
  linarith

theorem xPoint_inj (beta : ℝ) (hb : 0 < beta) (N : ℕ) : ∀ i < N, ∀ j < N, xPoint beta N i = xPoint beta N j → i = j := by
  intro i hi j hj h
  by_cases h1 : N = 1
  · omega
  have h2 : ((N - 1 : ℕ) : ℝ) ≠ 0 := by
    have : N - 1 ≠ 0 := by omega
    exact_mod_cast this
  unfold xPoint tauPoint at h
  rw [if_neg h1, if_neg h1] at h
  field_simp at h
  have h3 : (i : ℝ) = j := by linarith
  exact_mod_cast h3

/-- real and imaginary part of the evaluator are series in the scaled coefficients -/
theorem evaluate_eq (beta : ℝ) (n : ℕ) (f : ℕ → ℂ) (N i : ℕ) :
    (evaluate beta n f (tauPoint beta N i)).re =
        ∑ l ∈ Finset.range n, (f l).re * (Real.sqrt (2 * l + 1) / beta) * (P ℝ l).eval (xPoint beta N i) ∧
      (evaluate beta n f (tauPoint beta N i)).im =
        ∑ l ∈ Finset.range n, (f l).im * (Real.sqrt (2 * l + 1) / beta) * (P ℝ l).eval (xPoint beta N i) := by
  have h : evaluate beta n f (tauPoint beta N i) =
      ∑ l ∈ Finset.range n, f l * ((Real.sqrt (2 * l + 1) / beta * (P ℝ l).eval (xPoint beta N i) : ℝ) : ℂ) := by
    rw [evaluate, C58_generator, sum_mapIdx]
    refine Finset.sum_congr rfl fun l _ => ?_
    rw [show 2 * tauPoint beta N i / beta - 1 = xPoint beta N i from rfl]
    push_cast
    ring
  rw [h, Complex.re_sum, Complex.im_sum]
  refine ⟨Finset.sum_congr rfl fun l _ => ?_, Finset.sum_congr rfl fun l _ => ?_⟩
  · rw [Complex.re_mul_ofReal]; ring
  · rw [Complex.im_mul_ofReal]; ring

theorem scale_pos (beta : ℝ) (hb : 0 < beta) (l : ℕ) : 0 < Real.sqrt (2 * l + 1) / beta :=
  div_pos (Real.sqrt_pos.2 (by positivity)) hb

theorem result_eq {o : Type} {legfit : LegFit} {beta : ℝ} (hb : 0 < beta) {N order : ℕ} {g r : ℕ → Matrix o o ℂ}
    (hr : fitLegendre legfit beta N order g = some r) (l : ℕ) (a b : o) :
    (r l a b).re * (Real.sqrt (2 * l + 1) / beta) = legfit (xPoint beta N) N order (fun i => (herm g i a b).re) l ∧
      (r l a b).im * (Real.sqrt (2 * l + 1) / beta) = legfit (xPoint beta N) N order (fun i => (herm g i a b).im) l := by
  unfold fitLegendre at hr
  split at hr
  · cases hr
  · have h := congrFun (congrFun (congrFun (Option.some.inj hr) l) a) b
    have hs := (scale_pos beta hb l).ne'
    simp only at h
    rw [← h, Complex.div_ofReal_re, Complex.div_ofReal_im, div_mul_cancel₀ _ hs, div_mul_cancel₀ _ hs]
    simp

/-- C138: the result is Hermitian. -/
theorem C138_hermitian {o : Type} (legfit : LegFit) (hls : LeastSquares legfit) (beta : ℝ) (hb : 0 < beta) (N order : ℕ) (hN : order ≤ N)
    (g r : ℕ → Matrix o o ℂ) (hr : fitLegendre legfit beta N order g = some r) (l : ℕ) (hl : l < order) : (r l).IsHermitian := by
  ext a b
  have hs := (scale_pos beta hb l).ne'
  have h1 := result_eq hb hr l a b
  have h2 := result_eq hb hr l b a
  have hre : (fun i => (herm g i b a).re) = fun i => (herm g i a b).re := by
    funext i
    simp only [herm, Complex.mul_re, Complex.add_re, Complex.add_im, Complex.star_def, Complex.conj_re, Complex.conj_im]
    norm_num
    ring
  have him : (fun i => (herm g i b a).im) = fun i => -(herm g i a b).im := by
    funext i
    simp only [herm, Complex.mul_im, Complex.add_re, Complex.add_im, Complex.star_def, Complex.conj_re, Complex.conj_im]
    norm_num
    ring
  have hneg : legfit (xPoint beta N) N order (fun i => -(herm g i a b).im) l = -legfit (xPoint beta N) N order (fun i => (herm g i a b).im) l := by
    have hd : ∀ y c, dev (xPoint beta N) N order (fun i => -y i) (fun l => -c l) = dev (xPoint beta N) N order y c := by
      intro y c
      unfold dev
      refine Finset.sum_congr rfl fun i _ => ?_
      simp only [neg_mul, Finset.sum_neg_distrib]
      ring
    refine lsq_unique (xPoint beta N) N order hN (xPoint_inj beta hb N) (fun i => -(herm g i a b).im) _
      (fun l => -legfit (xPoint beta N) N order (fun i => (herm g i a b).im) l) (hls _ _ _ _) ?_ l hl
    rw [hd (fun i => (herm g i a b).im)]
    refine (hls _ _ _ _ (fun l => -legfit (xPoint beta N) N order (fun i => -(herm g i a b).im) l)).trans (le_of_eq ?_)
    have := hd (fun i => -(herm g i a b).im) (legfit (xPoint beta N) N order (fun i => -(herm g i a b).im))
    simpa using this
  rw [Matrix.conjTranspose_apply]
  apply Complex.ext
  · rw [Complex.star_def, Complex.conj_re]
    apply mul_right_cancel₀ hs
    rw [h2.1, h1.1, hre]
  · rw [Complex.star_def, Complex.conj_im]
    apply mul_right_cancel₀ hs
    rw [neg_mul, h2.2, h1.2, him, hneg, neg_neg]

section Best
variable {o : Type} [Fintype o]

theorem cross (A B : Matrix o o ℂ) (hA : A.IsHermitian) (hB : ∀ a b, B a b = -star (B b a)) :
    ∑ a, ∑ b, (star (A a b) * B a b).re = 0 := by
  have h : ∑ a, ∑ b, (star (A a b) * B a b).re = -∑ a, ∑ b, (star (A a b) * B a b).re := by
    conv_lhs => rw [Finset.sum_comm]
    rw [← Finset.sum_neg_distrib]
    refine Finset.sum_congr rfl fun a _ => ?_
    rw [← Finset.sum_neg_distrib]
    refine Finset.sum_congr rfl fun b _ => ?_
    rw [hB b a, ← hA.apply b a]
    simp only [Complex.star_def, Complex.mul_re, Complex.conj_re, Complex.conj_im, Complex.neg_re, Complex.neg_im]
    ring
  linarith

/-- the deviation from the data is that from the Hermitian part of the data, and a constant -/
theorem distance_eq (beta : ℝ) (N order : ℕ) (g h : ℕ → Matrix o o ℂ) (hh : ∀ l < order, (h l).IsHermitian) :
    distance beta N order g h =
      ∑ a, ∑ b, (dev (xPoint beta N) N order (fun i => (herm g i a b).re) (fun l => (h l a b).re * (Real.sqrt (2 * l + 1) / beta)) +
        dev (xPoint beta N) N order (fun i => (herm g i a b).im) (fun l => (h l a b).im * (Real.sqrt (2 * l + 1) / beta))) +
      ∑ i ∈ Finset.range N, ∑ a, ∑ b, Complex.normSq (g i a b - herm g i a b) := by
  have hE : ∀ i, Matrix.IsHermitian (fun a b => evaluate beta order (fun l => h l a b) (tauPoint beta N i) - herm g i a b) := by
    intro i
    ext a b
    show star (evaluate beta order (fun l => h l b a) (tauPoint beta N i) - herm g i b a) =
      evaluate beta order (fun l => h l a b) (tauPoint beta N i) - herm g i a b
    have e1 := evaluate_eq beta order (fun l => h l a b) N i
    have e2 := evaluate_eq beta order (fun l => h l b a) N i
    have hc : ∀ l ∈ Finset.range order, h l b a = star (h l a b) := fun l hl => ((hh l (Finset.mem_range.1 hl)).apply b a).symm
    have hev : evaluate beta order (fun l => h l b a) (tauPoint beta N i) = star (evaluate beta order (fun l => h l a b) (tauPoint beta N i)) := by
      apply Complex.ext
      · rw [Complex.star_def, Complex.conj_re, e1.1, e2.1]
        refine Finset.sum_congr rfl fun l hl => ?_
        rw [hc l hl]; simp
      · rw [Complex.star_def, Complex.conj_im, e1.2, e2.2, ← Finset.sum_neg_distrib]
        refine Finset.sum_congr rfl fun l hl => ?_
        rw [hc l hl]; simp
    rw [hev]
    simp only [herm, star_sub, star_star, star_mul', star_add]
    have : star (1 / 2 : ℂ) = 1 / 2 := by simp [Complex.star_def]
    rw [this]
    ring
  have hsplit : ∀ i, ∑ a, ∑ b, Complex.normSq (evaluate beta order (fun l => h l a b) (tauPoint beta N i) - g i a b) =
      ∑ a, ∑ b, Complex.normSq (evaluate beta order (fun l => h l a b) (tauPoint beta N i) - herm g i a b) +
        ∑ a, ∑ b, Complex.normSq (g i a b - herm g i a b) := by
    intro i
    have hx := cross _ (fun a b => g i a b - herm g i a b) (hE i) (by
      intro a b
      simp only [herm, star_sub, star_mul', star_add, star_star]
      have : star (1 / 2 : ℂ) = 1 / 2 := by simp [Complex.star_def]
      rw [this]
      ring)
    rw [← Finset.sum_add_distrib]
    have : ∀ a, ∑ b, Complex.normSq (evaluate beta order (fun l => h l a b) (tauPoint beta N i) - g i a b) =
        ∑ b, Complex.normSq (evaluate beta order (fun l => h l a b) (tauPoint beta N i) - herm g i a b) +
          ∑ b, Complex.normSq (g i a b - herm g i a b) -
          2 * ∑ b, (star (evaluate beta order (fun l => h l a b) (tauPoint beta N i) - herm g i a b) * (g i a b - herm g i a b)).re := by
      intro a
      rw [Finset.mul_sum, ← Finset.sum_add_distrib, ← Finset.sum_sub_distrib]
      refine Finset.sum_congr rfl fun b _ => ?_
      simp only [Complex.normSq_apply, Complex.star_def, Complex.mul_re, Complex.conj_re, Complex.conj_im, Complex.sub_re, Complex.sub_im]
      ring
    rw [Finset.sum_congr rfl fun a _ => this a, Finset.sum_sub_distrib, ← Finset.mul_sum, hx]
    ring
  unfold distance
  rw [Finset.sum_congr rfl fun i _ => hsplit i, Finset.sum_add_distrib]
  congr 1
  rw [Finset.sum_comm]
  refine Finset.sum_congr rfl fun a _ => ?_
  rw [Finset.sum_comm]
  refine Finset.sum_congr rfl fun b _ => ?_
  unfold dev
  rw [← Finset.sum_add_distrib]
  refine Finset.sum_congr rfl fun i _ => ?_
  have e1 := evaluate_eq beta order (fun l => h l a b) N i
  rw [Complex.normSq_apply, Complex.sub_re, Complex.sub_im, e1.1, e1.2]
  ring

/-- C138: of all Hermitian functions with this number of Legendre coefficients, the result is the one closest to the data,
which may be noisy and need not be Hermitian; and it is the only one. -/
theorem C138_best (legfit : LegFit) (hls : LeastSquares legfit) (beta : ℝ) (hb : 0 < beta) (N order : ℕ) (hN : order ≤ N)
    (g r : ℕ → Matrix o o ℂ) (hr : fitLegendre legfit beta N order g = some r) (h : ℕ → Matrix o o ℂ) (hh : ∀ l < order, (h l).IsHermitian) :
    distance beta N order g r ≤ distance beta N order g h ∧
      (distance beta N order g h = distance beta N order g r → ∀ l < order, h l = r l) := by
  have hrh := fun l hl => C138_hermitian legfit hls beta hb N order hN g r hr l hl
  rw [distance_eq beta N order g h hh, distance_eq beta N order g r hrh]
  have hRe : ∀ a b, (fun l => (r l a b).re * (Real.sqrt (2 * l + 1) / beta)) =
      legfit (xPoint beta N) N order (fun i => (herm g i a b).re) := fun a b => funext fun l => (result_eq hb hr l a b).1
  have hIm : ∀ a b, (fun l => (r l a b).im * (Real.sqrt (2 * l + 1) / beta)) =
      legfit (xPoint beta N) N order (fun i => (herm g i a b).im) := fun a b => funext fun l => (result_eq hb hr l a b).2
  simp only [hRe, hIm]
  have hle : ∀ a b, dev (xPoint beta N) N order (fun i => (herm g i a b).re) (legfit (xPoint beta N) N order (fun i => (herm g i a b).re)) +
      dev (xPoint beta N) N order (fun i => (herm g i a b).im) (legfit (xPoint beta N) N order (fun i => (herm g i a b).im)) ≤
      dev (xPoint beta N) N order (fun i => (herm g i a b).re) (fun l => (h l a b).re * (Real.sqrt (2 * l + 1) / beta)) +
        dev (xPoint beta N) N order (fun i => (herm g i a b).im) (fun l => (h l a b).im * (Real.sqrt (2 * l + 1) / beta)) :=
    fun a b => add_le_add (hls _ _ _ _ _) (hls _ _ _ _ _)
  constructor
  · exact add_le_add (Finset.sum_le_sum fun a _ => Finset.sum_le_sum fun b _ => hle a b) le_rfl
  · intro heq l hl
    have h1 := add_right_cancel heq
    have h2 := (Finset.sum_eq_sum_iff_of_le fun a _ => Finset.sum_le_sum fun b _ => hle a b).1 h1.symm
    ext a b
    have h3 := (Finset.sum_eq_sum_iff_of_le fun b _ => hle a b).1 (h2 a (Finset.mem_univ a)) b (Finset.mem_univ b)
    have h4 := hls (xPoint beta N) N order (fun i => (herm g i a b).re) (fun l => (h l a b).re * (Real.sqrt (2 * l + 1) / beta))
    have h5 := hls (xPoint beta N) N order (fun i => (herm g i a b).im) (fun l => (h l a b).im * (Real.sqrt (2 * l + 1) / beta))
    have hs := (scale_pos beta hb l).ne'
    have u1 := lsq_unique (xPoint beta N) N order hN (xPoint_inj beta hb N) (fun i => (herm g i a b).re)
      (legfit (xPoint beta N) N order (fun i => (herm g i a b).re)) (fun l => (h l a b).re * (Real.sqrt (2 * l + 1) / beta)) (hls _ _ _ _)
      (by linarith) l hl
    have u2 := lsq_unique (xPoint beta N) N order hN (xPoint_inj beta hb N) (fun i => (herm g i a b).im)
      (legfit (xPoint beta N) N order (fun i => (herm g i a b).im)) (fun l => (h l a b).im * (Real.sqrt (2 * l + 1) / beta)) (hls _ _ _ _)
      (by linarith) l hl
    rw [← (result_eq hb hr l a b).1] at u1
    rw [← (result_eq hb hr l a b).2] at u2
    exact Complex.ext (mul_right_cancel₀ hs u1.symm) (mul_right_cancel₀ hs u2.symm)

/-- C138: a function which has such an expansion is recovered exactly. -/
theorem C138_exact (legfit : LegFit) (hls : LeastSquares legfit) (beta : ℝ) (hb : 0 < beta) (N order : ℕ) (hN : order ≤ N)
    (h0 : 0 < order) (h : ℕ → Matrix o o ℂ) (hh : ∀ l < order, (h l).IsHermitian) :
    ∃ r, fitLegendre legfit beta N order (fun i a b => evaluate beta order (fun l => h l a b) (tauPoint beta N i)) = some r ∧
      ∀ l < order, r l = h l := by
  have hd : ¬ (order = 0 ∨ N = 0) := by omega
  refine ⟨_, if_neg hd, fun l hl => ?_⟩
  have hbest := C138_best legfit hls beta hb N order hN (fun i a b => evaluate beta order (fun l => h l a b) (tauPoint beta N i)) _
    (if_neg hd) h hh
  refine (hbest.2 ?_ l hl).symm
  refine le_antisymm ?_ hbest.1
  have hz : distance beta N order (fun i a b => evaluate beta order (fun l => h l a b) (tauPoint beta N i)) h = 0 := by
    unfold distance
    simp
  rw [hz]
  exact Finset.sum_nonneg fun i _ => Finset.sum_nonneg fun a _ => Finset.sum_nonneg fun b _ => Complex.normSq_nonneg _

end Best

/-- C138: functions with the contract assumed for `legfit` exist. -/
theorem C138_legfit_exists : ∃ legfit : LegFit, LeastSquares legfit := by
  have h : ∀ (x : ℕ → ℝ) (N order : ℕ) (y : ℕ → ℝ), ∃ c : ℕ → ℝ, ∀ d, dev x N order y c ≤ dev x N order y d := by
    intro x N order y
    let v : ℕ → EuclideanSpace ℝ (Fin N) := fun l => WithLp.toLp 2 fun i => (P ℝ l).eval (x i)
    let K : Submodule ℝ (EuclideanSpace ℝ (Fin N)) := Submodule.span ℝ (Set.range fun l : Fin order => v l)
    let Y : EuclideanSpace ℝ (Fin N) := WithLp.toLp 2 fun i => y i
    have hdev : ∀ c : ℕ → ℝ, dev x N order y c = ‖Y - ∑ l : Fin order, c l • v l‖ ^ 2 := by
      intro c
      rw [EuclideanSpace.real_norm_sq_eq, dev, Finset.sum_range]
      refine Finset.sum_congr rfl fun i _ => ?_
      rw [Finset.sum_range]
      simp only [Y, v, PiLp.sub_apply, WithLp.ofLp_sum, Finset.sum_apply, PiLp.smul_apply, smul_eq_mul, WithLp.ofLp_smul, Pi.smul_apply]
      ring
    obtain ⟨p, hp, hmin⟩ := Submodule.exists_norm_eq_iInf_of_complete_subspace K (Submodule.complete_of_finiteDimensional K) Y
    obtain ⟨c, hc⟩ := (Submodule.mem_span_range_iff_exists_fun ℝ).1 hp
    refine ⟨fun l => if hl : l < order then c ⟨l, hl⟩ else 0, fun d => ?_⟩
    rw [hdev, hdev]
    have h1 : ∑ l : Fin order, (if hl : (l : ℕ) < order then c ⟨l, hl⟩ else 0) • v l = p := by
      rw [← hc]
      exact Finset.sum_congr rfl fun l _ => by rw [dif_pos l.2]
    rw [h1]
    refine pow_le_pow_left₀ (norm_nonneg _) ?_ 2
    rw [hmin]
    have hd : ∑ l : Fin order, d l • v l ∈ K := Submodule.sum_mem _ fun l _ => Submodule.smul_mem _ _ (Submodule.subset_span ⟨l, rfl⟩)
    exact ciInf_le ⟨0, by rintro _ ⟨w, rfl⟩; exact norm_nonneg _⟩ (⟨_, hd⟩ : K)
  choose f hf using h
  exact ⟨f, hf⟩

/-- C138: the outcome. -/
theorem C138_outcome {o : Type} (legfit : LegFit) (beta : ℝ) (N order : ℕ) (g : ℕ → Matrix o o ℂ) :
    (∃ r, fitLegendre legfit beta N order g = some r) ↔ 0 < order ∧ 0 < N := by
  unfold fitLegendre
  by_cases h : order = 0 ∨ N = 0
  · rw [if_pos h]; simp only [reduceCtorEq, exists_false, false_iff]; omega
  · rw [if_neg h]
    exact ⟨fun _ => by omega, fun _ => ⟨_, rfl⟩⟩

/-! ### Examples -/

/-- the function 3 + 2 (2 tau/beta - 1), which has two coefficients, from four times -/
example (legfit : LegFit) (hls : LeastSquares legfit) : ∃ r : ℕ → Matrix (Fin 1) (Fin 1) ℂ,
    fitLegendre legfit 10 4 2 (fun i a b => evaluate 10 2 (fun l => if l = 0 then 3 else 2) (tauPoint 10 4 i)) = some r ∧
      r 0 0 0 = 3 ∧ r 1 0 0 = 2 := by
  obtain ⟨r, h1, h2⟩ := C138_exact legfit hls 10 (by norm_num) 4 2 (by norm_num) (by norm_num)
    (fun l (_ _ : Fin 1) => if l = 0 then (3 : ℂ) else 2) (by
      intro l _
      ext a b
      show star (if l = 0 then (3 : ℂ) else 2) = _
      split <;> simp)
  refine ⟨r, h1, ?_, ?_⟩
  · rw [h2 0 (by norm_num)]; simp
  · rw [h2 1 (by norm_num)]; simp

/-- there are three points for three coefficients: the times are 0, beta/2, beta -/
example : tauPoint 10 3 0 = 0 ∧ tauPoint 10 3 1 = 5 ∧ tauPoint 10 3 2 = 10 := by
  refine ⟨?_, ?_, ?_⟩ <;> norm_num [tauPoint]

end Verif.FitLegendre
