import Mathlib.RingTheory.RootsOfUnity.Complex
import Mathlib.Algebra.Field.GeomSum
import Mathlib.Algebra.BigOperators.Ring.Finset
import Mathlib.Tactic.FieldSimp
import Mathlib.Tactic.LinearCombination

/-!
# The discrete Fourier transform used by the library

Source: `/repo/c++/triqs/gfs/transform/fourier_common.cpp:27-46`. FFTW is trusted to compute the sums
of its documentation: `out_k = Σ_j in_j exp(sign · 2πi jk/L)`, `FFTW_FORWARD = -1`,
`FFTW_BACKWARD = +1`. Numbers are exact complex numbers; the components of a vector-valued
function (`n_others`) are transformed independently, so that one of them is modelled.
-/

namespace Verif.Fourier
open Complex

/-! ## Model -/

/-- `exp(sign 2πi m/L)` for an integer `m` (with its sign) -/
noncomputable def phase (L : ℕ) (m : ℤ) : ℂ := exp (2 * Real.pi * I / L) ^ m

/-- one-dimensional `_fourier_base`; `sign = 1`: `FFTW_BACKWARD`, `sign = -1`: `FFTW_FORWARD` -/
noncomputable def dft (sign : ℤ) (L : ℕ) (f : ℕ → ℂ) (k : ℕ) : ℂ :=
  ∑ j ∈ Finset.range L, f j * phase L (sign * (j * k))

/-! ## Proofs -/

theorem phase_eq_exp (L : ℕ) (m : ℤ) : phase L m = exp (2 * Real.pi * I * m / L) := by
  unfold phase
  rw [← exp_int_mul]
  congr 1
  ring

theorem phase_zero (L : ℕ) : phase L 0 = 1 := by simp [phase]

theorem phase_add (L : ℕ) (m n : ℤ) : phase L (m + n) = phase L m * phase L n := by
  unfold phase
  exact zpow_add₀ (exp_ne_zero _) m n

theorem phase_period {L : ℕ} (hL : L ≠ 0) (m n : ℤ) : phase L (m + L * n) = phase L m := by
  rw [phase_add]
  have h : phase L (L * n) = 1 := by
    unfold phase
    rw [zpow_mul, zpow_natCast, (isPrimitiveRoot_exp L hL).pow_eq_one, one_zpow]
  rw [h, mul_one]

/-- orthogonality of the phases -/
theorem phase_orthogonal {L : ℕ} (hL : L ≠ 0) (m : ℤ) :
    ∑ j ∈ Finset.range L, phase L (j * m) = if (L : ℤ) ∣ m then (L : ℂ) else 0 := by
  have hp := isPrimitiveRoot_exp L hL
  have hr : ∀ j : ℕ, phase L (j * m) = phase L m ^ j := by
    intro j
    unfold phase
    rw [mul_comm (j : ℤ) m, zpow_mul, zpow_natCast]
  simp only [hr]
  split
  · rename_i hd
    have : phase L m = 1 := by
      unfold phase
      exact (hp.zpow_eq_one_iff_dvd m).mpr hd
    simp [this]
  · rename_i hd
    have hne : phase L m ≠ 1 := by
      unfold phase
      exact fun h => hd ((hp.zpow_eq_one_iff_dvd m).mp h)
    rw [geom_sum_eq hne]
    have : phase L m ^ L = 1 := by
      unfold phase
      rw [← zpow_natCast, ← zpow_mul, mul_comm m (L : ℤ), zpow_mul, zpow_natCast, hp.pow_eq_one, one_zpow]
    rw [this, sub_self, zero_div]

theorem dvd_sub_iff {L a b : ℕ} (ha : a < L) (hb : b < L) : (L : ℤ) ∣ (a : ℤ) - b ↔ a = b := by
  constructor
  · rintro ⟨c, hc⟩
    have h1 : (a : ℤ) - b < L := by omega
    have h2 : -(L : ℤ) < (a : ℤ) - b := by omega
    have hL : (0 : ℤ) < L := by omega
    have hc0 : c = 0 := by
      by_contra hne
      rcases lt_or_gt_of_ne hne with h | h
      · have : (L : ℤ) * c ≤ L * (-1) := Int.mul_le_mul_of_nonneg_left (by omega) hL.le
        omega
      · have : (L : ℤ) * 1 ≤ L * c := Int.mul_le_mul_of_nonneg_left (by omega) hL.le
        omega
    rw [hc0, mul_zero] at hc
    omega
  · rintro rfl; simp

/-- the two directions are inverse up to the factor `L` -/
theorem dft_inverse {L : ℕ} (s : ℤ) (hs : s = 1 ∨ s = -1) (f : ℕ → ℂ) {k : ℕ} (hk : k < L) :
    dft s L (dft (-s) L f) k = L * f k := by
  have hL : L ≠ 0 := by omega
  unfold dft
  have h1 : ∀ j ∈ Finset.range L, (∑ i ∈ Finset.range L, f i * phase L (-s * (i * j))) * phase L (s * (j * k))
      = ∑ i ∈ Finset.range L, f i * phase L (j * (s * (k - i))) := by
    intro j _
    rw [Finset.sum_mul]
    refine Finset.sum_congr rfl ?_
    intro i _
    rw [mul_assoc, ← phase_add]
    congr 2
    ring
  rw [Finset.sum_congr rfl h1, Finset.sum_comm]
  have h2 : ∀ i ∈ Finset.range L, ∑ j ∈ Finset.range L, f i * phase L (j * (s * (k - i)))
      = if i = k then L * f k else 0 := by
    intro i hi
    rw [← Finset.mul_sum, phase_orthogonal hL]
    have hd : (L : ℤ) ∣ s * (k - i) ↔ i = k := by
      rw [← dvd_sub_iff (L := L) (Finset.mem_range.mp hi) hk]
      rcases hs with rfl | rfl
      · rw [one_mul, dvd_sub_comm]
      · have : (-1 : ℤ) * (k - i) = i - k := by ring
        rw [this]
    by_cases h : i = k
    · subst h; simp; ring
    · rw [if_neg (fun hc => h (hd.mp hc)), if_neg h, mul_zero]
  rw [Finset.sum_congr rfl h2]
  simp [Finset.sum_ite_eq', hk]

theorem dft_congr (s : ℤ) (L : ℕ) {f g : ℕ → ℂ} (h : ∀ j < L, f j = g j) (k : ℕ) : dft s L f k = dft s L g k := by
  unfold dft
  exact Finset.sum_congr rfl (fun j hj => by rw [h j (Finset.mem_range.mp hj)])

theorem dft_smul (s : ℤ) (L : ℕ) (c : ℂ) (f : ℕ → ℂ) (k : ℕ) : dft s L (fun j => c * f j) k = c * dft s L f k := by
  unfold dft
  rw [Finset.mul_sum]
  exact Finset.sum_congr rfl (fun j _ => by ring)

end Verif.Fourier
