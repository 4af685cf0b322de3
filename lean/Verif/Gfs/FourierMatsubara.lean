import Verif.Gfs.Dft
import Verif.Mesh.Matsubara
import Mathlib.Analysis.SpecialFunctions.Integrals.Basic
import Mathlib.Analysis.Normed.Group.Bounded
import Mathlib.Topology.Algebra.Field
import Mathlib.Analysis.Complex.Basic

/-!
# Properties C53, C54, C75: Matsubara Fourier transforms and densities

Source: `/repo/c++/triqs/gfs/transform/fourier_matsubara.cpp`, `/repo/c++/triqs/gfs/functions/density.cpp`.

Simplifications: exact real and complex numbers; one component of the target; the FFT is the sum
it computes (`Dft.lean`); the known moments are given up to order 3 with vanishing zeroth moment
(the fits `fit_tail` are not modelled). Elements of an array that the code never assigns are
arbitrary (`junk`).
-/

namespace Verif.Fourier
open Complex
open Verif.Matsubara (Stat Mesh Freq)

/-! ## Model -/

/-- `oneFermion`, fourier_matsubara.cpp:28-30. -/
noncomputable def oneFermion (a : ℂ) (b tau beta : ℝ) : ℂ :=
  -a * ((if b ≥ 0 then Real.exp (-b * tau) / (1 + Real.exp (-beta * b))
    else Real.exp (b * (beta - tau)) / (1 + Real.exp (beta * b)) : ℝ) : ℂ)

/-- `oneBoson`, fourier_matsubara.cpp:32-34. -/
noncomputable def oneBoson (a : ℂ) (b tau beta : ℝ) : ℂ :=
  a * ((if b ≥ 0 then Real.exp (-b * tau) / (Real.exp (-beta * b) - 1)
    else Real.exp (b * (beta - tau)) / (1 - Real.exp (b * beta)) : ℝ) : ℂ)

/-- poles and amplitudes of the tail model -/
structure Poles where
  b1 : ℝ
  b2 : ℝ
  b3 : ℝ
  a1 : ℂ
  a2 : ℂ
  a3 : ℂ

/-- fourier_matsubara.cpp:144-170 (direct) and 239-253 (inverse). -/
noncomputable def poles (st : Stat) (m1 m2 m3 : ℂ) : Poles :=
  if st = .fermion then ⟨0, 1, -1, m1 - m3, (m2 + m3) / 2, (m3 - m2) / 2⟩
  else ⟨-(1 / 2), -1, 1, 4 * (m1 - m3) / 3, m3 - (m1 + m2) / 2, m1 / 6 + m2 / 2 + m3 / 3⟩

/-- density.cpp:60-107. -/
noncomputable def polesDensity (st : Stat) (m1 m2 m3 : ℂ) : Poles :=
  if st = .fermion then ⟨0, 1, -1, m1 - m3, (m2 + m3) / 2, (m3 - m2) / 2⟩
  else ⟨-1, 1, 1 / 2, m1 / 6 - m2 / 2 + m3 / 3, -m1 / 2 + m2 / 2 + m3, 4 * m1 / 3 - 4 * m3 / 3⟩

/-- the model in frequency: `a1 / (iw - b1) + a2 / (iw - b2) + a3 / (iw - b3)` -/
noncomputable def Poles.freq (p : Poles) (z : ℂ) : ℂ := p.a1 / (z - p.b1) + p.a2 / (z - p.b2) + p.a3 / (z - p.b3)

/-- the model in time: sum of three `oneFermion` or `oneBoson` -/
noncomputable def Poles.time (p : Poles) (st : Stat) (tau beta : ℝ) : ℂ :=
  if st = .fermion then oneFermion p.a1 p.b1 tau beta + oneFermion p.a2 p.b2 tau beta + oneFermion p.a3 p.b3 tau beta
  else oneBoson p.a1 p.b1 tau beta + oneBoson p.a2 p.b2 tau beta + oneBoson p.a3 p.b3 tau beta

/-- `iw` of the mesh -/
noncomputable def iw (m : Mesh) (n : ℤ) : ℂ := Freq.value ⟨n, m.beta, m.stat⟩

/-- mesh point `t` of the imaginary-time mesh of `L + 1` points -/
noncomputable def tauPt (beta : ℝ) (L j : ℕ) : ℝ := j * (beta / L)

/-- `exp(iomega * t)` for fermions, nothing for bosons -/
noncomputable def shift (st : Stat) (beta t : ℝ) : ℂ := if st = .fermion then exp (Real.pi * I / beta * t) else 1
noncomputable def shiftInv (st : Stat) (beta t : ℝ) : ℂ := if st = .fermion then exp (-(Real.pi * I / beta) * t) else 1

/-- the row `(iw.n + L) % L` -/
def row (L : ℕ) (n : ℤ) : ℕ := (Int.tmod (n + L) L).toNat

/-- direct transform with moments, fourier_matsubara.cpp:118-190: `none` is the exception
"time mesh must be at least twice as long". -/
noncomputable def direct (m : Mesh) (L : ℕ) (m1 m2 m3 : ℂ) (gt : ℕ → ℂ) : Option (ℤ → ℂ) :=
  if (L : ℤ) < 2 * (m.last + 1) then none
  else
    let p := poles m.stat m1 m2 m3
    let fact : ℂ := ((m.beta / L : ℝ) : ℂ)
    let gin : ℕ → ℂ := fun j => fact * shift m.stat m.beta (tauPt m.beta L j) *
      (gt j - p.time m.stat (tauPt m.beta L j) m.beta)
    let gout := dft 1 L gin
    let corr := -(1 / 2) * fact * (gt 0 + m1 + (if m.stat = .fermion then 1 else -1) * gt L)
    some (fun n => gout (row L n) + corr + p.freq (iw m n))

/-- the loop filling `_gin` of the inverse transform, fourier_matsubara.cpp:256 -/
noncomputable def fillGin (L : ℕ) (v : ℤ → ℂ) : List ℤ → (ℕ → ℂ) → ℕ → ℂ
  | [], g => g
  | n :: ns, g => fillGin L v ns (Function.update g (row L n) (v n))

/-- inverse transform with moments, fourier_matsubara.cpp:217-276. -/
noncomputable def inverse (m : Mesh) (L : ℕ) (m1 m2 m3 : ℂ) (junk : ℕ → ℂ) (gw : ℤ → ℂ) : Option (ℕ → ℂ) :=
  if (L : ℤ) < 2 * (m.last + 1) then none
  else
    let p := poles m.stat m1 m2 m3
    let fact : ℂ := ((1 / m.beta : ℝ) : ℂ)
    let gin := fillGin L (fun n => fact * (gw n - p.freq (iw m n))) m.indices junk
    let gout := dft (-1) L gin
    let gt : ℕ → ℂ := fun j => gout j * shiftInv m.stat m.beta (tauPt m.beta L j) +
      p.time m.stat (tauPt m.beta L j) m.beta
    let pm : ℂ := if m.stat = .fermion then -1 else 1
    some (Function.update gt L (pm * (gt 0 + m1)))

/-- `density` of a Matsubara function with moments, one matrix element of the upper triangle,
density.cpp:60-116. -/
noncomputable def density (m : Mesh) (m1 m2 m3 : ℂ) (gw : ℤ → ℂ) : ℂ :=
  let p := polesDensity m.stat m1 m2 m3
  let xi : ℝ := if m.stat = .fermion then -1 else 1
  let F : ℂ → ℝ → ℂ := fun a b => xi * a / ((-xi + Real.exp (-m.beta * b) : ℝ) : ℂ)
  let r := (m.indices.map (fun n => gw n - p.freq (iw m n))).sum
  let res := r / m.beta + m1 + F p.a1 p.b1 + F p.a2 p.b2 + F p.a3 p.b3
  res * -xi

/-! ## Specification -/

/-- integral transform of a function of imaginary time -/
noncomputable def transform (beta : ℝ) (z : ℂ) (f : ℝ → ℂ) : ℂ := ∫ t in (0 : ℝ)..beta, exp (z * t) * f t

/-- trapezoidal rule for the integral transform on the `L + 1` mesh points -/
noncomputable def trapezoid (beta : ℝ) (L : ℕ) (z : ℂ) (f : ℕ → ℂ) : ℂ :=
  (beta / L : ℝ) * (f 0 / 2 + ∑ j ∈ Finset.Ico 1 L, exp (z * tauPt beta L j) * f j + exp (z * tauPt beta L L) * f L / 2)

/-! ## Proofs -/

/-! ### C54 -/

/-- **C54.** Both tail models have the three prescribed moments (Vandermonde equations). -/
theorem C54_moments (st : Stat) (m1 m2 m3 : ℂ) : ∀ p ∈ [poles st m1 m2 m3, polesDensity st m1 m2 m3],
    p.a1 + p.a2 + p.a3 = m1 ∧ p.a1 * p.b1 + p.a2 * p.b2 + p.a3 * p.b3 = m2 ∧
    p.a1 * p.b1 ^ 2 + p.a2 * p.b2 ^ 2 + p.a3 * p.b3 ^ 2 = m3 := by
  intro p hp
  simp only [List.mem_cons, List.not_mem_nil, or_false] at hp
  rcases hp with rfl | rfl <;> cases st <;> simp only [poles, polesDensity, reduceCtorEq, if_true, if_false] <;>
    refine ⟨?_, ?_, ?_⟩ <;> push_cast <;> ring

/-- exact expansion of a three-pole function -/
theorem freq_expand (p : Poles) {z : ℂ} (hz : z ≠ 0) (h1 : z ≠ p.b1) (h2 : z ≠ p.b2) (h3 : z ≠ p.b3) :
    p.freq z = (p.a1 + p.a2 + p.a3) / z + (p.a1 * p.b1 + p.a2 * p.b2 + p.a3 * p.b3) / z ^ 2
      + (p.a1 * p.b1 ^ 2 + p.a2 * p.b2 ^ 2 + p.a3 * p.b3 ^ 2) / z ^ 3
      + (p.a1 * p.b1 ^ 3 / (z - p.b1) + p.a2 * p.b2 ^ 3 / (z - p.b2) + p.a3 * p.b3 ^ 3 / (z - p.b3)) / z ^ 3 := by
  have e : ∀ (a : ℂ) (b : ℂ), z ≠ b → a / (z - b) = a / z + a * b / z ^ 2 + a * b ^ 2 / z ^ 3 + a * b ^ 3 / (z - b) / z ^ 3 := by
    intro a b hb
    have : z - b ≠ 0 := sub_ne_zero.mpr hb
    field_simp
    ring
  unfold Poles.freq
  rw [e p.a1 p.b1 h1, e p.a2 p.b2 h2, e p.a3 p.b3 h3]
  ring

open Filter Topology Bornology in
/-- **C54.** The tail model agrees with `m1/z + m2/z² + m3/z³` up to `o(1/z³)` for large `z`. -/
theorem C54_tail (st : Stat) (m1 m2 m3 : ℂ) : ∀ p ∈ [poles st m1 m2 m3, polesDensity st m1 m2 m3],
    Tendsto (fun z : ℂ => z ^ 3 * (p.freq z - (m1 / z + m2 / z ^ 2 + m3 / z ^ 3))) (cobounded ℂ) (𝓝 0) := by
  intro p hp
  obtain ⟨e1, e2, e3⟩ := C54_moments st m1 m2 m3 p hp
  have hlim : ∀ (a b : ℂ), Tendsto (fun z : ℂ => a / (z - b)) (cobounded ℂ) (𝓝 0) := by
    intro a b
    have h1 : Tendsto (fun z : ℂ => z - b) (cobounded ℂ) (cobounded ℂ) := tendsto_sub_const_cobounded b
    have h2 : Tendsto (fun z : ℂ => (z - b)⁻¹) (cobounded ℂ) (𝓝 0) := tendsto_inv₀_cobounded.comp h1
    have h3 := h2.const_mul a
    rw [mul_zero] at h3
    exact h3.congr (fun z => (div_eq_mul_inv a (z - b)).symm)
  have h := ((hlim (p.a1 * p.b1 ^ 3) p.b1).add (hlim (p.a2 * p.b2 ^ 3) p.b2)).add (hlim (p.a3 * p.b3 ^ 3) p.b3)
  rw [add_zero, add_zero] at h
  refine h.congr' ?_
  have ne : ∀ b : ℂ, ∀ᶠ z in cobounded ℂ, z ≠ b := eventually_ne_cobounded
  filter_upwards [ne 0, ne p.b1, ne p.b2, ne p.b3] with z hz h1 h2 h3
  rw [freq_expand p hz h1 h2 h3, e1, e2, e3]
  field_simp
  ring

/-- jump of the model in time: `-(G(0) + G(β)) = m1` for fermions, `-(G(0) - G(β)) = m1` for bosons -/
theorem C54_jump (st : Stat) (m1 m2 m3 : ℂ) {beta : ℝ} (hb : 0 < beta) :
    let p := poles st m1 m2 m3;
    -(p.time st 0 beta + (if st = .fermion then 1 else -1) * p.time st beta beta) = m1 := by
  intro p
  have hm := (C54_moments st m1 m2 m3 p (by simp [p])).1
  have hf : ∀ (a : ℂ) (b : ℝ), oneFermion a b 0 beta + oneFermion a b beta beta = -a := by
    intro a b
    unfold oneFermion
    by_cases h : b ≥ 0
    · rw [if_pos h, if_pos h]
      have hne : (1 + Real.exp (-beta * b) : ℝ) ≠ 0 := by positivity
      rw [← mul_add, ← ofReal_add]
      have : Real.exp (-b * 0) / (1 + Real.exp (-beta * b)) + Real.exp (-b * beta) / (1 + Real.exp (-beta * b)) = 1 := by
        rw [show -b * beta = -beta * b by ring]
        field_simp
        simp
      rw [this]; simp
    · rw [if_neg h, if_neg h]
      have hne : (1 + Real.exp (beta * b) : ℝ) ≠ 0 := by positivity
      rw [← mul_add, ← ofReal_add]
      have : Real.exp (b * (beta - 0)) / (1 + Real.exp (beta * b)) + Real.exp (b * (beta - beta)) / (1 + Real.exp (beta * b)) = 1 := by
        rw [show b * (beta - 0) = beta * b by ring, show b * (beta - beta) = 0 by ring]
        field_simp
        simp [add_comm]
      rw [this]; simp
  have hbo : ∀ (a : ℂ) (b : ℝ), b ≠ 0 → oneBoson a b 0 beta - oneBoson a b beta beta = -a := by
    intro a b hb0
    unfold oneBoson
    by_cases h : b ≥ 0
    · rw [if_pos h, if_pos h]
      have hbp : 0 < b := lt_of_le_of_ne h (Ne.symm hb0)
      have hne : (Real.exp (-beta * b) - 1 : ℝ) ≠ 0 := by
        have : Real.exp (-beta * b) < 1 := Real.exp_lt_one_iff.mpr (by nlinarith)
        linarith
      rw [← mul_sub, ← ofReal_sub]
      have : Real.exp (-b * 0) / (Real.exp (-beta * b) - 1) - Real.exp (-b * beta) / (Real.exp (-beta * b) - 1) = -1 := by
        rw [show -b * beta = -beta * b by ring, ← sub_div, div_eq_iff hne]
        simp
      rw [this]; simp
    · rw [if_neg h, if_neg h]
      have hbn : b < 0 := lt_of_not_ge h
      have hne : (1 - Real.exp (b * beta) : ℝ) ≠ 0 := by
        have : Real.exp (b * beta) < 1 := Real.exp_lt_one_iff.mpr (by nlinarith)
        linarith
      rw [← mul_sub, ← ofReal_sub]
      have : Real.exp (b * (beta - 0)) / (1 - Real.exp (b * beta)) - Real.exp (b * (beta - beta)) / (1 - Real.exp (b * beta)) = -1 := by
        rw [show b * (beta - 0) = b * beta by ring, show b * (beta - beta) = 0 by ring]
        field_simp
        simp
      rw [this]; simp
  rw [← hm]
  cases st with
  | fermion =>
    simp only [Poles.time, if_true]
    linear_combination -hf p.a1 p.b1 - hf p.a2 p.b2 - hf p.a3 p.b3
  | boson =>
    have hb1 : p.b1 ≠ 0 := by simp [p, poles]
    have hb2 : p.b2 ≠ 0 := by simp [p, poles]
    have hb3 : p.b3 ≠ 0 := by simp [p, poles]
    simp only [Poles.time, reduceCtorEq, if_false]
    linear_combination -hbo p.a1 p.b1 hb1 - hbo p.a2 p.b2 hb2 - hbo p.a3 p.b3 hb3

/-! ### exponentials of the mesh frequencies -/

theorem iw_eq (m : Mesh) (n : ℤ) : iw m n = Real.pi * I * (2 * n + m.stat.toInt) / m.beta := by
  unfold iw Freq.value
  apply Complex.ext
  · simp [div_eq_mul_inv, ← ofReal_inv]
  · have : (Real.pi * I * (2 * n + m.stat.toInt) / m.beta : ℂ) = ((Real.pi * (2 * n + m.stat.toInt) / m.beta : ℝ) : ℂ) * I := by
      push_cast; ring
    rw [this]
    simp

theorem iw_re (m : Mesh) (n : ℤ) : (iw m n).re = 0 := rfl

/-- `exp(iω β) = -1` for fermions, `1` for bosons -/
theorem exp_iw_beta (m : Mesh) (hb : m.beta ≠ 0) (n : ℤ) :
    exp (iw m n * m.beta) = if m.stat = .fermion then -1 else 1 := by
  have hbc : (m.beta : ℂ) ≠ 0 := by exact_mod_cast hb
  have h2 : exp (n * (2 * Real.pi * I)) = 1 := exp_int_mul_two_pi_mul_I n
  have e : iw m n * m.beta = n * (2 * Real.pi * I) + Real.pi * I * m.stat.toInt := by
    rw [iw_eq]; field_simp
  rw [e, exp_add, h2, one_mul]
  cases m.stat
  · simp [Stat.toInt]
  · simp [Stat.toInt, exp_pi_mul_I]

theorem shift_mul_shiftInv (st : Stat) (beta t : ℝ) : shift st beta t * shiftInv st beta t = 1 := by
  unfold shift shiftInv
  split
  · rw [← exp_add]; simp
  · simp

/-- the exponential of the trapezoidal rule is the shift times the phase of the FFT -/
theorem exp_iw_tau (m : Mesh) (hb : m.beta ≠ 0) {L : ℕ} (hL : L ≠ 0) (n : ℤ) (j : ℕ) :
    exp (iw m n * tauPt m.beta L j) = shift m.stat m.beta (tauPt m.beta L j) * phase L (j * n) := by
  have hbc : (m.beta : ℂ) ≠ 0 := by exact_mod_cast hb
  have hLc : (L : ℂ) ≠ 0 := by exact_mod_cast hL
  rw [phase_eq_exp, iw_eq]
  unfold shift tauPt
  cases m.stat
  · simp only [Stat.toInt, reduceCtorEq, if_false, one_mul]
    congr 1
    push_cast
    field_simp
    ring
  · simp only [Stat.toInt, if_true]
    rw [← exp_add]
    congr 1
    push_cast
    field_simp
    ring

/-! ### rows of the FFT arrays -/

theorem row_spec {L : ℕ} {n : ℤ} (h1 : -(L : ℤ) ≤ n) (h2 : n < L) (hL : 0 < L) :
    row L n < L ∧ ∃ c : ℤ, (row L n : ℤ) = n + L * c := by
  unfold row
  have hnn : 0 ≤ n + (L : ℤ) := by omega
  rw [Int.tmod_eq_emod_of_nonneg hnn]
  have h3 := Int.emod_nonneg (n + (L : ℤ)) (b := (L : ℤ)) (by omega)
  have h4 := Int.emod_lt_of_pos (n + (L : ℤ)) (b := (L : ℤ)) (by omega)
  refine ⟨by omega, 1 - (n + L) / L, ?_⟩
  rw [Int.toNat_of_nonneg h3]
  have := Int.mul_ediv_add_emod (n + (L : ℤ)) (L : ℤ)
  linear_combination this

theorem row_inj {L : ℕ} {n n' : ℤ} (h1 : -(L : ℤ) ≤ 2 * n) (h2 : 2 * n < L) (h1' : -(L : ℤ) ≤ 2 * n') (h2' : 2 * n' < L)
    (h : row L n = row L n') : n = n' := by
  have hL : 0 < L := by omega
  obtain ⟨_, c, hc⟩ := row_spec (L := L) (n := n) (by omega) (by omega) hL
  obtain ⟨_, c', hc'⟩ := row_spec (L := L) (n := n') (by omega) (by omega) hL
  rw [h, hc'] at hc
  have hd : n - n' = L * (c' - c) := by linear_combination -hc
  have hz : c' - c = 0 := by
    by_contra hne
    rcases lt_or_gt_of_ne hne with hlt | hgt
    · have : (L : ℤ) * (c' - c) ≤ L * (-1) := Int.mul_le_mul_of_nonneg_left (by omega) (by omega)
      omega
    · have : (L : ℤ) * 1 ≤ L * (c' - c) := Int.mul_le_mul_of_nonneg_left (by omega) (by omega)
      omega
  rw [hz, mul_zero] at hd
  omega

theorem fillGin_other (L : ℕ) (v : ℤ → ℂ) (ns : List ℤ) (g : ℕ → ℂ) (k : ℕ) (h : ∀ n ∈ ns, row L n ≠ k) :
    fillGin L v ns g k = g k := by
  induction ns generalizing g with
  | nil => rfl
  | cons n ns ih =>
    rw [fillGin, ih _ (fun x hx => h x (by simp [hx])), Function.update_of_ne (Ne.symm (h n (by simp)))]

theorem fillGin_mem (L : ℕ) (v : ℤ → ℂ) (ns : List ℤ) (g : ℕ → ℂ) {n : ℤ} (hn : n ∈ ns)
    (h : ∀ n' ∈ ns, row L n' = row L n → n' = n) : fillGin L v ns g (row L n) = v n := by
  induction ns generalizing g with
  | nil => simp at hn
  | cons x ns ih =>
    rw [fillGin]
    by_cases hm : n ∈ ns
    · exact ih _ hm (fun y hy => h y (by simp [hy]))
    · have hx : x = n := by
        rcases List.mem_cons.mp hn with h' | h'
        · exact h'.symm
        · exact absurd h' hm
      subst hx
      rw [fillGin_other, Function.update_self]
      intro y hy hc
      exact hm (h y (by simp [hy]) hc ▸ hy)

theorem mem_indices {m : Mesh} {n : ℤ} (h : n ∈ m.indices) : m.first ≤ n ∧ n ≤ m.last := by
  unfold Mesh.indices Mesh.toIndex Mesh.size at h
  rw [List.mem_map] at h
  obtain ⟨d, hd, rfl⟩ := h
  rw [List.mem_range] at hd
  omega

theorem index_bounds {beta : ℝ} {st : Stat} {nIw : ℤ} {L : ℕ}
    (hL : 2 * ((Mesh.mk' beta st nIw false).last + 1) ≤ L) {n : ℤ} (hn : n ∈ (Mesh.mk' beta st nIw false).indices) :
    -(L : ℤ) ≤ 2 * n ∧ 2 * n < L := by
  have h := mem_indices hn
  simp only [Mesh.mk', Bool.false_eq_true, if_false] at h hL
  cases st <;> simp at h <;> constructor <;> omega

/-! ### C53 -/

/-- **C53.** `iω → τ → iω` with the same moments gives back every value on the mesh; both
transforms accept exactly the time meshes with `L ≥ 2 (last index + 1)`. The elements of the work
array that are never assigned do not matter. -/
theorem C53_round_trip {beta : ℝ} (hb : 0 < beta) (st : Stat) (nIw : ℤ) (L : ℕ) (m1 m2 m3 : ℂ)
    (junk : ℕ → ℂ) (gw : ℤ → ℂ) :
    let m := Mesh.mk' beta st nIw false
    ((L : ℤ) < 2 * nIw ∧ inverse m L m1 m2 m3 junk gw = none ∧ ∀ gt, direct m L m1 m2 m3 gt = none) ∨
    (2 * nIw ≤ (L : ℤ) ∧ ∃ gt gw', inverse m L m1 m2 m3 junk gw = some gt ∧ direct m L m1 m2 m3 gt = some gw' ∧
      ∀ n ∈ m.indices, gw' n = gw n) := by
  intro m
  have hlast : m.last + 1 = nIw := by simp [m, Mesh.mk']
  by_cases hL : (L : ℤ) < 2 * (m.last + 1)
  · left
    refine ⟨by omega, ?_, ?_⟩
    · simp [inverse, hL]
    · intro gt; simp [direct, hL]
  right
  refine ⟨by omega, ?_⟩
  have hLn := hL
  unfold inverse direct
  simp only [if_neg hLn, Option.some.injEq, exists_and_left, exists_eq_left']
  intro n hn
  have hbd : ∀ x ∈ m.indices, -(L : ℤ) ≤ 2 * x ∧ 2 * x < L := fun x hx => index_bounds (not_lt.mp hLn) hx
  have hL0 : L ≠ 0 := by have := hbd n hn; omega
  obtain ⟨hrow, _⟩ := row_spec (L := L) (n := n) (by have := hbd n hn; omega) (by have := hbd n hn; omega) (by omega)
  generalize hp : poles m.stat m1 m2 m3 = p
  generalize hgin : fillGin L (fun n => ((1 / m.beta : ℝ) : ℂ) * (gw n - p.freq (iw m n))) m.indices junk = gin
  have hval : gin (row L n) = ((1 / m.beta : ℝ) : ℂ) * (gw n - p.freq (iw m n)) := by
    rw [← hgin]
    apply fillGin_mem _ _ _ _ hn
    intro n' hn' he
    have h1 := hbd n hn
    have h2 := hbd n' hn'
    exact row_inj h2.1 h2.2 h1.1 h1.2 he
  -- the FFT input of the direct transform
  rw [dft_congr 1 L (g := fun j => ((m.beta / L : ℝ) : ℂ) * dft (-1) L gin j)]
  · rw [dft_smul, dft_inverse 1 (Or.inl rfl) gin hrow, hval]
    rw [Function.update_of_ne (Ne.symm hL0), Function.update_self]
    have hbc : (m.beta : ℂ) ≠ 0 := by
      have : m.beta = beta := rfl
      rw [this]; exact_mod_cast hb.ne'
    have hLc : (L : ℂ) ≠ 0 := by exact_mod_cast hL0
    push_cast
    cases hst : m.stat
    · simp only [reduceCtorEq, if_false]
      field_simp
      ring
    · simp only [if_true]
      field_simp
      ring
  · intro j hj
    rw [Function.update_of_ne (by omega), add_sub_cancel_right]
    have := shift_mul_shiftInv m.stat m.beta (tauPt m.beta L j)
    linear_combination ((m.beta / L : ℝ) : ℂ) * dft (-1) L gin j * this

/-- **C53.** What the direct transform computes: the trapezoidal rule for the integral of
`exp(iω τ) (G(τ) - model(τ))`, plus the exact transform of the model. -/
theorem C53_trapezoid {beta : ℝ} (hb : 0 < beta) (st : Stat) (nIw : ℤ) (L : ℕ) (hL : 2 * nIw ≤ L) (m1 m2 m3 : ℂ)
    (gt : ℕ → ℂ) :
    let m := Mesh.mk' beta st nIw false
    let p := poles st m1 m2 m3
    ∃ gw, direct m L m1 m2 m3 gt = some gw ∧ ∀ n ∈ m.indices,
      gw n = trapezoid beta L (iw m n) (fun j => gt j - p.time st (tauPt beta L j) beta) + p.freq (iw m n) := by
  intro m p
  have hLn : ¬ (L : ℤ) < 2 * (m.last + 1) := by simp only [m, Mesh.mk']; omega
  have hmb : m.beta = beta := rfl
  have hms : m.stat = st := rfl
  unfold direct
  simp only [if_neg hLn, Option.some.injEq, exists_eq_left', hmb, hms]
  intro n hn
  have hbd := index_bounds (L := L) (not_lt.mp hLn) hn
  have hL0 : L ≠ 0 := by omega
  obtain ⟨hrow, c, hc⟩ := row_spec (L := L) (n := n) (by omega) (by omega) (by omega)
  have hbc : (beta : ℂ) ≠ 0 := by exact_mod_cast hb.ne'
  have hLc : (L : ℂ) ≠ 0 := by exact_mod_cast hL0
  change _ + _ + p.freq (iw m n) = _
  have hjump := C54_jump st m1 m2 m3 hb
  simp only at hjump
  change -(p.time st 0 beta + (if st = .fermion then 1 else -1) * p.time st beta beta) = m1 at hjump
  -- the FFT sum
  have hsum : dft 1 L (fun j => ((beta / L : ℝ) : ℂ) * shift st beta (tauPt beta L j) *
        (gt j - p.time st (tauPt beta L j) beta)) (row L n)
      = ((beta / L : ℝ) : ℂ) * ((gt 0 - p.time st (tauPt beta L 0) beta) +
        ∑ j ∈ Finset.Ico 1 L, exp (iw m n * tauPt beta L j) * (gt j - p.time st (tauPt beta L j) beta)) := by
    unfold dft
    have hterm : ∀ j ∈ Finset.range L, ((beta / L : ℝ) : ℂ) * shift st beta (tauPt beta L j) *
        (gt j - p.time st (tauPt beta L j) beta) * phase L (1 * (j * (row L n : ℕ)))
        = ((beta / L : ℝ) : ℂ) * (exp (iw m n * tauPt beta L j) * (gt j - p.time st (tauPt beta L j) beta)) := by
      intro j _
      have h1 := exp_iw_tau m hb.ne' hL0 n j
      rw [hmb, hms] at h1
      rw [h1, hc, show (1 : ℤ) * (j * (n + L * c)) = j * n + L * (j * c) by ring, phase_period hL0]
      ring
    rw [Finset.sum_congr rfl hterm, ← Finset.mul_sum, Finset.range_eq_Ico,
      Finset.sum_eq_sum_Ico_succ_bot (by omega : 0 < L)]
    congr 2
    simp [tauPt]
  change dft 1 L (fun j => ((beta / L : ℝ) : ℂ) * shift st beta (tauPt beta L j) *
        (gt j - p.time st (tauPt beta L j) beta)) (row L n) + _ + _ = _
  rw [hsum]
  unfold trapezoid
  have htL : tauPt beta L L = beta := by
    unfold tauPt
    have : (L : ℝ) ≠ 0 := by exact_mod_cast hL0
    field_simp
  have ht0 : tauPt beta L 0 = 0 := by simp [tauPt]
  have hexp := exp_iw_beta m hb.ne' n
  rw [hmb, hms] at hexp
  simp only [htL, ht0, hexp]
  cases st
  · simp only [reduceCtorEq, if_false] at hjump ⊢
    linear_combination ((1 / 2) * ((beta / L : ℝ) : ℂ)) * hjump
  · simp only [if_true] at hjump ⊢
    linear_combination ((1 / 2) * ((beta / L : ℝ) : ℂ)) * hjump

/-- the direct transform is exact on the tail model -/
theorem C53_exact_on_model {beta : ℝ} (hb : 0 < beta) (st : Stat) (nIw : ℤ) (L : ℕ) (hL : 2 * nIw ≤ L) (m1 m2 m3 : ℂ) :
    let m := Mesh.mk' beta st nIw false
    let p := poles st m1 m2 m3
    ∃ gw, direct m L m1 m2 m3 (fun j => p.time st (tauPt beta L j) beta) = some gw ∧
      ∀ n ∈ m.indices, gw n = p.freq (iw m n) := by
  intro m p
  obtain ⟨gw, h1, h2⟩ := C53_trapezoid hb st nIw L hL m1 m2 m3 (fun j => p.time st (tauPt beta L j) beta)
  refine ⟨gw, h1, ?_⟩
  intro n hn
  rw [h2 n hn]
  have : trapezoid beta L (iw m n) (fun j => p.time st (tauPt beta L j) beta - p.time st (tauPt beta L j) beta) = 0 := by
    simp [trapezoid]
  rw [this, zero_add]

/-! ### the model in time is the inverse transform of the model in frequency -/

theorem fermion_form (a : ℂ) (b t beta : ℝ) :
    oneFermion a b t beta = -a / (1 + exp (-beta * b)) * exp (-b * t) := by
  unfold oneFermion
  have h1 : (1 + Real.exp (-beta * b) : ℝ) ≠ 0 := by positivity
  have h2 : (1 + Real.exp (beta * b) : ℝ) ≠ 0 := by positivity
  have key : (if b ≥ 0 then Real.exp (-b * t) / (1 + Real.exp (-beta * b))
      else Real.exp (b * (beta - t)) / (1 + Real.exp (beta * b))) = Real.exp (-b * t) / (1 + Real.exp (-beta * b)) := by
    split
    · rfl
    · rw [div_eq_div_iff h2 h1, mul_add, mul_add, ← Real.exp_add, ← Real.exp_add, mul_one, mul_one, add_comm]
      congr 2 <;> ring
  rw [key]
  push_cast
  ring

theorem boson_form (a : ℂ) (b t : ℝ) {beta : ℝ} (hb : b ≠ 0) (hbeta : 0 < beta) :
    oneBoson a b t beta = a / (exp (-beta * b) - 1) * exp (-b * t) := by
  unfold oneBoson
  have h1 : (Real.exp (-beta * b) - 1 : ℝ) ≠ 0 := by
    intro h
    have : -beta * b = 0 := by rw [← Real.exp_eq_one_iff]; linarith
    rcases mul_eq_zero.mp this with h' | h'
    · linarith
    · exact hb h'
  have h2 : (1 - Real.exp (b * beta) : ℝ) ≠ 0 := by
    intro h
    have : b * beta = 0 := by rw [← Real.exp_eq_one_iff]; linarith
    rcases mul_eq_zero.mp this with h' | h'
    · exact hb h'
    · linarith
  have key : (if b ≥ 0 then Real.exp (-b * t) / (Real.exp (-beta * b) - 1)
      else Real.exp (b * (beta - t)) / (1 - Real.exp (b * beta))) = Real.exp (-b * t) / (Real.exp (-beta * b) - 1) := by
    split
    · rfl
    · rw [div_eq_div_iff h2 h1]
      have e1 : Real.exp (b * (beta - t)) * Real.exp (-beta * b) = Real.exp (-b * t) := by
        rw [← Real.exp_add]; congr 1; ring
      have e2 : Real.exp (-b * t) * Real.exp (b * beta) = Real.exp (b * (beta - t)) := by
        rw [← Real.exp_add]; congr 1; ring
      linear_combination e1 + e2
  rw [key]
  push_cast
  ring

theorem integral_pole {beta : ℝ} {z : ℂ} {b : ℝ} (hz : z ≠ b) (c : ℂ) :
    transform beta z (fun t => c * exp (-b * t)) = c * (exp (z * beta) * exp (-beta * b) - 1) / (z - b) := by
  unfold transform
  have hzb : z - b ≠ 0 := sub_ne_zero.mpr hz
  have : ∀ t : ℝ, exp (z * t) * (c * exp (-b * t)) = c * exp ((z - b) * t) := by
    intro t
    rw [mul_left_comm, ← exp_add]
    congr 2
    ring
  simp_rw [this]
  rw [intervalIntegral.integral_const_mul, integral_exp_mul_complex hzb, ← exp_add]
  rw [show (z - b) * (beta : ℂ) = z * beta + -beta * b by ring]
  simp [mul_div_assoc]

/-- **C54.** `oneFermion(a, b, τ, β)` is the inverse transform of `a / (iω - b)` at every fermionic
frequency, whatever the sign of `b`. -/
theorem C54_fermion_pole (m : Mesh) (hst : m.stat = .fermion) (hb : 0 < m.beta) (a : ℂ) (b : ℝ) (n : ℤ) :
    transform m.beta (iw m n) (fun t => oneFermion a b t m.beta) = a / (iw m n - b) := by
  have hne : iw m n ≠ b := by
    intro h
    have him := congrArg Complex.im h
    rw [iw_eq, hst] at him
    have e : (Real.pi * I * (2 * n + ((Stat.fermion).toInt : ℤ)) / m.beta : ℂ) = ((Real.pi * (2 * n + 1) / m.beta : ℝ) : ℂ) * I := by
      simp only [Stat.toInt]
      push_cast; ring
    rw [e] at him
    simp only [mul_im, ofReal_re, I_im, mul_one, ofReal_im, I_re, mul_zero, add_zero] at him
    have : (2 * (n : ℝ) + 1) = 0 := by
      have hp := Real.pi_pos
      rcases div_eq_zero_iff.mp him with h' | h'
      · rcases mul_eq_zero.mp h' with h'' | h''
        · linarith
        · exact h''
      · linarith
    have h2 : (2 * n + 1 : ℤ) = 0 := by exact_mod_cast this
    omega
  simp_rw [fermion_form]
  rw [integral_pole hne, exp_iw_beta m hb.ne', if_pos hst]
  have h1 : (1 + exp (-m.beta * b) : ℂ) ≠ 0 := by
    have : (1 + Real.exp (-m.beta * b) : ℝ) ≠ 0 := by positivity
    exact_mod_cast this
  have h2 : iw m n - b ≠ 0 := sub_ne_zero.mpr hne
  generalize exp (-m.beta * b) = E at h1 ⊢
  field_simp
  ring

/-- **C54.** `oneBoson(a, b, τ, β)` is the inverse transform of `a / (iω - b)` at every bosonic
frequency for `b ≠ 0`. -/
theorem C54_boson_pole (m : Mesh) (hst : m.stat = .boson) (hb : 0 < m.beta) (a : ℂ) {b : ℝ} (hb0 : b ≠ 0) (n : ℤ) :
    transform m.beta (iw m n) (fun t => oneBoson a b t m.beta) = a / (iw m n - b) := by
  have hne : iw m n ≠ b := by
    intro h
    have hre := congrArg Complex.re h
    rw [iw_re, ofReal_re] at hre
    exact hb0 hre.symm
  simp_rw [boson_form _ _ _ hb0 hb]
  rw [integral_pole hne, exp_iw_beta m hb.ne', if_neg (by simp [hst])]
  have h1 : (exp (-m.beta * b) - 1 : ℂ) ≠ 0 := by
    have h : (Real.exp (-m.beta * b) - 1 : ℝ) ≠ 0 := by
      intro h
      have : -m.beta * b = 0 := by rw [← Real.exp_eq_one_iff]; linarith
      rcases mul_eq_zero.mp this with h' | h'
      · linarith
      · exact hb0 h'
    exact_mod_cast h
  have h2 : iw m n - b ≠ 0 := sub_ne_zero.mpr hne
  generalize exp (-m.beta * b) = E at h1 ⊢
  field_simp

/-- **C54.** The two halves of the tail model are transforms of each other. -/
theorem C54_model_transform (m : Mesh) (hb : 0 < m.beta) (m1 m2 m3 : ℂ) (n : ℤ) :
    let p := poles m.stat m1 m2 m3;
    transform m.beta (iw m n) (fun t => p.time m.stat t m.beta) = p.freq (iw m n) := by
  intro p
  have hint : ∀ f : ℝ → ℂ, Continuous f → IntervalIntegrable (fun t : ℝ => exp (iw m n * t) * f t) MeasureTheory.volume 0 m.beta := by
    intro f hf
    apply Continuous.intervalIntegrable
    fun_prop
  have hadd : ∀ f g : ℝ → ℂ, Continuous f → Continuous g →
      transform m.beta (iw m n) (fun t => f t + g t) = transform m.beta (iw m n) f + transform m.beta (iw m n) g := by
    intro f g hf hg
    unfold transform
    rw [← intervalIntegral.integral_add (hint f hf) (hint g hg)]
    simp_rw [mul_add]
  cases hst : m.stat
  · have hbs : p.b1 ≠ 0 ∧ p.b2 ≠ 0 ∧ p.b3 ≠ 0 := by
      simp only [p, poles, hst, reduceCtorEq, if_false]; norm_num
    have hc : ∀ (a : ℂ) (b : ℝ), b ≠ 0 → Continuous (fun t => oneBoson a b t m.beta) := by
      intro a b hb0
      simp_rw [boson_form _ _ _ hb0 hb]
      fun_prop
    simp only [Poles.time, reduceCtorEq, if_false]
    rw [hadd (fun t => oneBoson p.a1 p.b1 t m.beta + oneBoson p.a2 p.b2 t m.beta) _ ((hc _ _ hbs.1).add (hc _ _ hbs.2.1)) (hc _ _ hbs.2.2),
      hadd (fun t => oneBoson p.a1 p.b1 t m.beta) _ (hc _ _ hbs.1) (hc _ _ hbs.2.1),
      C54_boson_pole m hst hb _ hbs.1, C54_boson_pole m hst hb _ hbs.2.1, C54_boson_pole m hst hb _ hbs.2.2]
    rfl
  · have hc : ∀ (a : ℂ) (b : ℝ), Continuous (fun t => oneFermion a b t m.beta) := by
      intro a b
      simp_rw [fermion_form]
      fun_prop
    simp only [Poles.time, if_true]
    rw [hadd (fun t => oneFermion p.a1 p.b1 t m.beta + oneFermion p.a2 p.b2 t m.beta) _ ((hc _ _).add (hc _ _)) (hc _ _),
      hadd (fun t => oneFermion p.a1 p.b1 t m.beta) _ (hc _ _) (hc _ _),
      C54_fermion_pole m hst hb, C54_fermion_pole m hst hb, C54_fermion_pole m hst hb]
    rfl

/-! ### C75: density -/

theorem fillGin_sum (L : ℕ) (v : ℤ → ℂ) (ns : List ℤ) (g : ℕ → ℂ) (hr : ∀ n ∈ ns, row L n < L)
    (hinj : ∀ n ∈ ns, ∀ n' ∈ ns, row L n = row L n' → n = n') (hnd : ns.Nodup) (hg : ∀ n ∈ ns, g (row L n) = 0) :
    ∑ k ∈ Finset.range L, fillGin L v ns g k = ∑ k ∈ Finset.range L, g k + (ns.map v).sum := by
  induction ns generalizing g with
  | nil => simp [fillGin]
  | cons n ns ih =>
    rw [List.nodup_cons] at hnd
    rw [fillGin, ih]
    · rw [Finset.sum_update_of_mem (Finset.mem_range.mpr (hr n (by simp)))]
      have h0 := hg n (by simp)
      have hsplit := Finset.sum_sdiff (s₁ := {row L n}) (s₂ := Finset.range L) (f := g)
        (by simpa using hr n (by simp))
      rw [Finset.sum_singleton, h0, add_zero] at hsplit
      rw [hsplit, List.map_cons, List.sum_cons]
      ring
    · exact fun x hx => hr x (by simp [hx])
    · exact fun x hx y hy => hinj x (by simp [hx]) y (by simp [hy])
    · exact hnd.2
    · intro x hx
      rw [Function.update_of_ne]
      · exact hg x (by simp [hx])
      · intro hc
        exact hnd.1 (hinj x (by simp [hx]) n (by simp) hc ▸ hx)

theorem indices_nodup (m : Mesh) : m.indices.Nodup := by
  unfold Mesh.indices
  refine List.Nodup.map ?_ List.nodup_range
  intro a b h
  simpa [Mesh.toIndex] using h

/-- **C75.** For fermions the density computed directly from the Matsubara function is `-G(τ = β)`
of its inverse Fourier transform with the same moments (work array initialised to zero). -/
theorem C75_density_is_minus_G_beta {beta : ℝ} (nIw : ℤ) (L : ℕ) (hL0 : 0 < L) (hL : 2 * nIw ≤ L)
    (m1 m2 m3 : ℂ) (gw : ℤ → ℂ) :
    let m := Mesh.mk' beta .fermion nIw false
    ∃ gt, inverse m L m1 m2 m3 (fun _ => 0) gw = some gt ∧ density m m1 m2 m3 gw = -gt L ∧
      density m m1 m2 m3 gw = gt 0 + m1 := by
  intro m
  have hLn : ¬ (L : ℤ) < 2 * (m.last + 1) := by simp only [m, Mesh.mk']; omega
  have hbd : ∀ x ∈ m.indices, -(L : ℤ) ≤ 2 * x ∧ 2 * x < L := fun x hx => index_bounds (not_lt.mp hLn) hx
  have hms : m.stat = .fermion := rfl
  have hmb : m.beta = beta := rfl
  unfold inverse
  simp only [if_neg hLn, Option.some.injEq, exists_eq_left']
  rw [Function.update_self, Function.update_of_ne (by omega), hms]
  simp only [if_true]
  have key : density m m1 m2 m3 gw = dft (-1) L (fillGin L (fun n => ((1 / m.beta : ℝ) : ℂ) *
      (gw n - (poles .fermion m1 m2 m3).freq (iw m n))) m.indices (fun _ => 0)) 0 * shiftInv .fermion m.beta (tauPt m.beta L 0) +
      (poles .fermion m1 m2 m3).time .fermion (tauPt m.beta L 0) m.beta + m1 := by
    have hdft : ∀ f, dft (-1) L f 0 = ∑ k ∈ Finset.range L, f k := by
      intro f
      unfold dft
      apply Finset.sum_congr rfl
      intro k _
      rw [phase_eq_exp]
      simp
    rw [hdft, fillGin_sum]
    · have ht0 : tauPt m.beta L 0 = 0 := by simp [tauPt]
      rw [ht0]
      have hs : shiftInv .fermion m.beta 0 = 1 := by simp [shiftInv]
      rw [hs]
      unfold density
      rw [hms]
      have hp : polesDensity .fermion m1 m2 m3 = poles .fermion m1 m2 m3 := rfl
      rw [hp]
      simp only [Poles.time, if_true, fermion_form, Finset.sum_const_zero, zero_add, List.sum_map_mul_left]
      push_cast
      simp only [neg_neg, mul_zero, Complex.exp_zero]
      ring
    · intro n hn
      have := hbd n hn
      exact (row_spec (by omega) (by omega) hL0).1
    · intro n hn n' hn' h
      have h1 := hbd n hn
      have h2 := hbd n' hn'
      exact row_inj h1.1 h1.2 h2.1 h2.2 h
    · exact indices_nodup m
    · intros; rfl
  refine ⟨?_, key⟩
  rw [key]
  ring

/-! ### examples -/

/-- the mesh of two fermionic frequencies, indices -1 and 0 -/
example : (Mesh.mk' 10 .fermion 1 false).indices = [-1, 0] := by decide

/-- a time mesh of two intervals is enough for it; the rows are 1 and 0 -/
example : (row 2 (-1), row 2 0) = (1, 0) := by decide

/-- the round trip on that mesh with the tail of `1 / (iω - 2)` -/
example (junk : ℕ → ℂ) : ∃ gt gw', inverse (Mesh.mk' 10 .fermion 1 false) 2 1 2 4 junk (fun n => (n : ℂ) + I) = some gt ∧
    direct (Mesh.mk' 10 .fermion 1 false) 2 1 2 4 gt = some gw' ∧ gw' 0 = I ∧ gw' (-1) = -1 + I := by
  rcases C53_round_trip (beta := 10) (by norm_num) .fermion 1 2 1 2 4 junk (fun n => (n : ℂ) + I) with h | ⟨_, gt, gw', h1, h2, h3⟩
  · exact absurd h.1 (by norm_num)
  · refine ⟨gt, gw', h1, h2, ?_, ?_⟩
    · rw [h3 0 (by decide)]; simp
    · rw [h3 (-1) (by decide)]; simp

/-- a time mesh that is too short is refused -/
example : inverse (Mesh.mk' 10 .fermion 1 false) 1 1 2 4 (fun _ => 0) (fun _ => 0) = none := by
  simp [inverse, Mesh.mk']

/-- tail model of `m1 = 1, m2 = 2, m3 = 4` (a pole at 2) for fermions -/
example : poles .fermion 1 2 4 = ⟨0, 1, -1, -3, 3, 1⟩ := by
  simp only [poles, if_true]
  congr 1 <;> norm_num

/-- one fermionic level at energy zero: half filled -/
example : density (Mesh.mk' 10 .fermion 0 false) 1 0 0 (fun _ => 0) = 1 / 2 := by
  simp [density, polesDensity, Mesh.mk', Mesh.indices, Mesh.size]
  norm_num

end Verif.Fourier
