import Verif.Gfs.Bath

/-!
# Property C144: Green functions in the discrete Lehmann representation

Sources: `/repo/c++/triqs/mesh/dlr.hpp`, `/repo/c++/triqs/mesh/dlr_imtime.hpp`, `/repo/c++/triqs/mesh/dlr_imfreq.hpp`,
`/repo/c++/triqs/gfs/functions/dlr.hpp`, `/repo/c++/triqs/gfs/functions/density.hpp` (50-59).

The library cppdlr is not in the repository. It enters through its documented contract: `kIt` and `kIf` are the kernels in
imaginary time (negative arguments stand for times counted from the right end) and in Matsubara frequency; `coefs2vals` is the
product with the square matrix of the kernel at the nodes, `vals2coefs` the product with its inverse, `fitvals2coefs` a
least-squares solution. Simplifications: exact numbers; a single mesh (no products of meshes, no blocks); square targets.
-/

namespace Verif.Dlr
open Matrix Verif.Bath

/-! ## Model -/

inductive Stat where
  | fermion
  | boson
deriving DecidableEq

/-- the kernel for times between zero and one -/
noncomputable def kAbs (t om : ℝ) : ℝ := -Real.exp (-t * om) / (1 + Real.exp (-om))

open Classical in
/-- contract of `cppdlr::k_it(t, om)` -/
noncomputable def kIt (t om : ℝ) : ℝ := if t < 0 then kAbs (1 + t) om else kAbs t om

open Classical in
/-- contract of `cppdlr::k_if(n, om, statistic)` -/
noncomputable def kIf : Stat → ℤ → ℝ → ℂ
  | .fermion, n, om => 1 / (Complex.I * Real.pi * (2 * n + 1) - om)
  | .boson, n, om => if n = 0 ∧ om = 0 then -1 / 2 else (Real.tanh (om / 2) : ℂ) / (Complex.I * Real.pi * (2 * n) - om)

/-- `dlr_ops`, dlr.hpp:30-34: the frequencies, the nodes in imaginary time and in frequency -/
structure Ops (r : ℕ) where
  freq : Fin r → ℝ
  itnodes : Fin r → ℝ
  ifnodes : Fin r → ℤ

inductive Kind where
  | coef
  | time
  | freq
deriving DecidableEq

/-- the members of the three meshes -/
structure Mesh (r : ℕ) (H : Type) where
  kind : Kind
  beta : ℝ
  stat : Stat
  wmax : ℝ
  eps : ℝ
  hash : H
  ops : Ops r

variable {r : ℕ} {H : Type} {o : Type}

/-- the arguments of `hash` -/
abbrev HashArgs := ℝ × Option Stat × ℝ × ℝ × ℝ

/-- dlr.hpp:83, dlr_imtime.hpp:77, dlr_imfreq.hpp:78: the statistic is left out for imaginary times -/
noncomputable def hashArgs (k : Kind) (beta : ℝ) (s : Stat) (wmax eps : ℝ) (ops : Ops r) : HashArgs :=
  match k with
  | .coef => (beta, some s, wmax, eps, ∑ l, ops.freq l)
  | .time => (beta, none, wmax, eps, ∑ l, ops.itnodes l)
  | .freq => (beta, some s, wmax, eps, ∑ l, (ops.ifnodes l : ℝ))

/-- the constructors dlr.hpp:78-84, dlr_imtime.hpp:72-78, dlr_imfreq.hpp:73-79 -/
noncomputable def build (hash : HashArgs → H) (k : Kind) (beta : ℝ) (s : Stat) (wmax eps : ℝ) (ops : Ops r) : Mesh r H :=
  ⟨k, beta, s, wmax, eps, hash (hashArgs k beta s wmax eps ops), ops⟩

/-- the conversions dlr.hpp:90-96, dlr_imtime.hpp:84-90, dlr_imfreq.hpp:85-91 -/
noncomputable def convert (hash : HashArgs → H) (k : Kind) (m : Mesh r H) : Mesh r H :=
  if k = m.kind then m else ⟨k, m.beta, m.stat, m.wmax, m.eps, hash (hashArgs k m.beta m.stat m.wmax m.eps m.ops), m.ops⟩

/-- `operator==` of two meshes of the same type: dlr.hpp:100, dlr_imtime.hpp:94, dlr_imfreq.hpp:95 -/
def Mesh.same (a b : Mesh r H) : Prop :=
  match a.kind with
  | .time => a.hash = b.hash ∧ a.stat = b.stat
  | _ => a.hash = b.hash

/-- `to_value` of dlr_imtime.hpp:186-191 -/
noncomputable def timeValue (m : Mesh r H) (i : Fin r) : ℝ :=
  let res := m.ops.itnodes i * m.beta
  open Classical in if res < 0 then m.beta + res else res

/-- a square matrix times the data -/
def mulData (A : Matrix (Fin r) (Fin r) ℂ) (v : Fin r → Matrix o o ℂ) : Fin r → Matrix o o ℂ := fun i => ∑ l, A i l • v l

/-- the matrix of `dlr_it()` -/
noncomputable def timeMatrix (ops : Ops r) : Matrix (Fin r) (Fin r) ℂ := fun i l => (kIt (ops.itnodes i) (ops.freq l) : ℂ)

/-- the matrix of `dlr_if()` -/
noncomputable def freqMatrix (ops : Ops r) (s : Stat) : Matrix (Fin r) (Fin r) ℂ := fun i l => kIf s (ops.ifnodes i) (ops.freq l)

/-- `make_gf_dlr` for imaginary times, functions/dlr.hpp:67-69 -/
noncomputable def dlrOfTime (m : Mesh r H) (g : Fin r → Matrix o o ℂ) : Fin r → Matrix o o ℂ := mulData (timeMatrix m.ops)⁻¹ g

/-- `make_gf_dlr` for Matsubara frequencies, lines 71-72 -/
noncomputable def dlrOfFreq (m : Mesh r H) (g : Fin r → Matrix o o ℂ) : Fin r → Matrix o o ℂ :=
  fun l => ((1 / m.beta : ℝ) : ℂ) • mulData (freqMatrix m.ops m.stat)⁻¹ g l

/-- `make_gf_dlr_imtime`, lines 110-111 -/
noncomputable def timeOfDlr (m : Mesh r H) (c : Fin r → Matrix o o ℂ) : Fin r → Matrix o o ℂ := mulData (timeMatrix m.ops) c

/-- `make_gf_dlr_imfreq`, lines 128-130 -/
noncomputable def freqOfDlr (m : Mesh r H) (c : Fin r → Matrix o o ℂ) : Fin r → Matrix o o ℂ :=
  fun i => (m.beta : ℂ) • mulData (freqMatrix m.ops m.stat) c i

/-- `evaluate` at a time, mesh/dlr.hpp:250-253 -/
noncomputable def evalTau (m : Mesh r H) (c : Fin r → Matrix o o ℂ) (tau : ℝ) : Matrix o o ℂ := ∑ l, (kIt (tau / m.beta) (m.ops.freq l) : ℂ) • c l

/-- `evaluate` at the frequency of number `n`, with the statistic of the frequency, mesh/dlr.hpp:255-259 -/
noncomputable def evalFreq (m : Mesh r H) (c : Fin r → Matrix o o ℂ) (s : Stat) (n : ℤ) : Matrix o o ℂ :=
  ∑ l, (kIf s n (m.ops.freq l) * m.beta) • c l

/-- `density`, density.hpp:50-59 -/
noncomputable def density (m : Mesh r H) (c : Fin r → Matrix o o ℂ) : Matrix o o ℂ := (-evalTau m c m.beta)ᵀ

/-- `make_gf_imtime`, lines 147-148; the points of the mesh: mesh/imtime.hpp -/
noncomputable def toImtime (m : Mesh r H) (c : Fin r → Matrix o o ℂ) (ntau k : ℕ) : Matrix o o ℂ := evalTau m c (m.beta * k / ((ntau : ℝ) - 1))

/-- `make_gf_imfreq`, lines 165-166 -/
noncomputable def toImfreq (m : Mesh r H) (c : Fin r → Matrix o o ℂ) (n : ℤ) : Matrix o o ℂ := evalFreq m c m.stat n

/-- the contract of `fitvals2coefs`, line 93, for one element of the target: the coefficients minimise the sum of the squares
of the residuals -/
def IsFit {N : ℕ} (ops : Ops r) (t : Fin N → ℝ) (v : Fin N → ℂ) (c : Fin r → ℂ) : Prop :=
  ∀ c' : Fin r → ℂ, ∑ i, ‖∑ l, (kIt (t i) (ops.freq l) : ℂ) * c l - v i‖ ^ 2 ≤ ∑ i, ‖∑ l, (kIt (t i) (ops.freq l) : ℂ) * c' l - v i‖ ^ 2

/-! ## Proofs -/

theorem mulData_mul (A B : Matrix (Fin r) (Fin r) ℂ) (v : Fin r → Matrix o o ℂ) : mulData A (mulData B v) = mulData (A * B) v := by
  funext i
  simp only [mulData, Finset.smul_sum, Matrix.mul_apply, Finset.sum_smul, smul_smul]
  rw [Finset.sum_comm]

theorem mulData_one (v : Fin r → Matrix o o ℂ) : mulData 1 v = v := by
  funext i
  simp [mulData, Matrix.one_apply, ite_smul]

theorem mulData_smul (A : Matrix (Fin r) (Fin r) ℂ) (x : ℂ) (v : Fin r → Matrix o o ℂ) : (mulData A fun l => x • v l) = fun i => x • mulData A v i := by
  funext i
  simp only [mulData, Finset.smul_sum]
  refine Finset.sum_congr rfl fun l _ => ?_
  rw [smul_comm]

/-- C144: if the matrix of the nodes in imaginary time is regular, the transformations to imaginary time and back are inverse
to each other. -/
theorem C144_time (m : Mesh r H) (h : IsUnit (timeMatrix m.ops).det) (g : Fin r → Matrix o o ℂ) :
    dlrOfTime m (timeOfDlr m g) = g ∧ timeOfDlr m (dlrOfTime m g) = g := by
  unfold dlrOfTime timeOfDlr
  rw [mulData_mul, mulData_mul, Matrix.nonsing_inv_mul _ h, Matrix.mul_nonsing_inv _ h, mulData_one]
  exact ⟨rfl, rfl⟩

/-- C144: the same for Matsubara frequencies. -/
theorem C144_freq (m : Mesh r H) (hb : m.beta ≠ 0) (h : IsUnit (freqMatrix m.ops m.stat).det) (g : Fin r → Matrix o o ℂ) :
    dlrOfFreq m (freqOfDlr m g) = g ∧ freqOfDlr m (dlrOfFreq m g) = g := by
  have hb' : (m.beta : ℂ) ≠ 0 := by exact_mod_cast hb
  have e1 : ((1 / m.beta : ℝ) : ℂ) * m.beta = 1 := by push_cast; field_simp
  unfold dlrOfFreq freqOfDlr
  simp only [mulData_smul, smul_smul, mulData_mul, Matrix.nonsing_inv_mul _ h, Matrix.mul_nonsing_inv _ h, mulData_one]
  rw [e1, mul_comm, e1]
  simp

/-- C144: the data at the nodes in imaginary time are the values of the function at the points of the mesh. -/
theorem C144_time_nodes (m : Mesh r H) (hb : 0 < m.beta) (hn : ∀ i, -1 ≤ m.ops.itnodes i) (c : Fin r → Matrix o o ℂ) (i : Fin r) :
    timeOfDlr m c i = evalTau m c (timeValue m i) := by
  unfold timeOfDlr mulData evalTau timeMatrix
  refine Finset.sum_congr rfl fun l _ => ?_
  congr 2
  unfold timeValue kIt
  simp only
  by_cases h : m.ops.itnodes i < 0
  · rw [if_pos h, if_pos (mul_neg_of_neg_of_pos h hb)]
    have : (m.beta + m.ops.itnodes i * m.beta) / m.beta = 1 + m.ops.itnodes i := by field_simp
    rw [this, if_neg (by linarith [hn i])]
  · rw [if_neg h, if_neg (not_lt.mpr (mul_nonneg (not_lt.mp h) hb.le))]
    rw [mul_div_cancel_right₀ _ hb.ne', if_neg h]

/-- C144: the data at the nodes in frequency are the values of the function at the points of the mesh. -/
theorem C144_freq_nodes (m : Mesh r H) (c : Fin r → Matrix o o ℂ) (i : Fin r) : freqOfDlr m c i = evalFreq m c m.stat (m.ops.ifnodes i) := by
  unfold freqOfDlr mulData evalFreq freqMatrix
  rw [Finset.smul_sum]
  refine Finset.sum_congr rfl fun l _ => ?_
  rw [smul_smul, mul_comm]

/-- the number of a statistic in the formula of the Matsubara frequencies -/
def Stat.num : Stat → ℕ
  | .fermion => 1
  | .boson => 0

theorem kAbs_fermionTau (beta tau om : ℝ) (hb : beta ≠ 0) : kAbs (tau / beta) om = fermionTau beta tau (om / beta) := by
  unfold kAbs fermionTau
  congr 2
  · congr 1
    field_simp
  · congr 2
    field_simp

theorem kernel_fourier (beta om : ℝ) (hb : 0 < beta) (s : Stat) (n : ℤ) :
    ∫ tau in (0 : ℝ)..beta, Complex.exp (matsubara beta s.num n * tau) * ((kIt (tau / beta) om : ℝ) : ℂ) = kIf s n om * beta := by
  have hb' : (beta : ℂ) ≠ 0 := by exact_mod_cast hb.ne'
  have hint : ∫ tau in (0 : ℝ)..beta, Complex.exp (matsubara beta s.num n * tau) * ((kIt (tau / beta) om : ℝ) : ℂ) =
      ∫ tau in (0 : ℝ)..beta, Complex.exp (matsubara beta s.num n * tau) * ((oneTau beta tau (om / beta) : ℝ) : ℂ) := by
    apply intervalIntegral.integral_congr
    intro tau ht
    rw [Set.uIcc_of_le hb.le] at ht
    simp only
    rw [C136_tau, ← kAbs_fermionTau beta tau om hb.ne', kIt, if_neg (not_lt.mpr (div_nonneg ht.1 hb.le))]
  rw [hint]
  cases s with
  | fermion =>
    rw [show Stat.fermion.num = 1 from rfl, C136_fourier beta _ hb n]
    unfold oneFreq kIf matsubara
    push_cast
    rw [show Complex.I * Real.pi * (2 * n + 1) / (beta : ℂ) - om / beta = (Complex.I * Real.pi * (2 * n + 1) - om) / beta by ring]
    rw [one_div, inv_div, one_div, div_eq_mul_inv, mul_comm]
  | boson =>
    rw [show Stat.boson.num = 0 from rfl]
    by_cases h : om = 0
    · subst h
      have hc : ∀ tau : ℝ, ((oneTau beta tau (0 / beta) : ℝ) : ℂ) = -1 / 2 := by
        intro tau
        rw [C136_tau, zero_div]
        unfold fermionTau
        simp
        norm_num
      simp only [hc]
      rw [intervalIntegral.integral_mul_const]
      simp only [kIf]
      by_cases hn : n = 0
      · subst hn
        simp [matsubara]
        ring
      · have hm : matsubara beta 0 n ≠ 0 := by
          unfold matsubara
          have : (n : ℂ) ≠ 0 := by exact_mod_cast hn
          have hpi : (Real.pi : ℂ) ≠ 0 := by exact_mod_cast Real.pi_ne_zero
          simp [hb', this, hpi, Complex.I_ne_zero]
        rw [integral_exp_mul_complex hm, exp_matsubara beta hb.ne' 0 (Or.inl rfl), if_neg (by norm_num), if_neg (by simp [hn])]
        simp
    · rw [C136_boson beta _ hb (div_ne_zero h hb.ne') n]
      unfold oneFreq matsubara
      simp only [kIf]
      rw [if_neg (by simp [h])]
      rw [show beta * (om / beta) / 2 = om / 2 by field_simp]
      push_cast
      rw [show Complex.I * Real.pi * (2 * n + 0) / (beta : ℂ) - om / beta = (Complex.I * Real.pi * (2 * n) - om) / beta by ring]
      rw [one_div, inv_div]
      ring

theorem kIt_continuousOn (beta om : ℝ) (hb : 0 < beta) : ContinuousOn (fun tau => kIt (tau / beta) om) (Set.uIcc 0 beta) := by
  have h : ContinuousOn (fun tau => kAbs (tau / beta) om) (Set.uIcc 0 beta) := by
    apply Continuous.continuousOn
    unfold kAbs
    fun_prop
  apply h.congr
  intro tau ht
  rw [Set.uIcc_of_le hb.le] at ht
  simp only [kIt, if_neg (not_lt.mpr (div_nonneg ht.1 hb.le))]

/-- C144: both evaluations describe the same function: the values at the Matsubara frequencies of either statistic are the
Fourier transform of the values at imaginary times. -/
theorem C144_fourier (m : Mesh r H) (hb : 0 < m.beta) (c : Fin r → Matrix o o ℂ) (s : Stat) (n : ℤ) (a b : o) :
    ∫ tau in (0 : ℝ)..m.beta, Complex.exp (matsubara m.beta s.num n * tau) * evalTau m c tau a b = evalFreq m c s n a b := by
  unfold evalTau evalFreq
  simp only [Matrix.sum_apply, Matrix.smul_apply, smul_eq_mul, Finset.mul_sum]
  rw [intervalIntegral.integral_finset_sum]
  · refine Finset.sum_congr rfl fun l _ => ?_
    rw [← kernel_fourier m.beta _ hb s n, ← intervalIntegral.integral_mul_const]
    congr 1
    funext tau
    ring
  · intro l _
    apply ContinuousOn.intervalIntegrable
    apply ContinuousOn.mul
    · apply Continuous.continuousOn
      fun_prop
    · apply ContinuousOn.mul
      · exact Complex.continuous_ofReal.comp_continuousOn (kIt_continuousOn m.beta _ hb)
      · exact continuousOn_const

/-- C144: so the transformation from Matsubara frequencies to imaginary times is the inverse Fourier transformation: the function
of imaginary time obtained from data at the frequency nodes has these data as its Fourier transform. -/
theorem C144_freq_to_time (m : Mesh r H) (hb : 0 < m.beta) (h : IsUnit (freqMatrix m.ops m.stat).det) (g : Fin r → Matrix o o ℂ) (i : Fin r) (a b : o) :
    ∫ tau in (0 : ℝ)..m.beta, Complex.exp (matsubara m.beta m.stat.num (m.ops.ifnodes i) * tau) * evalTau m (dlrOfFreq m g) tau a b = g i a b := by
  rw [C144_fourier m hb, ← C144_freq_nodes, (C144_freq m hb.ne' h g).2]

/-- C144: `make_gf_imfreq` is the Fourier transform, at the frequencies of the statistic of the mesh, of the function of imaginary
time; at the nodes it is the function of `make_gf_dlr_imfreq`. -/
theorem C144_imfreq (m : Mesh r H) (hb : 0 < m.beta) (c : Fin r → Matrix o o ℂ) :
    (∀ (n : ℤ) (a b : o), ∫ tau in (0 : ℝ)..m.beta, Complex.exp (matsubara m.beta m.stat.num n * tau) * evalTau m c tau a b = toImfreq m c n a b) ∧
      ∀ i, toImfreq m c (m.ops.ifnodes i) = freqOfDlr m c i :=
  ⟨fun n a b => C144_fourier m hb c m.stat n a b, fun i => (C144_freq_nodes m c i).symm⟩

/-- C144: the density is the sum of the coefficients times the Fermi function, transposed. -/
theorem C144_density (m : Mesh r H) (hb : 0 < m.beta) (c : Fin r → Matrix o o ℂ) (a b : o) :
    density m c a b = ∑ l, ((1 / (Real.exp (m.ops.freq l) + 1) : ℝ) : ℂ) * c l b a := by
  unfold density evalTau
  simp only [Matrix.transpose_apply, Matrix.neg_apply, Matrix.sum_apply, Matrix.smul_apply, smul_eq_mul]
  rw [← Finset.sum_neg_distrib]
  refine Finset.sum_congr rfl fun l _ => ?_
  rw [← neg_mul]
  congr 1
  rw [div_self hb.ne', kIt, if_neg (by norm_num), ← Complex.ofReal_neg]
  congr 1
  unfold kAbs
  have h := Real.exp_pos (m.ops.freq l)
  rw [neg_one_mul, Real.exp_neg]
  field_simp

/-- C144: the values at the two ends of a mesh of imaginary times with at least two points add up to minus the sum of the
coefficients. -/
theorem C144_ends (m : Mesh r H) (hb : 0 < m.beta) (c : Fin r → Matrix o o ℂ) (ntau : ℕ) (hn : 2 ≤ ntau) :
    toImtime m c ntau 0 + toImtime m c ntau (ntau - 1) = -∑ l, c l := by
  have hn' : (ntau : ℝ) - 1 ≠ 0 := by
    have : (2 : ℝ) ≤ ntau := by exact_mod_cast hn
    linarith
  unfold toImtime evalTau
  rw [← Finset.sum_add_distrib, ← Finset.sum_neg_distrib]
  refine Finset.sum_congr rfl fun l _ => ?_
  rw [Nat.cast_sub (by omega), ← add_smul]
  have e1 : m.beta * ((0 : ℕ) : ℝ) / ((ntau : ℝ) - 1) / m.beta = 0 := by simp
  have e2 : m.beta * ((ntau : ℝ) - (1 : ℕ)) / ((ntau : ℝ) - 1) / m.beta = 1 := by push_cast; field_simp
  rw [e1, e2, kIt, kIt, if_neg (by norm_num), if_neg (by norm_num), ← Complex.ofReal_add]
  have : kAbs 0 (m.ops.freq l) + kAbs 1 (m.ops.freq l) = -1 := by
    unfold kAbs
    have h := Real.exp_pos (-m.ops.freq l)
    rw [← add_div, div_eq_iff (by positivity)]
    simp
    ring
  rw [this]
  simp

/-- C144: times between `-beta` and zero are evaluated as if the function were periodic, for both statistics. -/
theorem C144_negative (m : Mesh r H) (hb : 0 < m.beta) (c : Fin r → Matrix o o ℂ) (tau : ℝ) (h1 : -m.beta ≤ tau) (h2 : tau < 0) :
    evalTau m c tau = evalTau m c (tau + m.beta) := by
  unfold evalTau
  refine Finset.sum_congr rfl fun l _ => ?_
  have e : (tau + m.beta) / m.beta = 1 + tau / m.beta := by field_simp; ring
  have h0 : tau / m.beta < 0 := div_neg_of_neg_of_pos h2 hb
  have h3 : 0 ≤ 1 + tau / m.beta := by rw [← e]; exact div_nonneg (by linarith) hb.le
  rw [e, kIt, kIt, if_pos h0, if_neg (not_lt.mpr h3)]

/-- C144: converting a mesh to another kind and back gives the mesh. -/
theorem C144_convert (hash : HashArgs → H) (k k' : Kind) (beta : ℝ) (s : Stat) (wmax eps : ℝ) (ops : Ops r) :
    convert hash k' (build hash k beta s wmax eps ops) = build hash k' beta s wmax eps ops ∧
    convert hash k (convert hash k' (build hash k beta s wmax eps ops)) = build hash k beta s wmax eps ops := by
  have h : ∀ k k', convert hash k' (build hash k beta s wmax eps ops) = build hash k' beta s wmax eps ops := by
    intro k k'
    unfold convert build
    by_cases hk : k' = k
    · simp [hk]
    · simp [hk]
  refine ⟨h k k', ?_⟩
  rw [h k k', h k' k]

/-- C144: with a hash without collisions two meshes of the same kind are equal if and only if their parameters are and the sums of
their nodes; for all three kinds this includes the statistic. -/
theorem C144_equal (hash : HashArgs → H) (hinj : Function.Injective hash) (k : Kind) (b1 b2 : ℝ) (s1 s2 : Stat) (w1 w2 e1 e2 : ℝ) (o1 o2 : Ops r) :
    (build hash k b1 s1 w1 e1 o1).same (build hash k b2 s2 w2 e2 o2) ↔ b1 = b2 ∧ s1 = s2 ∧ w1 = w2 ∧ e1 = e2 ∧
      (match k with
        | .coef => ∑ l, o1.freq l = ∑ l, o2.freq l
        | .time => ∑ l, o1.itnodes l = ∑ l, o2.itnodes l
        | .freq => ∑ l, o1.ifnodes l = ∑ l, o2.ifnodes l) := by
  cases k with
  | coef =>
    simp only [Mesh.same, build, hinj.eq_iff, hashArgs, Prod.mk.injEq, Option.some.injEq]
  | time =>
    simp only [Mesh.same, build, hinj.eq_iff, hashArgs, Prod.mk.injEq, true_and]
    tauto
  | freq =>
    simp only [Mesh.same, build, hinj.eq_iff, hashArgs, Prod.mk.injEq, Option.some.injEq]
    have : (∑ l, (o1.ifnodes l : ℝ) = ∑ l, (o2.ifnodes l : ℝ)) ↔ ∑ l, o1.ifnodes l = ∑ l, o2.ifnodes l := by
      rw [← Int.cast_sum, ← Int.cast_sum]
      exact Int.cast_inj
    rw [this]

/-- C144: but the hash which the points of a mesh of imaginary times carry does not know the statistic, whatever the hash
function, whereas the other two kinds tell fermions and bosons apart. -/
theorem C144_point_hash (hash : HashArgs → H) (beta wmax eps : ℝ) (ops : Ops r) :
    (build hash .time beta .fermion wmax eps ops).hash = (build hash .time beta .boson wmax eps ops).hash ∧
    (Function.Injective hash → (build hash .coef beta .fermion wmax eps ops).hash ≠ (build hash .coef beta .boson wmax eps ops).hash ∧
      (build hash .freq beta .fermion wmax eps ops).hash ≠ (build hash .freq beta .boson wmax eps ops).hash) := by
  refine ⟨rfl, fun hinj => ⟨fun h => ?_, fun h => ?_⟩⟩
  · have := hinj h
    simp [hashArgs] at this
  · have := hinj h
    simp [hashArgs] at this

/-- C144: the fit of a function that has a representation reproduces its values at all points, and gives the coefficients if the
matrix of the kernel has linearly independent columns. -/
theorem C144_fit {N : ℕ} (ops : Ops r) (t : Fin N → ℝ) (c0 c : Fin r → ℂ) (h : IsFit ops t (fun i => ∑ l, (kIt (t i) (ops.freq l) : ℂ) * c0 l) c) :
    (∀ i, ∑ l, (kIt (t i) (ops.freq l) : ℂ) * c l = ∑ l, (kIt (t i) (ops.freq l) : ℂ) * c0 l) ∧
    ((∀ d : Fin r → ℂ, (∀ i, ∑ l, (kIt (t i) (ops.freq l) : ℂ) * d l = 0) → d = 0) → c = c0) := by
  have h0 := h c0
  simp only [sub_self, norm_zero, ne_eq, OfNat.ofNat_ne_zero, not_false_eq_true, zero_pow, Finset.sum_const_zero] at h0
  have hz : ∀ i, ‖∑ l, (kIt (t i) (ops.freq l) : ℂ) * c l - ∑ l, (kIt (t i) (ops.freq l) : ℂ) * c0 l‖ ^ 2 = 0 := by
    have := (Finset.sum_eq_zero_iff_of_nonneg (s := Finset.univ) (f := fun i => ‖∑ l, (kIt (t i) (ops.freq l) : ℂ) * c l - ∑ l, (kIt (t i) (ops.freq l) : ℂ) * c0 l‖ ^ 2)
      (fun i _ => by positivity)).mp (le_antisymm h0 (Finset.sum_nonneg fun i _ => by positivity))
    exact fun i => this i (Finset.mem_univ i)
  have he : ∀ i, ∑ l, (kIt (t i) (ops.freq l) : ℂ) * c l = ∑ l, (kIt (t i) (ops.freq l) : ℂ) * c0 l := by
    intro i
    have := hz i
    rw [sq_eq_zero_iff, norm_eq_zero, sub_eq_zero] at this
    exact this
  refine ⟨he, fun hinj => ?_⟩
  have := hinj (fun l => c l - c0 l) (fun i => by
    simp only [mul_sub, Finset.sum_sub_distrib]
    rw [he i, sub_self])
  funext l
  have := congrFun this l
  simpa [sub_eq_zero] using this

/-! ### Examples -/

/-- one level at zero energy with weight one -/
noncomputable def level : Mesh 1 Unit := ⟨.coef, 2, .fermion, 1, 1e-10, (), ⟨fun _ => 0, fun _ => -1 / 4, fun _ => 0⟩⟩

/-- the node -1/4 stands for the time 3/2 -/
example : timeValue level 0 = 3 / 2 := by
  norm_num [timeValue, level]

example : IsUnit (timeMatrix level.ops).det := by
  simp [timeMatrix, level, kIt, kAbs]

/-- half filled -/
example : density level (fun _ => (1 : Matrix (Fin 1) (Fin 1) ℂ)) 0 0 = 1 / 2 := by
  rw [C144_density _ (by norm_num [level])]
  norm_num [level]

/-- C144: a fermionic function is evaluated as `-1/2` at the time `-1`, where the antiperiodic function is `1/2`. -/
theorem C144_antiperiodic_witness : evalTau level (fun _ => (1 : Matrix (Fin 1) (Fin 1) ℂ)) (-1) 0 0 = -1 / 2 ∧
    -evalTau level (fun _ => (1 : Matrix (Fin 1) (Fin 1) ℂ)) (-1 + 2) 0 0 = 1 / 2 := by
  constructor
  · norm_num [evalTau, level, kIt, kAbs]
  · norm_num [evalTau, level, kIt, kAbs]

/-- the first fermionic frequency: `β / (i π)` -/
example : evalFreq level (fun _ => (1 : Matrix (Fin 1) (Fin 1) ℂ)) .fermion 0 0 0 = 2 / (Complex.I * Real.pi) := by
  simp [evalFreq, level, kIf, div_eq_mul_inv]
  ring

end Verif.Dlr
