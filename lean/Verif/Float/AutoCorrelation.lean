import Verif.Float.LegendreSum
import Verif.Stat.Log

/-!
# Auto-correlation times from binned errors

Source: `/repo/c++/triqs/stat/accumulator.hpp` (510-513, 402-420).

`tau` is the function for `double` with the rounding of the machine; `none` stands for NaN and infinity. `tauExact` is the formula for real numbers, applied to the errors of C36.
-/

namespace Verif.AutoCorrelation

open Binary64 LinearDouble
open LegendreSum (op mul_abs_le abs_of_err)

/-! ## Model -/

/-- `tau_estimate_from_errors(e, z)` for doubles, accumulator.hpp:510-513: `e` with and `z` without binning -/
def tau (e z : ℚ) : Option ℚ :=
  (fin (e * e)).bind fun p => (fin (z * z)).bind fun q =>
    if q = 0 then none else (fin (p / q)).bind fun a => (fin (z / z)).bind fun o => (fin (a - o)).bind fun s => fin (s / 2)

/-- the same with real numbers -/
noncomputable def tauExact (e z : ℝ) : ℝ := 0.5 * (e * e / (z * z) - z / z)

/-! ## Specification -/

/-- every datum `b` times, one after the other -/
def repeated {α : Type} (b : ℕ) (d : List α) : List α := d.flatMap (List.replicate b)

/-! ## Proofs -/

/-- errors that are neither very small nor very large -/
structure Ordinary (e z : ℚ) : Prop where
  e0 : 2 ^ (-200 : ℤ) ≤ e
  e1 : e ≤ 2 ^ (200 : ℤ)
  z0 : 2 ^ (-200 : ℤ) ≤ z
  z1 : z ≤ 2 ^ (200 : ℤ)

theorem square {x : ℚ} (h0 : 2 ^ (-200 : ℤ) ≤ x) (h1 : x ≤ 2 ^ (200 : ℤ)) :
    0 < x ∧ 2 ^ (-400 : ℤ) ≤ x * x ∧ x * x ≤ 2 ^ (400 : ℤ) ∧ fin (x * x) = some (rnd (x * x)) ∧ |rnd (x * x) - x * x| ≤ x * x * (9 / 8 * (1 / 9007199254740992)) := by
  have hx : 0 < x := (two_zpow_pos _).trans_le h0
  have l : (2 : ℚ) ^ (-400 : ℤ) ≤ x * x := by
    rw [show (-400 : ℤ) = -200 + -200 by norm_num, two_zpow_add]
    exact mul_le_mul h0 h0 (two_zpow_pos _).le hx.le
  have u : x * x ≤ 2 ^ (400 : ℤ) := by
    rw [show (400 : ℤ) = 200 + 200 by norm_num, two_zpow_add]
    exact mul_le_mul h1 h1 hx.le (two_zpow_pos _).le
  obtain ⟨f, g⟩ := op (x := x * x) ((two_zpow_le (by norm_num)).trans l) (u.trans (two_zpow_le (by norm_num))) (le_refl 1) (by norm_num) (by rw [one_mul, abs_of_pos (mul_pos hx hx)])
  rw [one_mul] at g
  exact ⟨hx, l, u, f, g⟩

theorem square_pos {x p : ℚ} (hx : 0 < x) (h : |p - x| ≤ x * (9 / 8 * (1 / 9007199254740992))) : 0 < p := by
  have := (abs_le.1 h).1
  linarith

/-- all steps succeed -/
theorem steps {e z : ℚ} (h : Ordinary e z) :
    0 < rnd (z * z) ∧ tau e z = some (rnd (rnd (rnd (rnd (e * e) / rnd (z * z)) - 1) / 2)) ∧
    |rnd (rnd (rnd (rnd (e * e) / rnd (z * z)) - 1) / 2) - ((e / z) ^ 2 - 1) / 2| ≤ (4 * (e / z) ^ 2 + 2) * (1 / 9007199254740992) := by
  obtain ⟨he, el, eu, f1, g1⟩ := square h.e0 h.e1
  obtain ⟨hz, zl, zu, f2, g2⟩ := square h.z0 h.z1
  have hee := mul_pos he he
  have hzz := mul_pos hz hz
  have hp := square_pos hee g1
  have hq := square_pos hzz g2
  have hρ : (e / z) ^ 2 = e * e / (z * z) := by rw [div_pow, sq, sq]
  have hρ0 : (2 : ℚ) ^ (-800 : ℤ) ≤ e * e / (z * z) := by
    rw [le_div_iff₀ hzz]
    refine le_trans ?_ el
    refine (mul_le_mul_of_nonneg_left zu (two_zpow_pos _).le).trans (le_of_eq ?_)
    rw [← two_zpow_add]
    norm_num
  have hρ1 : e * e / (z * z) ≤ 2 ^ (800 : ℤ) := by
    rw [div_le_iff₀ hzz]
    refine eu.trans ?_
    refine le_trans (le_of_eq ?_) (mul_le_mul_of_nonneg_left zl (two_zpow_pos _).le)
    rw [← two_zpow_add]
    norm_num
  have hρp : 0 < e * e / (z * z) := (two_zpow_pos _).trans_le hρ0
  rw [hρ]
  refine ⟨hq, ?_⟩
  have e3 : |rnd (e * e) / rnd (z * z) - e * e / (z * z)| ≤ e * e / (z * z) * (5 / 2 * (1 / 9007199254740992)) := by
    generalize rnd (e * e) = p at *
    generalize rnd (z * z) = q at *
    generalize e * e = E at *
    generalize z * z = Z at *
    rw [show p / q - E / Z = (p - E - E / Z * (q - Z)) / q by field_simp; ring, abs_div, abs_of_pos hq, div_le_iff₀ hq]
    have h1 := abs_sub (p - E) (E / Z * (q - Z))
    have h2 : |E / Z * (q - Z)| ≤ E / Z * (Z * (9 / 8 * (1 / 9007199254740992))) := by
      rw [abs_mul, abs_of_pos hρp]
      exact mul_le_mul_of_nonneg_left g2 hρp.le
    have h3 : E / Z * (Z * (9 / 8 * (1 / 9007199254740992))) = E * (9 / 8 * (1 / 9007199254740992)) := by field_simp
    have h4 : Z * (9 / 10) ≤ q := by
      have := (abs_le.1 g2).1
      linarith
    have h5 : E / Z * (5 / 2 * (1 / 9007199254740992)) * (Z * (9 / 10)) = E * (9 / 4 * (1 / 9007199254740992)) := by field_simp; norm_num
    have h6 := mul_le_mul_of_nonneg_left h4 (mul_nonneg hρp.le (by norm_num : (0 : ℚ) ≤ 5 / 2 * (1 / 9007199254740992)))
    linarith
  generalize e * e / (z * z) = ρ at *
  have b3 := abs_of_err e3 (le_of_eq (abs_of_pos hρp))
  obtain ⟨f3, g3⟩ := op (x := rnd (e * e) / rnd (z * z)) ((two_zpow_le (by norm_num)).trans hρ0) (hρ1.trans (two_zpow_le (by norm_num))) (by norm_num : (1 : ℚ) ≤ 9 / 8) (by norm_num) (b3.trans (by linarith))
  have e4 : |rnd (rnd (e * e) / rnd (z * z)) - 1 - (ρ - 1)| ≤ 4 * ρ * (1 / 9007199254740992) := by
    have := abs_add_le (rnd (rnd (e * e) / rnd (z * z)) - rnd (e * e) / rnd (z * z)) (rnd (e * e) / rnd (z * z) - ρ)
    rw [sub_add_sub_cancel] at this
    rw [sub_sub_sub_cancel_right]
    linarith
  have w0 : (2 : ℚ) ^ (-850 : ℤ) ≤ ρ + 1 := (zpow_le_one_of_nonpos₀ (by norm_num) (by norm_num)).trans (by linarith)
  have w1 : ρ + 1 ≤ 2 ^ (850 : ℤ) := by
    have : (1 : ℚ) ≤ 2 ^ (800 : ℤ) := one_le_zpow₀ (by norm_num) (by norm_num)
    refine le_trans ?_ (two_zpow_le (by norm_num : (801 : ℤ) ≤ 850))
    rw [show (801 : ℤ) = 1 + 800 by norm_num, two_zpow_add, zpow_one]
    generalize (2 : ℚ) ^ (800 : ℤ) = X at *
    linarith
  have bρ : |ρ - 1| ≤ ρ + 1 := abs_le.2 ⟨by linarith, by linarith⟩
  have b4 := abs_of_err e4 bρ
  obtain ⟨f4, g4⟩ := op (x := rnd (rnd (e * e) / rnd (z * z)) - 1) w0 w1 (by norm_num : (1 : ℚ) ≤ 9 / 8) (by norm_num) (b4.trans (by linarith))
  have b5 := abs_of_err g4 b4
  obtain ⟨f5, g5⟩ := op (x := rnd (rnd (rnd (e * e) / rnd (z * z)) - 1) / 2) w0 w1 (le_refl 1) (by norm_num) (by
    rw [abs_div, abs_of_pos (two_pos : (0 : ℚ) < 2)]
    linarith)
  have f6 : fin (z / z) = some 1 := by
    rw [div_self hz.ne']
    have := fin_of_le (x := 1) (e := 0) (by norm_num) (by norm_num) (by norm_num)
    rwa [rnd_rep rep_one] at this
  constructor
  · unfold tau
    rw [f1, Option.bind_some, f2, Option.bind_some, if_neg hq.ne', f3, Option.bind_some, f6, Option.bind_some, f4, Option.bind_some, f5]
  · generalize rnd (rnd (rnd (rnd (e * e) / rnd (z * z)) - 1) / 2) = r at *
    generalize rnd (rnd (rnd (e * e) / rnd (z * z)) - 1) = s at *
    generalize rnd (rnd (e * e) / rnd (z * z)) = a at *
    have h1 := abs_le.1 g5
    have h2 := abs_le.1 g4
    have h3 := abs_le.1 e4
    rw [abs_le]
    constructor <;> linarith [h1.1, h1.2, h2.1, h2.2, h3.1, h3.2]

/-- **C210, rounding.** The time is finite and close to the formula. -/
theorem C210_error {e z : ℚ} (h : Ordinary e z) : ∃ r, tau e z = some r ∧ |r - ((e / z) ^ 2 - 1) / 2| ≤ (4 * (e / z) ^ 2 + 2) * 2 ^ (-53 : ℤ) := by
  obtain ⟨-, h1, h2⟩ := steps h
  refine ⟨_, h1, ?_⟩
  rw [show (2 : ℚ) ^ (-53 : ℤ) = 1 / 9007199254740992 by norm_num]
  exact h2

/-- **C210, sign.** The time is never below `-1/2`, not positive if the errors decrease, not negative if they grow, and exactly zero if they are equal. -/
theorem C210_sign {e z : ℚ} (h : Ordinary e z) : ∃ r, tau e z = some r ∧ -(1 / 2) ≤ r ∧ (e ≤ z → r ≤ 0) ∧ (z ≤ e → 0 ≤ r) ∧ (e = z → r = 0) := by
  obtain ⟨hq, h1, -⟩ := steps h
  obtain ⟨he, -, -, -, g1⟩ := square h.e0 h.e1
  obtain ⟨hz, -, -, -, g2⟩ := square h.z0 h.z1
  have hp := square_pos (mul_pos he he) g1
  have r1 : Rep (-1) := rep_neg rep_one
  have r2 : Rep (-(1 / 2)) := ⟨-1, -1, by norm_num, by norm_num, by norm_num⟩
  have low : -(1 / 2) ≤ rnd (rnd (rnd (rnd (e * e) / rnd (z * z)) - 1) / 2) := by
    have h2 : 0 ≤ rnd (rnd (e * e) / rnd (z * z)) := rnd_nonneg (div_nonneg hp.le hq.le)
    have h3 : -1 ≤ rnd (rnd (rnd (e * e) / rnd (z * z)) - 1) := le_rnd r1 (by linarith)
    exact le_rnd r2 (by linarith)
  have up : e ≤ z → rnd (rnd (rnd (rnd (e * e) / rnd (z * z)) - 1) / 2) ≤ 0 := fun hez => by
    have h2 : rnd (e * e) ≤ rnd (z * z) := rnd_mono (mul_le_mul hez hez he.le hz.le)
    have h3 : rnd (rnd (e * e) / rnd (z * z)) ≤ 1 := rnd_le rep_one ((div_le_one hq).2 h2)
    have h4 : rnd (rnd (rnd (e * e) / rnd (z * z)) - 1) ≤ 0 := rnd_le rep_zero (by linarith)
    exact rnd_le rep_zero (by linarith)
  have dn : z ≤ e → 0 ≤ rnd (rnd (rnd (rnd (e * e) / rnd (z * z)) - 1) / 2) := fun hez => by
    have h2 : rnd (z * z) ≤ rnd (e * e) := rnd_mono (mul_le_mul hez hez hz.le he.le)
    have h3 : 1 ≤ rnd (rnd (e * e) / rnd (z * z)) := le_rnd rep_one ((one_le_div hq).2 h2)
    have h4 : 0 ≤ rnd (rnd (rnd (e * e) / rnd (z * z)) - 1) := le_rnd rep_zero (by linarith)
    exact le_rnd rep_zero (by linarith)
  exact ⟨_, h1, low, up, dn, fun hez => le_antisymm (up hez.le) (dn hez.ge)⟩

/-- **C210, order.** A larger error with binning does not give a smaller time. -/
theorem C210_mono {e e' z : ℚ} (h : Ordinary e z) (h' : Ordinary e' z) (hee : e ≤ e') : ∃ r r', tau e z = some r ∧ tau e' z = some r' ∧ r ≤ r' := by
  obtain ⟨hq, h1, -⟩ := steps h
  obtain ⟨-, h2, -⟩ := steps h'
  have he : 0 < e := (two_zpow_pos _).trans_le h.e0
  refine ⟨_, _, h1, h2, rnd_mono (div_le_div_of_nonneg_right (rnd_mono (sub_le_sub_right (rnd_mono (div_le_div_of_nonneg_right (rnd_mono (mul_le_mul hee hee he.le (he.le.trans hee))) hq.le)) 1)) two_pos.le)⟩

/-- **C210, false for small errors.** Constant data have errors zero and no finite time, and equal errors of `2^-600` do not give zero, as their squares are not doubles. -/
theorem C210_small_witness : tau 0 0 = none ∧ tau (1 / 2 ^ 600) (1 / 2 ^ 600) = none ∧ tau (2 ^ 600) (2 ^ 600) = none := by decide +kernel

section
open Stat

variable {V : Type} [AddCommGroup V] [Module ℝ V]

theorem repeated_length {α : Type} (b : ℕ) (d : List α) : (repeated b d).length = b * d.length := by
  induction d with
  | nil => rfl
  | cons x d ih =>
    rw [repeated, List.flatMap_cons, List.length_append, List.length_replicate, List.length_cons, mul_add, mul_one, add_comm]
    exact congrArg (· + b) ih

theorem repeated_get {α : Type} {b : ℕ} (hb : 0 < b) (d : List α) (i : ℕ) : (repeated b d)[i]? = d[i / b]? := by
  induction d generalizing i with
  | nil => rfl
  | cons x d ih =>
    rw [repeated, List.flatMap_cons, List.getElem?_append, List.length_replicate]
    by_cases h : i < b
    · rw [if_pos h, List.getElem?_replicate, if_pos h, Nat.div_eq_of_lt h]
      rfl
    · rw [if_neg h, show i / b = (i - b) / b + 1 by rw [Nat.div_eq_sub_div hb (by omega)], List.getElem?_cons_succ]
      exact ih (i - b)

theorem repeated_block {α : Type} (b : ℕ) (d : List α) (i : ℕ) (hi : i < d.length) : ((repeated b d).drop (i * b)).take b = List.replicate b d[i] := by
  induction d generalizing i with
  | nil => exact absurd hi (Nat.not_lt_zero i)
  | cons x d ih =>
    rw [repeated, List.flatMap_cons]
    cases i with
    | zero =>
      rw [zero_mul, List.drop_zero, List.take_left' (List.length_replicate)]
      rfl
    | succ i =>
      rw [add_mul, one_mul, add_comm (i * b), ← List.drop_drop, List.drop_left' (List.length_replicate)]
      exact ih i (by simpa using hi)

theorem avg_replicate {b : ℕ} (hb : 0 < b) (x : V) : avg ℝ (List.replicate b x) = x := by
  rw [avg, List.length_replicate, List.sum_replicate, ← Nat.cast_smul_eq_nsmul ℝ, smul_smul, inv_mul_cancel₀ (by exact_mod_cast hb.ne'), one_smul]

theorem block_large (n : ℕ) (d : List V) (i : ℕ) (hi : i < d.length) : blockAvg ℝ (repeated (2 ^ n) d) n i = d.getD i 0 := by
  rw [blockAvg, repeated_block _ d i hi, avg_replicate (Nat.two_pow_pos n)]
  simp [hi]

theorem block_zero {b : ℕ} (hb : 0 < b) (d : List V) (i : ℕ) (hi : i < b * d.length) : blockAvg ℝ (repeated b d) 0 i = d.getD (i / b) 0 := by
  have hl : i < (repeated b d).length := by rw [repeated_length]; exact hi
  have hg := repeated_get hb d i
  rw [List.getElem?_eq_getElem hl] at hg
  rw [blockAvg, pow_zero, mul_one, List.drop_eq_getElem_cons hl, show ∀ (a : V) l, (a :: l).take 1 = [a] from fun _ _ => rfl, avg, List.getD_eq_getElem?_getD, ← hg]
  simp

theorem sum_repeated {b : ℕ} (hb : 0 < b) (m : ℕ) (f : ℕ → V) : ∑ i ∈ Finset.range (b * m), f (i / b) = (b : ℝ) • ∑ i ∈ Finset.range m, f i := by
  induction m with
  | zero => simp
  | succ m ih =>
    rw [mul_add, mul_one, Finset.sum_range_add, ih, Finset.sum_range_succ, smul_add]
    congr 1
    rw [Finset.sum_congr rfl (g := fun _ => f m) (fun j hj => by
      rw [Nat.mul_add_div hb, Nat.div_eq_of_lt (Finset.mem_range.1 hj), add_zero]), Finset.sum_const, Finset.card_range, Nat.cast_smul_eq_nsmul]

theorem dev_repeated (F : Form ℝ V) {b : ℕ} (hb : 0 < b) (m : ℕ) (f : ℕ → V) : dev F (b * m) (fun i => f (i / b)) = b * dev F m f := by
  have hbr : (b : ℝ) ≠ 0 := by exact_mod_cast hb.ne'
  have hm : mu ℝ (b * m) (fun i => f (i / b)) = mu ℝ m f := by
    unfold mu
    rw [sum_repeated hb, smul_smul, Nat.cast_mul, mul_inv, mul_comm, ← mul_assoc, mul_inv_cancel₀ hbr, one_mul]
  unfold dev
  rw [hm, sum_repeated hb m (fun i => F.sq (f i - mu ℝ m f)), smul_eq_mul]

/-- real data -/
def realForm : Form ℝ ℝ := ⟨fun x y => x * y, add_mul, fun r x y => by simp [mul_assoc], mul_comm⟩

theorem dev_pos {d : List ℝ} {x y : ℝ} (hx : x ∈ d) (hy : y ∈ d) (hxy : x ≠ y) : 0 < dev realForm d.length (fun i => d.getD i 0) := by
  have h0 : ∀ i ∈ Finset.range d.length, 0 ≤ realForm.sq (d.getD i 0 - mu ℝ d.length (fun i => d.getD i 0)) := fun i _ => mul_self_nonneg _
  refine lt_of_le_of_ne (Finset.sum_nonneg h0) fun h => ?_
  have hz := (Finset.sum_eq_zero_iff_of_nonneg h0).1 h.symm
  have key : ∀ v ∈ d, v = mu ℝ d.length (fun i => d.getD i 0) := by
    intro v hv
    obtain ⟨i, hi, rfl⟩ := List.getElem_of_mem hv
    have h1 : d.getD i 0 - mu ℝ d.length (fun i => d.getD i 0) = 0 := mul_self_eq_zero.1 (hz i (Finset.mem_range.2 hi))
    rw [← sub_eq_zero.1 h1]
    simp [hi]
  exact hxy ((key x hx).trans (key y hy).symm)

/-- **C211, repeated data** (exact arithmetic). If every one of `m` data, not all equal, is measured `2^n` times in succession, the time from the errors at level `n` is `m (2^n - 1) / (2 (m - 1))`,
which approaches half of the number of superfluous measurements. -/
theorem C211_repeated_partial (maxN : ℤ) (n : ℕ) (d : List ℝ) {x y : ℝ} (hx : x ∈ d) (hy : y ∈ d) (hxy : x ≠ y) (hd : ((2 ^ n * d.length : ℕ) : ℤ) < 2 ^ 31) (s : Log ℝ ℝ)
    (h : Log.run realForm (repeated (2 ^ n) d) (Log.ctor maxN) = some s) (e z : ℝ × ℤ) (he : (s.errors Real.sqrt)[n]? = some e) (hz : (s.errors Real.sqrt)[0]? = some z) :
    tauExact e.1 z.1 = d.length * (2 ^ n - 1) / (2 * (d.length - 1)) := by
  have hb : 0 < 2 ^ n := Nat.two_pow_pos n
  have hlen := repeated_length (2 ^ n) d
  have hm : 2 ≤ d.length := by
    rcases d with _ | ⟨a, _ | ⟨c, l⟩⟩
    · simp at hx
    · simp only [List.mem_singleton] at hx hy
      exact absurd (hx.trans hy.symm) hxy
    · simp
  have hD : ((repeated (2 ^ n) d).length : ℤ) < 2 ^ 31 := by rw [hlen]; exact hd
  have h1 := (C36_errors_partial realForm Real.sqrt maxN _ hD s h n e he).2
  have h0 := (C36_errors_partial realForm Real.sqrt maxN _ hD s h 0 z hz).2
  have l1 : (repeated (2 ^ n) d).length / 2 ^ n = d.length := by rw [hlen, Nat.mul_div_cancel_left _ hb]
  have l0 : (repeated (2 ^ n) d).length / 2 ^ 0 = 2 ^ n * d.length := by rw [hlen, pow_zero, Nat.div_one]
  rw [l1, if_neg (by omega), dev_congr realForm (fun i hi => block_large n d i hi)] at h1
  have hN : ¬2 ^ n * d.length ≤ 1 := by
    have : 1 * 2 ≤ 2 ^ n * d.length := Nat.mul_le_mul hb hm
    omega
  rw [l0, if_neg hN, dev_congr realForm (fun i hi => block_zero hb d i hi), dev_repeated realForm hb d.length (fun i => d.getD i 0)] at h0
  have hdev := dev_pos hx hy hxy
  generalize dev realForm d.length (fun i => d.getD i 0) = Q at *
  have hmr : (2 : ℝ) ≤ d.length := by exact_mod_cast hm
  have hbr : (1 : ℝ) ≤ 2 ^ n := one_le_pow₀ (by norm_num)
  push_cast at h0 h1
  generalize (d.length : ℝ) = m at *
  generalize (2 : ℝ) ^ n = b at *
  have hbm : (2 : ℝ) ≤ b * m := by nlinarith
  have p1 : 0 < Q / (m * (m - 1)) := div_pos hdev (mul_pos (by linarith) (by linarith))
  have p0 : 0 < b * Q / (b * m * (b * m - 1)) := div_pos (mul_pos (by linarith) hdev) (mul_pos (by linarith) (by linarith))
  have hz0 : z.1 ≠ 0 := by
    rw [h0]
    exact (Real.sqrt_pos.2 p0).ne'
  rw [tauExact, div_self hz0, h0, h1, Real.mul_self_sqrt p1.le, Real.mul_self_sqrt p0.le]
  have a1 : m - 1 ≠ 0 := by linarith
  have a2 : b * m - 1 ≠ 0 := by linarith
  have a3 : m ≠ 0 := by linarith
  have a4 : b ≠ 0 := by linarith
  field_simp
  ring

end

/-! ### Examples -/

/-- an error that doubles: three halves -/
example : tau 2 1 = some (3 / 2) ∧ tau (1 / 2) 1 = some (-3 / 8) ∧ tau (1 / 3) (1 / 3) = some 0 := by decide +kernel

example : ∃ r, tau 3 1 = some r ∧ |r - (((3 : ℚ) / 1) ^ 2 - 1) / 2| ≤ (4 * ((3 : ℚ) / 1) ^ 2 + 2) * 2 ^ (-53 : ℤ) :=
  C210_error ⟨(zpow_le_one_of_nonpos₀ (by norm_num) (by norm_num)).trans (by norm_num), (by norm_num : (3 : ℚ) ≤ 2 ^ (2 : ℤ)).trans (two_zpow_le (by norm_num)),
    zpow_le_one_of_nonpos₀ (by norm_num) (by norm_num), one_le_zpow₀ (by norm_num) (by norm_num)⟩

/-- three data, each one four times -/
example : ∃ s, Stat.Log.run realForm (repeated (2 ^ 2) [1, 2, 4]) (Stat.Log.ctor (-1)) = some s ∧ ∀ e z : ℝ × ℤ, (s.errors Real.sqrt)[2]? = some e → (s.errors Real.sqrt)[0]? = some z → tauExact e.1 z.1 = 9 / 4 := by
  obtain ⟨s, hs, -⟩ := Stat.C36_log_binning_partial realForm (-1) (repeated (2 ^ 2) [1, 2, 4]) (by simp [repeated])
  refine ⟨s, hs, fun e z he hz => ?_⟩
  rw [C211_repeated_partial (-1) 2 [1, 2, 4] (x := 1) (y := 2) (by simp) (by simp) (by norm_num) (by norm_num) s hs e z he hz]
  norm_num

end Verif.AutoCorrelation
