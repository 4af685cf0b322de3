import Mathlib.Data.Int.Log
import Mathlib.Data.Rat.Floor
import Mathlib.Algebra.Order.Field.Rat
import Mathlib.Algebra.Order.Floor.Ring
import Mathlib.Tactic.Linarith
import Mathlib.Tactic.Ring
import Mathlib.Tactic.FieldSimp
import Mathlib.Tactic.NormNum
import Mathlib.Tactic.Positivity
import Mathlib.Tactic.ByContra
import Mathlib.Tactic.GCongr

/-!
# Double precision

The finite numbers of the type `double` (binary64 of IEEE 754-2019, 3.3-3.6) and rounding to nearest, ties to even (4.3.1), which is the rounding in which
the code runs: nothing under `/repo/c++` or `/repo/python` changes it. The operations `+`, `-`, `*` and `/` of C++ on doubles, and the conversions of integers, round
the exact result (5.4.1); so they are `rnd` of the exact operation. That the compiler keeps to this (no extended precision, no contraction to fused operations) is
part of the trusted base.

A result of absolute value `2^1024` or more is infinite in the machine. `rnd` has no upper limit of the exponent; `IsDouble` tells whether the
result is finite, and the theorems that use this file conclude it. Zeros with a sign are not distinguished.
-/

namespace Verif.Binary64

/-! ## Model -/

/-- the integer nearest to `q`, in a tie the even one, IEEE 754-2019, 4.3.1 -/
def rne (q : ℚ) : ℤ :=
  if q - ⌊q⌋ < 1 / 2 then ⌊q⌋ else if 1 / 2 < q - ⌊q⌋ then ⌊q⌋ + 1 else if ⌊q⌋ % 2 = 0 then ⌊q⌋ else ⌊q⌋ + 1

/-- the exponent of the last of the 53 binary digits of `x`; below `2^-1022` there are less digits, IEEE 754-2019, 3.3 -/
def expo (x : ℚ) : ℤ := max (-1074) (Int.log 2 |x| - 52)

/-- rounding to the nearest number of 53 digits -/
def rnd (x : ℚ) : ℚ := (rne (x / 2 ^ expo x) : ℚ) * 2 ^ expo x

/-- the result of an operation whose exact result is `x`; `none` if it is infinite, IEEE 754-2019, 4.3.1 -/
def fin (x : ℚ) : Option ℚ := if |rnd x| < 2 ^ 1024 then some (rnd x) else none

/-! ## Specification -/

/-- numbers with 53 binary digits and an exponent that is not below `-1074` -/
def Rep (x : ℚ) : Prop := ∃ m e : ℤ, -1074 ≤ e ∧ |m| ≤ 2 ^ 53 ∧ x = m * 2 ^ e

/-- finite doubles -/
def IsDouble (x : ℚ) : Prop := Rep x ∧ |x| < 2 ^ 1024

/-! ## Proofs -/

theorem two_zpow_pos (e : ℤ) : (0 : ℚ) < 2 ^ e := zpow_pos (by norm_num) e

theorem two_zpow_le {a b : ℤ} (h : a ≤ b) : (2 : ℚ) ^ a ≤ 2 ^ b := zpow_le_zpow_right₀ (by norm_num) h

theorem two_zpow_lt {a b : ℤ} (h : a < b) : (2 : ℚ) ^ a < 2 ^ b := zpow_lt_zpow_right₀ (by norm_num) h

theorem two_zpow_lt_iff {a b : ℤ} : (2 : ℚ) ^ a < 2 ^ b ↔ a < b := zpow_lt_zpow_iff_right₀ (by norm_num)

theorem two_zpow_le_iff {a b : ℤ} : (2 : ℚ) ^ a ≤ 2 ^ b ↔ a ≤ b := zpow_le_zpow_iff_right₀ (by norm_num)

theorem two_zpow_nat (n : ℕ) : (2 : ℚ) ^ (n : ℤ) = ((2 ^ n : ℤ) : ℚ) := by push_cast; exact zpow_natCast 2 n

theorem two_zpow_add (a b : ℤ) : (2 : ℚ) ^ (a + b) = 2 ^ a * 2 ^ b := zpow_add₀ (by norm_num) a b

/-- a difference of exponents that is not negative gives an integer -/
theorem zpow_int {e f : ℤ} (h : f ≤ e) : ∃ k : ℤ, (2 : ℚ) ^ e = k * 2 ^ f := by
  obtain ⟨n, rfl⟩ : ∃ n : ℕ, e = n + f := ⟨(e - f).toNat, by omega⟩
  exact ⟨2 ^ n, by rw [two_zpow_add, two_zpow_nat]⟩

theorem floor_frac (q : ℚ) : 0 ≤ q - ⌊q⌋ ∧ q - ⌊q⌋ < 1 := ⟨sub_nonneg.2 (Int.floor_le q), by linarith [Int.lt_floor_add_one q]⟩

theorem rne_or (q : ℚ) : rne q = ⌊q⌋ ∨ rne q = ⌊q⌋ + 1 := by unfold rne; split_ifs <;> simp

theorem rne_int (n : ℤ) : rne n = n := by
  unfold rne
  rw [if_pos (by simp)]
  simp

theorem rne_mono {p q : ℚ} (h : p ≤ q) : rne p ≤ rne q := by
  have hf := Int.floor_le_floor h
  rcases hf.lt_or_eq with hlt | heq
  · rcases rne_or p with h1 | h1 <;> rcases rne_or q with h2 | h2 <;> omega
  · unfold rne
    rw [heq]
    split_ifs <;> first | omega | (exfalso; linarith)

theorem rne_le {q : ℚ} {n : ℤ} (h : q ≤ n) : rne q ≤ n := by rw [← rne_int n]; exact rne_mono h

theorem le_rne {q : ℚ} {n : ℤ} (h : (n : ℚ) ≤ q) : n ≤ rne q := by rw [← rne_int n]; exact rne_mono h

/-- below the middle between two integers it is rounded down -/
theorem rne_le_of_lt_half {q : ℚ} {n : ℤ} (h : q < n + 1 / 2) : rne q ≤ n := by
  by_cases hq : q ≤ n
  · exact rne_le hq
  · have hn : ⌊q⌋ = n := Int.floor_eq_iff.2 ⟨by linarith, by linarith⟩
    unfold rne
    rw [hn, if_pos (by linarith)]

/-- above the middle between two integers it is rounded up -/
theorem le_rne_of_half_lt {q : ℚ} {n : ℤ} (h : (n : ℚ) - 1 / 2 < q) : n ≤ rne q := by
  by_cases hq : (n : ℚ) ≤ q
  · exact le_rne hq
  · have hn : ⌊q⌋ = n - 1 := Int.floor_eq_iff.2 ⟨by push_cast; linarith, by push_cast; linarith⟩
    unfold rne
    rw [hn]
    push_cast
    rw [if_neg (by linarith), if_pos (by linarith)]
    omega

theorem rne_err (q : ℚ) : |(rne q : ℚ) - q| ≤ 1 / 2 := by
  have h := floor_frac q
  rw [abs_le]
  unfold rne
  split_ifs <;> push_cast <;> constructor <;> linarith

theorem rne_neg (q : ℚ) : rne (-q) = -rne q := by
  by_cases hz : q = ⌊q⌋
  · rw [hz, ← Int.cast_neg, rne_int, rne_int]
  · have h := floor_frac q
    have h0 : 0 < q - ⌊q⌋ := lt_of_le_of_ne h.1 fun he => hz (by linarith)
    have hn : ⌊-q⌋ = -⌊q⌋ - 1 := Int.floor_eq_iff.2 ⟨by push_cast; linarith, by push_cast; linarith⟩
    unfold rne
    rw [hn]
    push_cast
    split_ifs <;> first | omega | (exfalso; linarith)

theorem expo_neg (x : ℚ) : expo (-x) = expo x := by simp [expo]

theorem rnd_neg (x : ℚ) : rnd (-x) = -rnd x := by
  unfold rnd
  rw [expo_neg, neg_div, rne_neg]
  push_cast
  ring

theorem rnd_zero : rnd 0 = 0 := by
  unfold rnd
  rw [zero_div, show (0 : ℚ) = ((0 : ℤ) : ℚ) by norm_num, rne_int]
  simp

theorem expo_ge (x : ℚ) : -1074 ≤ expo x := le_max_left _ _

/-- a number on the grid of `x` -/
theorem rnd_le_grid {x : ℚ} {n : ℤ} (h : x ≤ n * 2 ^ expo x) : rnd x ≤ n * 2 ^ expo x := by
  unfold rnd
  have hp := two_zpow_pos (expo x)
  have : rne (x / 2 ^ expo x) ≤ n := rne_le (by rw [div_le_iff₀ hp]; exact h)
  exact mul_le_mul_of_nonneg_right (by exact_mod_cast this) hp.le

theorem grid_le_rnd {x : ℚ} {n : ℤ} (h : n * 2 ^ expo x ≤ x) : n * 2 ^ expo x ≤ rnd x := by
  unfold rnd
  have hp := two_zpow_pos (expo x)
  have : n ≤ rne (x / 2 ^ expo x) := le_rne (by rw [le_div_iff₀ hp]; exact h)
  exact mul_le_mul_of_nonneg_right (by exact_mod_cast this) hp.le

theorem rnd_nonneg {x : ℚ} (h : 0 ≤ x) : 0 ≤ rnd x := by
  have := grid_le_rnd (x := x) (n := 0) (by simpa using h)
  simpa using this

theorem expo_mono {x y : ℚ} (h0 : 0 < x) (h : x ≤ y) : expo x ≤ expo y := by
  unfold expo
  rw [abs_of_pos h0, abs_of_pos (h0.trans_le h)]
  have := Int.log_mono_right (b := 2) h0 h
  omega

theorem log_le {x : ℚ} (h : 0 < x) : (2 : ℚ) ^ Int.log 2 x ≤ x := by exact_mod_cast Int.zpow_log_le_self (b := 2) (by norm_num) h

theorem lt_log (x : ℚ) : x < (2 : ℚ) ^ (Int.log 2 x + 1) := by exact_mod_cast Int.lt_zpow_succ_log_self (b := 2) (by norm_num) x

/-- rounding is monotone for positive numbers -/
theorem rnd_mono_pos {x y : ℚ} (h0 : 0 < x) (h : x ≤ y) : rnd x ≤ rnd y := by
  rcases (expo_mono h0 h).lt_or_eq with hlt | heq
  · have hy0 := h0.trans_le h
    have hE : expo y = Int.log 2 y - 52 := by
      have := expo_ge x
      unfold expo at hlt ⊢
      rw [abs_of_pos hy0] at hlt ⊢
      omega
    have hx : Int.log 2 x < Int.log 2 y := by
      have : Int.log 2 x - 52 ≤ expo x := by unfold expo; rw [abs_of_pos h0]; exact le_max_right _ _
      omega
    have hxg : x ≤ 2 ^ (Int.log 2 y) := (lt_log x).le.trans (two_zpow_le (by omega))
    obtain ⟨k, hk⟩ := zpow_int (e := Int.log 2 y) (f := expo x) (by omega)
    have h1 : rnd x ≤ 2 ^ (Int.log 2 y) := by rw [hk] at hxg ⊢; exact rnd_le_grid hxg
    obtain ⟨l, hl⟩ := zpow_int (e := Int.log 2 y) (f := expo y) (by omega)
    have h2 : 2 ^ (Int.log 2 y) ≤ rnd y := by
      have := log_le hy0
      rw [hl] at this ⊢
      exact grid_le_rnd this
    exact h1.trans h2
  · unfold rnd
    rw [heq]
    have hp := two_zpow_pos (expo y)
    refine mul_le_mul_of_nonneg_right ?_ hp.le
    exact_mod_cast rne_mono (div_le_div_of_nonneg_right h hp.le)

/-- **Rounding is monotone.** -/
theorem rnd_mono {x y : ℚ} (h : x ≤ y) : rnd x ≤ rnd y := by
  rcases lt_trichotomy x 0 with hx | rfl | hx
  · rcases lt_or_ge y 0 with hy | hy
    · have := rnd_mono_pos (x := -y) (y := -x) (by linarith) (by linarith)
      rw [rnd_neg, rnd_neg] at this
      linarith
    · have := rnd_nonneg (x := -x) (by linarith)
      rw [rnd_neg] at this
      have := rnd_nonneg hy
      linarith
  · rw [rnd_zero]; exact rnd_nonneg h
  · exact rnd_mono_pos hx h

/-- the grid of a number that needs no rounding -/
theorem Rep.grid {x : ℚ} (h : Rep x) : ∃ n : ℤ, x = n * 2 ^ expo x := by
  obtain ⟨m, e, he, hm, rfl⟩ := h
  by_cases h0 : m = 0
  · exact ⟨0, by simp [h0]⟩
  have hpos : 0 < |(m : ℚ) * 2 ^ e| := abs_pos.2 (mul_ne_zero (by exact_mod_cast h0) (two_zpow_pos e).ne')
  have habs : |(m : ℚ) * 2 ^ e| = (|m| : ℤ) * 2 ^ e := by rw [abs_mul, abs_of_pos (two_zpow_pos e), Int.cast_abs]
  rcases hm.lt_or_eq with hlt | heq
  · have hlog : Int.log 2 |(m : ℚ) * 2 ^ e| < e + 53 := by
      rw [← two_zpow_lt_iff]
      refine (log_le hpos).trans_lt ?_
      rw [habs, add_comm, two_zpow_add]
      refine mul_lt_mul_of_pos_right ?_ (two_zpow_pos e)
      have : ((|m| : ℤ) : ℚ) < ((2 ^ 53 : ℤ) : ℚ) := by exact_mod_cast hlt
      rw [show ((53 : ℤ)) = ((53 : ℕ) : ℤ) from rfl, two_zpow_nat]
      exact this
    have hE : expo (m * 2 ^ e) ≤ e := by unfold expo; omega
    obtain ⟨k, hk⟩ := zpow_int hE
    exact ⟨m * k, by rw [Int.cast_mul, mul_assoc, ← hk]⟩
  · have hlog : Int.log 2 |(m : ℚ) * 2 ^ e| = e + 53 := by
      rw [habs, heq, ← two_zpow_nat, ← two_zpow_add]
      have := Int.log_zpow (R := ℚ) (b := 2) (by norm_num) ((53 : ℕ) + e)
      push_cast at this ⊢
      rw [this]
      omega
    have hE : expo (m * 2 ^ e) = e + 1 := by unfold expo; omega
    rcases (abs_eq (by norm_num)).1 heq with rfl | rfl
    · refine ⟨2 ^ 52, ?_⟩
      rw [hE, two_zpow_add]
      push_cast
      norm_num
      ring
    · refine ⟨-2 ^ 52, ?_⟩
      rw [hE, two_zpow_add]
      push_cast
      norm_num
      ring

/-- **Rounding leaves numbers alone that need no rounding.** -/
theorem rnd_rep {x : ℚ} (h : Rep x) : rnd x = x := by
  obtain ⟨n, hn⟩ := h.grid
  have hp := two_zpow_pos (expo x)
  have : x / 2 ^ expo x = n := by rw [div_eq_iff hp.ne']; exact hn
  unfold rnd
  rw [this, rne_int, ← hn]

/-- the result of rounding needs no further rounding -/
theorem rep_rnd (x : ℚ) : Rep (rnd x) := by
  refine ⟨rne (x / 2 ^ expo x), expo x, expo_ge x, ?_, rfl⟩
  have hp := two_zpow_pos (expo x)
  have hx : |x| ≤ ((2 ^ 53 : ℤ) : ℚ) * 2 ^ expo x := by
    refine (lt_log |x|).le.trans ?_
    rw [← two_zpow_nat, ← two_zpow_add]
    refine two_zpow_le ?_
    have : Int.log 2 |x| - 52 ≤ expo x := le_max_right _ _
    push_cast
    omega
  rw [abs_le] at hx ⊢
  constructor
  · exact le_rne (by rw [le_div_iff₀ hp]; push_cast at hx ⊢; linarith [hx.1])
  · exact rne_le (by rw [div_le_iff₀ hp]; exact hx.2)

theorem rnd_rnd (x : ℚ) : rnd (rnd x) = rnd x := rnd_rep (rep_rnd x)

/-- rounding does not cross a number that needs no rounding -/
theorem rnd_le {x z : ℚ} (hz : Rep z) (h : x ≤ z) : rnd x ≤ z := by
  rw [← rnd_rep hz]; exact rnd_mono h

theorem le_rnd {x z : ℚ} (hz : Rep z) (h : z ≤ x) : z ≤ rnd x := by
  rw [← rnd_rep hz]; exact rnd_mono h

theorem rep_neg {x : ℚ} (h : Rep x) : Rep (-x) := by
  obtain ⟨m, e, he, hm, rfl⟩ := h
  exact ⟨-m, e, he, by rwa [abs_neg], by push_cast; ring⟩

theorem rep_zero : Rep 0 := ⟨0, 0, by norm_num, by norm_num, by norm_num⟩

/-- integers of up to 53 digits -/
theorem rep_int {n : ℤ} (h : |n| ≤ 2 ^ 53) : Rep n := ⟨n, 0, by norm_num, h, by simp⟩

theorem rep_one : Rep 1 := by exact_mod_cast rep_int (n := 1) (by norm_num)

/-- powers of two -/
theorem rep_zpow {e : ℤ} (h : -1074 ≤ e) : Rep (2 ^ e) := ⟨1, e, h, by norm_num, by simp⟩

/-- the rounding error is at most half a unit of the last digit -/
theorem rnd_err (x : ℚ) : |rnd x - x| ≤ 2 ^ expo x / 2 := by
  have hp := two_zpow_pos (expo x)
  have h := rne_err (x / 2 ^ expo x)
  have he : rnd x - x = ((rne (x / 2 ^ expo x) : ℚ) - x / 2 ^ expo x) * 2 ^ expo x := by
    unfold rnd
    field_simp
  rw [he, abs_mul, abs_of_pos hp]
  nlinarith

/-- **The relative error** of normal numbers is at most `2^-53`. -/
theorem rnd_rel {x : ℚ} (h : (2 : ℚ) ^ (-1022 : ℤ) ≤ |x|) : |rnd x - x| ≤ |x| * 2 ^ (-53 : ℤ) := by
  have hx : 0 < |x| := (two_zpow_pos _).trans_le h
  refine (rnd_err x).trans ?_
  have hl : -1022 ≤ Int.log 2 |x| := by
    have := (Int.zpow_le_iff_le_log (R := ℚ) (b := 2) (by norm_num) (x := -1022) hx).1 (by exact_mod_cast h)
    exact this
  have hE : expo x = Int.log 2 |x| + (-52) := by unfold expo; omega
  rw [hE, two_zpow_add]
  have := log_le hx
  have h52 : (2 : ℚ) ^ (-53 : ℤ) = 2 ^ (-52 : ℤ) / 2 := by
    rw [show (-52 : ℤ) = -53 + 1 by norm_num, two_zpow_add]; norm_num
  rw [h52]
  have hp := two_zpow_pos (-52)
  nlinarith

/-- doubles below one are at most `1 - 2^-53` -/
theorem rep_lt_one {r : ℚ} (h : Rep r) (h1 : r < 1) : r ≤ 1 - 2 ^ (-53 : ℤ) := by
  by_contra hc
  rw [not_le] at hc
  have hp : (2 : ℚ) ^ (-53 : ℤ) = 1 / 9007199254740992 := by norm_num
  rw [hp] at hc
  have h0 : 0 < r := by linarith
  have hlog : Int.log 2 r = -1 := by
    have ha : -1 ≤ Int.log 2 r := (Int.zpow_le_iff_le_log (R := ℚ) (b := 2) (by norm_num) h0).1 (by norm_num; linarith)
    have hb : Int.log 2 r < 0 := by
      rw [← two_zpow_lt_iff]
      exact (log_le h0).trans_lt (by simpa using h1)
    omega
  have hE : expo r = -53 := by unfold expo; rw [abs_of_pos h0, hlog]; norm_num
  obtain ⟨n, hn⟩ := h.grid
  rw [hE] at hn
  have h53 := two_zpow_pos (-53)
  have hone : (1 : ℚ) = ((2 ^ 53 : ℤ) : ℚ) * 2 ^ (-53 : ℤ) := by norm_num
  have hu : n < 2 ^ 53 := by
    have : (n : ℚ) < ((2 ^ 53 : ℤ) : ℚ) := lt_of_mul_lt_mul_right (by rw [← hn, ← hone]; exact h1) h53.le
    exact_mod_cast this
  have hl : 2 ^ 53 - 1 < n := by
    have : (((2 ^ 53 - 1 : ℤ)) : ℚ) < n := lt_of_mul_lt_mul_right (a := (2 : ℚ) ^ (-53 : ℤ)) (by
      rw [← hn, hp]
      push_cast
      linarith) h53.le
    exact_mod_cast this
  omega

/-- **A normal number times a double below one** is rounded to something smaller, if it is not the smallest normal number. -/
theorem rnd_lt {A x : ℚ} (hA : Rep A) (h0 : (2 : ℚ) ^ (-1022 : ℤ) < A) (hx : x ≤ A * (1 - 2 ^ (-53 : ℤ))) : rnd x < A := by
  have hApos : 0 < A := (two_zpow_pos _).trans h0
  have hl : -1022 ≤ Int.log 2 A := (Int.zpow_le_iff_le_log (R := ℚ) (b := 2) (by norm_num) hApos).1 (by exact_mod_cast h0.le)
  have hE : expo A = Int.log 2 A - 52 := by unfold expo; rw [abs_of_pos hApos]; omega
  obtain ⟨M, hM⟩ := hA.grid
  have hp := two_zpow_pos (expo A)
  have hk : (2 : ℚ) ^ Int.log 2 A = ((2 ^ 52 : ℤ) : ℚ) * 2 ^ expo A := by
    rw [hE, ← two_zpow_nat, ← two_zpow_add]
    congr 1
    push_cast
    omega
  have hMl : 2 ^ 52 ≤ M := by
    have h1 := log_le hApos
    rw [hk, hM, ← hM] at h1
    have : ((2 ^ 52 : ℤ) : ℚ) ≤ M := le_of_mul_le_mul_right (by rw [← hM]; exact h1) hp
    exact_mod_cast this
  have hMu : M ≤ 2 ^ 53 := by
    have h1 := (lt_log A).le
    rw [two_zpow_add, hk] at h1
    have : (M : ℚ) ≤ ((2 ^ 53 : ℤ) : ℚ) := le_of_mul_le_mul_right (a := (2 : ℚ) ^ expo A) (by
      rw [← hM]
      refine h1.trans (le_of_eq ?_)
      push_cast
      ring) hp
    exact_mod_cast this
  by_cases hm : M = 2 ^ 52
  · have hA2 : A = 2 ^ Int.log 2 A := by rw [hk, ← hm]; exact hM
    have hstrict : -1022 < Int.log 2 A := by
      rw [hA2] at h0
      exact two_zpow_lt_iff.1 h0
    have hrep : Rep (((2 ^ 53 - 1 : ℤ) : ℚ) * 2 ^ (expo A - 1)) := ⟨_, _, by omega, by norm_num, rfl⟩
    have hval : A * (1 - 2 ^ (-53 : ℤ)) = ((2 ^ 53 - 1 : ℤ) : ℚ) * 2 ^ (expo A - 1) := by
      conv_lhs => rw [hM, hm]
      rw [show expo A - 1 = expo A + (-1) by ring, two_zpow_add]
      push_cast
      norm_num
      ring
    refine (rnd_le hrep (by rw [← hval]; exact hx)).trans_lt ?_
    rw [← hval]
    have : (0 : ℚ) < 2 ^ (-53 : ℤ) := two_zpow_pos _
    nlinarith
  · have hM1 : 2 ^ 52 + 1 ≤ M := by omega
    have hrep : Rep (((M - 1 : ℤ) : ℚ) * 2 ^ expo A) := ⟨_, _, expo_ge A, by rw [abs_of_nonneg (by omega)]; omega, rfl⟩
    have hlt : ((M - 1 : ℤ) : ℚ) * 2 ^ expo A < A := by
      conv_rhs => rw [hM]
      push_cast
      nlinarith
    by_cases hxp : x ≤ ((M - 1 : ℤ) : ℚ) * 2 ^ expo A
    · exact (rnd_le hrep hxp).trans_lt hlt
    · rw [not_le] at hxp
      have hxA : x < A := by
        have : (0 : ℚ) < 2 ^ (-53 : ℤ) := two_zpow_pos _
        nlinarith
      have hx0 : 0 < x := by
        refine lt_of_le_of_lt ?_ hxp
        have : (0 : ℚ) ≤ ((M - 1 : ℤ) : ℚ) := by exact_mod_cast (by omega : (0 : ℤ) ≤ M - 1)
        positivity
      have hlx : Int.log 2 A ≤ Int.log 2 x := by
        refine (Int.zpow_le_iff_le_log (R := ℚ) (b := 2) (by norm_num) hx0).1 ?_
        push_cast
        refine le_trans ?_ hxp.le
        rw [hk]
        refine mul_le_mul_of_nonneg_right ?_ hp.le
        exact_mod_cast (by omega : (2 ^ 52 : ℤ) ≤ M - 1)
      have hEx : expo x = expo A := le_antisymm (expo_mono hx0 hxA.le) (by unfold expo; rw [abs_of_pos hx0, abs_of_pos hApos]; omega)
      have hne : rne (x / 2 ^ expo x) ≤ M - 1 := by
        refine rne_le_of_lt_half ?_
        rw [hEx, div_lt_iff₀ hp]
        refine lt_of_le_of_lt hx ?_
        conv_lhs => rw [hM]
        have h1 : (M : ℚ) * (1 - 2 ^ (-53 : ℤ)) < ((M - 1 : ℤ) : ℚ) + 1 / 2 := by
          have : ((2 ^ 52 + 1 : ℤ) : ℚ) ≤ M := by exact_mod_cast hM1
          push_cast at this ⊢
          norm_num
          linarith
        nlinarith
      refine lt_of_le_of_lt ?_ hlt
      unfold rnd
      rw [hEx] at hne ⊢
      exact mul_le_mul_of_nonneg_right (by exact_mod_cast hne) hp.le

/-- results that do not exceed a double are doubles -/
theorem isDouble_rnd {x b : ℚ} (hb : IsDouble b) (h : |x| ≤ |b|) : IsDouble (rnd x) := by
  refine ⟨rep_rnd x, lt_of_le_of_lt ?_ hb.2⟩
  have hr : Rep |b| := by
    rcases abs_choice b with h1 | h1 <;> rw [h1]
    · exact hb.1
    · exact rep_neg hb.1
  rw [abs_le] at h ⊢
  refine ⟨le_rnd (rep_neg hr) h.1, rnd_le hr h.2⟩

theorem fin_eq {x : ℚ} (h : IsDouble (rnd x)) : fin x = some (rnd x) := if_pos h.2

theorem fin_some {x y : ℚ} (h : fin x = some y) : y = rnd x ∧ IsDouble y := by
  unfold fin at h
  split at h
  · rename_i hlt
    cases h
    exact ⟨rfl, rep_rnd x, hlt⟩
  · cases h

theorem one_lt_top : (1 : ℚ) < 2 ^ 1024 := one_lt_pow₀ (by norm_num) (by norm_num)

/-- small numbers are finite -/
theorem isDouble_small {x : ℚ} (h : Rep x) (h1 : |x| ≤ 1) : IsDouble x := ⟨h, lt_of_le_of_lt h1 one_lt_top⟩

/-! ### Examples -/

/-- one third is rounded to a number with 53 digits, and a tie goes to the even digit -/
example : rne (5 / 2) = 2 ∧ rne (7 / 2) = 4 ∧ rne (-5 / 2) = -2 ∧ rne (8 / 3) = 3 := by decide +kernel

example : rnd (1 / 3) = 6004799503160661 * 2 ^ (-54 : ℤ) ∧ rnd (2 ^ 53 + 1) = 2 ^ 53 ∧ rnd (2 ^ 53 + 3) = 2 ^ 53 + 4 ∧
    rnd (3 * 2 ^ (-1076 : ℤ)) = 2 ^ (-1074 : ℤ) := by decide +kernel

end Verif.Binary64
