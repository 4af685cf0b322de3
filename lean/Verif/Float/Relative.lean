import Verif.Float.Binary64
import Mathlib.Tactic.FieldSimp
import Mathlib.Tactic.Positivity
import Mathlib.Algebra.Order.Field.Basic
import Mathlib.Algebra.Order.Ring.Pow

/-!
# Relative errors of chains of operations in double precision

`Rel k x y` says that `y` is computed from the positive number `x` with `k` roundings; the form is symmetric, so that it passes to products and inverses.
-/

namespace Verif.Binary64

/-- one minus the unit of rounding, `2^-53` -/
def c53 : ℚ := 1 - 1 / 9007199254740992

/-- `y` is `x` up to `k` roundings -/
def Rel (k : ℕ) (x y : ℚ) : Prop := x * c53 ^ k ≤ y ∧ y * c53 ^ k ≤ x

theorem c53_pos : 0 < c53 := by norm_num [c53]

theorem c53_pow_pos (k : ℕ) : 0 < c53 ^ k := pow_pos c53_pos k

theorem c53_le : c53 ≤ 1 := by norm_num [c53]

theorem Rel.refl (x : ℚ) : Rel 0 x x := by simp [Rel]

theorem Rel.trans {j k : ℕ} {x y z : ℚ} (h : Rel j x y) (h' : Rel k y z) : Rel (j + k) x z := by
  constructor
  · calc x * c53 ^ (j + k) = x * c53 ^ j * c53 ^ k := by rw [pow_add]; ring
      _ ≤ y * c53 ^ k := mul_le_mul_of_nonneg_right h.1 (c53_pow_pos k).le
      _ ≤ z := h'.1
  · calc z * c53 ^ (j + k) = z * c53 ^ k * c53 ^ j := by rw [pow_add]; ring
      _ ≤ y * c53 ^ j := mul_le_mul_of_nonneg_right h'.2 (c53_pow_pos j).le
      _ ≤ x := h.2

theorem Rel.pos {k : ℕ} {x y : ℚ} (h : Rel k x y) (hx : 0 < x) : 0 < y := lt_of_lt_of_le (mul_pos hx (c53_pow_pos k)) h.1

theorem Rel.nonneg {k : ℕ} {x y : ℚ} (h : Rel k x y) (hx : 0 ≤ x) : 0 ≤ y := le_trans (mul_nonneg hx (c53_pow_pos k).le) h.1

theorem Rel.mul {j k : ℕ} {x y x' y' : ℚ} (h : Rel j x y) (h' : Rel k x' y') (hx : 0 ≤ x) (hx' : 0 ≤ x') : Rel (j + k) (x * x') (y * y') := by
  have hy := h.nonneg hx
  have hy' := h'.nonneg hx'
  have p1 := (c53_pow_pos j).le
  have p2 := (c53_pow_pos k).le
  constructor
  · calc x * x' * c53 ^ (j + k) = (x * c53 ^ j) * (x' * c53 ^ k) := by rw [pow_add]; ring
      _ ≤ y * y' := mul_le_mul h.1 h'.1 (mul_nonneg hx' p2) hy
  · calc y * y' * c53 ^ (j + k) = (y * c53 ^ j) * (y' * c53 ^ k) := by rw [pow_add]; ring
      _ ≤ x * x' := mul_le_mul h.2 h'.2 (mul_nonneg hy' p2) hx

theorem Rel.inv {k : ℕ} {x y : ℚ} (h : Rel k x y) (hx : 0 < x) : Rel k (1 / x) (1 / y) := by
  have hy := h.pos hx
  constructor
  · rw [div_mul_eq_mul_div, one_mul, div_le_div_iff₀ hx hy]
    linarith [h.2, mul_comm y (c53 ^ k)]
  · rw [div_mul_eq_mul_div, one_mul, div_le_div_iff₀ hy hx]
    linarith [h.1, mul_comm x (c53 ^ k)]

theorem Rel.div {j k : ℕ} {x y x' y' : ℚ} (h : Rel j x y) (h' : Rel k x' y') (hx : 0 ≤ x) (hx' : 0 < x') : Rel (j + k) (x / x') (y / y') := by
  have := h.mul (h'.inv hx') hx (one_div_pos.2 hx').le
  rwa [mul_one_div, mul_one_div] at this

/-- one rounding of a number that is not subnormal -/
theorem rel_rnd {x : ℚ} (h : (2 : ℚ) ^ (-1022 : ℤ) ≤ x) : Rel 1 x (rnd x) := by
  have hx : 0 < x := (two_zpow_pos _).trans_le h
  have h1 := rnd_rel (x := x) (by rwa [abs_of_pos hx])
  rw [abs_of_pos hx, show (2 : ℚ) ^ (-53 : ℤ) = 1 / 9007199254740992 by norm_num, abs_le] at h1
  unfold Rel c53
  constructor
  · linarith [h1.1]
  · linarith [h1.2]

/-- the difference of two doubles is a double or not subnormal -/
theorem sub_cases {x y : ℚ} (hx : Rep x) (hy : Rep y) (h : y ≤ x) : Rep (x - y) ∨ (2 : ℚ) ^ (-1022 : ℤ) ≤ x - y := by
  by_cases hn : (2 : ℚ) ^ (-1022 : ℤ) ≤ x - y
  · exact Or.inr hn
  · have key : ∀ {z : ℚ}, Rep z → ∃ k : ℤ, z = k * 2 ^ (-1074 : ℤ) := by
      rintro z ⟨m, e, he, _, rfl⟩
      obtain ⟨k, hk⟩ := zpow_int he
      exact ⟨m * k, by rw [hk]; push_cast; ring⟩
    obtain ⟨k, hk⟩ := key hx
    obtain ⟨l, hl⟩ := key hy
    have hd : x - y = ((k - l : ℤ) : ℚ) * 2 ^ (-1074 : ℤ) := by rw [hk, hl]; push_cast; ring
    refine Or.inl ⟨k - l, -1074, le_refl _, ?_, hd⟩
    rw [not_le, hd, show (-1022 : ℤ) = 52 + -1074 by norm_num, two_zpow_add] at hn
    have h1 := lt_of_mul_lt_mul_right hn (two_zpow_pos _).le
    have h2 : (k - l : ℤ) < 2 ^ 52 := by
      have : ((2 : ℚ) ^ (52 : ℤ)) = ((2 ^ 52 : ℤ) : ℚ) := by norm_num
      rw [this] at h1
      exact_mod_cast h1
    have h3 : 0 ≤ k - l := by
      have : 0 ≤ ((k - l : ℤ) : ℚ) * 2 ^ (-1074 : ℤ) := by rw [← hd]; linarith
      exact_mod_cast nonneg_of_mul_nonneg_left this (two_zpow_pos _)
    rw [abs_of_nonneg h3]
    omega

/-- differences of doubles have a small relative error even if they are subnormal -/
theorem rel_sub {x y : ℚ} (hx : Rep x) (hy : Rep y) (h : y ≤ x) : Rel 1 (x - y) (rnd (x - y)) := by
  rcases sub_cases hx hy h with hrep | hn
  · rw [rnd_rep hrep]
    have h0 : 0 ≤ x - y := by linarith
    have := c53_le
    have := c53_pos
    constructor <;> rw [pow_one] <;> nlinarith
  · exact rel_rnd hn

/-- sums of doubles have a small relative error even if they are subnormal -/
theorem rel_add {x y : ℚ} (hx : Rep x) (hy : Rep y) (h : 0 ≤ x + y) : Rel 1 (x + y) (rnd (x + y)) := by
  have := rel_sub hx (rep_neg hy) (by linarith)
  rwa [sub_neg_eq_add] at this

/-- an exact positive number is added -/
theorem Rel.add {k : ℕ} {x y p : ℚ} (h : Rel k x y) (hp : 0 ≤ p) : Rel k (x + p) (y + p) := by
  have h1 : c53 ^ k ≤ 1 := pow_le_one₀ c53_pos.le c53_le
  have h2 : p * c53 ^ k ≤ p := mul_le_of_le_one_right hp h1
  constructor
  · rw [add_mul]; linarith [h.1]
  · rw [add_mul]; linarith [h.2]

/-- many roundings -/
theorem Rel.err {k : ℕ} {x y : ℚ} (h : Rel k x y) (hk : k ≤ 2 ^ 51) (hx : 0 ≤ x) : |y - x| ≤ x * (2 * k / 9007199254740992) := by
  have hb : 1 - (k : ℚ) / 9007199254740992 ≤ c53 ^ k := by
    have := one_add_mul_le_pow (a := -(1 : ℚ) / 9007199254740992) (by norm_num) k
    unfold c53
    calc 1 - (k : ℚ) / 9007199254740992 = 1 + (k : ℚ) * (-1 / 9007199254740992) := by ring
      _ ≤ _ := this
      _ = _ := by norm_num
  have hkq : (k : ℚ) ≤ 2251799813685248 := by exact_mod_cast (by omega : k ≤ 2251799813685248)
  have hk0 : (0 : ℚ) ≤ k := by positivity
  have hy := h.nonneg hx
  rw [abs_le]
  constructor
  · have := h.1
    have : x * (1 - (k : ℚ) / 9007199254740992) ≤ y := le_trans (mul_le_mul_of_nonneg_left hb hx) h.1
    nlinarith [mul_nonneg hx hk0]
  · have h2 : y * (1 - (k : ℚ) / 9007199254740992) ≤ x := le_trans (mul_le_mul_of_nonneg_left hb hy) h.2
    have hc : (1 : ℚ) ≤ (1 - (k : ℚ) / 9007199254740992) * (1 + 2 * k / 9007199254740992) := by
      have e : (1 - (k : ℚ) / 9007199254740992) * (1 + 2 * k / 9007199254740992) = 1 + k / 9007199254740992 * (1 - 2 * k / 9007199254740992) := by ring
      rw [e]
      have : (0 : ℚ) ≤ k / 9007199254740992 * (1 - 2 * k / 9007199254740992) := mul_nonneg (by positivity) (by linarith)
      linarith
    have hp : (0 : ℚ) ≤ 1 + 2 * k / 9007199254740992 := by positivity
    have h3 := mul_le_mul_of_nonneg_right h2 hp
    have h4 := mul_le_mul_of_nonneg_left hc hy
    nlinarith

/-- the error of one rounding, subnormal numbers included -/
theorem rnd_err_abs (x : ℚ) : |rnd x - x| ≤ |x| * (1 / 9007199254740992) + 2 ^ (-1074 : ℤ) := by
  by_cases hn : (2 : ℚ) ^ (-1022 : ℤ) ≤ |x|
  · have := rnd_rel hn
    rw [show (2 : ℚ) ^ (-53 : ℤ) = 1 / 9007199254740992 by norm_num] at this
    linarith [two_zpow_pos (-1074)]
  · by_cases h0 : x = 0
    · subst h0
      rw [rnd_zero]
      simpa using (two_zpow_pos (-1074)).le
    have he : expo x = -1074 := by
      have hpos : 0 < |x| := abs_pos.2 h0
      have : Int.log 2 |x| < -1022 := by
        rw [not_le] at hn
        rw [← two_zpow_lt_iff]
        exact (log_le hpos).trans_lt hn
      unfold expo
      omega
    have h := rnd_err x
    rw [he] at h
    have := abs_nonneg x
    have := two_zpow_pos (-1074)
    linarith

end Verif.Binary64
