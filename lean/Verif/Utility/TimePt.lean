import Mathlib.Data.Rat.Floor
import Mathlib.Data.Int.ModEq
import Mathlib.Tactic.Ring
import Mathlib.Tactic.Linarith
import Mathlib.Tactic.Positivity

/-!
# Model of `time_pt` and `time_segment`

Source: `/repo/c++/triqs/utility/time_pt.hpp`. Only the tick number `n` is modelled; `beta` is carried
from the first operand and `val` is a floating-point image of `n`.
-/

namespace Verif.TimePt

/-! ## Model -/

/-- member `n`, a `uint64_t`, time_pt.hpp:105. -/
abbrev Tick := BitVec 64

/-- `Nmax = numeric_limits<uint64_t>::max()`, time_pt.hpp:102. -/
def Nmax : Tick := BitVec.allOnes 64

def tmax (a b : Tick) : Tick := if a < b then b else a
def tmin (a b : Tick) : Tick := if b < a then b else a

/-- `wrapped` of `operator+`, time_pt.hpp:70. -/
def wrapped (a b : Tick) : Bool := decide ((Nmax - tmax a b) < tmin a b)

/-- `operator+`, time_pt.hpp:69-75. -/
def add (a b : Tick) : Tick :=
  if !(wrapped a b) then (a + b) % Nmax else ((a + b) + 1#64) % Nmax

/-- `operator-`, time_pt.hpp:76-79. -/
def sub (a b : Tick) : Tick := if a ≥ b then (a - b) % Nmax else Nmax - (b - a)

/-- unary minus, time_pt.hpp:82. -/
def neg (a : Tick) : Tick := Nmax - a

/-- `mult_by_int`, time_pt.hpp:88 (`size_t` factor, product modulo 2^64). -/
def multByInt (a b : Tick) : Tick := a * b

/-- `div_by_int`, time_pt.hpp:85; `none` for a zero divisor (undefined). -/
def divByInt (a b : Tick) : Option Tick := if b = 0#64 then none else some (a / b)

/-- `floor_div`, time_pt.hpp:91. -/
def floorDiv (a b : Tick) : Option Tick := if b = 0#64 then none else some (a / b)

/-- `make_time_pt`, time_pt.hpp:166-170. `static_cast<double>(Nmax)` is the double nearest to
`2^64 - 1`, that is `2^64`. The remaining floating-point operations are exact here. The conversion to
`uint64_t` truncates; `none` when the value does not fit (undefined) or the `EXPECTS` fails. -/
def makeTimePt (beta x : ℚ) : Option Tick :=
  if 0 ≤ x ∧ x ≤ beta then
    let v := (2 : ℚ) ^ 64 * min 1 (x / beta)
    if v < 2 ^ 64 then some (BitVec.ofInt 64 ⌊v⌋) else none
  else none

/-! ## Specification: the circle of `2^64 - 1` ticks -/

/-- number of ticks on the circle -/
def ticks : Int := 2 ^ 64 - 1

/-- position as an integer -/
def pos (a : Tick) : Int := a.toNat

/-! ## Proofs -/

theorem Nmax_toNat : Nmax.toNat = 2 ^ 64 - 1 := by decide +kernel

theorem le_Nmax (a : Tick) : a ≤ Nmax := by
  have := a.isLt
  rw [BitVec.le_def, Nmax_toNat]; omega

theorem toNat_Nmax_sub (a : Tick) : (Nmax - a).toNat = 2 ^ 64 - 1 - a.toNat := by
  rw [BitVec.toNat_sub_of_le (le_Nmax a), Nmax_toNat]

theorem pos_nonneg (a : Tick) : 0 ≤ pos a := by unfold pos; omega
theorem pos_le (a : Tick) : pos a ≤ ticks := by unfold pos ticks; have := a.isLt; omega

theorem wrapped_iff (a b : Tick) : wrapped a b = true ↔ 2 ^ 64 - 1 < a.toNat + b.toNat := by
  have ha := a.isLt
  have hb := b.isLt
  have h1 : (Nmax - tmax a b).toNat = 2 ^ 64 - 1 - (tmax a b).toNat := toNat_Nmax_sub _
  unfold wrapped
  rw [decide_eq_true_iff, BitVec.lt_def, h1]
  unfold tmax tmin
  simp only [BitVec.lt_def]
  split <;> split <;> omega

theorem pos_add (a b : Tick) : pos (add a b) = (pos a + pos b) % ticks := by
  have ha := a.isLt
  have hb := b.isLt
  have hw := wrapped_iff a b
  have h1 : (1#64).toNat = 1 := rfl
  unfold add pos ticks
  cases h : wrapped a b
  · have hn : ¬ (2 ^ 64 - 1 < a.toNat + b.toNat) := fun hc => by rw [hw.mpr hc] at h; cases h
    simp only [Bool.not_false, if_true, BitVec.toNat_umod, BitVec.toNat_add, Nmax_toNat]
    omega
  · have hn := hw.mp h
    simp only [Bool.not_true, Bool.false_eq_true, if_false, BitVec.toNat_umod, BitVec.toNat_add, Nmax_toNat, h1]
    omega

theorem pos_sub (a b : Tick) : pos (sub a b) = (pos a - pos b) % ticks := by
  have ha := a.isLt
  have hb := b.isLt
  unfold sub
  split
  · rename_i h
    have h' : b.toNat ≤ a.toNat := h
    unfold pos ticks
    rw [BitVec.toNat_umod, BitVec.toNat_sub_of_le h, Nmax_toNat, Int.natCast_emod, Int.natCast_sub h']
    rfl
  · rename_i h
    have h' : ¬ b.toNat ≤ a.toNat := h
    have h2 : a ≤ b := by rw [BitVec.le_def]; omega
    have e : (Nmax - (b - a)).toNat = 2 ^ 64 - 1 - (b.toNat - a.toNat) := by
      rw [toNat_Nmax_sub, BitVec.toNat_sub_of_le h2]
    unfold pos ticks
    rw [e]
    generalize a.toNat = x at *
    generalize b.toNat = y at *
    omega

theorem pos_neg (a : Tick) : pos (neg a) = ticks - pos a := by
  have ha := a.isLt
  unfold neg pos ticks
  rw [toNat_Nmax_sub]
  generalize a.toNat = x at *
  omega

theorem pos_injective {a b : Tick} (h : pos a = pos b) : a = b := by
  unfold pos at h; exact BitVec.eq_of_toNat_eq (by omega)

/-- **C41.** For all ticks: sum and difference are the sum and difference modulo the number of ticks
(hence in `[0, ticks)`), the negative is the negative modulo the number of ticks, addition is
commutative and associative, `a - b = a + (-b)`, and `(a - b) + b` is the point `a` of the circle;
it is `a` itself unless `a` is the upper end, which is identified with `0`. -/
theorem C41_circle_arithmetic (a b c : Tick) :
    pos (add a b) = (pos a + pos b) % ticks ∧
    pos (sub a b) = (pos a - pos b) % ticks ∧
    pos (neg a) ≡ - pos a [ZMOD ticks] ∧
    add a b = add b a ∧
    add (add a b) c = add a (add b c) ∧
    sub a b = add a (neg b) ∧
    pos (add (sub a b) b) = pos a % ticks ∧
    (pos a < ticks → add (sub a b) b = a) := by
  have hback : pos (add (sub a b) b) = pos a % ticks := by
    rw [pos_add, pos_sub, Int.emod_add_emod]; congr 1; ring
  refine ⟨pos_add a b, pos_sub a b, ?_, ?_, ?_, ?_, hback, ?_⟩
  · rw [pos_neg]; unfold Int.ModEq; rw [sub_eq_add_neg, Int.add_emod_left]
  · apply pos_injective; rw [pos_add, pos_add, add_comm]
  · apply pos_injective
    rw [pos_add, pos_add, pos_add, pos_add, Int.emod_add_emod, Int.add_emod_emod, add_assoc]
  · apply pos_injective
    rw [pos_sub, pos_add, pos_neg]
    have : pos a + (ticks - pos b) = pos a - pos b + ticks := by ring
    rw [this, Int.add_emod_right]
  · intro h
    apply pos_injective
    rw [hback, Int.emod_eq_of_lt (pos_nonneg a) h]

-- both branches of `+` and of `-` occur
example : wrapped (BitVec.ofNat 64 (2 ^ 63)) (BitVec.ofNat 64 (2 ^ 63 + 5)) = true ∧
    add (BitVec.ofNat 64 (2 ^ 63)) (BitVec.ofNat 64 (2 ^ 63 + 5)) = 6#64 ∧
    wrapped 3#64 4#64 = false ∧ sub 3#64 5#64 = Nmax - 2#64 ∧ pos 3#64 < ticks := by decide +kernel

/-- The negative of the lower end is the upper end, not `0`. -/
theorem C41_negative_of_zero : neg 0#64 = Nmax ∧ neg 0#64 ≠ 0#64 := by decide +kernel

/-- `k`-fold sum -/
def nTimes (a : Tick) : Nat → Tick
  | 0 => 0#64
  | k + 1 => add (nTimes a k) a

/-- **C69** (partial: the product must not reach the number of ticks; see the next theorem).
`mult_by_int` is repeated addition and `div_by_int` undoes it. -/
theorem C69_integer_multiples_partial (a : Tick) (k : Tick) (h : pos a * pos k < ticks) :
    multByInt a k = nTimes a k.toNat ∧
    (k ≠ 0#64 → divByInt (multByInt a k) k = some a) := by
  have hsum : ∀ j : Nat, pos a * j < ticks → pos (nTimes a j) = pos a * j := by
    intro j
    induction j with
    | zero => intro _; simp [nTimes, pos]
    | succ j ih =>
      intro hj
      have hj' : pos a * j ≤ pos a * (j + 1 : Nat) := by
        apply mul_le_mul_of_nonneg_left _ (pos_nonneg a); push_cast; omega
      have e : pos a * (j : Int) + pos a = pos a * (j + 1 : Nat) := by push_cast; ring
      rw [nTimes, pos_add, ih (by omega), e]
      exact Int.emod_eq_of_lt (mul_nonneg (pos_nonneg a) (by omega)) hj
  have hm : (multByInt a k).toNat = a.toNat * k.toNat := by
    unfold multByInt
    rw [BitVec.toNat_mul, Nat.mod_eq_of_lt]
    unfold pos ticks at h
    have h2 : ((a.toNat * k.toNat : Nat) : Int) < 2 ^ 64 - 1 := by push_cast; exact h
    omega
  constructor
  · apply pos_injective
    rw [hsum k.toNat h]
    unfold pos; rw [hm]; push_cast; rfl
  · intro hk
    have hk' : 0 < k.toNat := by
      rcases Nat.eq_zero_or_pos k.toNat with h0 | h0
      · exact absurd (BitVec.eq_of_toNat_eq (by simpa using h0)) hk
      · exact h0
    unfold divByInt
    rw [if_neg hk]
    congr 1
    apply BitVec.eq_of_toNat_eq
    rw [BitVec.toNat_udiv, hm, Nat.mul_div_cancel _ hk']

example : pos 1000#64 * pos 77#64 < ticks ∧ multByInt 1000#64 77#64 = 77000#64 := by decide +kernel

/-- **C69 fails** beyond one turn: twice the tick `2^63` is `1` on the circle, but `mult_by_int`
wraps modulo `2^64` and returns `0`. -/
theorem C69_fails_beyond_one_turn :
    nTimes (BitVec.ofNat 64 (2 ^ 63)) 2 = 1#64 ∧ multByInt (BitVec.ofNat 64 (2 ^ 63)) 2#64 = 0#64 := by decide +kernel

/-- **C70** (partial: `x < beta`; see the next theorem). Conversion from a real time is defined, is
at most one tick of a `2^64` grid below the exact position, and is monotone. -/
theorem C70_make_time_pt_partial (beta x y : ℚ) (hb : 0 < beta) (hx : 0 ≤ x) (hxy : x ≤ y) (hy : y < beta) :
    ∃ s t, makeTimePt beta x = some s ∧ makeTimePt beta y = some t ∧ pos s ≤ pos t ∧
      (pos s : ℚ) ≤ 2 ^ 64 * (x / beta) ∧ 2 ^ 64 * (x / beta) < pos s + 1 := by
  have one : ∀ z : ℚ, 0 ≤ z → z < beta → ∃ s, makeTimePt beta z = some s ∧ pos s = ⌊(2 : ℚ) ^ 64 * (z / beta)⌋ := by
    intro z hz hzb
    have hq : z / beta < 1 := (div_lt_one hb).mpr hzb
    have hq0 : 0 ≤ z / beta := div_nonneg hz hb.le
    have hv : (2 : ℚ) ^ 64 * (z / beta) < 2 ^ 64 := by nlinarith [pow_pos (show (0 : ℚ) < 2 by norm_num) 64]
    have hv0 : (0 : ℚ) ≤ 2 ^ 64 * (z / beta) := by positivity
    refine ⟨BitVec.ofInt 64 ⌊(2 : ℚ) ^ 64 * (z / beta)⌋, ?_, ?_⟩
    · unfold makeTimePt
      rw [if_pos ⟨hz, hzb.le⟩]
      simp only [min_eq_right hq.le, if_pos hv]
    · have h0 : 0 ≤ ⌊(2 : ℚ) ^ 64 * (z / beta)⌋ := Int.floor_nonneg.mpr hv0
      have h1 : ⌊(2 : ℚ) ^ 64 * (z / beta)⌋ < 2 ^ 64 := by
        rw [Int.floor_lt]; push_cast; exact hv
      unfold pos
      rw [BitVec.toNat_ofInt]
      generalize ⌊(2 : ℚ) ^ 64 * (z / beta)⌋ = n at *
      omega
  obtain ⟨s, hs, ps⟩ := one x hx (lt_of_le_of_lt hxy hy)
  obtain ⟨t, ht, pt⟩ := one y (hx.trans hxy) hy
  refine ⟨s, t, hs, ht, ?_, ?_, ?_⟩
  · rw [ps, pt]
    apply Int.floor_le_floor
    have : x / beta ≤ y / beta := div_le_div_of_nonneg_right hxy hb.le
    nlinarith [pow_pos (show (0 : ℚ) < 2 by norm_num) 64]
  · rw [ps]; exact Int.floor_le _
  · rw [ps]; exact Int.lt_floor_add_one _

example : makeTimePt 10 (5 / 2) = some (BitVec.ofNat 64 (2 ^ 62)) := by decide +kernel

/-- **C70 fails** at the upper end, which the precondition admits: `2^64` does not fit `uint64_t`. -/
theorem C70_upper_end_undefined (beta : ℚ) (hb : 0 < beta) : makeTimePt beta beta = none := by
  unfold makeTimePt
  rw [if_pos ⟨hb.le, le_refl _⟩, div_self hb.ne']
  simp

end Verif.TimePt
