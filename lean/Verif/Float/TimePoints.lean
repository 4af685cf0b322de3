import Verif.Float.Random
import Verif.Utility.TimePt

/-!
# Time points in double precision

The conversions between points of the grid of `2^64` positions and doubles, and the random points, with the rounding of the machine.

Source: `/repo/c++/triqs/utility/time_pt.hpp` (59, 94, 102, 147-154, 166-170).
-/

namespace Verif.TimeDouble

open Binary64 RandomDouble TimePt

/-! ## Model -/

/-- `static_cast<double>(Nmax)`, time_pt.hpp:59 and 168 -/
def nmax : ℚ := rnd (2 ^ 64 - 1)

/-- `val`, time_pt.hpp:59, which is the cast to double, time_pt.hpp:94 -/
def value (beta : ℚ) (n : Tick) : ℚ := rnd (beta * rnd (rnd n.toNat / nmax))

/-- `make_time_pt`, time_pt.hpp:166-170; `none` when `EXPECTS` fails or the conversion to `uint64_t` is undefined -/
def make (beta x : ℚ) : Option Tick :=
  if 0 ≤ x ∧ x ≤ beta then
    let v := rnd (nmax * min 1 (rnd (x / beta)))
    if v < 2 ^ 64 then some (BitVec.ofInt 64 ⌊v⌋) else none
  else none

/-- `get_random_pt(rng, tp)`, time_pt.hpp:148 -/
def randomBelow (tp : Tick) (r : ℚ) : Tick := BitVec.ofInt 64 (randInt tp.toNat r)

/-- `get_random_pt(rng)`, time_pt.hpp:151 -/
def random (r : ℚ) : Tick := BitVec.ofInt 64 (randInt Nmax.toNat r)

/-- `get_random_pt(rng, tp1, tp2)`, time_pt.hpp:154, modulo `2^64` -/
def randomIn (tp1 tp2 : Tick) (r : ℚ) : Tick := BitVec.ofInt 64 (randInt (tp2 - tp1).toNat r) + tp1

/-! ## Proofs -/

theorem nmax_eq : nmax = 2 ^ 64 := by unfold nmax; decide +kernel

theorem toNat_ofInt {z : ℤ} (h0 : 0 ≤ z) (h1 : z < 2 ^ 64) : ((BitVec.ofInt 64 z).toNat : ℤ) = z := by
  rw [BitVec.toNat_ofInt]
  have : z % ((2 ^ 64 : ℕ) : ℤ) = z := Int.emod_eq_of_lt h0 (by push_cast; exact h1)
  rw [this]
  omega

theorem rep_scale {x : ℚ} (h : Rep x) (k : ℕ) : Rep (2 ^ (k : ℤ) * x) := by
  obtain ⟨m, e, he, hm, rfl⟩ := h
  exact ⟨m, e + k, by omega, hm, by rw [two_zpow_add]; ring⟩

/-- a rounded integer of 64 digits divided by `2^64` needs no rounding -/
theorem rep_div (n : ℕ) : Rep (rnd n / 2 ^ 64) := by
  by_cases h0 : n = 0
  · subst h0
    rw [Nat.cast_zero, rnd_zero, zero_div]
    exact rep_zero
  have hpos : (0 : ℚ) < n := by exact_mod_cast Nat.pos_of_ne_zero h0
  have h1 : (1 : ℚ) ≤ n := by exact_mod_cast Nat.pos_of_ne_zero h0
  obtain ⟨m, e, he, hm, hx⟩ := rep_rnd (n : ℚ)
  have hE : -52 ≤ expo (n : ℚ) := by
    unfold expo
    rw [abs_of_pos hpos]
    have : 0 ≤ Int.log 2 (n : ℚ) := (Int.zpow_le_iff_le_log (R := ℚ) (b := 2) (by norm_num) hpos).1 (by simpa using h1)
    omega
  have hr := rep_rnd (n : ℚ)
  refine ⟨rne ((n : ℚ) / 2 ^ expo (n : ℚ)), expo (n : ℚ) + -64, by omega, ?_, ?_⟩
  · have hb : |(n : ℚ)| ≤ ((2 ^ 53 : ℤ) : ℚ) * 2 ^ expo (n : ℚ) := by
      refine (lt_log |(n : ℚ)|).le.trans ?_
      rw [← two_zpow_nat, ← two_zpow_add]
      refine two_zpow_le ?_
      have : Int.log 2 |(n : ℚ)| - 52 ≤ expo (n : ℚ) := le_max_right _ _
      push_cast
      omega
    rw [abs_of_pos hpos] at hb
    have h2 : rne ((n : ℚ) / 2 ^ expo (n : ℚ)) ≤ 2 ^ 53 := rne_le (by rw [div_le_iff₀ (two_zpow_pos _)]; exact hb)
    have h3 : 0 ≤ rne ((n : ℚ) / 2 ^ expo (n : ℚ)) := le_rne (by push_cast; exact div_nonneg hpos.le (two_zpow_pos _).le)
    rw [abs_of_nonneg h3]
    exact h2
  · rw [two_zpow_add, ← mul_assoc]
    unfold rnd
    norm_num
    ring

theorem value_eq (beta : ℚ) (n : Tick) : value beta n = rnd (beta * (rnd n.toNat / 2 ^ 64)) := by
  unfold value
  rw [nmax_eq, rnd_rep (rep_div _)]

theorem ratio_le (n : Tick) : rnd (n.toNat : ℚ) / 2 ^ 64 ≤ 1 := by
  rw [div_le_one (by norm_num)]
  refine rnd_le ?_ ?_
  · exact_mod_cast rep_zpow (e := (64 : ℕ)) (by norm_num)
  · have := n.isLt
    exact_mod_cast this.le

theorem ratio_nonneg (n : Tick) : 0 ≤ rnd (n.toNat : ℚ) / 2 ^ 64 := div_nonneg (rnd_nonneg (by positivity)) (by norm_num)

/-- **C175, the values of time points** are doubles between zero and `beta`, in the order of the points, zero at the lower end and `beta` at the upper end. -/
theorem C175_value (beta : ℚ) (hb : IsDouble beta) (h0 : 0 < beta) (n m : Tick) :
    IsDouble (value beta n) ∧ 0 ≤ value beta n ∧ value beta n ≤ beta ∧ (n ≤ m → value beta n ≤ value beta m) ∧ value beta 0#64 = 0 ∧ value beta Nmax = beta := by
  have hle : beta * (rnd n.toNat / 2 ^ 64) ≤ beta := by nlinarith [ratio_le n]
  have hge : 0 ≤ beta * (rnd n.toNat / 2 ^ 64) := mul_nonneg h0.le (ratio_nonneg n)
  refine ⟨?_, ?_, ?_, ?_, ?_, ?_⟩
  · rw [value_eq]
    exact isDouble_rnd hb (by rwa [abs_of_nonneg hge, abs_of_pos h0])
  · rw [value_eq]; exact rnd_nonneg hge
  · rw [value_eq]; exact rnd_le hb.1 hle
  · intro h
    rw [value_eq, value_eq]
    refine rnd_mono (mul_le_mul_of_nonneg_left (div_le_div_of_nonneg_right (rnd_mono ?_) (by norm_num)) h0.le)
    exact_mod_cast h
  · rw [value_eq]
    simp [rnd_zero]
  · rw [value_eq, Nmax_toNat]
    have : rnd ((2 ^ 64 - 1 : ℕ) : ℚ) = 2 ^ 64 := by decide +kernel
    rw [this, div_self (by norm_num), mul_one, rnd_rep hb.1]

/-- **C175, different points may have the same value**, which is why points are compared and not their values: the point before `beta` has the value `beta`. -/
theorem C175_value_not_injective (beta : ℚ) (hb : IsDouble beta) : value beta (Nmax - 1#64) = beta ∧ Nmax - 1#64 < Nmax := by
  refine ⟨?_, by decide⟩
  rw [value_eq]
  have : rnd ((Nmax - 1#64).toNat : ℚ) = 2 ^ 64 := by decide +kernel
  rw [this, div_self (by norm_num), mul_one, rnd_rep hb.1]

/-- **C175, random points** lie in the interval that is asked for, if it is not empty, as points of the grid. -/
theorem C175_random (r : ℚ) (hr : Draw r) :
    random r < Nmax ∧ (∀ tp, 0#64 < tp → randomBelow tp r < tp) ∧ (∀ tp1 tp2, tp1 < tp2 → tp1 ≤ randomIn tp1 tp2 r ∧ randomIn tp1 tp2 r < tp2) := by
  have key : ∀ i : ℕ, 1 ≤ i → i < 2 ^ 64 → ((BitVec.ofInt 64 (randInt i r)).toNat : ℤ) = randInt i r := fun i hi h64 => by
    have h := C174_integer i hi r hr
    exact toNat_ofInt h.1 (lt_trans h.2 (by exact_mod_cast h64))
  refine ⟨?_, ?_, ?_⟩
  · have h := C174_integer Nmax.toNat (by rw [Nmax_toNat]; norm_num) r hr
    have h2 := key Nmax.toNat (by rw [Nmax_toNat]; norm_num) Nmax.isLt
    rw [BitVec.lt_def]
    unfold random
    omega
  · intro tp htp
    have h1 : 1 ≤ tp.toNat := by
      rw [BitVec.lt_def] at htp
      have h0 : (0#64).toNat = 0 := rfl
      omega
    have h := C174_integer tp.toNat h1 r hr
    have h2 := key tp.toNat h1 tp.isLt
    rw [BitVec.lt_def]
    unfold randomBelow
    omega
  · intro tp1 tp2 hlt
    rw [BitVec.lt_def] at hlt
    have hs : (tp2 - tp1).toNat = tp2.toNat - tp1.toNat := BitVec.toNat_sub_of_le (by rw [BitVec.le_def]; omega)
    have h1 : 1 ≤ (tp2 - tp1).toNat := by omega
    have h := C174_integer (tp2 - tp1).toNat h1 r hr
    have h2 := key (tp2 - tp1).toNat h1 (tp2 - tp1).isLt
    have ha : (randomIn tp1 tp2 r).toNat = (BitVec.ofInt 64 (randInt (tp2 - tp1).toNat r)).toNat + tp1.toNat := by
      unfold randomIn
      rw [BitVec.toNat_add, Nat.mod_eq_of_lt]
      have := tp2.isLt
      omega
    rw [BitVec.le_def, BitVec.lt_def, ha]
    omega

/-- **C175, the value of a random point** is below `beta` for every normal `beta` (except the smallest one), although not all points before the last one have
values below `beta`. -/
theorem C175_random_value (beta : ℚ) (hb : IsDouble beta) (h0 : (2 : ℚ) ^ (-1022 : ℤ) < beta) (r : ℚ) (hr : Draw r) : value beta (random r) < beta := by
  have hb0 : 0 < beta := (two_zpow_pos _).trans h0
  have hz := C174_integer Nmax.toNat (by rw [Nmax_toNat]; norm_num) r hr
  have hn : ((random r).toNat : ℤ) = randInt Nmax.toNat r := toNat_ofInt hz.1 (lt_trans hz.2 (by rw [Nmax_toNat]; norm_num))
  rw [value_eq]
  refine rnd_lt hb.1 h0 (mul_le_mul_of_nonneg_left ?_ hb0.le)
  rw [div_le_iff₀ (by norm_num)]
  have hrep : Rep ((1 - 2 ^ (-53 : ℤ)) * 2 ^ 64) := ⟨2 ^ 53 - 1, 11, by norm_num, by norm_num, by norm_num⟩
  refine rnd_le hrep ?_
  have h1 : ((random r).toNat : ℚ) = ((randInt Nmax.toNat r : ℤ) : ℚ) := by exact_mod_cast hn
  rw [h1]
  have h2 : randInt Nmax.toNat r = ⌊rnd (rnd (Nmax.toNat : ℚ) * r)⌋ := by
    unfold randInt
    rw [if_neg (by rw [Nmax_toNat]; norm_num)]
  rw [h2]
  refine (Int.floor_le _).trans (rnd_le hrep ?_)
  have h3 : rnd (Nmax.toNat : ℚ) = 2 ^ 64 := by decide +kernel
  rw [h3]
  have := rep_lt_one hr.1.1 hr.2.2
  nlinarith

/-- **doubles in their order**: of two different doubles the smaller one is at most `1 - 2^-53` times the larger one -/
theorem rep_lt {x b : ℚ} (hx : Rep x) (hb : Rep b) (h0 : 0 < b) (h : x < b) : x ≤ b * (1 - 2 ^ (-53 : ℤ)) := by
  have h53 : (2 : ℚ) ^ (-53 : ℤ) = 1 / 9007199254740992 := by norm_num
  by_cases hh : x ≤ b / 2
  · rw [h53]; linarith
  rw [not_le] at hh
  have hx0 : 0 < x := by linarith
  obtain ⟨M, hM⟩ := hb.grid
  obtain ⟨k, hk⟩ := hx.grid
  have hp := two_zpow_pos (expo b)
  have hMpos : 0 < M := by
    have : (0 : ℚ) < M := pos_of_mul_pos_left (hM ▸ h0) hp.le
    exact_mod_cast this
  have hMu : M ≤ 2 ^ 53 := by
    have h1 := (lt_log b).le
    have h2 : Int.log 2 b - 52 ≤ expo b := by unfold expo; rw [abs_of_pos h0]; exact le_max_right _ _
    have : (M : ℚ) ≤ ((2 ^ 53 : ℤ) : ℚ) := le_of_mul_le_mul_right (a := (2 : ℚ) ^ expo b) (by
      rw [← hM, ← two_zpow_nat, ← two_zpow_add]
      refine h1.trans (two_zpow_le ?_)
      push_cast
      omega) hp
    exact_mod_cast this
  have hMq : (M : ℚ) ≤ 9007199254740992 := by exact_mod_cast hMu
  have hlog : Int.log 2 b - 1 ≤ Int.log 2 x := by
    refine (Int.zpow_le_iff_le_log (R := ℚ) (b := 2) (by norm_num) hx0).1 ?_
    push_cast
    have := log_le h0
    rw [show Int.log 2 b - 1 = Int.log 2 b + -1 by ring, two_zpow_add]
    norm_num
    linarith
  by_cases hE : expo b ≤ expo x
  · -- both are on the grid of `b`
    obtain ⟨l, hl⟩ := zpow_int hE
    have hxl : x = ((k * l : ℤ) : ℚ) * 2 ^ expo b := by
      conv_lhs => rw [hk, hl]
      push_cast
      ring
    have hlt : k * l ≤ M - 1 := by
      have : ((k * l : ℤ) : ℚ) < M := lt_of_mul_lt_mul_right (a := (2 : ℚ) ^ expo b) (by rw [← hxl, ← hM]; exact h) hp.le
      have : k * l < M := by exact_mod_cast this
      omega
    have hlq : ((k * l : ℤ) : ℚ) ≤ M - 1 := by exact_mod_cast hlt
    rw [hxl]
    have hMb : b * (1 - 2 ^ (-53 : ℤ)) = ((M : ℚ) * (1 - 1 / 9007199254740992)) * 2 ^ expo b := by
      rw [h53]; conv_lhs => rw [hM]
      ring
    rw [hMb]
    refine mul_le_mul_of_nonneg_right ?_ hp.le
    linarith
  · rw [not_le] at hE
    -- the exponent of `x` is one less
    have hEx : expo x = expo b - 1 := by
      unfold expo at hE ⊢
      rw [abs_of_pos hx0, abs_of_pos h0] at hE ⊢
      omega
    have hEb : expo b = Int.log 2 b - 52 := by
      have := expo_ge x
      unfold expo at hE ⊢
      rw [abs_of_pos hx0, abs_of_pos h0] at hE
      rw [abs_of_pos h0]
      omega
    have hxlog : Int.log 2 x + 1 ≤ Int.log 2 b := by
      unfold expo at hE
      rw [abs_of_pos hx0, abs_of_pos h0] at hE
      omega
    have hMl : 2 ^ 52 ≤ M := by
      have h1 := log_le h0
      have hkk : (2 : ℚ) ^ Int.log 2 b = ((2 ^ 52 : ℤ) : ℚ) * 2 ^ expo b := by
        rw [hEb, ← two_zpow_nat, ← two_zpow_add]
        congr 1
        push_cast
        omega
      have : ((2 ^ 52 : ℤ) : ℚ) ≤ M := le_of_mul_le_mul_right (by rw [← hM, ← hkk]; exact h1) hp
      exact_mod_cast this
    have hhalf : (2 : ℚ) ^ expo x = 2 ^ expo b / 2 := by
      rw [hEx, show expo b - 1 = expo b + -1 by ring, two_zpow_add]
      norm_num
      ring
    have hkl : k ≤ 2 ^ 53 - 1 := by
      have h1 := (lt_log x).trans_le (two_zpow_le hxlog)
      have : (k : ℚ) < ((2 ^ 53 : ℤ) : ℚ) := lt_of_mul_lt_mul_right (a := (2 : ℚ) ^ expo x) (by
        rw [← hk, ← two_zpow_nat, ← two_zpow_add]
        refine h1.trans_le (two_zpow_le ?_)
        push_cast
        omega) (two_zpow_pos _).le
      have : k < 2 ^ 53 := by exact_mod_cast this
      omega
    have hkq : (k : ℚ) ≤ 9007199254740991 := by exact_mod_cast hkl
    have hMlq : (4503599627370496 : ℚ) ≤ M := by exact_mod_cast hMl
    have e1 : x = (k / 2 : ℚ) * 2 ^ expo b := by
      conv_lhs => rw [hk, hhalf]
      ring
    have e2 : b * (1 - 2 ^ (-53 : ℤ)) = ((M : ℚ) * (1 - 1 / 9007199254740992)) * 2 ^ expo b := by
      rw [h53]; conv_lhs => rw [hM]
      ring
    rw [e1, e2]
    refine mul_le_mul_of_nonneg_right ?_ hp.le
    linarith

/-- the quotient of two different doubles, the smaller one above, is rounded to something below one -/
theorem rnd_div_lt {x b : ℚ} (hx : Rep x) (hb : Rep b) (h0 : 0 < b) (h : x < b) : rnd (x / b) ≤ 1 - 2 ^ (-53 : ℤ) := by
  refine rnd_le ⟨2 ^ 53 - 1, -53, by norm_num, by norm_num, by norm_num⟩ ?_
  rw [div_le_iff₀ h0, mul_comm]
  exact rep_lt hx hb h0 h

/-- the error of rounding a number between zero and `b` -/
theorem rnd_err_le {y b : ℚ} (h0 : 0 ≤ y) (h : y ≤ b) : |rnd y - y| ≤ 2 ^ expo b / 2 := by
  rcases h0.eq_or_lt with rfl | hy
  · rw [rnd_zero, sub_zero, abs_zero]
    exact div_nonneg (two_zpow_pos _).le (by norm_num)
  · refine (rnd_err y).trans (div_le_div_of_nonneg_right (two_zpow_le (expo_mono hy h)) (by norm_num))

/-- the position of `x`: `none` never for doubles before the end -/
theorem make_some {beta x : ℚ} (hb : Rep beta) (hx : Rep x) (h0 : 0 ≤ x) (hlt : x < beta) :
    ∃ n : Tick, make beta x = some n ∧ ((n.toNat : ℤ) = ⌊2 ^ 64 * rnd (x / beta)⌋) := by
  have hb0 : 0 < beta := lt_of_le_of_lt h0 hlt
  have hq0 : 0 ≤ rnd (x / beta) := rnd_nonneg (div_nonneg h0 hb0.le)
  have hq1 := rnd_div_lt hx hb hb0 hlt
  have h53 : (2 : ℚ) ^ (-53 : ℤ) = 1 / 9007199254740992 := by norm_num
  rw [h53] at hq1
  have hmin : min 1 (rnd (x / beta)) = rnd (x / beta) := min_eq_right (by linarith)
  have hv : rnd (nmax * min 1 (rnd (x / beta))) = 2 ^ 64 * rnd (x / beta) := by
    rw [hmin, nmax_eq]
    have := rep_scale (rep_rnd (x / beta)) 64
    rw [zpow_natCast] at this
    exact rnd_rep this
  have hvlt : 2 ^ 64 * rnd (x / beta) < 2 ^ 64 := by linarith
  refine ⟨BitVec.ofInt 64 ⌊2 ^ 64 * rnd (x / beta)⌋, ?_, ?_⟩
  · unfold make
    rw [if_pos ⟨h0, hlt.le⟩]
    simp only [hv]
    rw [if_pos hvlt]
  · refine toNat_ofInt (Int.floor_nonneg.2 (by positivity)) (Int.floor_lt.2 ?_)
    push_cast
    exact hvlt

/-- **C175, the point of a double**: it exists for every double before `beta`, the order is kept, and zero is the lower end; at `beta`, which the precondition
admits, the conversion is undefined. -/
theorem C175_make (beta : ℚ) (hb : IsDouble beta) (h0 : 0 < beta) :
    (∀ x, IsDouble x → 0 ≤ x → x < beta → ∃ n, make beta x = some n) ∧
    (∀ x y n m, IsDouble x → IsDouble y → 0 ≤ x → x ≤ y → y < beta → make beta x = some n → make beta y = some m → n ≤ m) ∧
    make beta 0 = some 0#64 ∧ make beta beta = none := by
  refine ⟨?_, ?_, ?_, ?_⟩
  · intro x hx hx0 hlt
    obtain ⟨n, hn, _⟩ := make_some hb.1 hx.1 hx0 hlt
    exact ⟨n, hn⟩
  · intro x y n m hx hy hx0 hxy hlt hn hm
    obtain ⟨n', hn', e1⟩ := make_some hb.1 hx.1 hx0 (hxy.trans_lt hlt)
    obtain ⟨m', hm', e2⟩ := make_some hb.1 hy.1 (hx0.trans hxy) hlt
    rw [hn] at hn'; rw [hm] at hm'
    cases hn'; cases hm'
    have : ⌊2 ^ 64 * rnd (x / beta)⌋ ≤ ⌊2 ^ 64 * rnd (y / beta)⌋ :=
      Int.floor_le_floor (mul_le_mul_of_nonneg_left (rnd_mono (div_le_div_of_nonneg_right hxy h0.le)) (by norm_num))
    rw [BitVec.le_def]
    omega
  · unfold make
    rw [if_pos ⟨le_rfl, h0.le⟩]
    simp [rnd_zero]
  · unfold make
    rw [if_pos ⟨h0.le, le_rfl⟩, div_self h0.ne', rnd_rep rep_one, min_self, mul_one, nmax_eq]
    have hr : rnd (2 ^ 64) = 2 ^ 64 := by
      refine rnd_rep ?_
      have := rep_zpow (e := ((64 : ℕ) : ℤ)) (by norm_num)
      rwa [zpow_natCast] at this
    simp only [hr]
    rw [if_neg (lt_irrefl _)]

/-- **C175, there and back**: for every normal `beta` the value of the point of a double `x` before `beta` differs from `x` by at most `2^-51` times `beta`. -/
theorem C175_round_trip (beta : ℚ) (hb : IsDouble beta) (hn : (2 : ℚ) ^ (-1022 : ℤ) ≤ beta) (x : ℚ) (hx : IsDouble x) (h0 : 0 ≤ x) (hlt : x < beta) (n : Tick)
    (h : make beta x = some n) : |value beta n - x| ≤ beta * 2 ^ (-51 : ℤ) := by
  have hb0 : 0 < beta := lt_of_le_of_lt h0 hlt
  obtain ⟨n', hn', e⟩ := make_some hb.1 hx.1 h0 hlt
  rw [h] at hn'
  cases hn'
  have hq0 : 0 ≤ rnd (x / beta) := rnd_nonneg (div_nonneg h0 hb0.le)
  have hnq : (n.toNat : ℚ) = ((⌊2 ^ 64 * rnd (x / beta)⌋ : ℤ) : ℚ) := by exact_mod_cast e
  have hfl := Int.floor_le (2 ^ 64 * rnd (x / beta))
  have hfu := Int.lt_floor_add_one (2 ^ 64 * rnd (x / beta))
  rw [← hnq] at hfl hfu
  -- the position needs no rounding
  have hrn : rnd (n.toNat : ℚ) = n.toNat := by
    apply rnd_rep
    obtain ⟨m, e', he', hm, hme⟩ := rep_rnd (x / beta)
    by_cases hc : 0 ≤ e' + 64
    · have hint : 2 ^ 64 * rnd (x / beta) = ((m * 2 ^ (e' + 64).toNat : ℤ) : ℚ) := by
        rw [hme]
        have : (2 : ℚ) ^ (64 : ℕ) = 2 ^ ((64 : ℕ) : ℤ) := (zpow_natCast 2 64).symm
        obtain ⟨j, hj⟩ : ∃ j : ℕ, e' + ((64 : ℕ) : ℤ) = j := ⟨(e' + 64).toNat, by push_cast; omega⟩
        rw [this, mul_comm, mul_assoc, ← two_zpow_add, hj, show (e' + 64).toNat = j by push_cast at hj; omega, zpow_natCast]
        push_cast
        rfl
      have : (n.toNat : ℚ) = 2 ^ (64 : ℕ) * rnd (x / beta) := by rw [hnq, hint, Int.floor_intCast]
      rw [this]
      have h2 := rep_scale (rep_rnd (x / beta)) 64
      rwa [zpow_natCast] at h2
    · have hle : (n.toNat : ℚ) ≤ ((2 ^ 53 : ℤ) : ℚ) := by
        refine hfl.trans ?_
        rw [hme]
        have : (2 : ℚ) ^ (64 : ℕ) = 2 ^ ((64 : ℕ) : ℤ) := (zpow_natCast 2 64).symm
        rw [this, mul_comm, mul_assoc, ← two_zpow_add]
        have h1 : (2 : ℚ) ^ (e' + ((64 : ℕ) : ℤ)) ≤ 1 := by
          have := two_zpow_le (a := e' + ((64 : ℕ) : ℤ)) (b := 0) (by push_cast; omega)
          simpa using this
        have h2 : (m : ℚ) ≤ ((2 ^ 53 : ℤ) : ℚ) := by exact_mod_cast (le_abs_self m).trans hm
        have h3 := two_zpow_pos (e' + ((64 : ℕ) : ℤ))
        calc (m : ℚ) * 2 ^ (e' + ((64 : ℕ) : ℤ)) ≤ ((2 ^ 53 : ℤ) : ℚ) * 2 ^ (e' + ((64 : ℕ) : ℤ)) := mul_le_mul_of_nonneg_right h2 h3.le
          _ ≤ ((2 ^ 53 : ℤ) : ℚ) * 1 := mul_le_mul_of_nonneg_left h1 (by norm_num)
          _ = ((2 ^ 53 : ℤ) : ℚ) := mul_one _
      have hle : n.toNat ≤ 2 ^ 53 := by exact_mod_cast hle
      exact_mod_cast rep_int (n := (n.toNat : ℤ)) (by rw [abs_of_nonneg (by omega)]; exact_mod_cast hle)
  rw [value_eq, hrn]
  -- three errors
  have hE : (2 : ℚ) ^ expo beta / 2 ≤ beta * (1 / 9007199254740992) := by
    have hl : -1022 ≤ Int.log 2 beta := (Int.zpow_le_iff_le_log (R := ℚ) (b := 2) (by norm_num) hb0).1 (by exact_mod_cast hn)
    have hEb : expo beta = Int.log 2 beta + -52 := by unfold expo; rw [abs_of_pos hb0]; omega
    rw [hEb, two_zpow_add]
    have := log_le hb0
    norm_num
    linarith
  have hle1 : (n.toNat : ℚ) / 2 ^ 64 ≤ 1 := by rw [← hrn]; exact ratio_le n
  have hge1 : (0 : ℚ) ≤ (n.toNat : ℚ) / 2 ^ 64 := by positivity
  have e1 := rnd_err_le (y := beta * ((n.toNat : ℚ) / 2 ^ 64)) (b := beta) (mul_nonneg hb0.le hge1) (by nlinarith)
  have e2 : |(n.toNat : ℚ) / 2 ^ 64 - rnd (x / beta)| ≤ 1 / 2 ^ 64 := by
    rw [abs_le]
    constructor
    · have : rnd (x / beta) ≤ ((n.toNat : ℚ) + 1) / 2 ^ 64 := by rw [le_div_iff₀ (by norm_num)]; linarith
      rw [add_div] at this
      linarith
    · have : (n.toNat : ℚ) / 2 ^ 64 ≤ rnd (x / beta) := by rw [div_le_iff₀ (by norm_num)]; linarith
      have : (0 : ℚ) ≤ 1 / 2 ^ 64 := by norm_num
      linarith
  have e3 := rnd_err_le (y := x / beta) (b := 1) (div_nonneg h0 hb0.le) (by rw [div_le_one hb0]; exact hlt.le)
  have hE1 : (2 : ℚ) ^ expo 1 / 2 = 1 / 9007199254740992 := by decide +kernel
  rw [hE1] at e3
  have hxe : x = beta * (x / beta) := by field_simp
  have h51 : (2 : ℚ) ^ (-51 : ℤ) = 1 / 2251799813685248 := by norm_num
  rw [h51]
  have hE2 := e1.trans hE
  have t2 : |beta * ((n.toNat : ℚ) / 2 ^ 64) - beta * rnd (x / beta)| ≤ beta * (1 / 2 ^ 64) := by
    rw [← mul_sub, abs_mul, abs_of_pos hb0]
    exact mul_le_mul_of_nonneg_left e2 hb0.le
  have t3 : |beta * rnd (x / beta) - x| ≤ beta * (1 / 9007199254740992) := by
    have : beta * rnd (x / beta) - x = beta * (rnd (x / beta) - x / beta) := by rw [mul_sub, ← hxe]
    rw [this, abs_mul, abs_of_pos hb0]
    exact mul_le_mul_of_nonneg_left e3 hb0.le
  rw [abs_le] at hE2 t2 t3 ⊢
  constructor <;> linarith [hE2.1, hE2.2, t2.1, t2.2, t3.1, t3.2]

/-! ### Examples -/

theorem exBeta : IsDouble 10 := ⟨by exact_mod_cast rep_int (n := 10) (by norm_num), by
  rw [abs_of_pos (by norm_num)]
  exact lt_of_lt_of_le (b := 2 ^ 4) (by norm_num) (pow_le_pow_right₀ (by norm_num) (by norm_num))⟩

/-- the middle of the segment, and the point of the double next to one third -/
example : make 10 5 = some (BitVec.ofNat 64 (2 ^ 63)) ∧ value 10 (BitVec.ofNat 64 (2 ^ 63)) = 5 := by decide +kernel

example : ∃ n, make 10 (rnd (1 / 3)) = some n ∧ |value 10 n - rnd (1 / 3)| ≤ 10 * 2 ^ (-51 : ℤ) := by
  have hx : IsDouble (rnd (1 / 3)) := isDouble_rnd (b := 1) (isDouble_small rep_one (by norm_num)) (by norm_num [abs_of_pos])
  have h0 : 0 ≤ rnd (1 / 3) := rnd_nonneg (by norm_num)
  have h1 : rnd (1 / 3) < 10 := lt_of_le_of_lt (rnd_le rep_one (by norm_num)) (by norm_num)
  obtain ⟨n, hn⟩ := (C175_make 10 exBeta (by norm_num)).1 _ hx h0 h1
  refine ⟨n, hn, C175_round_trip 10 exBeta ?_ _ hx h0 h1 n hn⟩
  have := two_zpow_le (a := -1022) (b := 0) (by norm_num)
  rw [zpow_zero] at this
  linarith

/-- the largest random point -/
example : random exDraw = Nmax - BitVec.ofNat 64 2047 ∧ value 10 (random exDraw) < 10 := by decide +kernel

end Verif.TimeDouble
