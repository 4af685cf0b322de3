import Verif.Float.LegendreSum
import Verif.Float.LinearMesh
import Verif.Float.LinearBins

/-!
# Density at zero temperature from real frequencies in double precision

C109 is about exact arithmetic. Here the index of the frequency zero, the width of the last interval and the sum are computed with the rounding of the machine.

Source: `/repo/c++/triqs/gfs/functions/density.cpp` (135-165), `/repo/c++/triqs/mesh/bases/linear.hpp` (47-56).

The data are the real or imaginary parts of one element of the function: all other factors are real up to line 155. The scaling by the step and the hermitian part (lines 159-164) are not part of this model.
-/

namespace Verif.ZeroDensity

open Binary64 LinearDouble
open LegendreSum (sumTerms op mul_abs_le abs_of_err list_sum)

/-! ## Model -/

/-- how the function ends -/
inductive Outcome
  /-- a point behind the last one is read -/
  | outside
  /-- an operation overflows, or the conversion to `int` does -/
  | overflow
  /-- the sum -/
  | ok (r : ℚ)
deriving DecidableEq

/-- the result of floating-point operations -/
def ofOption : Option ℚ → Outcome
  | none => .overflow
  | some r => .ok r

/-- `N0 - 1`, density.cpp:143 -/
def index (wmin dw : ℚ) : Option ℕ := (fin (-wmin / dw)).bind fun q => if ⌊q⌋ + 1 < 2 ^ 31 then some ⌊q⌋.toNat else none

/-- the width of the last interval `dw0`, density.cpp:144, from `c = N0 - 1` -/
def width (wmin dw : ℚ) (c : ℕ) : Option ℚ := (fin (c * dw)).bind fun x => fin (-wmin - x)

/-- the literal `1e-9`, density.cpp:151 -/
def tol : ℚ := rnd (1 / 1000000000)

/-- the part of the last interval, density.cpp:153 -/
def final (a x y : ℚ) : Option ℚ :=
  (fin (a * a)).bind fun s => (fin (s - 1)).bind fun w => (fin (w * x)).bind fun p =>
  (fin (2 - a)).bind fun t => (fin (a * t)).bind fun v => (fin (v * y)).bind fun q =>
  (fin (p + q)).bind fun z => fin (z / 2)

/-- the terms that are added from left to right, density.cpp:149-155; the last one is `last` -/
def terms (g : ℕ → ℚ) (c : ℕ) (last : Option ℚ) : List (Option ℚ) :=
  (List.range (c + 2)).map fun k => if k = 0 then fin (g 0 / 2) else if k ≤ c then some (g k) else last

/-- `res` after line 155 of density.cpp, for a mesh with first value `wmin`, step `dw` and `N` points -/
def zeroSum (wmin dw : ℚ) (N : ℕ) (g : ℕ → ℚ) : Outcome :=
  match index wmin dw with
  | none => .overflow
  | some c =>
    match width wmin dw c with
    | none => .overflow
    | some d =>
      if tol < |d| then
        if N ≤ c + 1 then .outside else ofOption (sumTerms (terms g c ((fin (d / dw)).bind fun a => final a (g c) (g (c + 1)))))
      else
        if N ≤ c then .outside else ofOption (sumTerms (terms g c ((fin (g c / 2)).map fun t => -t)))

/-- the step of a mesh with more than one point, linear.hpp:51; the conversion of `L - 1` is exact below 2^53 points -/
def step (a b : ℚ) (N : ℕ) : Option ℚ := (fin (b - a)).bind fun l => fin (l / (N - 1))

/-! ## Specification -/

/-- the rule of trapezes for `n` intervals, in units of the step -/
def trapeze (g : ℕ → ℚ) (n : ℕ) : ℚ := ∑ k ∈ Finset.range n, (g k + g (k + 1)) / 2

/-! ## Proofs -/

theorem op1 {x k : ℚ} (hk : 1 ≤ k) (hk4 : k ≤ 4) (h : |x| ≤ k) : fin x = some (rnd x) ∧ |rnd x - x| ≤ k * (9 / 8 * (1 / 9007199254740992)) := by
  have := op (W := 1) (zpow_le_one_of_nonpos₀ (by norm_num) (by norm_num)) (one_le_zpow₀ (by norm_num) (by norm_num)) hk hk4 (by rwa [mul_one])
  rwa [mul_one] at this

theorem final_err {a x y B : ℚ} (hB0 : 2 ^ (-850 : ℤ) ≤ B) (hB1 : B ≤ 2 ^ (850 : ℤ)) (ha0 : -(1 / 2) ≤ a) (ha1 : a ≤ 3 / 2) (hx : |x| ≤ B) (hy : |y| ≤ B) :
    ∃ t, final a x y = some t ∧ |t - ((a * a - 1) * x + a * (2 - a) * y) / 2| ≤ B * (16 / 9007199254740992) := by
  have hB : 0 < B := (two_zpow_pos _).trans_le hB0
  have haa : |a| ≤ 3 / 2 := abs_le.2 ⟨by linarith, ha1⟩
  obtain ⟨f1, g1⟩ := op1 (x := a * a) (k := 4) (by norm_num) (by norm_num) ((mul_abs_le haa haa).trans (by norm_num))
  have b1 : |a * a - 1| ≤ 5 / 4 := abs_le.2 ⟨by nlinarith [mul_self_nonneg a], by nlinarith⟩
  have e1 : |rnd (a * a) - 1 - (a * a - 1)| ≤ 4 * (9 / 8 * (1 / 9007199254740992)) := by rw [sub_sub_sub_cancel_right]; exact g1
  obtain ⟨f2, g2⟩ := op1 (x := rnd (a * a) - 1) (k := 2) (by norm_num) (by norm_num) ((abs_of_err e1 b1).trans (by norm_num))
  generalize rnd (a * a) = s at *
  have e2 : |rnd (s - 1) - (a * a - 1)| ≤ 7 / 9007199254740992 := by
    have := abs_add_le (rnd (s - 1) - (s - 1)) (s - 1 - (a * a - 1))
    rw [sub_add_sub_cancel] at this
    linarith
  generalize rnd (s - 1) = w at *
  have bw : |w| ≤ 3 / 2 := (abs_of_err e2 b1).trans (by norm_num)
  obtain ⟨f3, g3⟩ := op hB0 hB1 (x := w * x) (k := 3 / 2) (by norm_num) (by norm_num) (mul_abs_le bw hx)
  have b3 := abs_of_err g3 (mul_abs_le bw hx)
  generalize hp : rnd (w * x) = p at *
  obtain ⟨f4, g4⟩ := op1 (x := 2 - a) (k := 4) (by norm_num) (by norm_num) (abs_le.2 ⟨by linarith, by linarith⟩)
  generalize rnd (2 - a) = t at *
  have b4 : |a * (2 - a)| ≤ 5 / 4 := abs_le.2 ⟨by nlinarith, by nlinarith [mul_self_nonneg (a - 1)]⟩
  have e4 : |a * t - a * (2 - a)| ≤ 3 / 2 * (4 * (9 / 8 * (1 / 9007199254740992))) := by
    rw [← mul_sub]
    exact mul_abs_le haa g4
  obtain ⟨f5, g5⟩ := op1 (x := a * t) (k := 2) (by norm_num) (by norm_num) ((abs_of_err e4 b4).trans (by norm_num))
  have e5 : |rnd (a * t) - a * (2 - a)| ≤ 9 / 9007199254740992 := by
    have := abs_add_le (rnd (a * t) - a * t) (a * t - a * (2 - a))
    rw [sub_add_sub_cancel] at this
    linarith
  generalize rnd (a * t) = v at *
  have bv : |v| ≤ 3 / 2 := (abs_of_err e5 b4).trans (by norm_num)
  obtain ⟨f6, g6⟩ := op hB0 hB1 (x := v * y) (k := 3 / 2) (by norm_num) (by norm_num) (mul_abs_le bv hy)
  have b6 := abs_of_err g6 (mul_abs_le bv hy)
  generalize hq : rnd (v * y) = q at *
  have b7 : |p + q| ≤ 4 * B := (abs_add_le p q).trans (by linarith)
  obtain ⟨f7, g7⟩ := op hB0 hB1 (by norm_num) (le_refl (4 : ℚ)) b7
  have b8 := abs_of_err g7 b7
  generalize hz : rnd (p + q) = z at *
  obtain ⟨f8, g8⟩ := op hB0 hB1 (x := z / 2) (k := 3) (by norm_num) (by norm_num) (by rw [abs_div, abs_of_pos (two_pos : (0 : ℚ) < 2)]; linarith)
  refine ⟨rnd (z / 2), ?_, ?_⟩
  · unfold final
    rw [f1, Option.bind_some, f2, Option.bind_some, f3, Option.bind_some, f4, Option.bind_some, f5, Option.bind_some, f6, Option.bind_some, f7, Option.bind_some, f8]
  · have m1 : |w * x - (a * a - 1) * x| ≤ 7 / 9007199254740992 * B := by rw [← sub_mul]; exact mul_abs_le e2 hx
    have m2 : |v * y - a * (2 - a) * y| ≤ 9 / 9007199254740992 * B := by rw [← sub_mul]; exact mul_abs_le e5 hy
    generalize rnd (z / 2) = R at *
    rw [abs_le] at *
    constructor <;> linarith [g8.1, g8.2, g7.1, g7.2, g6.1, g6.2, g3.1, g3.2, m1.1, m1.2, m2.1, m2.2]

theorem tol_lt : tol < 1 / 536870912 := by decide +kernel

/-- the index is that of the frequency zero or the one before -/
theorem index_near {wmin dw : ℚ} {n : ℕ} (hn1 : 1 ≤ n) (hn : n < 2 ^ 19) {e : ℚ} (he : e ≤ 1 / 4) (hq : |-wmin / dw - n| ≤ e) :
    index wmin dw = some n ∨ index wmin dw = some (n - 1) := by
  have hnq : (1 : ℚ) ≤ n := by exact_mod_cast hn1
  have hn2 : (n : ℚ) ≤ 524288 := by exact_mod_cast hn.le
  have hb : |-wmin / dw| ≤ 2 * n := (abs_of_err hq (le_of_eq (abs_of_nonneg (by linarith)))).trans (by linarith)
  obtain ⟨f1, g1⟩ := op (W := (n : ℚ)) ((zpow_le_one_of_nonpos₀ (by norm_num) (by norm_num)).trans hnq) (hn2.trans ((by norm_num : (524288 : ℚ) ≤ 2 ^ (20 : ℤ)).trans (two_zpow_le (by norm_num)))) (by norm_num : (1 : ℚ) ≤ 2) (by norm_num) hb
  have h2 : |rnd (-wmin / dw) - n| ≤ 3 / 8 := by
    have := abs_add_le (rnd (-wmin / dw) - -wmin / dw) (-wmin / dw - n)
    rw [sub_add_sub_cancel] at this
    linarith
  unfold index
  rw [f1, Option.bind_some]
  generalize rnd (-wmin / dw) = p at *
  rw [abs_le] at h2
  rcases le_or_gt (n : ℚ) p with h | h
  · left
    have : ⌊p⌋ = n := Int.floor_eq_iff.2 ⟨by exact_mod_cast h, by push_cast; linarith⟩
    rw [this, if_pos (by omega)]
    simp
  · right
    have : ⌊p⌋ = (n : ℤ) - 1 := Int.floor_eq_iff.2 ⟨by push_cast; linarith, by push_cast; linarith⟩
    rw [this, if_pos (by omega)]
    congr 1
    omega

/-- the width of the last interval in units of the step -/
theorem width_near {wmin dw : ℚ} {n c : ℕ} (hd0 : 2 ^ (-28 : ℤ) ≤ dw) (hd1 : dw ≤ 2 ^ (700 : ℤ)) (hn1 : 1 ≤ n) (hn : n < 2 ^ 19) {e : ℚ} (he : e ≤ 1 / 4) (hq : |-wmin / dw - n| ≤ e) (hc : c = n ∨ c = n - 1) :
    ∃ d, width wmin dw c = some d ∧ |d / dw - (n - c)| ≤ e + 4 * n / 9007199254740992 ∧
      fin (d / dw) = some (rnd (d / dw)) ∧ |rnd (d / dw) - (n - c)| ≤ e + 7 * n / 9007199254740992 := by
  have hd : 0 < dw := (two_zpow_pos _).trans_le hd0
  have hnq : (1 : ℚ) ≤ n := by exact_mod_cast hn1
  have hn2 : (n : ℚ) ≤ 524288 := by exact_mod_cast hn.le
  have hcn : (c : ℚ) ≤ n := by exact_mod_cast (by omega : c ≤ n)
  have hcn' : (n : ℚ) - 1 ≤ c := by
    have : (n : ℚ) ≤ (c + 1 : ℕ) := by exact_mod_cast (by omega : n ≤ c + 1)
    push_cast at this
    linarith
  have hc0 : (0 : ℚ) ≤ c := Nat.cast_nonneg c
  have d0 : (2 : ℚ) ^ (-850 : ℤ) ≤ dw := (two_zpow_le (by norm_num)).trans hd0
  have d1 : dw ≤ 2 ^ (850 : ℤ) := hd1.trans (two_zpow_le (by norm_num))
  have n0 : (2 : ℚ) ^ (-850 : ℤ) ≤ n * dw := d0.trans (le_mul_of_one_le_left hd.le hnq)
  have n1 : n * dw ≤ 2 ^ (850 : ℤ) := by
    refine (mul_le_mul (hn2.trans (by norm_num : (524288 : ℚ) ≤ 2 ^ (20 : ℤ))) hd1 hd.le (by norm_num)).trans ?_
    rw [← two_zpow_add]
    exact two_zpow_le (by norm_num)
  obtain ⟨f1, g1⟩ := op (x := c * dw) n0 n1 (le_refl 1) (by norm_num) (by rw [one_mul, abs_of_nonneg (mul_nonneg hc0 hd.le)]; exact mul_le_mul_of_nonneg_right hcn hd.le)
  generalize hx : rnd (c * dw) = x at *
  have hw : -wmin = -wmin / dw * dw := by rw [div_mul_cancel₀ _ hd.ne']
  generalize hqq : -wmin / dw = q at *
  have e1 : |-wmin - x - (q - c) * dw| ≤ n * dw * (9 / 8 * (1 / 9007199254740992)) := by
    rw [hw, show q * dw - x - (q - c) * dw = -(x - c * dw) by ring, abs_neg]
    rw [one_mul] at g1
    exact g1
  have bqc : |q - c| ≤ 5 / 4 := by
    rw [abs_le] at hq ⊢
    constructor <;> linarith [hq.1, hq.2]
  have b1 : |(q - c) * dw| ≤ 5 / 4 * dw := mul_abs_le bqc (le_of_eq (abs_of_pos hd))
  have hnd : n * dw ≤ 524288 * dw := mul_le_mul_of_nonneg_right hn2 hd.le
  have hdn : dw ≤ n * dw := le_mul_of_one_le_left hd.le hnq
  have b2 : |-wmin - x| ≤ 2 * dw := (abs_of_err e1 b1).trans (by linarith)
  obtain ⟨f2, g2⟩ := op d0 d1 (by norm_num : (1 : ℚ) ≤ 2) (by norm_num) b2
  have e2 : |rnd (-wmin - x) - (q - c) * dw| ≤ 4 * n / 9007199254740992 * dw := by
    have := abs_add_le (rnd (-wmin - x) - (-wmin - x)) (-wmin - x - (q - c) * dw)
    rw [sub_add_sub_cancel] at this
    linarith
  refine ⟨rnd (-wmin - x), ?_, ?_⟩
  · unfold width
    rw [f1, Option.bind_some, f2]
  generalize rnd (-wmin - x) = d at *
  have e3 : |d / dw - (q - c)| ≤ 4 * n / 9007199254740992 := by
    rw [show d / dw - (q - c) = (d - (q - c) * dw) / dw by field_simp, abs_div, abs_of_pos hd, div_le_iff₀ hd]
    exact e2
  obtain ⟨f3, g3⟩ := op1 (x := d / dw) (k := 2) (by norm_num) (by norm_num) ((abs_of_err e3 bqc).trans (by linarith))
  refine ⟨?_, f3, ?_⟩
  · rw [abs_le] at *
    constructor <;> linarith [e3.1, e3.2, hq.1, hq.2]
  · rw [abs_le] at *
    constructor <;> linarith [e3.1, e3.2, hq.1, hq.2, g3.1, g3.2]

theorem trapeze_eq (g : ℕ → ℚ) (n : ℕ) : trapeze g (n + 1) = g 0 / 2 + ((List.range n).map fun k => g (k + 1)).sum + g (n + 1) / 2 := by
  unfold trapeze
  induction n with
  | zero => simp; ring
  | succ n ih =>
    rw [Finset.sum_range_succ, ih, List.range_succ, List.map_append, List.sum_append]
    simp
    ring

theorem terms_sum (g : ℕ → ℚ) (c : ℕ) (v : ℚ) :
    ((List.range (c + 2)).map fun k => if k = 0 then g 0 / 2 else if k ≤ c then g k else v).sum = g 0 / 2 + ((List.range c).map fun k => g (k + 1)).sum + v := by
  rw [List.range_succ, List.map_append, List.sum_append, List.range_succ_eq_map, List.map_cons, List.sum_cons, List.map_map]
  have : (List.range c).map ((fun k => if k = 0 then g 0 / 2 else if k ≤ c then g k else v) ∘ Nat.succ) = (List.range c).map fun k => g (k + 1) := by
    refine List.map_congr_left fun k hk => ?_
    have := List.mem_range.1 hk
    simp only [Function.comp]
    rw [if_neg (Nat.succ_ne_zero k), if_pos (by omega)]
  rw [this]
  simp

/-- the rounded sum of the terms -/
theorem sum_near {g : ℕ → ℚ} {c : ℕ} {B t v : ℚ} (hB0 : 2 ^ (-800 : ℤ) ≤ B) (hB1 : B ≤ 2 ^ (800 : ℤ)) (hc : c < 2 ^ 19) (hg : ∀ k ≤ c, |g k| ≤ B) (hv : |v| ≤ 2 * B) (ht : |t - v| ≤ B * (16 / 9007199254740992)) :
    ∃ r, sumTerms (terms g c (some t)) = some r ∧ |r - (g 0 / 2 + ((List.range c).map fun k => g (k + 1)).sum + v)| ≤ B * (20 * (c + 2) ^ 2 / 9007199254740992) := by
  have hB : 0 < B := (two_zpow_pos _).trans_le hB0
  have b0 : (2 : ℚ) ^ (-850 : ℤ) ≤ B := (two_zpow_le (by norm_num)).trans hB0
  have b1 : B ≤ 2 ^ (850 : ℤ) := hB1.trans (two_zpow_le (by norm_num))
  have c1 : 2 * B ≤ 2 ^ (850 : ℤ) := by
    refine le_trans ?_ (two_zpow_le (by norm_num : (801 : ℤ) ≤ 850))
    rw [show (801 : ℤ) = 1 + 800 by norm_num, two_zpow_add, zpow_one]
    exact mul_le_mul_of_nonneg_left hB1 (by norm_num)
  have h16 : B * (16 / 9007199254740992) ≤ 2 * B := by linarith
  obtain ⟨r, hr, he⟩ := (LegendreSum.sums (V := 2 * B) (b0.trans (by linarith)) c1 (n := c + 2) (by omega) h16
    (T := fun k => if k = 0 then fin (g 0 / 2) else if k ≤ c then some (g k) else some t) (v := fun k => if k = 0 then g 0 / 2 else if k ≤ c then g k else v) (fun k hk => by
      by_cases h0 : k = 0
      · rw [if_pos h0, if_pos h0]
        have h1 : |g 0 / 2| ≤ 1 * B := by
          rw [abs_div, abs_of_pos (two_pos : (0 : ℚ) < 2)]
          have := hg 0 (Nat.zero_le _)
          linarith
        obtain ⟨f1, g1⟩ := op b0 b1 (le_refl 1) (by norm_num) h1
        exact ⟨h1.trans (by linarith), _, f1, g1.trans (by linarith)⟩
      · rw [if_neg h0, if_neg h0]
        by_cases h1 : k ≤ c
        · rw [if_pos h1, if_pos h1]
          refine ⟨(hg k h1).trans (by linarith), _, rfl, ?_⟩
          rw [sub_self, abs_zero]
          positivity
        · rw [if_neg h1, if_neg h1]
          exact ⟨hv, t, rfl, ht⟩)).2 (by omega)
  rw [terms_sum] at he
  refine ⟨r, hr, he.trans ?_⟩
  push_cast
  have key : ((c : ℚ) + 2) ^ 2 * 4 + (c + 2) * 16 ≤ 20 * (c + 2) ^ 2 := by
    have : (0 : ℚ) ≤ c := Nat.cast_nonneg c
    nlinarith
  have := mul_le_mul_of_nonneg_right key (mul_nonneg hB.le (by norm_num : (0 : ℚ) ≤ 1 / 9007199254740992))
  linarith

theorem last_bound {a x y B : ℚ} (h0 : -(1 / 2) ≤ a) (h1 : a ≤ 3 / 2) (hx : |x| ≤ B) (hy : |y| ≤ B) : |((a * a - 1) * x + a * (2 - a) * y) / 2| ≤ 2 * B := by
  have hB : 0 ≤ B := (abs_nonneg _).trans hx
  have q1 : |a * a - 1| ≤ 5 / 4 := abs_le.2 ⟨by nlinarith [mul_self_nonneg a], by nlinarith⟩
  have q2 : |a * (2 - a)| ≤ 5 / 4 := abs_le.2 ⟨by nlinarith, by nlinarith [mul_self_nonneg (a - 1)]⟩
  have := (abs_add_le ((a * a - 1) * x) (a * (2 - a) * y)).trans (add_le_add (mul_abs_le q1 hx) (mul_abs_le q2 hy))
  rw [abs_div, abs_of_pos (two_pos : (0 : ℚ) < 2)]
  linarith

theorem near_zero {a x y B t : ℚ} (h : |a| ≤ t) (ht : t ≤ 1 / 2) (hx : |x| ≤ B) (hy : |y| ≤ B) (u v : ℚ) : |u + (v + x) + ((a * a - 1) * x + a * (2 - a) * y) / 2 - (u + v + x / 2)| ≤ B * (3 / 2 * t) := by
  rw [show u + (v + x) + ((a * a - 1) * x + a * (2 - a) * y) / 2 - (u + v + x / 2) = a * (a * x + (2 - a) * y) / 2 by ring]
  have ha := abs_le.1 (h.trans ht)
  have m1 := mul_abs_le (h.trans ht) hx
  have m2 := mul_abs_le (X := 5 / 2) (abs_le.2 ⟨by linarith [ha.2], by linarith [ha.1]⟩ : |2 - a| ≤ 5 / 2) hy
  have m3 := mul_abs_le h ((abs_add_le (a * x) ((2 - a) * y)).trans (add_le_add m1 m2))
  rw [abs_div, abs_of_pos (two_pos : (0 : ℚ) < 2)]
  linarith

theorem near_one {a x y B t : ℚ} (h : |a - 1| ≤ t) (ht : t ≤ 1 / 2) (hx : |x| ≤ B) (hy : |y| ≤ B) (u v : ℚ) : |u + v + ((a * a - 1) * x + a * (2 - a) * y) / 2 - (u + v + y / 2)| ≤ B * (3 / 2 * t) := by
  rw [show u + v + ((a * a - 1) * x + a * (2 - a) * y) / 2 - (u + v + y / 2) = (a - 1) * ((a + 1) * x + (1 - a) * y) / 2 by ring]
  have ha := abs_le.1 (h.trans ht)
  have m1 := mul_abs_le (X := 5 / 2) (abs_le.2 ⟨by linarith [ha.1], by linarith [ha.2]⟩ : |a + 1| ≤ 5 / 2) hx
  have m2 := mul_abs_le (X := 1 / 2) (abs_le.2 ⟨by linarith [ha.2], by linarith [ha.1]⟩ : |1 - a| ≤ 1 / 2) hy
  have m3 := mul_abs_le h ((abs_add_le ((a + 1) * x) ((1 - a) * y)).trans (add_le_add m1 m2))
  rw [abs_div, abs_of_pos (two_pos : (0 : ℚ) < 2)]
  linarith

theorem bound {B e n c r x z : ℚ} (hB : 0 ≤ B) (he : 0 ≤ e) (hc0 : 0 ≤ c) (hc : c ≤ n) (h1 : |r - x| ≤ B * (20 * (c + 2) ^ 2 / 9007199254740992)) (h2 : |x - z| ≤ B * (3 / 2 * (e + 7 * n / 9007199254740992))) :
    |r - z| ≤ B * (2 * e + 40 * (n + 2) ^ 2 / 9007199254740992) := by
  have h3 := abs_add_le (r - x) (x - z)
  rw [sub_add_sub_cancel] at h3
  have key : 20 * (c + 2) ^ 2 / 9007199254740992 + 3 / 2 * (e + 7 * n / 9007199254740992) ≤ 2 * e + 40 * (n + 2) ^ 2 / 9007199254740992 := by
    have : (c + 2) ^ 2 ≤ (n + 2) ^ 2 := pow_le_pow_left₀ (by linarith) (by linarith) 2
    have : n ≤ (n + 2) ^ 2 := by nlinarith
    linarith
  have := mul_le_mul_of_nonneg_left key hB
  linarith

/-- the case of the index of zero and a width that is not small -/
theorem case_zero {wmin dw B t d a : ℚ} {m N : ℕ} {g : ℕ → ℚ} (hi : index wmin dw = some (m + 1)) (hw : width wmin dw (m + 1) = some d) (ht : tol < |d|) (hN : m + 2 < N) (hm : m + 1 < 2 ^ 19)
    (hf : fin (d / dw) = some a) (ha : |a| ≤ t) (ht2 : t ≤ 1 / 2) (hB0 : 2 ^ (-800 : ℤ) ≤ B) (hB1 : B ≤ 2 ^ (800 : ℤ)) (hg : ∀ k ≤ m + 2, |g k| ≤ B) :
    ∃ r x, zeroSum wmin dw N g = .ok r ∧ |r - x| ≤ B * (20 * (((m + 1 : ℕ) : ℚ) + 2) ^ 2 / 9007199254740992) ∧ |x - trapeze g (m + 1)| ≤ B * (3 / 2 * t) := by
  have b0 : (2 : ℚ) ^ (-850 : ℤ) ≤ B := (two_zpow_le (by norm_num)).trans hB0
  have b1 : B ≤ 2 ^ (850 : ℤ) := hB1.trans (two_zpow_le (by norm_num))
  have ha' := abs_le.1 (ha.trans ht2)
  have a0 : -(1 / 2) ≤ a := ha'.1
  have a1 : a ≤ 3 / 2 := by linarith [ha'.2]
  obtain ⟨l, l1, l2⟩ := final_err b0 b1 a0 a1 (hg (m + 1) (by omega)) (hg (m + 1 + 1) (by omega))
  obtain ⟨r, r1, r2⟩ := sum_near hB0 hB1 hm (fun k hk => hg k (by omega)) (last_bound a0 a1 (hg (m + 1) (by omega)) (hg (m + 1 + 1) (by omega))) l2
  refine ⟨r, _, ?_, r2, ?_⟩
  · unfold zeroSum
    rw [hi]
    dsimp only
    rw [hw]
    dsimp only
    rw [if_pos ht, if_neg (by omega), hf, Option.bind_some, l1, r1]
    rfl
  · rw [trapeze_eq, List.range_succ, List.map_append, List.sum_append, List.map_singleton, List.sum_singleton]
    exact near_zero ha ht2 (hg (m + 1) (by omega)) (hg (m + 1 + 1) (by omega)) _ _

/-- the case of the index of zero and a small width -/
theorem case_small {wmin dw B d : ℚ} {m N : ℕ} {g : ℕ → ℚ} (hi : index wmin dw = some (m + 1)) (hw : width wmin dw (m + 1) = some d) (ht : ¬tol < |d|) (hN : m + 1 < N) (hm : m + 1 < 2 ^ 19)
    (hB0 : 2 ^ (-800 : ℤ) ≤ B) (hB1 : B ≤ 2 ^ (800 : ℤ)) (hg : ∀ k ≤ m + 1, |g k| ≤ B) :
    ∃ r, zeroSum wmin dw N g = .ok r ∧ |r - trapeze g (m + 1)| ≤ B * (20 * (((m + 1 : ℕ) : ℚ) + 2) ^ 2 / 9007199254740992) := by
  have hB : 0 < B := (two_zpow_pos _).trans_le hB0
  have b0 : (2 : ℚ) ^ (-850 : ℤ) ≤ B := (two_zpow_le (by norm_num)).trans hB0
  have b1 : B ≤ 2 ^ (850 : ℤ) := hB1.trans (two_zpow_le (by norm_num))
  have h1 : |g (m + 1) / 2| ≤ 1 * B := by
    rw [abs_div, abs_of_pos (two_pos : (0 : ℚ) < 2)]
    have := hg (m + 1) le_rfl
    linarith
  obtain ⟨f1, g1⟩ := op b0 b1 (le_refl 1) (by norm_num) h1
  obtain ⟨r, r1, r2⟩ := sum_near (t := -rnd (g (m + 1) / 2)) (v := -(g (m + 1) / 2)) hB0 hB1 hm hg (by rw [abs_neg]; linarith) (by rw [← neg_sub', abs_neg]; linarith)
  refine ⟨r, ?_, ?_⟩
  · unfold zeroSum
    rw [hi]
    dsimp only
    rw [hw]
    dsimp only
    rw [if_neg ht, if_neg (by omega), f1, Option.map_some, r1]
    rfl
  · rw [List.range_succ, List.map_append, List.sum_append, List.map_singleton, List.sum_singleton, show ∀ x y z : ℚ, x + (y + z) + -(z / 2) = x + y + z / 2 by intros; ring] at r2
    rw [trapeze_eq]
    exact r2

/-- the case of the index before zero -/
theorem case_one {wmin dw B t d a : ℚ} {m N : ℕ} {g : ℕ → ℚ} (hi : index wmin dw = some m) (hw : width wmin dw m = some d) (ht : tol < |d|) (hN : m + 1 < N) (hm : m + 1 < 2 ^ 19)
    (hf : fin (d / dw) = some a) (ha : |a - 1| ≤ t) (ht2 : t ≤ 1 / 2) (hB0 : 2 ^ (-800 : ℤ) ≤ B) (hB1 : B ≤ 2 ^ (800 : ℤ)) (hg : ∀ k ≤ m + 1, |g k| ≤ B) :
    ∃ r x, zeroSum wmin dw N g = .ok r ∧ |r - x| ≤ B * (20 * ((m : ℚ) + 2) ^ 2 / 9007199254740992) ∧ |x - trapeze g (m + 1)| ≤ B * (3 / 2 * t) := by
  have b0 : (2 : ℚ) ^ (-850 : ℤ) ≤ B := (two_zpow_le (by norm_num)).trans hB0
  have b1 : B ≤ 2 ^ (850 : ℤ) := hB1.trans (two_zpow_le (by norm_num))
  have ha' := abs_le.1 (ha.trans ht2)
  have a0 : -(1 / 2) ≤ a := by linarith [ha'.1]
  have a1 : a ≤ 3 / 2 := by linarith [ha'.2]
  obtain ⟨l, l1, l2⟩ := final_err b0 b1 a0 a1 (hg m (by omega)) (hg (m + 1) le_rfl)
  obtain ⟨r, r1, r2⟩ := sum_near (c := m) hB0 hB1 (by omega) (fun k hk => hg k (by omega)) (last_bound a0 a1 (hg m (by omega)) (hg (m + 1) le_rfl)) l2
  refine ⟨r, _, ?_, r2, ?_⟩
  · unfold zeroSum
    rw [hi]
    dsimp only
    rw [hw]
    dsimp only
    rw [if_pos ht, if_neg (by omega), hf, Option.bind_some, l1, r1]
    rfl
  · rw [trapeze_eq]
    exact near_one ha ht2 (hg m (by omega)) (hg (m + 1) le_rfl) _ _

/-- **C209, the sum.** If the frequency zero is a point of the mesh up to the fraction `e` of the step, the sum is that of the trapezes up to zero, although the index may be one too small and the
last interval empty or full. No point behind the one after zero is read. -/
theorem C209_sum {wmin dw B e : ℚ} {n N : ℕ} {g : ℕ → ℚ} (hd0 : 2 ^ (-28 : ℤ) ≤ dw) (hd1 : dw ≤ 2 ^ (700 : ℤ)) (hn1 : 1 ≤ n) (hn : n < 2 ^ 19) (hN : n + 1 < N) (he : e ≤ 1 / 4)
    (hq : |-wmin / dw - n| ≤ e) (hB0 : 2 ^ (-800 : ℤ) ≤ B) (hB1 : B ≤ 2 ^ (800 : ℤ)) (hg : ∀ k ≤ n + 1, |g k| ≤ B) :
    ∃ r, zeroSum wmin dw N g = .ok r ∧ |r - trapeze g n| ≤ B * (2 * e + 40 * (n + 2) ^ 2 / 9007199254740992) := by
  have hd : 0 < dw := (two_zpow_pos _).trans_le hd0
  have hB : 0 < B := (two_zpow_pos _).trans_le hB0
  have he0 : 0 ≤ e := (abs_nonneg _).trans hq
  have hnq : (1 : ℚ) ≤ n := by exact_mod_cast hn1
  have hn2 : (n : ℚ) ≤ 524288 := by exact_mod_cast hn.le
  have half : e + 7 * (n : ℚ) / 9007199254740992 ≤ 1 / 2 := by linarith
  obtain ⟨m, rfl⟩ : ∃ m, n = m + 1 := ⟨n - 1, by omega⟩
  rcases index_near hn1 hn he hq with hi | hi
  · obtain ⟨d, w1, w2, f3, w4⟩ := width_near hd0 hd1 hn1 hn he hq (Or.inl rfl)
    by_cases ht : tol < |d|
    · rw [sub_self, sub_zero] at w4
      obtain ⟨r, x, h1, h2, h3⟩ := case_zero hi w1 ht hN hn f3 w4 half hB0 hB1 hg
      exact ⟨r, h1, bound hB.le he0 (by linarith) le_rfl h2 h3⟩
    · obtain ⟨r, h1, h2⟩ := case_small (N := N) hi w1 ht (by omega) hn hB0 hB1 (fun k hk => hg k (by omega))
      refine ⟨r, h1, bound hB.le he0 (by linarith) le_rfl h2 ?_⟩
      rw [sub_self, abs_zero]
      exact mul_nonneg hB.le (by linarith)
  · obtain ⟨d, w1, w2, f3, w4⟩ := width_near hd0 hd1 hn1 hn he hq (Or.inr rfl)
    rw [Nat.add_sub_cancel] at *
    rw [show ((m + 1 : ℕ) : ℚ) - m = 1 by push_cast; ring] at w2 w4
    have ht : tol < |d| := by
      refine tol_lt.trans_le ?_
      have h1 := (abs_le.1 w2).1
      have h2 : 1 / 2 ≤ d / dw := by linarith
      rw [le_div_iff₀ hd] at h2
      refine le_trans ?_ (le_abs_self d)
      rw [show (2 : ℚ) ^ (-28 : ℤ) = 1 / 268435456 by norm_num] at hd0
      linarith
    obtain ⟨r, x, h1, h2, h3⟩ := case_one (N := N) hi w1 ht (by omega) hn f3 w4 half hB0 hB1 (fun k hk => hg k (by omega))
    exact ⟨r, h1, bound hB.le he0 (Nat.cast_nonneg m) (by push_cast; linarith) h2 h3⟩

/-- the rounded step -/
theorem step_near {W : ℚ} {n : ℕ} (hn1 : 1 ≤ n) (hn : n < 2 ^ 19) (h0 : n * 2 ^ (-27 : ℤ) ≤ W) (h1 : W ≤ 2 ^ (600 : ℤ)) :
    fin (W / n) = some (rnd (W / n)) ∧ 2 ^ (-28 : ℤ) ≤ rnd (W / n) ∧ rnd (W / n) ≤ 2 ^ (700 : ℤ) ∧ |W / rnd (W / n) - n| ≤ 2 * n / 9007199254740992 ∧ n * rnd (W / n) ≤ 9 / 8 * W := by
  have hnq : (1 : ℚ) ≤ n := by exact_mod_cast hn1
  have hn0 : (0 : ℚ) < n := by linarith
  have hx0 : (2 : ℚ) ^ (-27 : ℤ) ≤ W / n := by
    rw [le_div_iff₀ hn0, mul_comm]
    exact h0
  have hx : 0 < W / n := (two_zpow_pos _).trans_le hx0
  have hW : 0 < W := by
    have := mul_pos hx hn0
    rwa [div_mul_cancel₀ _ hn0.ne'] at this
  have hx1 : W / n ≤ 2 ^ (600 : ℤ) := (div_le_self hW.le hnq).trans h1
  obtain ⟨f, g⟩ := op ((two_zpow_le (by norm_num)).trans hx0) (hx1.trans (two_zpow_le (by norm_num))) (le_refl 1) (by norm_num) (by rw [one_mul, abs_of_pos hx])
  have hWn : W = W / n * n := by rw [div_mul_cancel₀ _ hn0.ne']
  refine ⟨f, le_rnd (rep_zpow (by norm_num)) ((two_zpow_le (by norm_num)).trans hx0), rnd_le (rep_zpow (by norm_num)) (hx1.trans (two_zpow_le (by norm_num))), ?_⟩
  generalize W / n = x at *
  generalize rnd x = d at *
  have g' := abs_le.1 g
  have hd : x / 2 ≤ d := by linarith [g'.1]
  have hd0 : 0 < d := by linarith
  constructor
  · rw [hWn, show x * n / d - n = (x - d) * n / d by field_simp, abs_div, abs_of_pos hd0, div_le_iff₀ hd0, abs_mul, abs_of_pos hn0, abs_sub_comm]
    have h3 : |d - x| ≤ 2 * d / 9007199254740992 := by
      have : 1 * x * (9 / 8 * (1 / 9007199254740992)) ≤ 2 * d / 9007199254740992 := by linarith [g'.1]
      exact g.trans this
    have := mul_le_mul_of_nonneg_right h3 hn0.le
    linarith
  · have : d ≤ 9 / 8 * x := by linarith [g'.2]
    have := mul_le_mul_of_nonneg_left this hn0.le
    linarith

/-- **C209, symmetric meshes.** For `2 n + 1` points on `[-W, W]` the frequency zero is found whatever the rounding of the step. -/
theorem C209_symmetric {W B : ℚ} {n : ℕ} {g : ℕ → ℚ} (hW : Rep W) (hn1 : 1 ≤ n) (hn : n < 2 ^ 19) (h0 : n * 2 ^ (-27 : ℤ) ≤ W) (h1 : W ≤ 2 ^ (600 : ℤ))
    (hB0 : 2 ^ (-800 : ℤ) ≤ B) (hB1 : B ≤ 2 ^ (800 : ℤ)) (hg : ∀ k ≤ n + 1, |g k| ≤ B) :
    ∃ dw r, step (-W) W (2 * n + 1) = some dw ∧ zeroSum (-W) dw (2 * n + 1) g = .ok r ∧ |r - trapeze g n| ≤ B * (60 * (n + 2) ^ 2 / 9007199254740992) := by
  have hnq : (1 : ℚ) ≤ n := by exact_mod_cast hn1
  have hn2 : (n : ℚ) ≤ 524288 := by exact_mod_cast hn.le
  have hB : 0 < B := (two_zpow_pos _).trans_le hB0
  have hWp : 0 < W := (mul_pos (by linarith) (two_zpow_pos _)).trans_le h0
  obtain ⟨f, d0, d1, hq, -⟩ := step_near hn1 hn h0 h1
  have fW : fin (2 * W) = some (2 * W) := by
    have := fin_of_le (x := 2 * W) (e := 601) (by
      rw [abs_of_pos (by linarith), show (601 : ℤ) = 1 + 600 by norm_num, two_zpow_add, zpow_one]
      exact mul_le_mul_of_nonneg_left h1 (by norm_num)) (by norm_num) (by norm_num)
    rwa [rnd_rep (by have := LinearBins.rep_mul_pow hW 1; rwa [pow_one, mul_comm] at this)] at this
  have hs : step (-W) W (2 * n + 1) = some (rnd (W / n)) := by
    unfold step
    rw [sub_neg_eq_add, ← two_mul, fW, Option.bind_some]
    push_cast
    rw [add_sub_cancel_right, mul_div_mul_left _ _ (two_ne_zero), f]
  obtain ⟨r, h2, h3⟩ := C209_sum (wmin := -W) (N := 2 * n + 1) (e := 2 * n / 9007199254740992) d0 d1 hn1 hn (by omega) (by linarith) (by rw [neg_neg]; exact hq) hB0 hB1 hg
  refine ⟨_, r, hs, h2, h3.trans (mul_le_mul_of_nonneg_left ?_ hB.le)⟩
  have : (n : ℚ) ≤ (n + 2) ^ 2 := by nlinarith
  linarith

theorem tol_gt : 1 / 1073741824 < tol := by decide +kernel

/-- **C209, meshes that end at zero.** For `n + 1` points on `[-W, 0]` with `W ≤ 2^20` nothing behind the last point is read. -/
theorem C209_end {W B : ℚ} {n : ℕ} {g : ℕ → ℚ} (hW : Rep W) (hn1 : 1 ≤ n) (hn : n < 2 ^ 19) (h0 : n * 2 ^ (-27 : ℤ) ≤ W) (h1 : W ≤ 2 ^ 20)
    (hB0 : 2 ^ (-800 : ℤ) ≤ B) (hB1 : B ≤ 2 ^ (800 : ℤ)) (hg : ∀ k ≤ n, |g k| ≤ B) :
    ∃ dw r, step (-W) 0 (n + 1) = some dw ∧ zeroSum (-W) dw (n + 1) g = .ok r ∧ |r - trapeze g n| ≤ B * (60 * (n + 2) ^ 2 / 9007199254740992) := by
  have hnq : (1 : ℚ) ≤ n := by exact_mod_cast hn1
  have hn2 : (n : ℚ) ≤ 524288 := by exact_mod_cast hn.le
  have hB : 0 < B := (two_zpow_pos _).trans_le hB0
  have hWp : 0 < W := (mul_pos (by linarith) (two_zpow_pos _)).trans_le h0
  have h1' : W ≤ 2 ^ (600 : ℤ) := h1.trans ((by norm_num : (2 : ℚ) ^ 20 ≤ 2 ^ (20 : ℤ)).trans (two_zpow_le (by norm_num)))
  obtain ⟨f, d0, d1, hq, hnd⟩ := step_near hn1 hn h0 h1'
  have fW : fin W = some W := by
    have := fin_of_le (x := W) (e := 600) (by rw [abs_of_pos hWp]; exact h1') (by norm_num) (by norm_num)
    rwa [rnd_rep hW] at this
  have hs : step (-W) 0 (n + 1) = some (rnd (W / n)) := by
    unfold step
    rw [sub_neg_eq_add, zero_add, fW, Option.bind_some]
    push_cast
    rw [add_sub_cancel_right, f]
  refine ⟨rnd (W / n), ?_⟩
  generalize rnd (W / n) = dw at *
  have hd : 0 < dw := (two_zpow_pos _).trans_le d0
  have hq' : |-(-W) / dw - n| ≤ 2 * n / 9007199254740992 := by rwa [neg_neg]
  have he : 2 * (n : ℚ) / 9007199254740992 ≤ 1 / 4 := by linarith
  have he0 : (0 : ℚ) ≤ 2 * (n : ℚ) / 9007199254740992 := by positivity
  have half : 2 * (n : ℚ) / 9007199254740992 + 7 * (n : ℚ) / 9007199254740992 ≤ 1 / 2 := by linarith
  have fin_bound : 2 * (2 * (n : ℚ) / 9007199254740992) + 40 * (n + 2) ^ 2 / 9007199254740992 ≤ 60 * (n + 2) ^ 2 / 9007199254740992 := by
    have : (n : ℚ) ≤ (n + 2) ^ 2 := by nlinarith
    linarith
  obtain ⟨m, rfl⟩ : ∃ m, n = m + 1 := ⟨n - 1, by omega⟩
  rcases index_near hn1 hn he hq' with hi | hi
  · obtain ⟨d, w1, w2, f3, w4⟩ := width_near d0 d1 hn1 hn he hq' (Or.inl rfl)
    have ht : ¬tol < |d| := by
      rw [not_lt]
      refine le_trans ?_ tol_gt.le
      rw [sub_self, sub_zero, abs_div, abs_of_pos hd, div_le_iff₀ hd] at w2
      have : (2 * ((m + 1 : ℕ) : ℚ) / 9007199254740992 + 4 * ((m + 1 : ℕ) : ℚ) / 9007199254740992) * dw = 6 / 9007199254740992 * (((m + 1 : ℕ) : ℚ) * dw) := by ring
      rw [this] at w2
      norm_num at h1
      linarith
    obtain ⟨r, h2, h3⟩ := case_small (N := m + 1 + 1) hi w1 ht (by omega) hn hB0 hB1 hg
    refine ⟨r, hs, h2, (bound hB.le he0 (by linarith) le_rfl h3 ?_).trans (mul_le_mul_of_nonneg_left fin_bound hB.le)⟩
    rw [sub_self, abs_zero]
    exact mul_nonneg hB.le (by linarith)
  · obtain ⟨d, w1, w2, f3, w4⟩ := width_near d0 d1 hn1 hn he hq' (Or.inr rfl)
    rw [Nat.add_sub_cancel] at hi w1 w2 w4
    rw [show ((m + 1 : ℕ) : ℚ) - m = 1 by push_cast; ring] at w2 w4
    have ht : tol < |d| := by
      refine tol_lt.trans_le ?_
      have h1 := (abs_le.1 w2).1
      have h2 : 1 / 2 ≤ d / dw := by linarith
      rw [le_div_iff₀ hd] at h2
      refine le_trans ?_ (le_abs_self d)
      rw [show (2 : ℚ) ^ (-28 : ℤ) = 1 / 268435456 by norm_num] at d0
      linarith
    obtain ⟨r, x, h1, h2, h3⟩ := case_one (N := m + 1 + 1) hi w1 ht (by omega) hn f3 w4 half hB0 hB1 hg
    exact ⟨r, hs, h1, (bound hB.le he0 (Nat.cast_nonneg m) (by push_cast; linarith) h2 h3).trans (mul_le_mul_of_nonneg_left fin_bound hB.le)⟩

/-- **C209, false beyond.** With 12 points on `[-3e7, 0]` the width of the last interval is `2^-28` instead of zero, and the point behind the last one is read, whatever the data. -/
theorem C209_end_witness : ∃ dw, step (-30000000) 0 12 = some dw ∧ ∀ g, zeroSum (-30000000) dw 12 g = .outside := by
  refine ⟨rnd (30000000 / 11), by decide +kernel, fun g => ?_⟩
  have h1 : index (-30000000) (rnd (30000000 / 11)) = some 11 := by decide +kernel
  have h2 : width (-30000000) (rnd (30000000 / 11)) 11 = some (1 / 268435456) := by decide +kernel
  have h3 : tol < |(1 / 268435456 : ℚ)| := by decide +kernel
  unfold zeroSum
  rw [h1]
  dsimp only
  rw [h2]
  dsimp only
  rw [if_pos h3, if_pos (by norm_num)]

/-- **C209, fine meshes.** With a step below `1e-9` the last interval may be lost: 23 points on `[-W, W]` with `W` the double 0.1 divided by `2^31`, and constant data. -/
theorem C209_fine_witness : ∃ dw, step (-(3602879701896397 / 2 ^ 86)) (3602879701896397 / 2 ^ 86) 23 = some dw ∧
    zeroSum (-(3602879701896397 / 2 ^ 86)) dw 23 (fun _ => 1) = .ok 10 ∧ trapeze (fun _ => 1) 11 = 11 :=
  ⟨rnd (3602879701896397 / 2 ^ 86 / 11), by decide +kernel, by decide +kernel, by norm_num [trapeze]⟩

/-! ### Examples -/

/-- three intervals below zero, the quotient is exactly three -/
example : step (-1 / 2) (1 / 2) 7 = some (rnd (1 / 6)) ∧ zeroSum (-1 / 2) (rnd (1 / 6)) 7 (fun k => k) = .ok (9 / 2) := by decide +kernel

/-- eleven intervals below zero, the double 0.1: the quotient is below eleven, the index one too small, and the sum right up to one rounding -/
example : index (-(3602879701896397 / 36028797018963968)) (rnd (3602879701896397 / 36028797018963968 / 11)) = some 10 ∧
    zeroSum (-(3602879701896397 / 36028797018963968)) (rnd (3602879701896397 / 36028797018963968 / 11)) 23 (fun _ => 1) = .ok (11 - 1 / 2 ^ 49) := by decide +kernel

/-- data of size one on this mesh -/
example (g : ℕ → ℚ) (hg : ∀ k ≤ 12, |g k| ≤ 1) : ∃ dw r, step (-(3602879701896397 / 36028797018963968)) (3602879701896397 / 36028797018963968) (2 * 11 + 1) = some dw ∧
    zeroSum (-(3602879701896397 / 36028797018963968)) dw (2 * 11 + 1) g = .ok r ∧ |r - trapeze g 11| ≤ 1 * (60 * ((11 : ℕ) + 2) ^ 2 / 9007199254740992) :=
  C209_symmetric (MeanDouble.tenths_rep _ (by simp [MeanDouble.tenths])).1 (by norm_num) (by norm_num) (by norm_num) ((by norm_num : (3602879701896397 / 36028797018963968 : ℚ) ≤ 2 ^ (0 : ℤ)).trans (two_zpow_le (by norm_num)))
    (zpow_le_one_of_nonpos₀ (by norm_num) (by norm_num)) (one_le_zpow₀ (by norm_num) (by norm_num)) hg

end Verif.ZeroDensity
