import Verif.Float.Relative
import Verif.Float.LinearMesh
import Mathlib.Tactic.Ring
import Mathlib.Tactic.FieldSimp

/-!
# Reports of progress in double precision

The messages of a running Monte Carlo simulation: the percentage that is done, the time left and the times of the messages.

Source: `/repo/c++/triqs/mc_tools/mc_generic.hpp` (255-256, 295-307) and `/repo/c++/triqs/utility/timestamp.hpp` (38-52). The format of the time is part of C154.
-/

namespace Verif.ProgressDouble

open Binary64 LinearDouble

/-! ## Model -/

/-- `int64_t(floor(((NC + 1) * 100.0) / n_cycles))`, mc_generic.hpp:296, with `k = NC + 1`; `none` if the conversion is undefined -/
def percent (k n : ℤ) : Option ℤ :=
  match fin (rnd k * 100) with
  | none => none
  | some p => match fin (p / rnd n) with
    | none => none
    | some q => toLong ⌊q⌋

/-- `int(sec)`, timestamp.hpp:39: truncation; undefined outside of the range of `int` -/
def toInt (x : ℚ) : Option ℤ :=
  let r := if 0 ≤ x then ⌊x⌋ else ⌈x⌉
  if -2 ^ 31 ≤ r ∧ r < 2 ^ 31 then some r else none

/-- the seconds shown by `estimate_time_left(Ntot, iter, Timer)`, timestamp.hpp:49-52 -/
def eta (ntot iter : ℤ) (time : ℚ) : Option ℤ :=
  match fin (rnd ((ntot - 1 - iter : ℤ) : ℚ) * time) with
  | none => none
  | some p => match fin (p / rnd ((iter + 1 : ℤ) : ℚ)) with
    | none => none
    | some e => toInt e

/-- `next_info_time = 1.25 * timer_run + 2.0`, mc_generic.hpp:305 -/
def nextTime (t : ℚ) : ℚ := rnd (rnd (5 / 4 * t) + 2)

/-- the double that `0.1` is, mc_generic.hpp:256 -/
def tenth : ℚ := 3602879701896397 / 36028797018963968

/-- the messages, mc_generic.hpp:295-306: for every cycle the values of the timer in lines 297 and 305; a message is the number of the cycle, from one, and the second value -/
def messages (n : ℤ) : ℤ → ℚ → List (ℚ × ℚ) → List (ℤ × ℚ)
  | _, _, [] => []
  | k, next, (t, t') :: l => if next < t ∨ percent (k + 1) n = some 100 then (k + 1, t') :: messages n (k + 1) (nextTime t') l else messages n (k + 1) next l

/-! ## Specification -/

/-- values of a timer up to `T`: the second one is read after the first one -/
def Clock (T : ℚ) (l : List (ℚ × ℚ)) : Prop := ∀ p ∈ l, p.1 ≤ p.2 ∧ p.2 ≤ T

/-! ## Proofs -/

theorem rnd_small {k : ℤ} (h : |k| ≤ 2 ^ 53) : rnd (k : ℚ) = k := rnd_rep (rep_int h)

theorem fin_small {x : ℚ} (h : |x| ≤ 2 ^ (500 : ℤ)) : fin x = some (rnd x) := fin_of_le h (by norm_num) (by norm_num)

theorem le_big {x : ℚ} (h : x ≤ 2 ^ (100 : ℤ)) : x ≤ 2 ^ (500 : ℤ) := h.trans (two_zpow_le (by norm_num))

/-- rounding does not move a quotient over an integer -/
theorem floor_rnd {k n : ℤ} (hk : |k| ≤ 2 ^ 40) (hn : 0 < n) (hn2 : n < 2 ^ 31) (hk2 : |k| ≤ 100 * n) : ⌊rnd ((k : ℚ) / n)⌋ = k / n := by
  have hnq : (0 : ℚ) < n := by exact_mod_cast hn
  have h1 : k / n * n ≤ k := Int.ediv_mul_le k (by omega)
  have h2 : k + 1 ≤ (k / n + 1) * n := by
    have := Int.lt_ediv_add_one_mul_self k hn
    linarith
  have hj1 : -100 ≤ k / n := by
    rw [abs_le] at hk2
    exact (Int.le_ediv_iff_mul_le hn).2 (by linarith [hk2.1])
  have hj2 : k / n ≤ 100 := by
    rw [abs_le] at hk2
    have : k / n * n ≤ 100 * n := h1.trans hk2.2
    exact le_of_mul_le_mul_right this hn
  have q1 : ((k / n : ℤ) : ℚ) ≤ (k : ℚ) / n := by rw [le_div_iff₀ hnq]; exact_mod_cast h1
  have q2 : (k : ℚ) / n ≤ ((k / n : ℤ) : ℚ) + 1 - 1 / n := by
    have : (k : ℚ) / n + 1 / n ≤ ((k / n : ℤ) : ℚ) + 1 := by
      rw [← add_div, div_le_iff₀ hnq]
      exact_mod_cast h2
    linarith
  have q3 : (1 : ℚ) / 2 ^ 31 ≤ 1 / n := one_div_le_one_div_of_le hnq (by exact_mod_cast hn2.le)
  rw [Int.floor_eq_iff]
  constructor
  · exact le_rnd (rep_int (by rw [abs_le]; constructor <;> linarith)) q1
  · have he := (abs_le.1 (rnd_err_abs ((k : ℚ) / n))).2
    have hab : |(k : ℚ) / n| ≤ 101 := by
      have a1 : ((-100 : ℤ) : ℚ) ≤ ((k / n : ℤ) : ℚ) := by exact_mod_cast hj1
      have a2 : ((k / n : ℤ) : ℚ) ≤ ((100 : ℤ) : ℚ) := by exact_mod_cast hj2
      push_cast at a1 a2
      have : (0 : ℚ) < 1 / n := by positivity
      rw [abs_le]
      constructor <;> linarith
    have ht : (2 : ℚ) ^ (-1074 : ℤ) ≤ 1 / 2 ^ 40 := by
      refine (two_zpow_le (by norm_num : (-1074 : ℤ) ≤ -40)).trans ?_
      norm_num
    generalize (2 : ℚ) ^ (-1074 : ℤ) = e at *
    norm_num at ht
    norm_num only at q3
    linarith

/-- the percentage in exact arithmetic -/
theorem percent_eq {k n : ℤ} (hk : 0 ≤ k) (hk2 : k < 2 ^ 31) (hn : n ≠ 0) (hn2 : |n| < 2 ^ 31) (hkn : k ≤ |n|) : percent k n = some (if 0 < n then 100 * k / n else -(100 * k) / -n) := by
  have e1 : rnd (k : ℚ) = k := rnd_small (by rw [abs_of_nonneg hk]; linarith)
  have e2 : rnd (n : ℚ) = n := rnd_small (by linarith)
  have e3 : rnd ((k : ℚ) * 100) = ((100 * k : ℤ) : ℚ) := by
    rw [show (k : ℚ) * 100 = ((100 * k : ℤ) : ℚ) by push_cast; ring]
    exact rnd_small (by rw [abs_of_nonneg (by linarith)]; linarith)
  have hk0 : (0 : ℚ) ≤ k := by exact_mod_cast hk
  have hkq : (k : ℚ) ≤ 2 ^ 31 := by exact_mod_cast hk2.le
  have f1 : fin (rnd (k : ℚ) * 100) = some ((100 * k : ℤ) : ℚ) := by
    rw [e1, fin_small, e3]
    refine le_big ?_
    rw [abs_of_nonneg (by linarith)]
    norm_num at hkq ⊢
    linarith
  have hq : |((100 * k : ℤ) : ℚ) / n| ≤ 2 ^ (100 : ℤ) := by
    rw [abs_div]
    have h1 : (1 : ℚ) ≤ |(n : ℚ)| := by exact_mod_cast Int.one_le_abs hn
    refine (div_le_self (abs_nonneg _) h1).trans ?_
    push_cast
    rw [abs_of_nonneg (by linarith)]
    norm_num at hkq ⊢
    linarith
  have hfl : ⌊rnd (((100 * k : ℤ) : ℚ) / n)⌋ = if 0 < n then 100 * k / n else -(100 * k) / -n := by
    split
    · rename_i hpos
      rw [abs_of_pos hpos] at hn2 hkn
      exact floor_rnd (by rw [abs_of_nonneg (by linarith)]; linarith) hpos hn2 (by rw [abs_of_nonneg (by linarith)]; linarith)
    · rename_i hneg
      have hneg : 0 < -n := by omega
      rw [abs_of_neg (by linarith)] at hn2 hkn
      have := floor_rnd (k := -(100 * k)) (n := -n) (by rw [abs_neg, abs_of_nonneg (by linarith)]; linarith) hneg hn2 (by rw [abs_neg, abs_of_nonneg (by linarith)]; linarith)
      rw [← this]
      congr 2
      push_cast
      rw [neg_div_neg_eq]
  unfold percent
  rw [f1]
  simp only
  rw [e2, fin_small (le_big hq)]
  simp only
  rw [hfl]
  generalize hj : (if 0 < n then 100 * k / n else -(100 * k) / -n) = j
  have hj2 : |j| ≤ 200 := by
    rw [← hj]
    split
    · rename_i hpos
      rw [abs_of_pos hpos] at hn2 hkn
      rw [abs_of_nonneg (Int.ediv_nonneg (by linarith) hpos.le)]
      exact Int.ediv_le_of_le_mul hpos (by linarith)
    · rename_i hneg
      have hneg : 0 < -n := by omega
      rw [abs_of_neg (by linarith)] at hn2 hkn
      rw [abs_le]
      constructor
      · exact (Int.le_ediv_iff_mul_le hneg).2 (by linarith)
      · exact Int.ediv_le_of_le_mul hneg (by linarith)
  unfold toLong
  rw [Int.floor_intCast, Int.ceil_intCast, if_pos ?_]
  · simp
  · have : |((j : ℤ) : ℚ)| ≤ 200 := by exact_mod_cast hj2
    norm_num at this ⊢
    linarith

/-- **C182, percentage**: for every number of cycles below `2^31`, the percentage that is shown after `k` cycles is exact, rounded down. -/
theorem C182_percent (k n : ℤ) (hk : 1 ≤ k) (hkn : k ≤ n) (hn : n < 2 ^ 31) : percent k n = some (100 * k / n) := by
  have h0 : 0 < n := by linarith
  rw [percent_eq (by linarith) (by linarith) (by omega) (by rw [abs_of_pos h0]; exact hn) (by rw [abs_of_pos h0]; exact hkn), if_pos h0]

/-- **C182, completion**: one hundred percent are shown after the last cycle and at no time before. -/
theorem C182_complete (k n : ℤ) (hk : 1 ≤ k) (hkn : k ≤ n) (hn : n < 2 ^ 31) : percent k n = some 100 ↔ k = n := by
  have h0 : 0 < n := by linarith
  rw [C182_percent k n hk hkn hn]
  constructor
  · intro h
    have h1 := Option.some.inj h
    have h2 : 100 * k / n * n ≤ 100 * k := Int.ediv_mul_le _ (by omega)
    rw [h1] at h2
    linarith
  · rintro rfl
    rw [Int.mul_ediv_cancel _ (by omega)]

/-- **C182, runs without end**: a negative number of cycles never gives one hundred percent. -/
theorem C182_infinite (k n : ℤ) (hk : 1 ≤ k) (hn : n < 0) (hn2 : -2 ^ 31 < n) (hkn : k ≤ -n) : ∃ p, percent k n = some p ∧ p < 0 := by
  refine ⟨_, percent_eq (by linarith) (by linarith) (by omega) (by rw [abs_of_neg hn]; linarith) (by rw [abs_of_neg hn]; exact hkn), ?_⟩
  rw [if_neg (by omega)]
  exact Int.ediv_neg_of_neg_of_pos (by linarith) (by linarith)

/-- **C182, time left**: what is shown is the time per cycle times the number of cycles left, up to one second and a relative error of `2^-50`, provided that it fits into an `int`. -/
theorem C182_eta (n i : ℤ) (t : ℚ) (ht1 : 1 / 2 ^ 40 ≤ t) (ht2 : t ≤ 2 ^ 60) (hi : 0 ≤ i) (hin : i < n) (hn : n < 2 ^ 31) (hfit : (n - 1 - i) * t / (i + 1) ≤ 2 ^ 30) :
    ∃ s : ℤ, eta n i t = some s ∧ 0 ≤ s ∧ |(s : ℚ) - (n - 1 - i) * t / (i + 1)| ≤ 1 + (n - 1 - i) * t / (i + 1) / 2 ^ 50 := by
  have hn' : rnd ((n - 1 - i : ℤ) : ℚ) = ((n - 1 - i : ℤ) : ℚ) := rnd_small (by rw [abs_of_nonneg (by linarith)]; linarith)
  have hi' : rnd ((i + 1 : ℤ) : ℚ) = ((i + 1 : ℤ) : ℚ) := rnd_small (by rw [abs_of_nonneg (by linarith)]; linarith)
  have hL0 : (0 : ℚ) ≤ ((n - 1 - i : ℤ) : ℚ) := by exact_mod_cast (by linarith : (0 : ℤ) ≤ n - 1 - i)
  have hL1 : ((n - 1 - i : ℤ) : ℚ) ≤ 2 ^ 31 := by exact_mod_cast (by linarith : n - 1 - i ≤ 2 ^ 31)
  have hI1 : (1 : ℚ) ≤ ((i + 1 : ℤ) : ℚ) := by exact_mod_cast (by linarith : (1 : ℤ) ≤ i + 1)
  have hI2 : ((i + 1 : ℤ) : ℚ) ≤ 2 ^ 31 := by exact_mod_cast (by linarith : i + 1 ≤ 2 ^ 31)
  have hEq : (n - 1 - i) * t / (i + 1) = ((n - 1 - i : ℤ) : ℚ) * t / ((i + 1 : ℤ) : ℚ) := by push_cast; rfl
  rw [hEq] at hfit ⊢
  unfold eta
  rw [hn', hi']
  have ht0 : 0 < t := lt_of_lt_of_le (by norm_num) ht1
  by_cases hz : n - 1 - i = 0
  · have h0 : fin 0 = some 0 := by decide +kernel
    rw [hz]
    norm_num [h0, toInt]
  have hLpos : (1 : ℚ) ≤ ((n - 1 - i : ℤ) : ℚ) := by exact_mod_cast (by omega : (1 : ℤ) ≤ n - 1 - i)
  generalize ((n - 1 - i : ℤ) : ℚ) = L at *
  generalize ((i + 1 : ℤ) : ℚ) = I at *
  have hI0 : 0 < I := by linarith
  have hp0 : 1 / 2 ^ 40 ≤ L * t := ht1.trans (le_mul_of_one_le_left ht0.le hLpos)
  have hp1 : L * t ≤ 2 ^ 91 := by
    calc L * t ≤ 2 ^ 31 * 2 ^ 60 := mul_le_mul hL1 ht2 ht0.le (by norm_num)
      _ = _ := by norm_num
  have tiny : (2 : ℚ) ^ (-1022 : ℤ) ≤ 1 / 2 ^ 80 := (two_zpow_le (by norm_num : (-1022 : ℤ) ≤ -80)).trans (by norm_num)
  have r1 : Rel 1 (L * t) (rnd (L * t)) := rel_rnd (tiny.trans (le_trans (by norm_num) hp0))
  have hf1 : fin (L * t) = some (rnd (L * t)) := fin_small (by
    rw [abs_of_pos (lt_of_lt_of_le (by norm_num) hp0)]
    refine hp1.trans (le_big ?_)
    norm_num)
  have r2 : Rel 1 (L * t / I) (rnd (L * t) / I) := by
    have := r1.div (Rel.refl I) (by positivity) hI0
    simpa using this
  have hP0 : 1 / 2 ^ 41 ≤ rnd (L * t) := le_rnd (by convert rep_zpow (e := -41) (by norm_num) using 1; norm_num) (le_trans (by norm_num) hp0)
  have hP1 : rnd (L * t) ≤ 2 ^ 91 := rnd_le (by convert rep_zpow (e := 91) (by norm_num) using 1; norm_num) hp1
  have hQ0 : 1 / 2 ^ 80 ≤ rnd (L * t) / I := by
    rw [le_div_iff₀ hI0]
    norm_num at hI2 hP0 ⊢
    linarith
  have r3 : Rel 1 (rnd (L * t) / I) (rnd (rnd (L * t) / I)) := rel_rnd (tiny.trans hQ0)
  have hf2 : fin (rnd (L * t) / I) = some (rnd (rnd (L * t) / I)) := fin_small (by
    rw [abs_of_pos (lt_of_lt_of_le (by norm_num) hQ0)]
    refine ((div_le_self (le_trans (by norm_num) hP0) hI1).trans hP1).trans (le_big ?_)
    norm_num)
  rw [hf1]
  simp only
  rw [hf2]
  simp only
  have he := (r2.trans r3).err (by norm_num) (by positivity)
  have hx0 : 0 ≤ rnd (rnd (L * t) / I) := rnd_nonneg (le_trans (by norm_num) hQ0)
  generalize rnd (rnd (L * t) / I) = y at *
  have hE0 : 0 ≤ L * t / I := by positivity
  generalize L * t / I = E at *
  have fl := Int.floor_le y
  have fl2 := Int.lt_floor_add_one y
  push_cast at he
  rw [abs_le] at he
  norm_num at he hfit
  have hlt : ⌊y⌋ < 2 ^ 31 := by
    rw [Int.floor_lt]
    push_cast
    norm_num
    linarith [he.2]
  have hnn : 0 ≤ ⌊y⌋ := Int.floor_nonneg.2 hx0
  refine ⟨⌊y⌋, ?_, hnn, ?_⟩
  · unfold toInt
    rw [if_pos hx0]
    simp only
    rw [if_pos ⟨by linarith, hlt⟩]
  · rw [abs_le]
    norm_num
    constructor <;> linarith [he.1, he.2]

/-- **C182, last cycle**: no time is left after the last cycle. -/
theorem C182_eta_last (n : ℤ) (t : ℚ) : eta n (n - 1) t = some 0 := by
  have h0 : fin 0 = some 0 := by decide +kernel
  unfold eta
  rw [show n - 1 - (n - 1) = 0 by ring]
  norm_num [h0, toInt, rnd_zero]

/-- **C182, finding**: if much time is left, the conversion to `int` is undefined: `10^9` cycles of three seconds. -/
theorem C182_eta_overflow : eta (10 ^ 9) 0 3 = none := by decide +kernel

/-! ### How often a message is printed -/

/-- the time of the next message is larger by a fifth and more than one second -/
theorem nextTime_ge {t : ℚ} (ht : 0 ≤ t) (ht2 : t ≤ 2 ^ 50) : 6 / 5 * t + 1 ≤ nextTime t := by
  unfold nextTime
  have e1 := (abs_le.1 (rnd_err_abs (5 / 4 * t))).1
  have e2 := (abs_le.1 (rnd_err_abs (rnd (5 / 4 * t) + 2))).1
  have h0 : 0 ≤ rnd (5 / 4 * t) := rnd_nonneg (by positivity)
  rw [abs_of_nonneg (by positivity : 0 ≤ 5 / 4 * t)] at e1
  rw [abs_of_nonneg (a := rnd (5 / 4 * t) + 2) (by linarith)] at e2
  have hu : rnd (5 / 4 * t) ≤ 2 ^ 51 := rnd_le (by convert rep_zpow (e := 51) (by norm_num) using 1; norm_num) (by norm_num at ht2 ⊢; linarith)
  have hs : (2 : ℚ) ^ (-1074 : ℤ) ≤ 1 / 2 ^ 40 := (two_zpow_le (by norm_num : (-1074 : ℤ) ≤ -40)).trans (by norm_num)
  generalize (2 : ℚ) ^ (-1074 : ℤ) = e at *
  norm_num at hs hu ht2
  linarith

theorem messages_le (n : ℤ) (hn : n < 2 ^ 31) (T : ℚ) (hT : T ≤ 2 ^ 50) : ∀ (l : List (ℚ × ℚ)) (k : ℤ) (next : ℚ) (j : ℕ), 0 ≤ k → k + l.length ≤ n → Clock T l →
    (6 / 5) ^ j * (1 / 16) ≤ next → 2 ≤ (messages n k next l).length → (6 / 5) ^ (j + ((messages n k next l).length - 2)) * (1 / 16 : ℚ) ≤ T := by
  intro l
  induction l with
  | nil => intro k next j _ _ _ _ h; simp [messages] at h
  | cons p l ih =>
    intro k next j hk hlen hc hnext h2
    obtain ⟨t, t'⟩ := p
    obtain ⟨c1, c2⟩ := hc (t, t') (by simp)
    simp only at c1 c2
    rw [List.length_cons] at hlen
    push_cast at hlen
    have hc' : Clock T l := fun p hp => hc p (by simp [hp])
    unfold messages at h2 ⊢
    by_cases hlt : next < t
    · rw [if_pos (Or.inl hlt)] at h2 ⊢
      rw [List.length_cons] at h2 ⊢
      have hpow : (0 : ℚ) < (6 / 5) ^ j := by positivity
      have hnn := nextTime_ge (t := t') (by linarith) (c2.trans hT)
      by_cases h3 : 2 ≤ (messages n (k + 1) (nextTime t') l).length
      · have := ih (k + 1) (nextTime t') (j + 1) (by linarith) (by linarith) hc' (by rw [pow_succ]; linarith) h3
        rw [show j + ((messages n (k + 1) (nextTime t') l).length + 1 - 2) = j + 1 + ((messages n (k + 1) (nextTime t') l).length - 2) by omega]
        exact this
      · rw [show j + ((messages n (k + 1) (nextTime t') l).length + 1 - 2) = j by omega]
        linarith
    · by_cases hp : percent (k + 1) n = some 100
      · have hkn := (C182_complete (k + 1) n (by linarith) (by linarith [Int.natCast_nonneg l.length]) hn).1 hp
        have hl : l = [] := List.length_eq_zero_iff.1 (by omega)
        rw [if_pos (Or.inr hp), hl] at h2
        simp [messages] at h2
      · rw [if_neg (by tauto)] at h2 ⊢
        exact ih (k + 1) next j (by linarith) (by linarith) hc' hnext h2

/-- **C182, number of messages**: the number of messages grows at most like the logarithm of the time, whatever the number of cycles and their durations are. -/
theorem C182_messages (n : ℤ) (hn : n < 2 ^ 31) (T : ℚ) (hT : T ≤ 2 ^ 50) (l : List (ℚ × ℚ)) (hl : l.length ≤ n) (hc : Clock T l) (h2 : 2 ≤ (messages n 0 tenth l).length) :
    (6 / 5 : ℚ) ^ ((messages n 0 tenth l).length - 2) ≤ 16 * T := by
  have := messages_le n hn T hT l 0 tenth 0 (le_refl _) (by linarith) hc (by norm_num [tenth]) h2
  rw [zero_add] at this
  linarith

theorem messages_last (n : ℤ) (hn : n < 2 ^ 31) : ∀ (l : List (ℚ × ℚ)) (k : ℤ) (next : ℚ), 0 ≤ k → k + l.length = n → l ≠ [] → ∃ t, (messages n k next l).getLast? = some (n, t) ∧ ∃ u, l.getLast? = some (u, t) := by
  intro l
  induction l with
  | nil => intro k next _ _ h; exact absurd rfl h
  | cons p l ih =>
    intro k next hk hlen _
    obtain ⟨t, t'⟩ := p
    rw [List.length_cons] at hlen
    push_cast at hlen
    unfold messages
    by_cases hl : l = []
    · subst hl
      have hkn : k + 1 = n := by simpa using hlen
      rw [if_pos (Or.inr ((C182_complete (k + 1) n (by linarith) (by linarith) hn).2 hkn)), hkn]
      exact ⟨t', rfl, t, rfl⟩
    · have hlast : ((t, t') :: l).getLast? = l.getLast? := by
        cases l with
        | nil => exact absurd rfl hl
        | cons a b => simp [List.getLast?_cons_cons]
      rw [hlast]
      split
      · obtain ⟨r, e1, e2⟩ := ih (k + 1) (nextTime t') (by linarith) (by linarith) hl
        refine ⟨r, ?_, e2⟩
        cases hm : messages n (k + 1) (nextTime t') l with
        | nil => rw [hm] at e1; simp at e1
        | cons a b => rw [List.getLast?_cons_cons, ← hm]; exact e1
      · exact ih (k + 1) next (by linarith) (by linarith) hl

/-- **C182, last message**: a run that does all its cycles always ends with the message of the last cycle. -/
theorem C182_last_message (n : ℤ) (hn : n < 2 ^ 31) (l : List (ℚ × ℚ)) (hl : l.length = n) (h : l ≠ []) : ∃ t, (messages n 0 tenth l).getLast? = some (n, t) := by
  obtain ⟨t, e, _⟩ := messages_last n hn l 0 tenth (le_refl _) (by linarith) h
  exact ⟨t, e⟩

/-! ### Examples -/

example : percent 1 3 = some 33 ∧ percent 29 100 = some 29 ∧ percent 2147483646 2147483647 = some 99 ∧ percent 5 (-1) = some (-500) := by decide +kernel

/-- eight hours left after one hour of a run with nine cycles -/
example : eta 9 0 3600 = some 28800 ∧ eta 3 0 (3602879701896397 / 36028797018963968) = some 0 := by decide +kernel

/-- four messages for five cycles of four seconds -/
example : messages 5 0 tenth [(4, 4), (8, 8), (12, 12), (16, 16), (20, 20)] = [(1, 4), (2, 8), (4, 16), (5, 20)] := by decide +kernel

/-- less than hundred messages in a week, for any number of cycles -/
example (n : ℤ) (hn : n < 2 ^ 31) (l : List (ℚ × ℚ)) (hl : l.length ≤ n) (hc : Clock 604800 l) : (messages n 0 tenth l).length < 100 := by
  by_contra h
  have := C182_messages n hn 604800 (by norm_num) l hl hc (by omega)
  have h2 : (6 / 5 : ℚ) ^ 98 ≤ (6 / 5) ^ ((messages n 0 tenth l).length - 2) := pow_le_pow_right₀ (by norm_num) (by omega)
  norm_num at this h2
  linarith

end Verif.ProgressDouble
