import Verif.Float.LinearMesh
import Mathlib.Algebra.BigOperators.Group.List.Basic
import Mathlib.Tactic.Ring
import Mathlib.Tactic.FieldSimp

/-!
# Means and error bars in double precision

C36 and C37 are about exact arithmetic. Here `mean`, `mean_and_err` and the logarithmic binning of real data are modelled with the rounding of the machine.

Source: `/repo/c++/triqs/stat/mean_error.hpp` (32-38, 61-70) and `/repo/c++/triqs/stat/accumulator.hpp` (60-76, 136-232). The update of a bin of the linear binning, accumulator.hpp:73, is the
one of `mean`. Shifts `1 << n` do not overflow here; that they do from `2^31` data on is part of C36.
-/

namespace Verif.MeanDouble

open Binary64 LinearDouble

/-! ## Model -/

/-- `mean_calc += (x - mean_calc) / (n + 1)`, mean_error.hpp:36; `k` is the number `n + 1`, which is converted; `none` if an operation overflows -/
def update (m x : ℚ) (k : ℕ) : Option ℚ :=
  match fin (x - m) with
  | none => none
  | some d => match fin (d / rnd k) with
    | none => none
    | some q => fin (m + q)

/-- the loop of `mean`, mean_error.hpp:36 -/
def meanLoop : ℕ → ℚ → List ℚ → Option ℚ
  | _, m, [] => some m
  | n, m, x :: l => match update m x (n + 1) with
    | none => none
    | some m' => meanLoop (n + 1) m' l

/-- `mean`, mean_error.hpp:32-38; `none` also for empty data, of which the first element is read -/
def mean (l : List ℚ) : Option ℚ := if l.length = 0 then none else meanLoop 0 0 l

/-- the loop of `mean_and_err`, mean_error.hpp:67; `K` is `length * (length - 1)` after conversion -/
def errLoop (K m : ℚ) : ℚ → List ℚ → Option ℚ
  | e, [] => some e
  | e, x :: l => match fin (x - m) with
    | none => none
    | some d => match fin (d * d) with
      | none => none
      | some s => match fin (s / K) with
        | none => none
        | some t => match fin (e + t) with
          | none => none
          | some e' => errLoop K m e' l

/-- `mean_and_err`, mean_error.hpp:61-70: the mean and the square of the error; `none` for fewer than two data, where zero is divided by zero, and if the product of `long` numbers overflows -/
def meanAndErr (l : List ℚ) : Option (ℚ × ℚ) :=
  if l.length < 2 ∨ 2 ^ 63 ≤ l.length * (l.length - 1) then none
  else match mean l with
    | none => none
    | some m => (errLoop (rnd ((l.length * (l.length - 1) : ℕ) : ℚ)) m 0 l).map fun e => (m, e)

/-- members of `log_binning`, accumulator.hpp:138-144 -/
structure Log where
  M : List ℚ
  Q : List ℚ
  maxN : ℤ
  acc : List ℚ
  cnt : List ℤ
  count : ℕ
deriving DecidableEq

/-- constructor, accumulator.hpp:150-168 -/
def ctor (maxN : ℤ) : Log :=
  if maxN = 0 then ⟨[], [], 0, [], [], 0⟩ else ⟨[0], [0], maxN, if maxN ≠ 1 then [0] else [], if maxN ≠ 1 then [0] else [], 0⟩

/-- the loop that goes up, accumulator.hpp:186-194; the first argument is `acc.size() - n` -/
def up (x : ℚ) : ℕ → ℕ → List ℚ → List ℤ → Option (ℕ × List ℚ × List ℤ)
  | 0, n, acc, cnt => some (n, acc, cnt)
  | f + 1, n, acc, cnt =>
    acc[n]?.bind fun a => (if n = 0 then some x else acc[n - 1]?).bind fun v => cnt[n]?.bind fun c => (fin (a + v)).bind fun b =>
      if c + 1 < 2 then some (n, acc.set n b, cnt.set n (c + 1)) else up x f (n + 1) (acc.set n b) (cnt.set n (c + 1))

/-- a new level when the number of data is a power of two, accumulator.hpp:198-210 -/
def grow (s : Log) : Option Log :=
  if s.count = 2 ^ s.acc.length ∧ (s.maxN < 0 ∨ (s.Q.length : ℤ) < s.maxN) then
    s.acc.getLast?.bind fun a =>
      let s := if s.maxN < 0 ∨ (s.Q.length : ℤ) < s.maxN - 1 then { s with acc := s.acc ++ [a], cnt := s.cnt ++ [1] } else s
      some { s with M := s.M ++ [a], Q := s.Q ++ [0] }
  else some s

/-- update of the pair number `i` with the number `k` of blocks and the average `y`, accumulator.hpp:215-218 and 225-228 -/
def welford (i k : ℕ) (y : ℚ) (s : Log) : Option Log :=
  s.M[i]?.bind fun m => s.Q[i]?.bind fun q => (fin (y - m)).bind fun d => (fin (rnd (k - 1 : ℕ) / rnd k)).bind fun f => (fin (d * d)).bind fun dd => (fin (f * dd)).bind fun p =>
    (fin (q + p)).bind fun q' => (fin (d / rnd k)).bind fun e => (fin (m + e)).map fun m' => { s with M := s.M.set i m', Q := s.Q.set i q' }

/-- body of the loop that goes down, accumulator.hpp:214-220 -/
def downBody (n : ℕ) (s : Log) : Option Log :=
  s.acc[n]?.bind fun a => (fin (a / rnd (2 ^ (n + 1) : ℕ))).bind fun y => (welford (n + 1) (s.count / 2 ^ (n + 1)) y s).map fun s => { s with cnt := s.cnt.set n 0, acc := s.acc.set n 0 }

/-- the loop that goes down, accumulator.hpp:212-221 -/
def down : ℕ → Log → Option Log
  | 0, s => some s
  | n + 1, s => (downBody n s).bind (down n)

/-- `operator<<`, accumulator.hpp:172-231 -/
def push (x : ℚ) (s : Log) : Option Log :=
  if s.maxN = 0 then some s
  else
    let s := { s with count := s.count + 1 }
    (if s.maxN ≠ 1 then (up x s.acc.length 0 s.acc s.cnt).bind fun p => (grow { s with acc := p.2.1, cnt := p.2.2 }).bind (down p.1) else some s).bind fun s => welford 0 s.count x s

def run : List ℚ → Log → Option Log
  | [], s => some s
  | x :: xs, s => (push x s).bind (run xs)

/-! ## Specification -/

/-- doubles between `a` and `b`, not so large that a difference could overflow -/
structure Between (a b : ℚ) (l : List ℚ) : Prop where
  low : Rep a
  high : Rep b
  lowBig : -2 ^ (1000 : ℤ) ≤ a
  highBig : b ≤ 2 ^ (1000 : ℤ)
  data : ∀ x ∈ l, Rep x ∧ a ≤ x ∧ x ≤ b

/-! ## Proofs -/

theorem rep_two : Rep 2 := by exact_mod_cast rep_int (n := 2) (by norm_num)

/-- one step towards a larger value stays below it -/
theorem step_up {m x K : ℚ} (hm : Rep m) (hx : Rep x) (h : m ≤ x) (hK : 2 ≤ K) :
    0 ≤ rnd (rnd (x - m) / K) ∧ m + rnd (rnd (x - m) / K) ≤ x := by
  have hd0 : 0 ≤ rnd (x - m) := rnd_nonneg (by linarith)
  have hK0 : 0 < K := by linarith
  have hq0 : 0 ≤ rnd (x - m) / K := div_nonneg hd0 hK0.le
  have hhalf : rnd (x - m) / K ≤ rnd (x - m) / 2 := div_le_div_of_nonneg_left hd0 (by norm_num) hK
  refine ⟨rnd_nonneg hq0, ?_⟩
  rcases sub_cases hx hm h with hr | hn
  · have : rnd (rnd (x - m) / K) ≤ rnd (x - m) := rnd_le (rep_rnd _) (by linarith)
    rw [rnd_rep hr] at this ⊢
    linarith
  · have e1 := (abs_le.1 ((rel_rnd hn).err (by norm_num) (by linarith))).2
    have e2 := (abs_le.1 (rnd_err_abs (rnd (x - m) / K))).2
    rw [abs_of_nonneg hq0] at e2
    have ht : (2 : ℚ) ^ (-1074 : ℤ) ≤ (x - m) / 4 := by
      have h1 : (2 : ℚ) ^ (-1074 : ℤ) * 4 ≤ 2 ^ (-1022 : ℤ) := by
        calc (2 : ℚ) ^ (-1074 : ℤ) * 4 = 2 ^ (-1072 : ℤ) := by
              rw [show (4 : ℚ) = 2 ^ (2 : ℤ) by norm_num, ← two_zpow_add]; norm_num
          _ ≤ _ := two_zpow_le (by norm_num)
      linarith
    generalize (2 : ℚ) ^ (-1074 : ℤ) = t at *
    generalize (2 : ℚ) ^ (-1022 : ℤ) = t' at *
    push_cast at e1
    generalize rnd (rnd (x - m) / K) = q at *
    generalize rnd (x - m) / K = p at *
    generalize rnd (x - m) = d at *
    linarith

/-- both directions: the unrounded sum lies between the old value and the new datum -/
theorem step_between {m x K : ℚ} (hm : Rep m) (hx : Rep x) (hK : 2 ≤ K) :
    (m ≤ x → m ≤ m + rnd (rnd (x - m) / K) ∧ m + rnd (rnd (x - m) / K) ≤ x) ∧ (x ≤ m → x ≤ m + rnd (rnd (x - m) / K) ∧ m + rnd (rnd (x - m) / K) ≤ m) := by
  constructor
  · intro h
    obtain ⟨h1, h2⟩ := step_up hm hx h hK
    exact ⟨by linarith, h2⟩
  · intro h
    obtain ⟨h1, h2⟩ := step_up (rep_neg hm) (rep_neg hx) (by linarith) hK
    have e : rnd (rnd (-x - -m) / K) = -rnd (rnd (x - m) / K) := by
      rw [show -x - -m = -(x - m) by ring, rnd_neg, neg_div, rnd_neg]
    rw [e] at h1 h2
    constructor <;> linarith

theorem two_le_rnd {k : ℕ} (hk : 2 ≤ k) : 2 ≤ rnd (k : ℚ) := le_rnd rep_two (by exact_mod_cast hk)

/-- the step does not overflow -/
theorem update_eq {m x : ℚ} {k : ℕ} (hm : Rep m) (hx : Rep x) (hk : 2 ≤ k) (bm : |m| ≤ 2 ^ (1000 : ℤ)) (bx : |x| ≤ 2 ^ (1000 : ℤ)) :
    update m x k = some (rnd (m + rnd (rnd (x - m) / rnd k))) := by
  have hK := two_le_rnd hk
  obtain ⟨s1, s2⟩ := step_between hm hx hK
  have hsum : |m + rnd (rnd (x - m) / rnd k)| ≤ 2 ^ (1000 : ℤ) := by
    rw [abs_le] at bm bx ⊢
    rcases le_total m x with h | h
    · have := s1 h
      constructor <;> linarith [bm.1, bm.2, bx.1, bx.2]
    · have := s2 h
      constructor <;> linarith [bm.1, bm.2, bx.1, bx.2]
  have h2 : (2 : ℚ) ^ (1001 : ℤ) = 2 * 2 ^ (1000 : ℤ) := by
    rw [show (1001 : ℤ) = 1 + 1000 by norm_num, two_zpow_add]; norm_num
  have hd : |x - m| ≤ 2 ^ (1001 : ℤ) := by
    rw [h2, abs_le]
    rw [abs_le] at bm bx
    constructor <;> linarith [bm.1, bm.2, bx.1, bx.2]
  have hd' : |rnd (x - m)| ≤ 2 ^ (1001 : ℤ) := by
    rw [abs_le] at hd ⊢
    exact ⟨le_rnd (rep_neg (rep_zpow (by norm_num))) hd.1, rnd_le (rep_zpow (by norm_num)) hd.2⟩
  have hq : |rnd (x - m) / rnd k| ≤ 2 ^ (1001 : ℤ) := by
    rw [abs_div, abs_of_pos (by linarith : 0 < rnd (k : ℚ))]
    exact (div_le_self (abs_nonneg _) (by linarith)).trans hd'
  unfold update
  rw [fin_of_le hd (by norm_num) (by norm_num)]
  simp only
  rw [fin_of_le hq (by norm_num) (by norm_num)]
  simp only
  exact fin_of_le hsum (by norm_num) (by norm_num)

theorem Between.big {a b : ℚ} {l : List ℚ} (h : Between a b l) {x : ℚ} (h1 : a ≤ x) (h2 : x ≤ b) : |x| ≤ 2 ^ (1000 : ℤ) :=
  abs_le.2 ⟨h.lowBig.trans h1, h2.trans h.highBig⟩

theorem update_between {a b : ℚ} {l : List ℚ} (h : Between a b l) {m x : ℚ} {k : ℕ} (hm : Rep m) (hx : Rep x) (hk : 2 ≤ k) (m1 : a ≤ m) (m2 : m ≤ b) (x1 : a ≤ x) (x2 : x ≤ b) :
    ∃ r, update m x k = some r ∧ Rep r ∧ a ≤ r ∧ r ≤ b := by
  obtain ⟨s1, s2⟩ := step_between hm hx (two_le_rnd hk)
  refine ⟨_, update_eq hm hx hk (h.big m1 m2) (h.big x1 x2), rep_rnd _, le_rnd h.low ?_, rnd_le h.high ?_⟩
  · rcases le_total m x with hh | hh
    · linarith [(s1 hh).1]
    · linarith [(s2 hh).1]
  · rcases le_total m x with hh | hh
    · linarith [(s1 hh).2]
    · linarith [(s2 hh).2]

/-- the first datum is stored as it is -/
theorem update_first {x : ℚ} (hx : Rep x) (bx : |x| ≤ 2 ^ (1000 : ℤ)) : update 0 x 1 = some x := by
  have hf : fin x = some x := by
    have := fin_of_le bx (by norm_num) (by norm_num)
    rwa [rnd_rep hx] at this
  unfold update
  rw [sub_zero, hf]
  simp only
  rw [show ((1 : ℕ) : ℚ) = 1 by norm_num, rnd_rep rep_one, div_one, hf]
  simp only
  rw [zero_add, hf]

theorem meanLoop_between {a b : ℚ} {l : List ℚ} (h : Between a b l) : ∀ (n : ℕ) (m : ℚ), 1 ≤ n → Rep m → a ≤ m → m ≤ b → ∃ r, meanLoop n m l = some r ∧ Rep r ∧ a ≤ r ∧ r ≤ b := by
  induction l with
  | nil => intro n m _ hm m1 m2; exact ⟨m, rfl, hm, m1, m2⟩
  | cons x l ih =>
    intro n m hn hm m1 m2
    obtain ⟨hx, x1, x2⟩ := h.data x (by simp)
    obtain ⟨r, e, hr, r1, r2⟩ := update_between h hm hx (by omega : 2 ≤ n + 1) m1 m2 x1 x2
    obtain ⟨r', e', hr'⟩ := ih ⟨h.low, h.high, h.lowBig, h.highBig, fun y hy => h.data y (by simp [hy])⟩ (n + 1) r (by omega) hr r1 r2
    refine ⟨r', ?_, hr'⟩
    unfold meanLoop
    rw [e]
    exact e'

/-- **C181, between the data**: the mean lies between the smallest and the largest datum, whatever the rounding errors are. -/
theorem C181_between (a b : ℚ) (l : List ℚ) (hl : l ≠ []) (h : Between a b l) : ∃ m, mean l = some m ∧ IsDouble m ∧ a ≤ m ∧ m ≤ b := by
  cases l with
  | nil => exact absurd rfl hl
  | cons x l =>
    obtain ⟨hx, x1, x2⟩ := h.data x (by simp)
    obtain ⟨r, e, hr, r1, r2⟩ := meanLoop_between (l := l) ⟨h.low, h.high, h.lowBig, h.highBig, fun y hy => h.data y (by simp [hy])⟩ 1 x (le_refl _) hx x1 x2
    refine ⟨r, ?_, ⟨hr, lt_of_le_of_lt (h.big r1 r2) (big_lt (by norm_num))⟩, r1, r2⟩
    unfold mean
    rw [if_neg (by simp)]
    unfold meanLoop
    rw [update_first hx (h.big x1 x2)]
    exact e

/-- the product of `long` numbers for this many data -/
theorem not_overflow {n : ℕ} (h2 : 2 ≤ n) (h3 : n ≤ 3037000500) : ¬ (n < 2 ∨ 2 ^ 63 ≤ n * (n - 1)) := by
  rintro (h | h)
  · omega
  · have : n * (n - 1) ≤ 3037000500 * 3037000499 := Nat.mul_le_mul h3 (by omega)
    omega

/-- **C181, many data**: `mean_and_err` multiplies `long` numbers, which is undefined from this number of data on. -/
theorem C181_overflow (l : List ℚ) (h : 3037000501 ≤ l.length) : meanAndErr l = none := by
  unfold meanAndErr
  have : 3037000501 * 3037000500 ≤ l.length * (l.length - 1) := Nat.mul_le_mul h (by omega)
  rw [if_pos (Or.inr (by omega))]

/-- **C181, equal data**: the mean of equal data is the datum and the error is exactly zero. -/
theorem C181_constant (c : ℚ) (hc : Rep c) (hb : |c| ≤ 2 ^ (1000 : ℤ)) (n : ℕ) (hn : 1 ≤ n) :
    mean (List.replicate n c) = some c ∧ (2 ≤ n → n ≤ 3037000500 → meanAndErr (List.replicate n c) = some (c, 0)) := by
  have hne : List.replicate n c ≠ [] := by
    intro h
    have := congrArg List.length h
    simp at this
    omega
  obtain ⟨m, e, _, h1, h2⟩ := C181_between c c (List.replicate n c) hne
    ⟨hc, hc, (abs_le.1 hb).1, (abs_le.1 hb).2, fun x hx => by rw [List.eq_of_mem_replicate hx]; exact ⟨hc, le_refl _, le_refl _⟩⟩
  have hmc : m = c := le_antisymm h2 h1
  subst hmc
  refine ⟨e, fun hn2 hn3 => ?_⟩
  have h0 : fin 0 = some 0 := by decide +kernel
  have herr : ∀ (K : ℚ) (k : ℕ), errLoop K m 0 (List.replicate k m) = some 0 := by
    intro K k
    induction k with
    | zero => rfl
    | succ k ih =>
      rw [List.replicate_succ]
      unfold errLoop
      rw [sub_self, h0]
      simp only
      rw [mul_zero, h0]
      simp only
      rw [zero_div, h0]
      simp only
      rw [add_zero, h0]
      exact ih
  unfold meanAndErr
  rw [if_neg (not_overflow (by rw [List.length_replicate]; exact hn2) (by rw [List.length_replicate]; exact hn3)), e]
  simp only
  rw [herr]
  rfl

theorem tpos : (0 : ℚ) < 2 ^ (-1074 : ℤ) := two_zpow_pos _

/-- error of one step -/
theorem step_err {m x B : ℚ} {k : ℕ} (hm : Rep m) (hx : Rep x) (hk : 2 ≤ k) (hk2 : k ≤ 2 ^ 53) (bm : |m| ≤ B) (bx : |x| ≤ B) :
    k * |rnd (m + rnd (rnd (x - m) / rnd k)) - (m + (x - m) / k)| ≤ (k + 5) * (B / 9007199254740992) + (2 * k + 2) * 2 ^ (-1074 : ℤ) := by
  have hkr : rnd (k : ℚ) = k := rnd_rep (by exact_mod_cast rep_int (n := (k : ℤ)) (by rw [abs_of_nonneg (by omega)]; exact_mod_cast hk2))
  have hK : (2 : ℚ) ≤ k := by exact_mod_cast hk
  have hB : 0 ≤ B := (abs_nonneg _).trans bm
  rw [hkr]
  obtain ⟨s1, s2⟩ := step_between hm hx hK
  have hsum : |m + rnd (rnd (x - m) / k)| ≤ B := by
    rw [abs_le] at bm bx ⊢
    rcases le_total m x with h | h
    · have := s1 h
      constructor <;> linarith [bm.1, bm.2, bx.1, bx.2]
    · have := s2 h
      constructor <;> linarith [bm.1, bm.2, bx.1, bx.2]
  have e1 := rnd_err_abs (x - m)
  have e2 := rnd_err_abs (rnd (x - m) / k)
  have e3 := rnd_err_abs (m + rnd (rnd (x - m) / k))
  have hd : |x - m| ≤ 2 * B := by
    rw [abs_le] at bm bx ⊢
    constructor <;> linarith [bm.1, bm.2, bx.1, bx.2]
  have ht := tpos
  generalize (2 : ℚ) ^ (-1074 : ℤ) = t at *
  generalize rnd (m + rnd (rnd (x - m) / k)) = r at *
  generalize rnd (rnd (x - m) / k) = q at *
  rw [abs_div, abs_of_pos (by linarith : (0 : ℚ) < k)] at e2
  have hdd : |rnd (x - m)| ≤ 3 * B + t := by
    rw [abs_le] at hd e1 ⊢
    have : |x - m| ≤ 2 * B := abs_le.2 hd
    constructor <;> linarith [hd.1, hd.2, e1.1, e1.2]
  generalize rnd (x - m) = d at *
  have k0 : (0 : ℚ) < k := by linarith
  have f1 : |d - (x - m)| ≤ 2 * B * (1 / 9007199254740992) + t := by linarith
  have f2 : k * |q - d / k| ≤ (3 * B + t) * (1 / 9007199254740992) + k * t := by
    have := mul_le_mul_of_nonneg_left e2 k0.le
    have h1 : k * (|d| / k * (1 / 9007199254740992) + t) = |d| * (1 / 9007199254740992) + k * t := by field_simp
    rw [h1] at this
    linarith
  have f3 : k * |r - (m + q)| ≤ k * (B * (1 / 9007199254740992) + t) := mul_le_mul_of_nonneg_left (by linarith) k0.le
  have f4 : k * |r - (m + (x - m) / k)| ≤ k * |r - (m + q)| + k * |q - d / k| + |d - (x - m)| := by
    have h1 : r - (m + (x - m) / k) = (r - (m + q)) + (q - d / k) + (d - (x - m)) / k := by ring
    have h2 : |r - (m + (x - m) / k)| ≤ |r - (m + q)| + |q - d / k| + |d - (x - m)| / k := by
      rw [h1]
      refine (abs_add_le _ _).trans ?_
      rw [abs_div, abs_of_pos k0]
      linarith [abs_add_le (r - (m + q)) (q - d / k)]
    have h3 := mul_le_mul_of_nonneg_left h2 k0.le
    have h4 : k * (|r - (m + q)| + |q - d / k| + |d - (x - m)| / k) = k * |r - (m + q)| + k * |q - d / k| + |d - (x - m)| := by field_simp
    linarith
  linarith

/-- the error grows with the number of data at most -/
theorem meanLoop_err {B : ℚ} (hB1 : B ≤ 2 ^ (1000 : ℤ)) (hB : Rep B) {l : List ℚ} (h : ∀ x ∈ l, Rep x ∧ |x| ≤ B) : ∀ (n : ℕ) (m S : ℚ), 1 ≤ n → n + l.length ≤ 2 ^ 53 → Rep m → |m| ≤ B →
    |m - S / n| ≤ (n + 5) * (B / 9007199254740992) + 3 * n * 2 ^ (-1074 : ℤ) →
    ∃ r, meanLoop n m l = some r ∧ |r - (S + l.sum) / ((n + l.length : ℕ) : ℚ)| ≤ ((n + l.length : ℕ) + 5) * (B / 9007199254740992) + 3 * (n + l.length : ℕ) * 2 ^ (-1074 : ℤ) := by
  induction l with
  | nil => intro n m S _ _ _ _ he; exact ⟨m, rfl, by simpa using he⟩
  | cons x l ih =>
    intro n m S hn hlen hm bm he
    obtain ⟨hx, bx⟩ := h x (by simp)
    rw [List.length_cons] at hlen
    have hst := step_err hm hx (by omega : 2 ≤ n + 1) (by omega) bm bx
    have hup := update_eq hm hx (by omega : 2 ≤ n + 1) (bm.trans hB1) (bx.trans hB1)
    obtain ⟨s1, s2⟩ := step_between hm hx (two_le_rnd (by omega : 2 ≤ n + 1))
    have hr : |rnd (m + rnd (rnd (x - m) / rnd ((n + 1 : ℕ) : ℚ)))| ≤ B := by
      rw [abs_le] at bm bx ⊢
      constructor
      · refine le_rnd (rep_neg hB) ?_
        rcases le_total m x with hh | hh
        · linarith [(s1 hh).1, bm.1]
        · linarith [(s2 hh).1, bx.1]
      · refine rnd_le hB ?_
        rcases le_total m x with hh | hh
        · linarith [(s1 hh).2, bx.2]
        · linarith [(s2 hh).2, bm.2]
    have hrep : Rep (rnd (m + rnd (rnd (x - m) / rnd ((n + 1 : ℕ) : ℚ)))) := rep_rnd _
    generalize rnd (m + rnd (rnd (x - m) / rnd ((n + 1 : ℕ) : ℚ))) = r at *
    have hnew : |r - (S + x) / ((n + 1 : ℕ) : ℚ)| ≤ ((n + 1 : ℕ) + 5) * (B / 9007199254740992) + 3 * (n + 1 : ℕ) * 2 ^ (-1074 : ℤ) := by
      have hB0 : 0 ≤ B := (abs_nonneg _).trans bm
      have ht := tpos
      generalize (2 : ℚ) ^ (-1074 : ℤ) = t at *
      have hn1 : (1 : ℚ) ≤ n := by exact_mod_cast hn
      have n0 : (0 : ℚ) < n := by linarith
      push_cast at hst ⊢
      have k0 : (0 : ℚ) < (n : ℚ) + 1 := by linarith
      have hb0 : 0 ≤ B / 9007199254740992 := by positivity
      have h1 : r - (S + x) / ((n : ℚ) + 1) = (r - (m + (x - m) / ((n : ℚ) + 1))) + (m - S / n) * (n / ((n : ℚ) + 1)) := by
        field_simp
        ring
      have h2 : ((n : ℚ) + 1) * |r - (S + x) / ((n : ℚ) + 1)| ≤ ((n : ℚ) + 1) * |r - (m + (x - m) / ((n : ℚ) + 1))| + n * |m - S / n| := by
        rw [h1]
        have h3 := abs_add_le (r - (m + (x - m) / ((n : ℚ) + 1))) ((m - S / n) * (n / ((n : ℚ) + 1)))
        rw [abs_mul (m - S / n), abs_of_pos (div_pos n0 k0)] at h3
        have h4 := mul_le_mul_of_nonneg_left h3 k0.le
        have h5 : ((n : ℚ) + 1) * (|r - (m + (x - m) / ((n : ℚ) + 1))| + |m - S / n| * (n / ((n : ℚ) + 1))) = ((n : ℚ) + 1) * |r - (m + (x - m) / ((n : ℚ) + 1))| + n * |m - S / n| := by
          field_simp
        linarith
      have h6 := mul_le_mul_of_nonneg_left he n0.le
      generalize B / 9007199254740992 = b at *
      have h7 : ((n : ℚ) + 1) * |r - (S + x) / ((n : ℚ) + 1)| ≤ ((n : ℚ) + 1) * (((n : ℚ) + 1 + 5) * b + 3 * ((n : ℚ) + 1) * t) := by
        nlinarith [mul_nonneg n0.le hb0, mul_nonneg n0.le ht.le]
      exact le_of_mul_le_mul_left h7 k0
    obtain ⟨r', e', hr'⟩ := ih (fun y hy => h y (by simp [hy])) (n + 1) r (S + x) (by omega) (by omega) hrep hr hnew
    refine ⟨r', ?_, ?_⟩
    · unfold meanLoop
      rw [hup]
      exact e'
    · rw [List.length_cons, List.sum_cons, show n + (l.length + 1) = n + 1 + l.length by omega, ← add_assoc]
      exact hr'

/-- **C181, accuracy**: the mean of `n` doubles of size at most `B` is the exact mean up to `(n + 5) B 2^-53` and `3 n` times the smallest double. -/
theorem C181_accuracy (B : ℚ) (hB : Rep B) (hB1 : B ≤ 2 ^ (1000 : ℤ)) (l : List ℚ) (hl : l ≠ []) (h : ∀ x ∈ l, Rep x ∧ |x| ≤ B) (hn : l.length ≤ 2 ^ 53) :
    ∃ m, mean l = some m ∧ |m - l.sum / l.length| ≤ (l.length + 5) * (B * 2 ^ (-53 : ℤ)) + 3 * l.length * 2 ^ (-1074 : ℤ) := by
  cases l with
  | nil => exact absurd rfl hl
  | cons x l =>
    obtain ⟨hx, bx⟩ := h x (by simp)
    have hB0 : 0 ≤ B := (abs_nonneg _).trans bx
    have ht := tpos
    obtain ⟨r, e, hr⟩ := meanLoop_err hB1 hB (l := l) (fun y hy => h y (by simp [hy])) 1 x x (le_refl _) (by rw [List.length_cons] at hn; omega) hx bx (by
      rw [show x - x / ((1 : ℕ) : ℚ) = 0 by norm_num, abs_zero]
      positivity)
    refine ⟨r, ?_, ?_⟩
    · unfold mean
      rw [if_neg (by simp)]
      unfold meanLoop
      rw [update_first hx (bx.trans hB1)]
      exact e
    · rw [List.length_cons, List.sum_cons, show l.length + 1 = 1 + l.length by omega, show B * (2 : ℚ) ^ (-53 : ℤ) = B / 9007199254740992 by norm_num; ring]
      exact hr

/-! ### Logarithmic binning -/

theorem bind_some {α β : Type} {o : Option α} {f : α → Option β} {b : β} (h : o.bind f = some b) : ∃ a, o = some a ∧ f a = some b := by
  cases o with
  | none => simp at h
  | some a => exact ⟨a, rfl, h⟩

/-- what the update of a pair does -/
theorem welford_some {i k : ℕ} {y : ℚ} {s s' : Log} (h : welford i k y s = some s') :
    ∃ m q m' q', s.M[i]? = some m ∧ s.Q[i]? = some q ∧ update m y k = some m' ∧ s' = { s with M := s.M.set i m', Q := s.Q.set i q' } ∧
      q' = rnd (q + rnd (rnd (rnd (k - 1 : ℕ) / rnd k) * rnd (rnd (y - m) * rnd (y - m)))) := by
  unfold welford at h
  obtain ⟨m, hm, h⟩ := bind_some h
  obtain ⟨q, hq, h⟩ := bind_some h
  obtain ⟨d, hd, h⟩ := bind_some h
  obtain ⟨f, hf, h⟩ := bind_some h
  obtain ⟨dd, hdd, h⟩ := bind_some h
  obtain ⟨p, hp, h⟩ := bind_some h
  obtain ⟨q', hq', h⟩ := bind_some h
  obtain ⟨e, he, h⟩ := bind_some h
  obtain ⟨m', hm', h⟩ := Option.map_eq_some_iff.1 h
  refine ⟨m, q, m', q', hm, hq, ?_, h.symm, ?_⟩
  · unfold update
    rw [hd]
    simp only
    rw [he]
    exact hm'
  · rw [(fin_some hq').1, (fin_some hp).1, (fin_some hdd).1, (fin_some hf).1, (fin_some hd).1]

/-- the sums of squares are not negative -/
def Nonneg (s : Log) : Prop := ∀ q ∈ s.Q, 0 ≤ q

theorem welford_nonneg {i k : ℕ} {y : ℚ} {s s' : Log} (hs : Nonneg s) (h : welford i k y s = some s') : Nonneg s' := by
  obtain ⟨m, q, m', q', hm, hq, _, rfl, hq'⟩ := welford_some h
  intro z hz
  rcases List.mem_or_eq_of_mem_set hz with hz | hz
  · exact hs z hz
  · rw [hz, hq']
    have h1 : 0 ≤ rnd (rnd (k - 1 : ℕ) / rnd k) := rnd_nonneg (div_nonneg (rnd_nonneg (by positivity)) (rnd_nonneg (by positivity)))
    have h2 : 0 ≤ rnd (rnd (y - m) * rnd (y - m)) := rnd_nonneg (mul_self_nonneg _)
    exact rnd_nonneg (add_nonneg (hs q (List.mem_of_getElem? hq)) (rnd_nonneg (mul_nonneg h1 h2)))

/-- the part of the state which the first pair depends on -/
structure Same (s s' : Log) : Prop where
  M : ∀ m, s.M[0]? = some m → s'.M[0]? = some m
  Q : ∀ q, s.Q[0]? = some q → s'.Q[0]? = some q
  count : s'.count = s.count
  maxN : s'.maxN = s.maxN
  nonneg : Nonneg s → Nonneg s'

theorem Same.trans {a b c : Log} (h : Same a b) (h' : Same b c) : Same a c :=
  ⟨fun m hm => h'.M m (h.M m hm), fun m hm => h'.Q m (h.Q m hm), h'.count.trans h.count, h'.maxN.trans h.maxN, fun hh => h'.nonneg (h.nonneg hh)⟩

theorem get_append {l : List ℚ} {a m : ℚ} (h : l[0]? = some m) : (l ++ [a])[0]? = some m := by
  cases l with
  | nil => simp at h
  | cons x l => simpa using h

theorem grow_same {s s' : Log} (h : grow s = some s') : Same s s' := by
  unfold grow at h
  split at h
  · obtain ⟨a, ha, h⟩ := bind_some h
    have hQ : Nonneg s → ∀ q ∈ s.Q ++ [0], 0 ≤ q := by
      intro hs q hq
      rcases List.mem_append.1 hq with hq | hq
      · exact hs q hq
      · rw [List.mem_singleton.1 hq]
    simp only at h
    split at h <;> (rw [← Option.some.inj h]; exact ⟨fun m hm => get_append hm, fun m hm => get_append hm, rfl, rfl, hQ⟩)
  · rw [← Option.some.inj h]
    exact ⟨fun _ h => h, fun _ h => h, rfl, rfl, id⟩

theorem downBody_same {n : ℕ} {s s' : Log} (h : downBody n s = some s') : Same s s' := by
  unfold downBody at h
  obtain ⟨a, ha, h⟩ := bind_some h
  obtain ⟨y, hy, h⟩ := bind_some h
  obtain ⟨t, ht, rfl⟩ := Option.map_eq_some_iff.1 h
  have hn := fun hs => welford_nonneg hs ht
  obtain ⟨m, q, m', q', hm, hq, _, rfl, _⟩ := welford_some ht
  refine ⟨fun z hz => ?_, fun z hz => ?_, rfl, rfl, hn⟩
  · show (s.M.set (n + 1) m')[0]? = _
    rw [List.getElem?_set_ne (by omega)]
    exact hz
  · show (s.Q.set (n + 1) q')[0]? = _
    rw [List.getElem?_set_ne (by omega)]
    exact hz

theorem down_same : ∀ {n : ℕ} {s s' : Log}, down n s = some s' → Same s s' := by
  intro n
  induction n with
  | zero => intro s s' h; rw [← Option.some.inj h]; exact ⟨fun _ h => h, fun _ h => h, rfl, rfl, id⟩
  | succ n ih =>
    intro s s' h
    obtain ⟨t, ht, h⟩ := bind_some h
    exact (downBody_same ht).trans (ih h)

/-- a datum reaches the first pair as if there were no other pairs -/
theorem push_top {x : ℚ} {s s' : Log} (h0 : s.maxN ≠ 0) (h : push x s = some s') : ∃ t, Same { s with count := s.count + 1 } t ∧ welford 0 (s.count + 1) x t = some s' := by
  unfold push at h
  rw [if_neg h0] at h
  obtain ⟨t, ht, h⟩ := bind_some h
  have hs : Same { s with count := s.count + 1 } t := by
    split at ht
    · obtain ⟨p, hp, ht⟩ := bind_some ht
      obtain ⟨g, hg, ht⟩ := bind_some ht
      have := (grow_same hg).trans (down_same ht)
      exact ⟨this.M, this.Q, this.count, this.maxN, this.nonneg⟩
    · rw [← Option.some.inj ht]
      exact ⟨fun _ h => h, fun _ h => h, rfl, rfl, id⟩
  refine ⟨t, hs, ?_⟩
  rw [hs.count] at h
  exact h

theorem run_top : ∀ (l : List ℚ) (s s' : Log) (m : ℚ), s.maxN ≠ 0 → s.M[0]? = some m → run l s = some s' →
    ∃ r, meanLoop s.count m l = some r ∧ s'.M[0]? = some r ∧ s'.count = s.count + l.length ∧ (Nonneg s → Nonneg s') := by
  intro l
  induction l with
  | nil =>
    intro s s' m _ hm h
    rw [← Option.some.inj h]
    exact ⟨m, rfl, hm, rfl, id⟩
  | cons x l ih =>
    intro s s' m h0 hm h
    obtain ⟨t, ht, h⟩ := bind_some h
    obtain ⟨u, hu, hw⟩ := push_top h0 ht
    have hn := fun hs => welford_nonneg (hu.nonneg hs) hw
    obtain ⟨m1, q1, m', q', e1, e2, e3, rfl, _⟩ := welford_some hw
    have hm1 : m1 = m := Option.some.inj (e1.symm.trans (hu.M m hm))
    subst hm1
    have hc : u.count = s.count + 1 := hu.count
    have hget : (u.M.set 0 m')[0]? = some m' := by
      rw [List.getElem?_set_self]
      cases hM : u.M with
      | nil => rw [hM] at e1; simp at e1
      | cons a b => simp
    obtain ⟨r, a1, a2, a3, a4⟩ := ih _ s' m' (by show u.maxN ≠ 0; rw [hu.maxN]; exact h0) hget h
    refine ⟨r, ?_, a2, ?_, fun hs => a4 (hn hs)⟩
    · unfold meanLoop
      rw [e3]
      simp only at a1
      rw [hc] at a1
      exact a1
    · simp only at a3
      rw [a3, hc, List.length_cons]
      omega

/-- **C181, first level**: whatever other levels there are, the average of the first level is the result of `mean`, to the last bit, and the number of data is counted. -/
theorem C181_first_level (maxN : ℤ) (h0 : maxN ≠ 0) (l : List ℚ) (hl : l ≠ []) (s : Log) (h : run l (ctor maxN) = some s) : s.M[0]? = mean l ∧ s.count = l.length := by
  have hm : (ctor maxN).M[0]? = some 0 := by unfold ctor; rw [if_neg h0]; rfl
  have hN : (ctor maxN).maxN ≠ 0 := by unfold ctor; rw [if_neg h0]; exact h0
  have hc : (ctor maxN).count = 0 := by unfold ctor; split <;> rfl
  obtain ⟨r, e1, e2, e3, _⟩ := run_top l _ s 0 hN hm h
  rw [hc] at e1 e3
  refine ⟨?_, by omega⟩
  unfold mean
  rw [if_neg (by simpa using hl), e1, e2]

/-- **C181, no undefined error**: the sums of squares of all levels are not negative, so that no root of a negative number is taken. -/
theorem C181_nonneg (maxN : ℤ) (l : List ℚ) (s : Log) (h : run l (ctor maxN) = some s) : ∀ q ∈ s.Q, 0 ≤ q := by
  by_cases h0 : maxN = 0
  · subst h0
    have key : ∀ (l : List ℚ), run l (ctor 0) = some (ctor 0) := by
      intro l
      induction l with
      | nil => rfl
      | cons x l ih => exact ih
    rw [key] at h
    rw [← Option.some.inj h]
    intro q hq
    simp [ctor] at hq
  · have hm : (ctor maxN).M[0]? = some 0 := by unfold ctor; rw [if_neg h0]; rfl
    have hN : (ctor maxN).maxN ≠ 0 := by unfold ctor; rw [if_neg h0]; exact h0
    obtain ⟨r, _, _, _, e⟩ := run_top l _ s 0 hN hm h
    refine e ?_
    intro q hq
    unfold ctor at hq
    rw [if_neg h0] at hq
    rw [List.mem_singleton.1 hq]

theorem errLoop_nonneg {K m : ℚ} (hK : 0 ≤ K) : ∀ (l : List ℚ) (e r : ℚ), 0 ≤ e → errLoop K m e l = some r → 0 ≤ r := by
  intro l
  induction l with
  | nil => intro e r he h; rw [← Option.some.inj h]; exact he
  | cons x l ih =>
    intro e r he h
    unfold errLoop at h
    split at h
    · exact absurd h (by simp)
    rename_i d hd
    split at h
    · exact absurd h (by simp)
    rename_i s hs
    split at h
    · exact absurd h (by simp)
    rename_i t ht
    split at h
    · exact absurd h (by simp)
    rename_i e' he'
    refine ih e' r ?_ h
    rw [(fin_some he').1]
    refine rnd_nonneg (add_nonneg he ?_)
    rw [(fin_some ht).1]
    refine rnd_nonneg (div_nonneg ?_ hK)
    rw [(fin_some hs).1]
    exact rnd_nonneg (mul_self_nonneg _)

/-- **C181, no undefined error** of `mean_and_err` -/
theorem C181_nonneg_direct (l : List ℚ) (m e : ℚ) (h : meanAndErr l = some (m, e)) : mean l = some m ∧ 0 ≤ e := by
  unfold meanAndErr at h
  split at h
  · exact absurd h (by simp)
  split at h
  · exact absurd h (by simp)
  rename_i m' hm'
  obtain ⟨r, hr, he⟩ := Option.map_eq_some_iff.1 h
  obtain ⟨rfl, rfl⟩ := Prod.mk.inj he
  exact ⟨hm', errLoop_nonneg (rnd_nonneg (by positivity)) l 0 r (le_refl _) hr⟩

/-- sums of relative errors -/
theorem rel_add2 {j k : ℕ} {x y x' y' : ℚ} (h : Rel j x y) (h' : Rel k x' y') (hjk : k ≤ j) (hx' : 0 ≤ x') : Rel j (x + x') (y + y') := by
  have hy' := h'.nonneg hx'
  have c : c53 ^ j ≤ c53 ^ k := pow_le_pow_of_le_one c53_pos.le c53_le hjk
  constructor
  · have := h.1
    have := h'.1
    nlinarith
  · have := h.2
    have := h'.2
    nlinarith

/-- the differences to the mean are zero or of ordinary size -/
def Ordinary (m : ℚ) (l : List ℚ) : Prop := ∀ x ∈ l, Rep x ∧ (x = m ∨ 2 ^ (-400 : ℤ) ≤ |x - m| ∧ |x - m| ≤ 2 ^ (400 : ℤ))

/-- one term of the sum of squares -/
theorem term_err {K K0 m x : ℚ} (hm : Rep m) (hx : Rep x) (ho : 2 ^ (-400 : ℤ) ≤ |x - m| ∧ |x - m| ≤ 2 ^ (400 : ℤ)) (hK1 : 1 ≤ K0) (hK2 : K0 ≤ 2 ^ (100 : ℤ)) (hK : Rel 1 K0 K) (hKl : 1 ≤ K) (hKu : K ≤ 2 ^ (100 : ℤ)) :
    fin (x - m) = some (rnd (x - m)) ∧ fin (rnd (x - m) * rnd (x - m)) = some (rnd (rnd (x - m) * rnd (x - m))) ∧
      fin (rnd (rnd (x - m) * rnd (x - m)) / K) = some (rnd (rnd (rnd (x - m) * rnd (x - m)) / K)) ∧ Rel 5 ((x - m) * (x - m) / K0) (rnd (rnd (rnd (x - m) * rnd (x - m)) / K)) ∧
      rnd (rnd (rnd (x - m) * rnd (x - m)) / K) ≤ 2 ^ (800 : ℤ) := by
  have hd : Rel 1 |x - m| |rnd (x - m)| := by
    rcases le_total m x with h | h
    · have h0 : 0 ≤ x - m := by linarith
      rw [abs_of_nonneg h0, abs_of_nonneg (a := rnd (x - m)) (rnd_nonneg h0)]
      exact rel_sub hx hm h
    · have h0 : x - m ≤ 0 := by linarith
      have h1 : rnd (x - m) ≤ 0 := rnd_le rep_zero h0
      rw [abs_of_nonpos h0, abs_of_nonpos (a := rnd (x - m)) h1, ← rnd_neg, neg_sub]
      exact rel_sub hm hx h
  have f1 : fin (x - m) = some (rnd (x - m)) := fin_of_le ho.2 (by norm_num) (by norm_num)
  have hdl : 2 ^ (-400 : ℤ) ≤ |rnd (x - m)| := by
    rcases le_total m x with h | h
    · rw [abs_of_nonneg (by linarith : 0 ≤ x - m)] at ho
      rw [abs_of_nonneg (a := rnd (x - m)) (rnd_nonneg (by linarith))]
      exact le_rnd (rep_zpow (by norm_num)) ho.1
    · rw [abs_of_nonpos (by linarith : x - m ≤ 0)] at ho
      rw [abs_of_nonpos (a := rnd (x - m)) (rnd_le rep_zero (by linarith)), ← rnd_neg]
      exact le_rnd (rep_zpow (by norm_num)) ho.1
  have hdu : |rnd (x - m)| ≤ 2 ^ (400 : ℤ) := by
    have h := abs_le.1 ho.2
    exact abs_le.2 ⟨le_rnd (rep_neg (rep_zpow (by norm_num))) h.1, rnd_le (rep_zpow (by norm_num)) h.2⟩
  have e1 : (x - m) * (x - m) = |x - m| * |x - m| := (abs_mul_abs_self _).symm
  have e2 : rnd (x - m) * rnd (x - m) = |rnd (x - m)| * |rnd (x - m)| := (abs_mul_abs_self _).symm
  rw [e1, e2]
  have hx0 := abs_nonneg (x - m)
  generalize |x - m| = u at *
  generalize |rnd (x - m)| = d at *
  have hd2 : Rel 2 (u * u) (d * d) := hd.mul hd hx0 hx0
  have p1 : (2 : ℚ) ^ (-800 : ℤ) ≤ d * d := by
    rw [show (-800 : ℤ) = -400 + -400 by norm_num, two_zpow_add]
    exact mul_le_mul hdl hdl (two_zpow_pos _).le ((two_zpow_pos _).le.trans hdl)
  have p2 : d * d ≤ (2 : ℚ) ^ (800 : ℤ) := by
    rw [show (800 : ℤ) = 400 + 400 by norm_num, two_zpow_add]
    exact mul_le_mul hdu hdu ((two_zpow_pos _).le.trans hdl) (two_zpow_pos _).le
  have p0 : 0 < d * d := (two_zpow_pos _).trans_le p1
  have f2 : fin (d * d) = some (rnd (d * d)) := fin_of_le (by rw [abs_of_pos p0]; exact p2) (by norm_num) (by norm_num)
  have r3 : Rel 3 (u * u) (rnd (d * d)) := hd2.trans (rel_rnd ((two_zpow_le (by norm_num)).trans p1))
  have q1 : (2 : ℚ) ^ (-800 : ℤ) ≤ rnd (d * d) := le_rnd (rep_zpow (by norm_num)) p1
  have q2 : rnd (d * d) ≤ (2 : ℚ) ^ (800 : ℤ) := rnd_le (rep_zpow (by norm_num)) p2
  have q0 : 0 < rnd (d * d) := (two_zpow_pos _).trans_le q1
  have K0' : 0 < K := by linarith
  have s1 : (2 : ℚ) ^ (-900 : ℤ) ≤ rnd (d * d) / K := by
    rw [le_div_iff₀ K0']
    calc (2 : ℚ) ^ (-900 : ℤ) * K ≤ 2 ^ (-900 : ℤ) * 2 ^ (100 : ℤ) := mul_le_mul_of_nonneg_left hKu (two_zpow_pos _).le
      _ = 2 ^ (-800 : ℤ) := by rw [← two_zpow_add]; norm_num
      _ ≤ _ := q1
  have s2 : rnd (d * d) / K ≤ 2 ^ (800 : ℤ) := (div_le_self q0.le hKl).trans q2
  have s0 : 0 < rnd (d * d) / K := div_pos q0 K0'
  have f3 : fin (rnd (d * d) / K) = some (rnd (rnd (d * d) / K)) := fin_of_le (by rw [abs_of_pos s0]; exact s2) (by norm_num) (by norm_num)
  have r4 : Rel 4 (u * u / K0) (rnd (d * d) / K) := r3.div hK (mul_nonneg hx0 hx0) (by linarith)
  exact ⟨f1, f2, f3, r4.trans (rel_rnd ((two_zpow_le (by norm_num)).trans s1)), rnd_le (rep_zpow (by norm_num)) s2⟩

theorem errLoop_rel {K K0 m : ℚ} (hm : Rep m) (hK1 : 1 ≤ K0) (hK2 : K0 ≤ 2 ^ (100 : ℤ)) (hK : Rel 1 K0 K) (hKl : 1 ≤ K) (hKu : K ≤ 2 ^ (100 : ℤ)) : ∀ (l : List ℚ) (_ : Ordinary m l) (n : ℕ) (e S : ℚ), Rep e → 0 ≤ S →
    Rel (n + 5) S e → e ≤ n * 2 ^ (800 : ℤ) → n + l.length ≤ 2 ^ 53 →
    ∃ r, errLoop K m e l = some r ∧ Rel (n + l.length + 5) (S + (l.map fun x => (x - m) * (x - m) / K0).sum) r := by
  intro l
  induction l with
  | nil => intro _ n e S _ _ hr _ _; exact ⟨e, rfl, by simpa using hr⟩
  | cons x l ih =>
    intro ho n e S he hS hr hen hlen
    rw [List.length_cons] at hlen
    have e0 := hr.nonneg hS
    obtain ⟨hx, hox⟩ := ho x (by simp)
    have step : ∃ t, errLoop K m e (x :: l) = (match fin (e + t) with | none => none | some e' => errLoop K m e' l) ∧ Rep t ∧ 0 ≤ t ∧ t ≤ 2 ^ (800 : ℤ) ∧ Rel 5 ((x - m) * (x - m) / K0) t := by
      rcases hox with hxm | hox
      · have h0 : fin 0 = some 0 := by decide +kernel
        refine ⟨0, ?_, rep_zero, le_refl _, (two_zpow_pos _).le, ?_⟩
        · conv_lhs => unfold errLoop
          rw [hxm, sub_self, h0]
          simp only
          rw [mul_zero, h0]
          simp only
          rw [zero_div, h0]
        · rw [hxm, sub_self, zero_mul, zero_div]
          simp [Rel]
      · obtain ⟨f1, f2, f3, r5, hu⟩ := term_err hm hx hox hK1 hK2 hK hKl hKu
        refine ⟨_, ?_, rep_rnd _, r5.nonneg (div_nonneg (mul_self_nonneg _) (by linarith)), hu, r5⟩
        conv_lhs => unfold errLoop
        rw [f1]
        simp only
        rw [f2]
        simp only
        rw [f3]
    obtain ⟨t, e1, t1, t2, t3, t4⟩ := step
    have hu : e + t ≤ ((n + 1 : ℕ) : ℚ) * 2 ^ (800 : ℤ) := by push_cast; linarith
    have hrep : Rep (((n + 1 : ℕ) : ℚ) * 2 ^ (800 : ℤ)) := ⟨((n + 1 : ℕ) : ℤ), 800, by norm_num, by rw [abs_of_nonneg (by omega)]; exact_mod_cast (by omega : n + 1 ≤ 2 ^ 53), by push_cast; ring⟩
    have hf : fin (e + t) = some (rnd (e + t)) := by
      refine fin_of_le (e := 853) ?_ (by norm_num) (by norm_num)
      rw [abs_of_nonneg (by linarith)]
      refine hu.trans ?_
      rw [show (853 : ℤ) = 53 + 800 by norm_num, two_zpow_add]
      refine mul_le_mul_of_nonneg_right ?_ (two_zpow_pos _).le
      have : ((n + 1 : ℕ) : ℚ) ≤ ((2 ^ 53 : ℕ) : ℚ) := by exact_mod_cast (by omega : n + 1 ≤ 2 ^ 53)
      refine this.trans ?_
      norm_num
    have s0 : 0 ≤ (x - m) * (x - m) / K0 := div_nonneg (mul_self_nonneg _) (by linarith)
    have hr' : Rel (n + 1 + 5) (S + (x - m) * (x - m) / K0) (rnd (e + t)) := by
      have := (rel_add2 hr t4 (by omega) s0).trans (rel_add he t1 (by linarith))
      rw [show n + 1 + 5 = n + 5 + 1 by omega]
      exact this
    obtain ⟨r, a1, a2⟩ := ih (fun y hy => ho y (by simp [hy])) (n + 1) (rnd (e + t)) (S + (x - m) * (x - m) / K0) (rep_rnd _) (by linarith) hr' (rnd_le hrep hu) (by omega)
    refine ⟨r, ?_, ?_⟩
    · rw [e1, hf]
      exact a1
    · rw [List.length_cons, List.map_cons, List.sum_cons, ← add_assoc S, show n + (l.length + 1) + 5 = n + 1 + l.length + 5 by omega]
      exact a2

/-- **C181, error**: the square of the error is the sum of the squares of the differences to the mean over `n (n - 1)`, with a relative error of at most `(2 n + 10) 2^-53`. -/
theorem C181_error (a b : ℚ) (l : List ℚ) (hl : 2 ≤ l.length) (hn : l.length ≤ 3037000500) (h : Between a b l) (ho : ∀ m, mean l = some m → Ordinary m l) :
    ∃ m e, meanAndErr l = some (m, e) ∧ mean l = some m ∧
      |e - (l.map fun x => (x - m) * (x - m) / (l.length * (l.length - 1))).sum| ≤ (l.map fun x => (x - m) * (x - m) / (l.length * (l.length - 1))).sum * ((2 * l.length + 10) * 2 ^ (-53 : ℤ)) := by
  obtain ⟨m, hm, hmd, _, _⟩ := C181_between a b l (by intro h0; rw [h0] at hl; simp at hl) h
  have hcast : ((l.length * (l.length - 1) : ℕ) : ℚ) = l.length * (l.length - 1) := by
    rw [Nat.cast_mul, Nat.cast_sub (by omega)]
    norm_num
  have hK1 : (1 : ℚ) ≤ ((l.length * (l.length - 1) : ℕ) : ℚ) := by
    have : 1 ≤ l.length * (l.length - 1) := Nat.mul_pos (by omega) (by omega)
    exact_mod_cast this
  have hK2 : ((l.length * (l.length - 1) : ℕ) : ℚ) ≤ 2 ^ (100 : ℤ) := by
    have h1 : l.length * (l.length - 1) ≤ 2 ^ 50 * 2 ^ 50 := Nat.mul_le_mul (by omega) (by omega)
    have h2 : ((l.length * (l.length - 1) : ℕ) : ℚ) ≤ ((2 ^ 50 * 2 ^ 50 : ℕ) : ℚ) := by exact_mod_cast h1
    refine h2.trans ?_
    norm_num
  have hKr : Rel 1 ((l.length * (l.length - 1) : ℕ) : ℚ) (rnd ((l.length * (l.length - 1) : ℕ) : ℚ)) := rel_rnd (le_trans (by
    rw [show (1 : ℚ) = 2 ^ (0 : ℤ) by norm_num]
    exact two_zpow_le (by norm_num)) hK1)
  obtain ⟨r, hr, hrel⟩ := errLoop_rel hmd.1 hK1 hK2 hKr (le_rnd rep_one hK1) (rnd_le (rep_zpow (by norm_num)) hK2) l (ho m hm) 0 0 0 rep_zero (le_refl _) (by simp [Rel]) (by simp) (by omega)
  refine ⟨m, r, ?_, hm, ?_⟩
  · unfold meanAndErr
    rw [if_neg (not_overflow hl hn), hm]
    simp only
    rw [hr]
    rfl
  · rw [zero_add, zero_add] at hrel
    have hnn : 0 ≤ (l.map fun x => (x - m) * (x - m) / ((l.length * (l.length - 1) : ℕ) : ℚ)).sum := List.sum_nonneg (by
      intro y hy
      obtain ⟨x, _, rfl⟩ := List.mem_map.1 hy
      exact div_nonneg (mul_self_nonneg _) (by linarith))
    have he := hrel.err (by omega) hnn
    rw [hcast] at he
    refine he.trans (le_of_eq ?_)
    push_cast
    rw [show (2 : ℚ) ^ (-53 : ℤ) = 1 / 9007199254740992 by norm_num]
    ring

/-- the sum of squares of the first level stays zero for equal data -/
theorem run_top_constant {c : ℚ} (hc : Rep c) (hb : |c| ≤ 2 ^ (1000 : ℤ)) : ∀ (n : ℕ) (s s' : Log), s.maxN ≠ 0 → s.Q[0]? = some 0 → (s.M[0]? = some c ∨ s.count = 0 ∧ s.M[0]? = some 0) →
    run (List.replicate n c) s = some s' → s'.Q[0]? = some 0 := by
  intro n
  induction n with
  | zero => intro s s' _ hq _ h; rw [← Option.some.inj h]; exact hq
  | succ n ih =>
    intro s s' h0 hq hm h
    rw [List.replicate_succ] at h
    obtain ⟨t, ht, h⟩ := bind_some h
    obtain ⟨u, hu, hw⟩ := push_top h0 ht
    obtain ⟨m1, q1, m', q', e1, e2, e3, rfl, e4⟩ := welford_some hw
    have hq1 : q1 = 0 := Option.some.inj (e2.symm.trans (hu.Q 0 hq))
    subst hq1
    have hlen : ∀ {l : List ℚ} {a b : ℚ}, l[0]? = some a → (l.set 0 b)[0]? = some b := by
      intro l a b hl
      cases l with
      | nil => simp at hl
      | cons x l => simp
    refine ih _ s' (by show u.maxN ≠ 0; rw [hu.maxN]; exact h0) ?_ (Or.inl ?_) h
    · show (u.Q.set 0 q')[0]? = some 0
      rw [hlen e2, e4]
      rcases hm with hm | ⟨hcnt, hm⟩
      · have : m1 = c := Option.some.inj (e1.symm.trans (hu.M c hm))
        rw [this, sub_self, rnd_zero, mul_zero, rnd_zero, mul_zero, rnd_zero, add_zero, rnd_zero]
      · rw [hcnt]
        norm_num [rnd_zero]
    · show (u.M.set 0 m')[0]? = some c
      rw [hlen e1]
      rcases hm with hm | ⟨hcnt, hm⟩
      · have h1 : m1 = c := Option.some.inj (e1.symm.trans (hu.M c hm))
        rw [h1] at e3
        unfold update at e3
        have h00 : fin 0 = some 0 := by decide +kernel
        rw [sub_self, h00] at e3
        simp only at e3
        rw [zero_div, h00] at e3
        simp only at e3
        rw [add_zero] at e3
        rw [(fin_some e3).1, rnd_rep hc]
      · have h1 : m1 = 0 := Option.some.inj (e1.symm.trans (hu.M 0 hm))
        rw [h1, hcnt] at e3
        rw [← e3]
        exact update_first hc hb

/-- **C181, equal data, first level**: average and error of the first level are exact. -/
theorem C181_first_level_constant (maxN : ℤ) (h0 : maxN ≠ 0) (c : ℚ) (hc : Rep c) (hb : |c| ≤ 2 ^ (1000 : ℤ)) (n : ℕ) (hn : 1 ≤ n) (s : Log) (h : run (List.replicate n c) (ctor maxN) = some s) :
    s.M[0]? = some c ∧ s.Q[0]? = some 0 := by
  constructor
  · rw [(C181_first_level maxN h0 _ (by intro hh; have := congrArg List.length hh; simp at this; omega) s h).1]
    exact (C181_constant c hc hb n hn).1
  · refine run_top_constant hc hb n (ctor maxN) s ?_ ?_ (Or.inr ⟨?_, ?_⟩) h
    · unfold ctor; rw [if_neg h0]; exact h0
    · unfold ctor; rw [if_neg h0]; rfl
    · unfold ctor; split <;> rfl
    · unfold ctor; rw [if_neg h0]; rfl

/-! ### The higher levels -/

/-- the double after one -/
def next : ℚ := 4503599627370497 / 4503599627370496

/-- **C181, finding**: the average of a new level is started with the *sum* of the data, from which the difference to the average is then subtracted. That cancellation loses digits: for eight data which are all
equal to the double after one, the levels with blocks of four and of eight have the average one, and the sum of squares of the level with blocks of four is not zero. -/
theorem C181_levels_witness : run (List.replicate 8 next) (ctor (-1)) =
    some ⟨[next, next, 1, 1], [0, 0, 1 / 40564819207303340847894502572032, 0], -1, [0, 0, 0, 8 * next], [0, 0, 0, 1], 8⟩ := by decide +kernel

/-! ### Examples -/

/-- doubles next to 0.1, 0.2 and 0.3; the exact mean is not a double -/
def tenths : List ℚ := [3602879701896397 / 36028797018963968, 3602879701896397 / 18014398509481984, 5404319552844595 / 18014398509481984]

example : mean tenths = some (3602879701896397 / 18014398509481984) := by decide +kernel

example : tenths.sum / 3 ≠ 3602879701896397 / 18014398509481984 := by decide +kernel

theorem rep_of (m : ℤ) (k : ℕ) (hm : |m| < 2 ^ 53) (hk : k ≤ 1074) : Rep (m * 2 ^ (-k : ℤ)) := ⟨m, -k, by omega, hm.le, rfl⟩

theorem tenths_rep : ∀ x ∈ tenths, Rep x ∧ 1 / 16 ≤ x ∧ x ≤ 1 / 2 := by
  intro x hx
  simp only [tenths, List.mem_cons, List.not_mem_nil, or_false] at hx
  rcases hx with rfl | rfl | rfl
  · exact ⟨by convert rep_of 3602879701896397 55 (by norm_num) (by norm_num) using 1; norm_num, by norm_num, by norm_num⟩
  · exact ⟨by convert rep_of 3602879701896397 54 (by norm_num) (by norm_num) using 1; norm_num, by norm_num, by norm_num⟩
  · exact ⟨by convert rep_of 5404319552844595 54 (by norm_num) (by norm_num) using 1; norm_num, by norm_num, by norm_num⟩

theorem small_le {x : ℚ} (h : x ≤ 1) : x ≤ 2 ^ (1000 : ℤ) := h.trans (by rw [show (1 : ℚ) = 2 ^ (0 : ℤ) by norm_num]; exact two_zpow_le (by norm_num))

theorem low_le {x : ℚ} (h : 0 ≤ x) : -2 ^ (1000 : ℤ) ≤ x := (neg_nonpos.2 (two_zpow_pos 1000).le).trans h

example : Between (1 / 16) (1 / 2) tenths :=
  ⟨by convert rep_of 1 4 (by norm_num) (by norm_num) using 1; norm_num, by convert rep_of 1 1 (by norm_num) (by norm_num) using 1; norm_num,
    low_le (by norm_num), small_le (by norm_num), tenths_rep⟩

example : ∃ m, mean tenths = some m ∧ |m - tenths.sum / 3| ≤ (3 + 5) * (1 / 2 * 2 ^ (-53 : ℤ)) + 3 * 3 * 2 ^ (-1074 : ℤ) := by
  have := C181_accuracy (1 / 2) (by convert rep_of 1 1 (by norm_num) (by norm_num) using 1; norm_num) (small_le (by norm_num)) tenths (by simp [tenths])
    (fun x hx => ⟨(tenths_rep x hx).1, by obtain ⟨_, h1, h2⟩ := tenths_rep x hx; rw [abs_le]; constructor <;> linarith⟩) (by simp [tenths])
  exact_mod_cast this

example : meanAndErr (List.replicate 7 next) = some (next, 0) :=
  (C181_constant next (by convert rep_of 4503599627370497 52 (by norm_num) (by norm_num) using 1; norm_num [next]) (abs_le.2 ⟨low_le (by norm_num [next]), by
    refine (show next ≤ 2 ^ (1 : ℤ) by norm_num [next]).trans (two_zpow_le (by norm_num))⟩) 7 (by norm_num)).2 (by norm_num) (by norm_num)

example : Ordinary (3602879701896397 / 18014398509481984) tenths := by
  have h1 : (2 : ℚ) ^ (-400 : ℤ) ≤ 1 / 16 := (two_zpow_le (by norm_num : (-400 : ℤ) ≤ -4)).trans (by norm_num)
  have h2 : (1 : ℚ) ≤ 2 ^ (400 : ℤ) := by
    rw [show (1 : ℚ) = 2 ^ (0 : ℤ) by norm_num]
    exact two_zpow_le (by norm_num)
  intro x hx
  refine ⟨(tenths_rep x hx).1, ?_⟩
  simp only [tenths, List.mem_cons, List.not_mem_nil, or_false] at hx
  rcases hx with rfl | rfl | rfl
  · right
    exact ⟨h1.trans (by norm_num [abs_of_neg]), le_trans (by norm_num [abs_of_neg]) h2⟩
  · left
    rfl
  · right
    exact ⟨h1.trans (by norm_num [abs_of_pos]), le_trans (by norm_num [abs_of_pos]) h2⟩

example : (meanAndErr tenths).map Prod.fst = some (3602879701896397 / 18014398509481984) := by decide +kernel

/-- the product overflows for this length, not for the one before -/
example : meanAndErr (List.replicate 3037000501 0) = none ∧ meanAndErr (List.replicate 3037000500 0) = some (0, 0) :=
  ⟨C181_overflow _ (by rw [List.length_replicate]), (C181_constant 0 rep_zero (by rw [abs_zero]; exact (two_zpow_pos _).le) 3037000500 (by norm_num)).2 (by norm_num) (by norm_num)⟩

/-- the levels of other data -/
example : (run tenths (ctor (-1))).map (fun s => (s.M, s.count)) = some ([3602879701896397 / 18014398509481984, 1351079888211149 / 9007199254740992], 3) := by decide +kernel

/-- a datum of `2^600` has a square that is not finite: the first datum already spoils the sum of squares, zero times infinity -/
example : run [2 ^ 600] (ctor 1) = none := by decide +kernel

end Verif.MeanDouble
