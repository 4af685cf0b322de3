import Verif.Float.Relative
import Verif.Utility.Legendre

/-!
# Legendre polynomials in double precision

C58 is about exact arithmetic. Here the generator of Legendre polynomials, which evaluates Legendre functions and transforms them to imaginary time and back, is modelled with the rounding of the machine
and with its counter of type `unsigned int`.

Source: `/repo/c++/triqs/utility/legendre.hpp` (42-67), `/repo/c++/triqs/mesh/legendre.hpp` (172), `/repo/c++/triqs/gfs/transform/legendre_matsubara.hpp` (66, 115).
-/

namespace Verif.LegendreDouble

open Binary64 Legendre Polynomial

/-! ## Model -/

/-- `unsigned int` has 32 bits -/
def word : ℕ := 2 ^ 32

/-- the new element of the array, legendre.hpp:52: the integers are computed in `unsigned int` and converted, then the operations from left to right -/
def element (n : ℕ) (x a b : ℚ) : ℚ :=
  let k : ℕ := (2 * n + (word - 1)) % word
  let j : ℕ := (n + (word - 1)) % word
  rnd (rnd (rnd (rnd ((k : ℚ) * x) * a) - rnd ((j : ℚ) * b)) / (n : ℚ))

/-- `next`, legendre.hpp:49-59: value and new state -/
def next (g : Gen ℚ) : ℚ × Gen ℚ :=
  if g.n > 1 then
    let eo := g.n % 2
    let v := element g.n g.x (g.get (1 - eo)) (g.get eo)
    (v, if eo = 0 then { g with n := (g.n + 1) % word, a0 := v } else { g with n := (g.n + 1) % word, a1 := v })
  else (g.get g.n, { g with n := (g.n + 1) % word })

/-- the state after `reset(x)` and `n` calls -/
def state (x : ℚ) : ℕ → Gen ℚ
  | 0 => Gen.reset x
  | n + 1 => (next (state x n)).2

/-- what call number `n` returns, counted from zero -/
def call (x : ℚ) (n : ℕ) : ℚ := (next (state x n)).1

/-- the argument `2 * tau / beta - 1`, mesh/legendre.hpp:172 -/
def argument (beta tau : ℚ) : ℚ := rnd (rnd (rnd (2 * tau) / beta) - 1)

/-! ## Specification

The Legendre polynomials `P` are those of C58, by the formula of Rodrigues. -/

/-! ## Proofs -/

/-- the sequence of values, as long as the counter does not wrap around -/
def seq (x : ℚ) : ℕ → ℚ
  | 0 => 1
  | 1 => x
  | n + 2 => rnd (rnd (rnd (rnd (((2 * n + 3 : ℕ) : ℚ) * x) * seq x (n + 1)) - rnd (((n + 1 : ℕ) : ℚ) * seq x n)) / ((n + 2 : ℕ) : ℚ))

theorem element_small {n : ℕ} (hn : n + 2 ≤ 2 ^ 31) (x a b : ℚ) :
    element (n + 2) x a b = rnd (rnd (rnd (rnd (((2 * n + 3 : ℕ) : ℚ) * x) * a) - rnd (((n + 1 : ℕ) : ℚ) * b)) / ((n + 2 : ℕ) : ℚ)) := by
  unfold element word
  have e1 : (2 * (n + 2) + (2 ^ 32 - 1)) % 2 ^ 32 = 2 * n + 3 := by omega
  have e2 : (n + 2 + (2 ^ 32 - 1)) % 2 ^ 32 = n + 1 := by omega
  simp only [e1, e2]

/-- invariant of the generator -/
theorem state_seq (x : ℚ) (n : ℕ) : n ≤ 2 ^ 31 + 1 → (state x n).n = n ∧ (state x n).x = x ∧ (n ≤ 1 → (state x n).a0 = 1 ∧ (state x n).a1 = x) ∧
    (∀ m, n = m + 2 → (state x n).get (m % 2) = seq x m ∧ (state x n).get ((m + 1) % 2) = seq x (m + 1)) := by
  induction n with
  | zero =>
    intro _
    refine ⟨rfl, rfl, fun _ => ⟨rfl, rfl⟩, fun m hm => by omega⟩
  | succ n ih =>
    intro hn
    obtain ⟨h1, h2, h3, h4⟩ := ih (by omega)
    have hw : (n + 1) % word = n + 1 := by unfold word; omega
    simp only [state, next]
    by_cases hc : 1 < n
    · rw [if_pos (by rw [h1]; exact hc)]
      obtain ⟨m, rfl⟩ : ∃ m, n = m + 2 := ⟨n - 2, by omega⟩
      obtain ⟨ha, hb⟩ := h4 m rfl
      have e1 : (m + 2) % 2 = m % 2 := by omega
      have e2 : 1 - m % 2 = (m + 1) % 2 := by omega
      simp only [h1, h2, hw, e1, e2, ha, hb]
      rw [element_small (by omega)]
      rw [show rnd (rnd (rnd (rnd (((2 * m + 3 : ℕ) : ℚ) * x) * seq x (m + 1)) - rnd (((m + 1 : ℕ) : ℚ) * seq x m)) / ((m + 2 : ℕ) : ℚ)) = seq x (m + 2) from rfl]
      rcases Nat.mod_two_eq_zero_or_one m with hm | hm
      · rw [hm, if_pos rfl]
        refine ⟨rfl, rfl, fun h => by omega, ?_⟩
        intro k hk
        obtain rfl : k = m + 1 := by omega
        have e3 : (m + 1) % 2 = 1 := by omega
        have e4 : (m + 1 + 1) % 2 = 0 := by omega
        rw [e3] at hb
        rw [e3, e4]
        simp only [Gen.get, one_ne_zero, if_false, if_true] at hb ⊢
        exact ⟨hb, trivial⟩
      · rw [hm, if_neg (by omega)]
        refine ⟨rfl, rfl, fun h => by omega, ?_⟩
        intro k hk
        obtain rfl : k = m + 1 := by omega
        have e3 : (m + 1) % 2 = 0 := by omega
        have e4 : (m + 1 + 1) % 2 = 1 := by omega
        rw [e3] at hb
        rw [e3, e4]
        simp only [Gen.get, one_ne_zero, if_false, if_true] at hb ⊢
        exact ⟨hb, trivial⟩
    · rw [if_neg (by rw [h1]; exact hc)]
      obtain ⟨ha, hb⟩ := h3 (by omega)
      refine ⟨by simp only [h1, hw], h2, fun _ => ⟨ha, hb⟩, ?_⟩
      intro m hm
      obtain rfl : m = 0 := by omega
      exact ⟨ha, hb⟩

theorem call_seq (x : ℚ) {n : ℕ} (hn : n ≤ 2 ^ 31) : call x n = seq x n := by
  obtain ⟨h1, h2, h3, h4⟩ := state_seq x n (by omega)
  unfold call next
  by_cases hc : 1 < n
  · rw [if_pos (by rw [h1]; exact hc)]
    obtain ⟨m, rfl⟩ : ∃ m, n = m + 2 := ⟨n - 2, by omega⟩
    obtain ⟨ha, hb⟩ := h4 m rfl
    have e1 : (m + 2) % 2 = m % 2 := by omega
    have e2 : 1 - m % 2 = (m + 1) % 2 := by omega
    simp only [h1, h2, e1, e2, ha, hb]
    rw [element_small hn]
    rfl
  · rw [if_neg (by rw [h1]; exact hc)]
    obtain ⟨ha, hb⟩ := h3 (by omega)
    have hcase : n = 0 ∨ n = 1 := by omega
    rcases hcase with h0 | h0 <;> subst h0 <;> simp [h1, Gen.get, ha, hb, seq]

theorem seq_neg (x : ℚ) (n : ℕ) : seq (-x) n = (-1) ^ n * seq x n ∧ seq (-x) (n + 1) = (-1) ^ (n + 1) * seq x (n + 1) := by
  induction n with
  | zero => simp [seq]
  | succ n ih =>
    refine ⟨ih.2, ?_⟩
    have hs : ∀ s : ℚ, s = 1 ∨ s = -1 → ∀ y : ℚ, rnd (s * y) = s * rnd y := by
      intro s hs y
      rcases hs with h | h <;> rw [h]
      · simp
      · rw [neg_one_mul, rnd_neg, neg_one_mul]
    have hu : (-1 : ℚ) ^ n = 1 ∨ (-1 : ℚ) ^ n = -1 := neg_one_pow_eq_or ℚ n
    show rnd (rnd (rnd (rnd (((2 * n + 3 : ℕ) : ℚ) * -x) * seq (-x) (n + 1)) - rnd (((n + 1 : ℕ) : ℚ) * seq (-x) n)) / ((n + 2 : ℕ) : ℚ)) =
      (-1) ^ (n + 2) * rnd (rnd (rnd (rnd (((2 * n + 3 : ℕ) : ℚ) * x) * seq x (n + 1)) - rnd (((n + 1 : ℕ) : ℚ) * seq x n)) / ((n + 2 : ℕ) : ℚ))
    rw [ih.1, ih.2, show (-1 : ℚ) ^ (n + 2) = (-1) ^ n by rw [pow_add]; norm_num, pow_succ]
    generalize (-1 : ℚ) ^ n = s at *
    rw [show ((2 * n + 3 : ℕ) : ℚ) * -x = -(((2 * n + 3 : ℕ) : ℚ) * x) by ring, rnd_neg]
    rw [show -rnd (((2 * n + 3 : ℕ) : ℚ) * x) * (s * -1 * seq x (n + 1)) = s * (rnd (((2 * n + 3 : ℕ) : ℚ) * x) * seq x (n + 1)) by ring, hs s hu]
    rw [show ((n + 1 : ℕ) : ℚ) * (s * seq x n) = s * (((n + 1 : ℕ) : ℚ) * seq x n) by ring, hs s hu, ← mul_sub, hs s hu, mul_div_assoc, hs s hu]

/-- **C198**: the values have the parity of the polynomials to the last bit -/
theorem C198_parity (x : ℚ) {n : ℕ} (hn : n ≤ 2 ^ 31) : call (-x) n = (-1) ^ n * call x n := by
  rw [call_seq _ hn, call_seq _ hn]
  exact (seq_neg x n).1

theorem rep_nat {n : ℕ} (h : n ≤ 2 ^ 53) : Rep (n : ℚ) := by
  have := rep_int (n := (n : ℤ)) (by rw [abs_of_nonneg (by positivity)]; exact_mod_cast h)
  exact_mod_cast this

theorem seq_one (n : ℕ) : n + 1 ≤ 2 ^ 31 → seq 1 n = 1 ∧ seq 1 (n + 1) = 1 := by
  induction n with
  | zero => intro _; simp [seq]
  | succ n ih =>
    intro hn
    obtain ⟨h1, h2⟩ := ih (by omega)
    refine ⟨h2, ?_⟩
    show rnd (rnd (rnd (rnd (((2 * n + 3 : ℕ) : ℚ) * 1) * seq 1 (n + 1)) - rnd (((n + 1 : ℕ) : ℚ) * seq 1 n)) / ((n + 2 : ℕ) : ℚ)) = 1
    have r1 := rnd_rep (rep_nat (n := 2 * n + 3) (by omega))
    have r2 := rnd_rep (rep_nat (n := n + 1) (by omega))
    have r3 := rnd_rep (rep_nat (n := n + 2) (by omega))
    rw [h1, h2, mul_one, mul_one, mul_one, r1, r1, r2, show ((2 * n + 3 : ℕ) : ℚ) - ((n + 1 : ℕ) : ℚ) = ((n + 2 : ℕ) : ℚ) by push_cast; ring, r3, div_self (by positivity), rnd_rep rep_one]

/-- **C198**: at the ends of the interval the values are `1` and `(-1)^n` exactly -/
theorem C198_ends {n : ℕ} (hn : n ≤ 2 ^ 31) : call 1 n = 1 ∧ call (-1) n = (-1) ^ n := by
  have h : call 1 n = 1 := by
    rw [call_seq _ hn]
    cases n with
    | zero => rfl
    | succ n => exact (seq_one n hn).2
  refine ⟨h, ?_⟩
  rw [C198_parity 1 hn, h, mul_one]

/-- beyond, the factor `2 * n - 1` of type `unsigned int` wraps around: polynomial number `2^31 + 1` at `x = 1` has the wrong sign -/
theorem C198_wrap : call 1 (2 ^ 31 + 1) < 0 := by
  obtain ⟨N, hN⟩ : ∃ N : ℕ, N + 2 = 2 ^ 31 + 1 := ⟨2 ^ 31 - 1, by norm_num⟩
  rw [← hN]
  obtain ⟨h1, h2, _, h4⟩ := state_seq 1 (N + 2) (by omega)
  obtain ⟨ha, hb⟩ := h4 N rfl
  obtain ⟨s1, s2⟩ := seq_one N (by omega)
  rw [s1] at ha
  rw [s2] at hb
  unfold call next
  rw [if_pos (by rw [h1]; omega)]
  simp only [h1, h2]
  rw [show 1 - (N + 2) % 2 = (N + 1) % 2 by omega, show (N + 2) % 2 = N % 2 by omega, ha, hb, hN]
  decide +kernel

/-! ### error of the recurrence -/

/-- what is kept along the recurrence with sources of absolute value at most `D`: two consecutive elements and a quadratic form that does not grow without sources -/
def Small (x D : ℚ) (n : ℕ) (a b : ℚ) : Prop :=
  |a| ≤ D * ((n : ℚ) * (n + 1) / 2) ∧ |b| ≤ D * (((n : ℚ) + 1) * (n + 2) / 2) ∧ (x * b - a) ^ 2 + (1 - x ^ 2) * b ^ 2 ≤ (D * (n + 1)) ^ 2

theorem small_step {x D a b c δ : ℚ} {n : ℕ} (hx : |x| ≤ 1) (hD : 0 ≤ D) (h : Small x D n a b) (hδ : |δ| ≤ D)
    (hc : c = (((2 * n + 3 : ℕ) : ℚ) * x * b - ((n + 1 : ℕ) : ℚ) * a) / ((n + 2 : ℕ) : ℚ) + δ) : Small x D (n + 1) b c := by
  obtain ⟨_, hb, hq⟩ := h
  have hn : (0 : ℚ) ≤ n := Nat.cast_nonneg n
  have hx2 : 0 ≤ 1 - x ^ 2 := by
    rw [abs_le] at hx
    nlinarith [hx.1, hx.2]
  -- the part that oscillates
  set w := x * b - a with hw
  have hwb : |w| ≤ D * (n + 1) := by
    apply abs_le_of_sq_le_sq _ (by positivity)
    nlinarith [mul_nonneg hx2 (sq_nonneg b)]
  set d := c - x * b with hd
  have hde : d = ((n : ℚ) + 1) / (n + 2) * w + δ := by
    rw [hd, hc, hw]
    have : (n : ℚ) + 2 ≠ 0 := by positivity
    push_cast
    field_simp
    ring
  have hr : ((n : ℚ) + 1) / (n + 2) ≤ 1 := by
    rw [div_le_one (by positivity)]
    linarith
  have hr0 : 0 ≤ ((n : ℚ) + 1) / (n + 2) := by positivity
  have hdw : |d| ≤ |w| + D := by
    rw [hde]
    refine (abs_add_le _ _).trans ?_
    rw [abs_mul, abs_of_nonneg hr0]
    have := mul_le_mul_of_nonneg_right hr (abs_nonneg w)
    linarith
  refine ⟨?_, ?_, ?_⟩
  · push_cast
    refine hb.trans (le_of_eq ?_)
    ring
  · have hcb : |c| ≤ |b| + |d| := by
      have : c = x * b + d := by rw [hd]; ring
      rw [this]
      refine (abs_add_le _ _).trans ?_
      rw [abs_mul]
      have := mul_le_mul_of_nonneg_right hx (abs_nonneg b)
      linarith
    push_cast
    have e : D * (((n : ℚ) + 1) * (n + 2) / 2) + D * (n + 2) = D * ((n + 1 + 1) * (n + 1 + 2) / 2) := by ring
    rw [← e]
    linarith
  · have e : (x * c - b) ^ 2 + (1 - x ^ 2) * c ^ 2 = d ^ 2 + (1 - x ^ 2) * b ^ 2 := by rw [hd]; ring
    rw [e]
    push_cast
    have h1 : d ^ 2 ≤ (|w| + D) ^ 2 := by
      rw [← sq_abs d]
      exact pow_le_pow_left₀ (abs_nonneg _) hdw 2
    have h2 : (|w| + D) ^ 2 = w ^ 2 + 2 * D * |w| + D ^ 2 := by rw [add_sq, sq_abs]; ring
    have h3 : 2 * D * |w| ≤ 2 * D * (D * (n + 1)) := mul_le_mul_of_nonneg_left hwb (by linarith)
    have h4 : (D * ((n : ℚ) + 1 + 1)) ^ 2 = (D * (n + 1)) ^ 2 + 2 * D * (D * (n + 1)) + D ^ 2 := by ring
    rw [h4]
    linarith

/-- Legendre polynomials are bounded by one on the interval, by the same quadratic form -/
theorem P_form (x : ℚ) (hx : |x| ≤ 1) (n : ℕ) : |(P ℚ n).eval x| ≤ 1 ∧ |(P ℚ (n + 1)).eval x| ≤ 1 ∧
    (x * (P ℚ (n + 1)).eval x - (P ℚ n).eval x) ^ 2 + (1 - x ^ 2) * (P ℚ (n + 1)).eval x ^ 2 ≤ 1 - x ^ 2 := by
  have hx2 : 0 ≤ 1 - x ^ 2 := by
    rw [abs_le] at hx
    nlinarith [hx.1, hx.2]
  induction n with
  | zero =>
    rw [P_zero, P_one]
    simp only [eval_one, eval_X]
    refine ⟨by norm_num, hx, le_of_eq (by ring)⟩
  | succ n ih =>
    obtain ⟨_, hb, hq⟩ := ih
    have hc := P_rec (K := ℚ) n x
    have e1 : (2 * (n + 2) - 1 : ℕ) = 2 * n + 3 := by omega
    have e2 : (n + 2 - 1 : ℕ) = n + 1 := by omega
    rw [e1, e2] at hc
    generalize (P ℚ n).eval x = a at *
    generalize (P ℚ (n + 1)).eval x = b at *
    rw [show n + 1 + 1 = n + 2 from rfl]
    generalize (P ℚ (n + 2)).eval x = c at *
    have hd : c - x * b = ((n : ℚ) + 1) / (n + 2) * (x * b - a) := by
      rw [hc]
      have : (n : ℚ) + 2 ≠ 0 := by positivity
      push_cast
      field_simp
      ring
    have hr : ((n : ℚ) + 1) / (n + 2) ≤ 1 := by
      rw [div_le_one (by positivity)]
      linarith
    have hr0 : 0 ≤ ((n : ℚ) + 1) / (n + 2) := by positivity
    have hdd : (c - x * b) ^ 2 ≤ (x * b - a) ^ 2 := by
      rw [hd, mul_pow]
      have : (((n : ℚ) + 1) / (n + 2)) ^ 2 ≤ 1 := pow_le_one₀ hr0 hr
      have := mul_le_mul_of_nonneg_right this (sq_nonneg (x * b - a))
      linarith
    have hform : (x * c - b) ^ 2 + (1 - x ^ 2) * c ^ 2 ≤ 1 - x ^ 2 := by
      have e : (x * c - b) ^ 2 + (1 - x ^ 2) * c ^ 2 = (c - x * b) ^ 2 + (1 - x ^ 2) * b ^ 2 := by ring
      rw [e]
      linarith
    refine ⟨hb, ?_, hform⟩
    rcases hx2.lt_or_eq with hlt | heq
    · have h1 : (1 - x ^ 2) * c ^ 2 ≤ (1 - x ^ 2) * 1 := by linarith [sq_nonneg (x * c - b)]
      have h2 : c ^ 2 ≤ 1 := le_of_mul_le_mul_left h1 hlt
      apply abs_le_of_sq_le_sq _ (by norm_num)
      linarith
    · rw [← heq, zero_mul, add_zero] at hq
      have h0 : x * b - a = 0 := by
        have : (x * b - a) ^ 2 = 0 := le_antisymm hq (sq_nonneg _)
        exact pow_eq_zero_iff (two_ne_zero) |>.1 this
      rw [h0, mul_zero] at hd
      have : c = x * b := by linarith
      rw [this, abs_mul]
      exact mul_le_one₀ hx (abs_nonneg _) hb

/-- the source of the recurrence in the machine -/
theorem source {x a b : ℚ} {n : ℕ} (hn : n + 2 ≤ 2 ^ 31) (hx : |x| ≤ 1) (ha : |a| ≤ 2) (hb : |b| ≤ 2) :
    |rnd (rnd (rnd (rnd (((2 * n + 3 : ℕ) : ℚ) * x) * b) - rnd (((n + 1 : ℕ) : ℚ) * a)) / ((n + 2 : ℕ) : ℚ)) - (((2 * n + 3 : ℕ) : ℚ) * x * b - ((n + 1 : ℕ) : ℚ) * a) / ((n + 2 : ℕ) : ℚ)| ≤
      24 / 9007199254740992 := by
  have hk : (0 : ℚ) ≤ ((2 * n + 3 : ℕ) : ℚ) := Nat.cast_nonneg _
  have hm : (2 : ℚ) ≤ ((n + 2 : ℕ) : ℚ) := by push_cast; linarith [(Nat.cast_nonneg n : (0 : ℚ) ≤ n)]
  have hm0 : (0 : ℚ) < ((n + 2 : ℕ) : ℚ) := by linarith
  have ek : ((2 * n + 3 : ℕ) : ℚ) = 2 * ((n + 2 : ℕ) : ℚ) - 1 := by push_cast; ring
  have ej : ((n + 1 : ℕ) : ℚ) = ((n + 2 : ℕ) : ℚ) - 1 := by push_cast; ring
  have hη : (2 : ℚ) ^ (-1074 : ℤ) ≤ 1 / 9007199254740992 / 1024 := by
    have : (2 : ℚ) ^ (-1074 : ℤ) ≤ 2 ^ (-63 : ℤ) := two_zpow_le (by norm_num)
    refine this.trans (by norm_num)
  have hη0 := two_zpow_pos (-1074)
  have absrnd : ∀ {z y : ℚ}, Rep y → |z| ≤ y → |rnd z| ≤ y := by
    intro z y hy hz
    rw [abs_le] at hz ⊢
    exact ⟨le_rnd (rep_neg hy) hz.1, rnd_le hy hz.2⟩
  have hbk : ∀ k : ℕ, k ≤ 2 ^ 40 → Rep ((k : ℕ) : ℚ) := fun k h => rep_nat (by omega)
  -- first product
  have p1 : |((2 * n + 3 : ℕ) : ℚ) * x| ≤ ((2 * n + 3 : ℕ) : ℚ) := by
    rw [abs_mul, abs_of_nonneg hk]
    nlinarith [abs_nonneg x]
  have q1 := absrnd (hbk (2 * n + 3) (by omega)) p1
  have r1 := rnd_err_abs (((2 * n + 3 : ℕ) : ℚ) * x)
  -- second product
  have p2 : |rnd (((2 * n + 3 : ℕ) : ℚ) * x) * b| ≤ ((2 * (2 * n + 3) : ℕ) : ℚ) := by
    rw [abs_mul, Nat.cast_mul, mul_comm ((2 : ℕ) : ℚ)]
    exact mul_le_mul q1 (by exact_mod_cast hb) (abs_nonneg _) hk
  have q2 := absrnd (hbk (2 * (2 * n + 3)) (by omega)) p2
  have r2 := rnd_err_abs (rnd (((2 * n + 3 : ℕ) : ℚ) * x) * b)
  -- third
  have p3 : |((n + 1 : ℕ) : ℚ) * a| ≤ ((2 * (n + 1) : ℕ) : ℚ) := by
    rw [abs_mul, Nat.cast_mul, mul_comm ((2 : ℕ) : ℚ), abs_of_nonneg (Nat.cast_nonneg _)]
    exact mul_le_mul_of_nonneg_left (by exact_mod_cast ha) (Nat.cast_nonneg _)
  have q3 := absrnd (hbk (2 * (n + 1)) (by omega)) p3
  have r3 := rnd_err_abs (((n + 1 : ℕ) : ℚ) * a)
  -- the difference of the first factors
  have d1 : |rnd (((2 * n + 3 : ℕ) : ℚ) * x) * b - ((2 * n + 3 : ℕ) : ℚ) * x * b| ≤ 2 * (((2 * n + 3 : ℕ) : ℚ) * (1 / 9007199254740992) + 2 ^ (-1074 : ℤ)) := by
    rw [← sub_mul, abs_mul, mul_comm]
    have h1 : |rnd (((2 * n + 3 : ℕ) : ℚ) * x) - ((2 * n + 3 : ℕ) : ℚ) * x| ≤ ((2 * n + 3 : ℕ) : ℚ) * (1 / 9007199254740992) + 2 ^ (-1074 : ℤ) :=
      r1.trans (add_le_add_left (mul_le_mul_of_nonneg_right p1 (by norm_num)) _)
    exact mul_le_mul hb h1 (abs_nonneg _) (by norm_num)
  generalize hT1 : rnd (((2 * n + 3 : ℕ) : ℚ) * x) * b = T1 at *
  generalize hX : ((2 * n + 3 : ℕ) : ℚ) * x * b = X at *
  generalize hY : ((n + 1 : ℕ) : ℚ) * a = Y at *
  have p4 : |rnd T1 - rnd Y| ≤ ((6 * (n + 2) : ℕ) : ℚ) := by
    refine (abs_sub _ _).trans ?_
    have : ((2 * (2 * n + 3) : ℕ) : ℚ) + ((2 * (n + 1) : ℕ) : ℚ) ≤ ((6 * (n + 2) : ℕ) : ℚ) := by
      have : 2 * (2 * n + 3) + 2 * (n + 1) ≤ 6 * (n + 2) := by omega
      exact_mod_cast this
    linarith
  have q4 := absrnd (hbk (6 * (n + 2)) (by omega)) p4
  have r4 := rnd_err_abs (rnd T1 - rnd Y)
  generalize hZ : rnd (rnd T1 - rnd Y) = Z at *
  have p5 : |Z / ((n + 2 : ℕ) : ℚ)| ≤ 6 := by
    rw [abs_div, abs_of_pos hm0, div_le_iff₀ hm0]
    refine q4.trans (le_of_eq ?_)
    push_cast
    ring
  have r5 := rnd_err_abs (Z / ((n + 2 : ℕ) : ℚ))
  -- the numerator
  have num : |Z - (X - Y)| ≤ 17 / 9007199254740992 * ((n + 2 : ℕ) : ℚ) := by
    have e : Z - (X - Y) = (Z - (rnd T1 - rnd Y)) + ((rnd T1 - T1) + ((T1 - X) + -(rnd Y - Y))) := by ring
    rw [e]
    refine (abs_add_le _ _).trans ?_
    have t1 := abs_add_le (rnd T1 - T1) ((T1 - X) + -(rnd Y - Y))
    have t2 := abs_add_le (T1 - X) (-(rnd Y - Y))
    rw [abs_neg] at t2
    have c6 : ((6 * (n + 2) : ℕ) : ℚ) = 6 * ((n + 2 : ℕ) : ℚ) := by push_cast; ring
    have c4 : ((2 * (2 * n + 3) : ℕ) : ℚ) = 2 * ((2 * n + 3 : ℕ) : ℚ) := by push_cast; ring
    have c2 : ((2 * (n + 1) : ℕ) : ℚ) = 2 * ((n + 1 : ℕ) : ℚ) := by push_cast; ring
    rw [c6] at p4
    rw [c4] at p2
    rw [c2] at p3
    rw [ek] at p2 d1
    rw [ej] at p3
    linarith
  have e : rnd (Z / ((n + 2 : ℕ) : ℚ)) - (X - Y) / ((n + 2 : ℕ) : ℚ) = (rnd (Z / ((n + 2 : ℕ) : ℚ)) - Z / ((n + 2 : ℕ) : ℚ)) + (Z - (X - Y)) / ((n + 2 : ℕ) : ℚ) := by ring
  rw [e]
  refine (abs_add_le _ _).trans ?_
  have h6 : |(Z - (X - Y)) / ((n + 2 : ℕ) : ℚ)| ≤ 17 / 9007199254740992 := by
    rw [abs_div, abs_of_pos hm0, div_le_iff₀ hm0]
    exact num
  linarith

/-- the error of the machine obeys the recurrence with a small source -/
theorem seq_err {x : ℚ} (hx : |x| ≤ 1) (n : ℕ) : n + 1 ≤ 2 ^ 24 → Small x (24 / 9007199254740992) n (seq x n - (P ℚ n).eval x) (seq x (n + 1) - (P ℚ (n + 1)).eval x) := by
  induction n with
  | zero =>
    intro _
    rw [P_zero, P_one]
    simp [Small, seq]
    norm_num
  | succ n ih =>
    intro hn
    have h := ih (by omega)
    obtain ⟨ba, bb, _⟩ := P_form x hx n
    have size : ∀ m : ℕ, m ≤ 2 ^ 24 → (24 / 9007199254740992 : ℚ) * ((m : ℚ) * (m + 1) / 2) ≤ 1 := by
      intro m hm
      have h1 : (m : ℚ) ≤ 16777216 := by exact_mod_cast hm
      have h0 : (0 : ℚ) ≤ m := Nat.cast_nonneg m
      have : (m : ℚ) * (m + 1) ≤ 16777216 * 16777217 := mul_le_mul h1 (by linarith) (by linarith) (by norm_num)
      linarith
    have sa := size n (by omega)
    have sb := size (n + 1) (by omega)
    push_cast at sb
    rw [add_assoc, show (1 : ℚ) + 1 = 2 by norm_num] at sb
    have ea : |seq x n| ≤ 2 := by
      have := abs_add_le (seq x n - (P ℚ n).eval x) ((P ℚ n).eval x)
      rw [sub_add_cancel] at this
      linarith [h.1]
    have eb : |seq x (n + 1)| ≤ 2 := by
      have := abs_add_le (seq x (n + 1) - (P ℚ (n + 1)).eval x) ((P ℚ (n + 1)).eval x)
      rw [sub_add_cancel] at this
      linarith [h.2.1]
    have hs := source (n := n) (by omega) hx ea eb
    have hc := P_rec (K := ℚ) n x
    have e1 : (2 * (n + 2) - 1 : ℕ) = 2 * n + 3 := by omega
    have e2 : (n + 2 - 1 : ℕ) = n + 1 := by omega
    rw [e1, e2] at hc
    refine small_step hx (by norm_num) h hs ?_
    rw [show n + 1 + 1 = n + 2 from rfl, hc]
    rw [show seq x (n + 2) = rnd (rnd (rnd (rnd (((2 * n + 3 : ℕ) : ℚ) * x) * seq x (n + 1)) - rnd (((n + 1 : ℕ) : ℚ) * seq x n)) / ((n + 2 : ℕ) : ℚ)) from rfl]
    ring

/-- **C198**: on the interval the values are those of the Legendre polynomials up to an error that grows with the square of the degree -/
theorem C198_error {x : ℚ} (hx : |x| ≤ 1) {n : ℕ} (hn : n ≤ 2 ^ 24) : |call x n - (P ℚ n).eval x| ≤ 12 * (n * (n + 1)) / 9007199254740992 := by
  rw [call_seq _ (by omega)]
  have h : |seq x n - (P ℚ n).eval x| ≤ (24 / 9007199254740992 : ℚ) * ((n : ℚ) * (n + 1) / 2) := by
    cases n with
    | zero => exact (seq_err hx 0 (by norm_num)).1
    | succ n =>
      have := (seq_err hx n hn).2.1
      push_cast
      rw [add_assoc, show (1 : ℚ) + 1 = 2 by norm_num]
      exact this
  refine h.trans (le_of_eq ?_)
  ring

/-- **C198**: so the values stay within two, and nothing overflows -/
theorem C198_bounded {x : ℚ} (hx : |x| ≤ 1) {n : ℕ} (hn : n ≤ 2 ^ 24) : |call x n| ≤ 2 := by
  have h := C198_error hx hn
  have hb := (P_form x hx n).1
  have h1 : (n : ℚ) ≤ 16777216 := by exact_mod_cast hn
  have h0 : (0 : ℚ) ≤ n := Nat.cast_nonneg n
  have h2 : (n : ℚ) * (n + 1) ≤ 16777216 * 16777217 := mul_le_mul h1 (by linarith) (by linarith) (by norm_num)
  have h3 := abs_add_le (call x n - (P ℚ n).eval x) ((P ℚ n).eval x)
  rw [sub_add_cancel] at h3
  linarith

/-- Legendre polynomials at two points of the interval -/
theorem P_lip {x y : ℚ} (hx : |x| ≤ 1) (hy : |y| ≤ 1) (n : ℕ) : Small x (2 * |y - x|) n ((P ℚ n).eval y - (P ℚ n).eval x) ((P ℚ (n + 1)).eval y - (P ℚ (n + 1)).eval x) := by
  induction n with
  | zero =>
    rw [P_zero, P_one]
    simp only [eval_one, eval_X, sub_self, Small, abs_zero]
    have h0 := abs_nonneg (y - x)
    refine ⟨by simp, by push_cast; linarith, ?_⟩
    push_cast
    have : (x * (y - x) - 0) ^ 2 + (1 - x ^ 2) * (y - x) ^ 2 = |y - x| ^ 2 := by rw [sq_abs]; ring
    rw [this]
    nlinarith
  | succ n ih =>
    have hcx := P_rec (K := ℚ) n x
    have hcy := P_rec (K := ℚ) n y
    have e1 : (2 * (n + 2) - 1 : ℕ) = 2 * n + 3 := by omega
    have e2 : (n + 2 - 1 : ℕ) = n + 1 := by omega
    rw [e1, e2] at hcx hcy
    obtain ⟨_, bb, _⟩ := P_form y hy n
    have hm0 : (0 : ℚ) < ((n + 2 : ℕ) : ℚ) := by positivity
    refine small_step (δ := ((2 * n + 3 : ℕ) : ℚ) / ((n + 2 : ℕ) : ℚ) * (y - x) * (P ℚ (n + 1)).eval y) hx (by positivity) ih ?_ ?_
    · rw [abs_mul, abs_mul, abs_of_nonneg (by positivity)]
      have h1 : ((2 * n + 3 : ℕ) : ℚ) / ((n + 2 : ℕ) : ℚ) ≤ 2 := by
        rw [div_le_iff₀ hm0]
        push_cast
        linarith
      calc ((2 * n + 3 : ℕ) : ℚ) / ((n + 2 : ℕ) : ℚ) * |y - x| * |(P ℚ (n + 1)).eval y| ≤ 2 * |y - x| * 1 :=
            mul_le_mul (mul_le_mul_of_nonneg_right h1 (abs_nonneg _)) bb (abs_nonneg _) (by positivity)
        _ = 2 * |y - x| := mul_one _
    · rw [show n + 1 + 1 = n + 2 from rfl, hcx, hcy]
      field_simp
      ring

theorem rep_double {x : ℚ} (h : Rep x) : Rep (2 * x) := by
  obtain ⟨m, e, he, hm, rfl⟩ := h
  exact ⟨m, e + 1, by omega, hm, by rw [two_zpow_add]; ring⟩

/-- **C198**: for times between zero and beta the argument is in the interval, with the right ends, and has a small error -/
theorem C198_argument {beta tau : ℚ} (hb : 0 < beta) (h0 : 0 ≤ tau) (h1 : tau ≤ beta) (hr : Rep tau) (hrb : Rep beta) :
    |argument beta tau| ≤ 1 ∧ argument beta 0 = -1 ∧ argument beta beta = 1 ∧
      |argument beta tau - (2 * tau / beta - 1)| ≤ 4 / 9007199254740992 := by
  have hη : (2 : ℚ) ^ (-1074 : ℤ) ≤ 1 / 9007199254740992 / 1024 := by
    have : (2 : ℚ) ^ (-1074 : ℤ) ≤ 2 ^ (-63 : ℤ) := two_zpow_le (by norm_num)
    refine this.trans (by norm_num)
  have e : rnd (2 * tau) = 2 * tau := rnd_rep (rep_double hr)
  have hq0 : 0 ≤ 2 * tau / beta := by positivity
  have hq2 : 2 * tau / beta ≤ 2 := by rw [div_le_iff₀ hb]; linarith
  have r2 : Rep (2 : ℚ) := by exact_mod_cast rep_nat (n := 2) (by norm_num)
  have ha0 : 0 ≤ rnd (2 * tau / beta) := rnd_nonneg hq0
  have ha2 : rnd (2 * tau / beta) ≤ 2 := rnd_le r2 hq2
  have herr := rnd_err_abs (2 * tau / beta)
  rw [abs_of_nonneg hq0] at herr
  have herr2 := rnd_err_abs (rnd (2 * tau / beta) - 1)
  have hab : |rnd (2 * tau / beta) - 1| ≤ 1 := by rw [abs_le]; constructor <;> linarith
  unfold argument
  rw [e]
  refine ⟨?_, ?_, ?_, ?_⟩
  · rw [abs_le] at hab ⊢
    exact ⟨le_rnd (rep_neg rep_one) hab.1, rnd_le rep_one hab.2⟩
  · rw [mul_zero, rnd_zero, zero_div, rnd_zero, zero_sub, rnd_neg, rnd_rep rep_one]
  · rw [rnd_rep (rep_double hrb), mul_div_assoc, div_self hb.ne', mul_one, rnd_rep r2, show (2 : ℚ) - 1 = 1 by norm_num, rnd_rep rep_one]
  · have h3 : rnd (rnd (2 * tau / beta) - 1) - (2 * tau / beta - 1) = (rnd (rnd (2 * tau / beta) - 1) - (rnd (2 * tau / beta) - 1)) + (rnd (2 * tau / beta) - 2 * tau / beta) := by ring
    rw [h3]
    refine (abs_add_le _ _).trans ?_
    linarith

/-- **C198**: the basis function of degree `n` at the time `tau` -/
theorem C198_basis {beta tau : ℚ} (hb : 0 < beta) (h0 : 0 ≤ tau) (h1 : tau ≤ beta) (hr : Rep tau) (hrb : Rep beta) {n : ℕ} (hn : n ≤ 2 ^ 24) :
    |call (argument beta tau) n - (P ℚ n).eval (2 * tau / beta - 1)| ≤ 16 * (n * (n + 1)) / 9007199254740992 := by
  obtain ⟨ha, _, _, herr⟩ := C198_argument hb h0 h1 hr hrb
  have hq0 : 0 ≤ 2 * tau / beta := by positivity
  have hq2 : 2 * tau / beta ≤ 2 := by rw [div_le_iff₀ hb]; linarith
  have hx : |2 * tau / beta - 1| ≤ 1 := by rw [abs_le]; constructor <;> linarith
  have hl := (P_lip hx ha n).1
  have he := C198_error ha hn
  have hn0 : (0 : ℚ) ≤ (n : ℚ) * (n + 1) := by positivity
  have hlip : |(P ℚ n).eval (argument beta tau) - (P ℚ n).eval (2 * tau / beta - 1)| ≤ 4 * (n * (n + 1)) / 9007199254740992 := by
    refine hl.trans ?_
    have := mul_le_mul_of_nonneg_right herr hn0
    linarith
  have h3 := abs_add_le (call (argument beta tau) n - (P ℚ n).eval (argument beta tau)) ((P ℚ n).eval (argument beta tau) - (P ℚ n).eval (2 * tau / beta - 1))
  rw [sub_add_sub_cancel] at h3
  linarith

/-! ### Examples -/

/-- the values at three fifths, and the parity -/
example : (List.range 4).map (call (rnd (3 / 5))) = [1, rnd (3 / 5), call (rnd (3 / 5)) 2, call (rnd (3 / 5)) 3] ∧ call (rnd (3 / 5)) 2 ≠ 1 / 2 * (3 * rnd (3 / 5) ^ 2 - 1) ∧
    call (-rnd (3 / 5)) 3 = -call (rnd (3 / 5)) 3 ∧ call (-rnd (3 / 5)) 2 = call (rnd (3 / 5)) 2 := by decide +kernel

/-- at one half everything is exact for small degrees: `P_4(1/2) = -37/128` -/
example : (List.range 5).map (call (1 / 2)) = [1, 1 / 2, -1 / 8, -7 / 16, -37 / 128] := by decide +kernel

/-- the argument in the middle of the interval -/
example : argument 10 5 = 0 ∧ argument 10 10 = 1 ∧ argument 10 0 = -1 ∧ argument 3 1 = rnd (rnd (2 / 3) - 1) := by decide +kernel

end Verif.LegendreDouble
