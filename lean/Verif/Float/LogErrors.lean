import Verif.Float.Mean
import Mathlib.Analysis.SpecialFunctions.Sqrt

/-!
# Errors of the levels of a logarithmic binning

Source: `/repo/c++/triqs/stat/accumulator.hpp` (402-420), with the binning of C181.

`count_n * (count_n - 1)` is a product of `long` numbers. `sqrt` is the root of IEEE 754, rounded to the nearest double; it is never subnormal.
-/

namespace Verif.LogErrors

open Binary64 LinearDouble MeanDouble

/-! ## Model -/

/-- exponent of the last digit of the root of `x` -/
def rootExp (x : ℚ) : ℤ := Int.log 2 x / 2 - 52

/-- the part of the root below the point, in units of the last digit -/
def rootInt (x : ℚ) : ℕ := Nat.sqrt ⌊x / 4 ^ rootExp x⌋₊

/-- `sqrt` of a finite double, `none` for NaN. Halfway cases do not occur for doubles. -/
def root (x : ℚ) : Option ℚ :=
  if x < 0 then none
  else if x = 0 then some 0
  else some ((if x / 4 ^ rootExp x ≤ (rootInt x + 1 / 2 : ℚ) ^ 2 then (rootInt x : ℚ) else rootInt x + 1) * 2 ^ rootExp x)

/-- outcome of one level -/
inductive Level where
  /-- signed overflow, undefined behaviour -/
  | overflow
  /-- infinity or NaN -/
  | special
  /-- error and number of blocks -/
  | value (e : ℚ) (k : ℕ)
deriving DecidableEq

/-- body of the loop of `log_bin_errors`, accumulator.hpp:410-417 -/
def level (count n : ℕ) (q : ℚ) : Level :=
  if count >>> n ≤ 1 then .value 0 (count >>> n)
  else if 2 ^ 63 ≤ (count >>> n) * (count >>> n - 1) then .overflow
  else match (fin (q / rnd (((count >>> n) * (count >>> n - 1) : ℕ) : ℚ))).bind root with
    | none => .special
    | some e => .value e (count >>> n)

/-- `log_bin_errors`, accumulator.hpp:402-420 -/
def errors (s : Log) : List Level := s.Q.mapIdx fun n q => level s.count n q

/-! ## Specification -/

/-- standard error of the mean of `k` blocks with sum of squares `q` -/
noncomputable def stdErr (q : ℚ) (k : ℕ) : ℝ := Real.sqrt ((q : ℝ) / ((k : ℝ) * ((k : ℝ) - 1)))

/-! ## Proofs -/

theorem four_zpow (e : ℤ) : (4 : ℚ) ^ e = 2 ^ e * 2 ^ e := by
  rw [show (4 : ℚ) = 2 * 2 by norm_num, mul_zpow]

/-- size of the scaled argument -/
theorem scaled {x : ℚ} (hx : 0 < x) : (2 : ℚ) ^ (104 : ℤ) ≤ x / 4 ^ rootExp x ∧ x / 4 ^ rootExp x < 2 ^ (106 : ℤ) := by
  have h1 := log_le hx
  have h2 := lt_log x
  have p : (0 : ℚ) < 4 ^ rootExp x := zpow_pos (by norm_num) _
  rw [le_div_iff₀ p, div_lt_iff₀ p, four_zpow, ← two_zpow_add, ← two_zpow_add, ← two_zpow_add]
  unfold rootExp
  exact ⟨(two_zpow_le (by omega)).trans h1, h2.trans_le (two_zpow_le (by omega))⟩

theorem rootInt_spec {x : ℚ} (hx : 0 < x) :
    (rootInt x : ℚ) ^ 2 ≤ x / 4 ^ rootExp x ∧ x / 4 ^ rootExp x < (rootInt x + 1 : ℚ) ^ 2 ∧ 2 ^ 52 ≤ rootInt x ∧ rootInt x < 2 ^ 53 := by
  obtain ⟨l, u⟩ := scaled hx
  unfold rootInt
  generalize x / 4 ^ rootExp x = y at *
  have y0 : 0 ≤ y := (two_zpow_pos _).le.trans l
  have a1 := Nat.sqrt_le' ⌊y⌋₊
  have a2 := Nat.lt_succ_sqrt' ⌊y⌋₊
  have f1 := Nat.floor_le y0
  have f2 := Nat.lt_floor_add_one y
  refine ⟨?_, ?_, ?_, ?_⟩
  · exact le_trans (by exact_mod_cast a1) f1
  · have : ((⌊y⌋₊ + 1 : ℕ) : ℚ) ≤ ((Nat.sqrt ⌊y⌋₊ + 1) ^ 2 : ℕ) := by exact_mod_cast a2
    push_cast at this
    linarith
  · rw [Nat.le_sqrt']
    refine Nat.le_floor ?_
    refine le_trans (le_of_eq ?_) l
    norm_num
  · rw [Nat.sqrt_lt']
    have : (⌊y⌋₊ : ℚ) < ((2 ^ 53) ^ 2 : ℕ) := by
      refine lt_of_le_of_lt f1 (u.trans_le (le_of_eq ?_))
      norm_num
    exact_mod_cast this

/-- the root is a double next to the exact root -/
theorem root_spec {x : ℚ} (hx : 0 < x) : ∃ r, root x = some r ∧ (2 ^ (-1074 : ℤ) ≤ x → Rep r) ∧ 0 < r ∧ |(r : ℝ) - Real.sqrt x| ≤ Real.sqrt x * (1 / 9007199254740992) := by
  obtain ⟨h1, h2, h3, h4⟩ := rootInt_spec hx
  have hP : (0 : ℝ) < 2 ^ rootExp x := zpow_pos (by norm_num) _
  have hS : Real.sqrt x = Real.sqrt ((x / 4 ^ rootExp x : ℚ) : ℝ) * 2 ^ rootExp x := by
    conv_rhs => rw [← Real.sqrt_sq hP.le, ← Real.sqrt_mul' _ (sq_nonneg _)]
    congr 1
    push_cast
    rw [show (4 : ℝ) = 2 * 2 by norm_num, mul_zpow]
    field_simp
  unfold root
  rw [if_neg (not_lt.2 hx.le), if_neg hx.ne']
  refine ⟨_, rfl, ?_, ?_, ?_⟩
  · intro hx'
    have e0 : -1074 ≤ rootExp x := by
      have := two_zpow_lt_iff.1 (hx'.trans_lt (lt_log x))
      unfold rootExp
      omega
    split_ifs
    · exact ⟨rootInt x, rootExp x, e0, by rw [abs_of_nonneg (by positivity)]; exact_mod_cast h4.le, by push_cast; rfl⟩
    · exact ⟨rootInt x + 1, rootExp x, e0, by rw [abs_of_nonneg (by positivity)]; exact_mod_cast h4, by push_cast; rfl⟩
  · refine mul_pos ?_ (two_zpow_pos _)
    have : (0 : ℚ) < rootInt x := by exact_mod_cast lt_of_lt_of_le (by norm_num) h3
    split_ifs <;> linarith
  · rw [hS]
    generalize x / 4 ^ rootExp x = y at *
    generalize rootInt x = k at *
    have k0 : (4503599627370496 : ℝ) ≤ k := by exact_mod_cast h3
    have g1 : (k : ℝ) ≤ Real.sqrt (y : ℝ) := Real.le_sqrt_of_sq_le (by exact_mod_cast h1)
    have g2 : Real.sqrt (y : ℝ) ≤ k + 1 := Real.sqrt_le_iff.2 ⟨by linarith, by exact_mod_cast h2.le⟩
    have key : |(((if y ≤ (k + 1 / 2 : ℚ) ^ 2 then (k : ℚ) else k + 1) : ℚ) : ℝ) - Real.sqrt (y : ℝ)| ≤ 1 / 2 := by
      split_ifs with hc
      · have g3 : Real.sqrt (y : ℝ) ≤ k + 1 / 2 := Real.sqrt_le_iff.2 ⟨by linarith, by
          have := (Rat.cast_le (K := ℝ)).2 hc
          push_cast at this
          exact this⟩
        push_cast
        rw [abs_le]
        constructor <;> linarith
      · have g3 : (k : ℝ) + 1 / 2 ≤ Real.sqrt (y : ℝ) := Real.le_sqrt_of_sq_le (by
          have := (Rat.cast_le (K := ℝ)).2 (not_le.1 hc).le
          push_cast at this
          exact this)
        push_cast
        rw [abs_le]
        constructor <;> linarith
    rw [Rat.cast_mul]
    push_cast only [Rat.cast_zpow, Rat.cast_ofNat]
    rw [← sub_mul, abs_mul, abs_of_pos hP, mul_right_comm]
    refine mul_le_mul_of_nonneg_right (key.trans ?_) hP.le
    linarith

theorem root_nonneg {x r : ℚ} (h : root x = some r) : 0 ≤ r := by
  unfold root at h
  split_ifs at h
  · rw [← Option.some.inj h]
  all_goals
    rw [← Option.some.inj h]
    positivity

theorem root_some {x : ℚ} (h : 0 ≤ x) : ∃ r, root x = some r := by
  unfold root
  rw [if_neg (not_lt.2 h)]
  split_ifs <;> exact ⟨_, rfl⟩

theorem prod_lt {k : ℕ} (h : k ≤ 3037000500) : k * (k - 1) < 2 ^ 63 :=
  lt_of_le_of_lt (Nat.mul_le_mul h (Nat.sub_le_sub_right h 1)) (by norm_num)

theorem le_prod {k : ℕ} (h : 3037000501 ≤ k) : 2 ^ 63 ≤ k * (k - 1) :=
  le_trans (by norm_num) (Nat.mul_le_mul h (Nat.sub_le_sub_right h 1))

theorem two_le_rnd {k : ℕ} (h : 2 ≤ k) : 2 ≤ rnd ((k * (k - 1) : ℕ) : ℚ) := by
  refine le_rnd (by exact_mod_cast rep_int (n := 2) (by norm_num)) ?_
  exact_mod_cast (Nat.mul_le_mul h (show 1 ≤ k - 1 by omega))

theorem quot_fin {q : ℚ} {k : ℕ} (hq : IsDouble q) (h : 2 ≤ k) :
    fin (q / rnd ((k * (k - 1) : ℕ) : ℚ)) = some (rnd (q / rnd ((k * (k - 1) : ℕ) : ℚ))) := by
  have h2 := two_le_rnd h
  refine fin_eq (isDouble_rnd hq ?_)
  rw [abs_div, abs_of_pos (by linarith : (0 : ℚ) < rnd ((k * (k - 1) : ℕ) : ℚ))]
  exact div_le_self (abs_nonneg _) (by linarith)

/-- the error of a level is finite if the sum of squares is, and there is no overflow -/
theorem level_value {c n : ℕ} {q : ℚ} (hc : c ≤ 3037000500) (hq : IsDouble q) (h0 : 0 ≤ q) : ∃ e, level c n q = .value e (c >>> n) ∧ 0 ≤ e := by
  have hk : c >>> n ≤ 3037000500 := le_trans (by rw [Nat.shiftRight_eq_div_pow]; exact Nat.div_le_self _ _) hc
  unfold level
  generalize c >>> n = k at *
  by_cases h1 : k ≤ 1
  · rw [if_pos h1]
    exact ⟨0, rfl, le_refl _⟩
  rw [if_neg h1, if_neg (not_le.2 (prod_lt hk)), quot_fin hq (by omega), Option.bind_some]
  obtain ⟨r, hr⟩ := root_some (x := rnd (q / rnd ((k * (k - 1) : ℕ) : ℚ))) (rnd_nonneg (div_nonneg h0 (rnd_nonneg (by positivity))))
  rw [hr]
  exact ⟨r, rfl, root_nonneg hr⟩

/-- **C212, accuracy.** The error of a level with at least two blocks is the standard error up to three units of roundoff; it is exactly zero if the sum of squares is. -/
theorem C212_accuracy {c n : ℕ} {q : ℚ} (hc : c ≤ 3037000500) (hq : IsDouble q) (h0 : q = 0 ∨ 2 ^ (-950 : ℤ) ≤ q) (h2 : 2 ≤ c / 2 ^ n) :
    ∃ e : ℚ, level c n q = .value e (c / 2 ^ n) ∧ |(e : ℝ) - stdErr q (c / 2 ^ n)| ≤ stdErr q (c / 2 ^ n) * (3 * 2 ^ (-53 : ℤ)) := by
  have hk : c / 2 ^ n ≤ 3037000500 := (Nat.div_le_self _ _).trans hc
  unfold level
  rw [Nat.shiftRight_eq_div_pow]
  generalize c / 2 ^ n = k at *
  rw [if_neg (by omega), if_neg (not_le.2 (prod_lt hk)), quot_fin hq h2, Option.bind_some]
  rcases h0 with rfl | h0
  · refine ⟨0, ?_, ?_⟩
    · rw [zero_div, rnd_zero]
      simp [root]
    · simp [stdErr]
  have q0 : 0 < q := (two_zpow_pos _).trans_le h0
  have hp := prod_lt hk
  have hC : (2 : ℚ) ≤ (k * (k - 1) : ℕ) := by exact_mod_cast (Nat.mul_le_mul h2 (show 1 ≤ k - 1 by omega))
  have hC' : ((k * (k - 1) : ℕ) : ℚ) ≤ 2 ^ (63 : ℤ) := by exact_mod_cast hp.le
  have hE : (((k * (k - 1) : ℕ) : ℚ) : ℝ) = (k : ℝ) * ((k : ℝ) - 1) := by
    push_cast [Nat.cast_sub (show 1 ≤ k by omega)]
    rfl
  unfold stdErr
  rw [← hE]
  have h3 := two_le_rnd h2
  have hr : rnd ((k * (k - 1) : ℕ) : ℚ) ≤ 2 ^ (63 : ℤ) := rnd_le (rep_zpow (by norm_num)) hC'
  have R1 : Rel 1 ((k * (k - 1) : ℕ) : ℚ) (rnd ((k * (k - 1) : ℕ) : ℚ)) := rel_rnd (((two_zpow_le (by norm_num : (-1022 : ℤ) ≤ 0)).trans (by norm_num)).trans hC)
  generalize ((k * (k - 1) : ℕ) : ℚ) = C at *
  have C0 : 0 < C := by linarith
  have r0 : 0 < rnd C := by linarith
  have R2 : Rel 1 (q / rnd C) (rnd (q / rnd C)) := by
    refine rel_rnd ?_
    rw [le_div_iff₀ r0]
    refine le_trans ?_ h0
    refine (mul_le_mul_of_nonneg_left hr (two_zpow_pos _).le).trans ?_
    rw [← two_zpow_add]
    exact two_zpow_le (by norm_num)
  have R := ((Rel.refl q).div R1 q0.le C0).trans R2
  have z0 := R.pos (div_pos q0 C0)
  generalize rnd (q / rnd C) = z at *
  obtain ⟨r, hr, _, _, he⟩ := root_spec z0
  rw [hr]
  refine ⟨r, rfl, ?_⟩
  rw [show ((q : ℝ) / (C : ℝ)) = ((q / C : ℚ) : ℝ) by push_cast; rfl]
  obtain ⟨a, b⟩ := R
  rw [show (0 + 1 + 1 : ℕ) = 2 from rfl] at a b
  have w0 := div_pos q0 C0
  generalize q / C = w at *
  have k0 : (0 : ℝ) < 1 - 1 / 9007199254740992 := by norm_num
  have root_mul : ∀ t : ℚ, Real.sqrt ((t * c53 ^ 2 : ℚ) : ℝ) = Real.sqrt t * (1 - 1 / 9007199254740992) := by
    intro t
    rw [Rat.cast_mul, Real.sqrt_mul' _ (by positivity)]
    congr 1
    unfold c53
    push_cast
    exact Real.sqrt_sq k0.le
  have a' := Real.sqrt_le_sqrt ((Rat.cast_le (K := ℝ)).2 a)
  have b' := Real.sqrt_le_sqrt ((Rat.cast_le (K := ℝ)).2 b)
  rw [root_mul] at a' b'
  have s0 := Real.sqrt_nonneg (w : ℝ)
  generalize Real.sqrt (z : ℝ) = Z at *
  generalize Real.sqrt (w : ℝ) = W at *
  rw [show (2 : ℝ) ^ (-53 : ℤ) = 1 / 9007199254740992 by norm_num]
  obtain ⟨e1, e2⟩ := abs_le.1 he
  rw [abs_le]
  constructor <;> nlinarith

/-- **C212, overflow.** A product of block numbers overflows exactly if more than 3037000500 data were added. -/
theorem C212_overflow (s : Log) (h : s.Q ≠ []) : .overflow ∈ errors s ↔ 3037000501 ≤ s.count := by
  unfold errors
  rw [List.mem_mapIdx]
  constructor
  · rintro ⟨n, hn, h⟩
    by_contra hc
    have hk : s.count >>> n ≤ 3037000500 := le_trans (by rw [Nat.shiftRight_eq_div_pow]; exact Nat.div_le_self _ _) (by omega : s.count ≤ 3037000500)
    unfold level at h
    rw [if_neg (not_le.2 (prod_lt hk))] at h
    split at h
    · exact absurd h (by simp)
    · split at h <;> exact absurd h (by simp)
  · intro hc
    refine ⟨0, List.length_pos_of_ne_nil h, ?_⟩
    unfold level
    rw [Nat.shiftRight_zero, if_neg (by omega), if_pos (le_prod hc)]

/-- the sums of squares are doubles -/
def Dbl (s : Log) : Prop := ∀ q ∈ s.Q, IsDouble q

theorem isDouble_zero : IsDouble 0 := isDouble_small rep_zero (by norm_num)

theorem welford_dbl {i k : ℕ} {y : ℚ} {s s' : Log} (hs : Dbl s) (h : welford i k y s = some s') : Dbl s' := by
  unfold welford at h
  obtain ⟨m, hm, h⟩ := bind_some h
  obtain ⟨q, hq, h⟩ := bind_some h
  obtain ⟨d, hd, h⟩ := bind_some h
  obtain ⟨f, hf, h⟩ := bind_some h
  obtain ⟨dd, hdd, h⟩ := bind_some h
  obtain ⟨p, hp, h⟩ := bind_some h
  obtain ⟨q', hq', h⟩ := bind_some h
  obtain ⟨e, he, h⟩ := bind_some h
  obtain ⟨m', hm', rfl⟩ := Option.map_eq_some_iff.1 h
  intro z hz
  rcases List.mem_or_eq_of_mem_set hz with hz | hz
  · exact hs z hz
  · rw [hz]
    exact (fin_some hq').2

theorem grow_dbl {s s' : Log} (hs : Dbl s) (h : grow s = some s') : Dbl s' := by
  unfold grow at h
  split at h
  · obtain ⟨a, ha, h⟩ := bind_some h
    have hQ : ∀ q ∈ s.Q ++ [0], IsDouble q := by
      intro q hq
      rcases List.mem_append.1 hq with hq | hq
      · exact hs q hq
      · rw [List.mem_singleton.1 hq]
        exact isDouble_zero
    simp only at h
    split at h <;> (rw [← Option.some.inj h]; exact hQ)
  · rw [← Option.some.inj h]
    exact hs

theorem down_dbl : ∀ {n : ℕ} {s s' : Log}, Dbl s → down n s = some s' → Dbl s' := by
  intro n
  induction n with
  | zero => intro s s' hs h; rw [← Option.some.inj h]; exact hs
  | succ n ih =>
    intro s s' hs h
    obtain ⟨t, ht, h⟩ := bind_some h
    refine ih ?_ h
    unfold downBody at ht
    obtain ⟨a, ha, ht⟩ := bind_some ht
    obtain ⟨y, hy, ht⟩ := bind_some ht
    obtain ⟨u, hu, rfl⟩ := Option.map_eq_some_iff.1 ht
    exact fun q hq => welford_dbl hs hu q hq

theorem push_dbl {x : ℚ} {s s' : Log} (hs : Dbl s) (h : push x s = some s') : Dbl s' := by
  unfold push at h
  split at h
  · rw [← Option.some.inj h]
    exact hs
  · obtain ⟨t, ht, h⟩ := bind_some h
    refine welford_dbl ?_ h
    split at ht
    · obtain ⟨p, hp, ht⟩ := bind_some ht
      obtain ⟨g, hg, ht⟩ := bind_some ht
      exact down_dbl (grow_dbl (s := { s with count := s.count + 1, acc := p.2.1, cnt := p.2.2 }) hs hg) ht
    · rw [← Option.some.inj ht]
      exact hs

theorem run_dbl : ∀ {l : List ℚ} {s s' : Log}, Dbl s → run l s = some s' → Dbl s' := by
  intro l
  induction l with
  | nil => intro s s' hs h; rw [← Option.some.inj h]; exact hs
  | cons x l ih =>
    intro s s' hs h
    obtain ⟨t, ht, h⟩ := bind_some h
    exact ih (push_dbl hs ht) h

theorem ctor_dbl (maxN : ℤ) : Dbl (ctor maxN) := by
  intro q hq
  unfold ctor at hq
  split_ifs at hq
  · simp at hq
  all_goals
    rw [List.mem_singleton.1 hq]
    exact isDouble_zero

theorem run_zero : ∀ l : List ℚ, run l (ctor 0) = some (ctor 0) := by
  intro l
  induction l with
  | nil => rfl
  | cons x l ih => exact ih

/-- **C212, defined.** After up to 3037000500 data, whose sums did not overflow, all levels have a finite error that is not negative, and the number of blocks is the one of the data. -/
theorem C212_finite (maxN : ℤ) (l : List ℚ) (s : Log) (h : run l (ctor maxN) = some s) (hl : l.length ≤ 3037000500) (n : ℕ) (hn : n < s.Q.length) :
    ∃ e, (errors s)[n]? = some (.value e (l.length / 2 ^ n)) ∧ 0 ≤ e := by
  by_cases h0 : maxN = 0
  · subst h0
    rw [run_zero] at h
    rw [← Option.some.inj h] at hn
    exact absurd hn (by simp [ctor])
  have hc : s.count = l.length := by
    by_cases hl' : l = []
    · subst hl'
      rw [← Option.some.inj h]
      unfold ctor
      split_ifs <;> rfl
    · exact (C181_first_level maxN h0 l hl' s h).2
  have hm : s.Q[n] ∈ s.Q := List.getElem_mem hn
  obtain ⟨e, he, e0⟩ := level_value (c := s.count) (n := n) (by omega) (run_dbl (ctor_dbl maxN) h _ hm) (C181_nonneg maxN l s h _ hm)
  refine ⟨e, ?_, e0⟩
  unfold errors
  rw [List.getElem?_mapIdx, List.getElem?_eq_getElem hn, Option.map_some, he, hc, Nat.shiftRight_eq_div_pow]

/-! ### Examples -/

/-- roots: exact, rounded, of the smallest double, and of a negative number -/
example : root 4 = some 2 ∧ root (1 / 4) = some (1 / 2) ∧ root 2 = some (6369051672525773 / 4503599627370496) ∧ root (2 ^ (-1074 : ℤ)) = some (2 ^ (-537 : ℤ)) ∧ root (-1) = none := by
  decide +kernel

/-- four data in two blocks -/
example : (run [1, 3, 5, 7] (ctor (-1))).map errors =
    some [.value (5814122118263953 / 4503599627370496) 4, .value 2 2, .value 0 1] := by
  decide +kernel

example : level 3037000500 0 1 ≠ .overflow ∧ level 3037000501 0 1 = .overflow ∧ level 3037000501 1 1 ≠ .overflow := by
  decide +kernel

/-- sums of squares 20 of four data -/
example : ∃ e : ℚ, level 4 0 20 = .value e 4 ∧ |(e : ℝ) - stdErr 20 4| ≤ stdErr 20 4 * (3 * 2 ^ (-53 : ℤ)) :=
  C212_accuracy (c := 4) (n := 0) (by norm_num) ⟨by exact_mod_cast rep_int (n := 20) (by norm_num), by
    rw [abs_of_pos (by norm_num)]
    exact lt_of_lt_of_le (by norm_num : (20 : ℚ) < 2 ^ 5) (pow_le_pow_right₀ (by norm_num) (by norm_num))⟩
    (.inr ((zpow_le_one_of_nonpos₀ (by norm_num) (by norm_num)).trans (by norm_num))) (by norm_num)

end Verif.LogErrors
