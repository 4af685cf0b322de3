import Verif.Float.Binary64

/-!
# Random numbers in double precision

C71 is about exact arithmetic. Here the operators of `random_generator` are modelled with the rounding of the machine. The number that the generator gives is any
double `r` with `0 ≤ r < 1`.

Source: `/repo/c++/triqs/mc_tools/random_generator.hpp` (67-84).
-/

namespace Verif.RandomDouble

open Binary64

/-! ## Model -/

/-- `operator()(T i)`, random_generator.hpp:67-70: `i` is converted to double, multiplied and rounded, then `floor` is taken, which is exact -/
def randInt (i : ℕ) (r : ℚ) : ℤ := if i = 1 then 0 else ⌊rnd (rnd i * r)⌋

/-- `operator()(double x)`, random_generator.hpp:77-78 -/
def randReal (x r : ℚ) : ℚ := rnd (x * r)

/-- `operator()(double a, double b)`, random_generator.hpp:80-84; `none` if an operation overflows -/
def randBetween (a b r : ℚ) : Option ℚ :=
  match fin (b - a) with
  | none => none
  | some d => match fin (d * r) with
    | none => none
    | some p => fin (a + p)

/-! ## Specification -/

/-- what the generator gives -/
def Draw (r : ℚ) : Prop := IsDouble r ∧ 0 ≤ r ∧ r < 1

/-! ## Proofs -/

theorem mul_draw_le {A r : ℚ} (hA : 0 ≤ A) (hr : Draw r) : A * r ≤ A * (1 - 2 ^ (-53 : ℤ)) :=
  mul_le_mul_of_nonneg_left (rep_lt_one hr.1.1 hr.2.2) hA

/-- a rounded number times a draw is rounded to something below the number before it was rounded -/
theorem rnd_rnd_mul_lt {N r : ℚ} (hN : 1 ≤ N) (hr : Draw r) : rnd (rnd N * r) < N := by
  by_contra hc
  rw [not_lt] at hc
  have h1 : 1 ≤ rnd N := le_rnd rep_one hN
  have h2 : rnd N ≤ rnd (rnd N * r) := by
    have := rnd_mono hc
    rwa [rnd_rnd] at this
  have h3 : rnd (rnd N * r) < rnd N := by
    refine rnd_lt (rep_rnd N) (lt_of_lt_of_le ?_ h1) (mul_draw_le (by linarith) hr)
    calc (2 : ℚ) ^ (-1022 : ℤ) < 2 ^ (0 : ℤ) := two_zpow_lt (by norm_num)
      _ = 1 := by norm_num
  linarith

/-- **C174, integers**: for every bound of any integer type the result is below the bound and not negative, in spite of the rounding of the bound and of the
product. -/
theorem C174_integer (i : ℕ) (hi : 1 ≤ i) (r : ℚ) (hr : Draw r) : 0 ≤ randInt i r ∧ randInt i r < i := by
  unfold randInt
  split
  · omega
  · have h1 : (1 : ℚ) ≤ i := by exact_mod_cast hi
    refine ⟨Int.floor_nonneg.2 (rnd_nonneg (mul_nonneg (rnd_nonneg (by linarith)) hr.2.1)), ?_⟩
    exact Int.floor_lt.2 (by exact_mod_cast rnd_rnd_mul_lt h1 hr)

/-- rounding reaches an integer only from `2^-53` below it -/
theorem le_of_le_rnd {x : ℚ} (h0 : 0 ≤ x) {k : ℚ} (hk : 1 ≤ k) (h : k ≤ rnd x) : k ≤ x * (1 + 2 ^ (-53 : ℤ)) := by
  have hbig : (2 : ℚ) ^ (-1022 : ℤ) ≤ |x| := by
    by_contra hc
    rw [not_le, abs_of_nonneg h0] at hc
    have h1 := rnd_le (rep_zpow (e := -1022) (by norm_num)) hc.le
    have h2 : (2 : ℚ) ^ (-1022 : ℤ) < 2 ^ (0 : ℤ) := two_zpow_lt (by norm_num)
    rw [zpow_zero] at h2
    linarith
  have := (abs_le.1 (rnd_rel hbig)).2
  rw [abs_of_nonneg h0] at this
  linarith

/-- **C174, the integers are equally likely up to rounding.** For bounds of at most 53 digits the result is `k` only if the draw is in the interval
`[k/i, (k+1)/i)` or below it by a relative error of at most `2^-53`, and it is `k` if the draw is in the interval and not so close to its upper end. -/
theorem C174_flat (i : ℕ) (hi : 1 ≤ i) (h53 : i ≤ 2 ^ 53) (r : ℚ) (hr : Draw r) (k : ℕ) :
    (randInt i r = k → (k : ℚ) ≤ i * r * (1 + 2 ^ (-53 : ℤ)) ∧ i * r < k + 1) ∧
    ((k : ℚ) ≤ i * r → i * r * (1 + 2 ^ (-53 : ℤ)) < k + 1 → randInt i r = k) := by
  have hi0 : (0 : ℚ) ≤ i := by positivity
  have hx0 : 0 ≤ (i : ℚ) * r := mul_nonneg hi0 hr.2.1
  have hrep : rnd (i : ℚ) = i := rnd_rep (by exact_mod_cast rep_int (n := (i : ℤ)) (by rw [abs_of_nonneg (by omega)]; exact_mod_cast h53))
  have hlt : (i : ℚ) * r < i := by
    have : (1 : ℚ) ≤ i := by exact_mod_cast hi
    nlinarith [hr.2.2]
  have hp := two_zpow_pos (-53)
  have hdef : randInt i r = ⌊rnd (i * r)⌋ := by
    unfold randInt
    split
    · rename_i h1
      subst h1
      symm
      rw [Int.floor_eq_iff]
      have := rnd_rnd_mul_lt (N := 1) le_rfl hr
      rw [rnd_rep rep_one] at this
      simp only [Nat.cast_one, one_mul] at this ⊢
      exact ⟨by simpa using rnd_nonneg hr.2.1, by simpa using this⟩
    · rw [hrep]
  rw [hdef, Int.floor_eq_iff]
  have hkrep : ∀ n : ℕ, n ≤ i → Rep (n : ℚ) := fun n hn => by
    exact_mod_cast rep_int (n := (n : ℤ)) (by rw [abs_of_nonneg (by omega)]; exact_mod_cast hn.trans h53)
  constructor
  · rintro ⟨h1, h2⟩
    have h1 : (k : ℚ) ≤ rnd (i * r) := by exact_mod_cast h1
    have h2 : rnd (i * r) < k + 1 := by exact_mod_cast h2
    constructor
    · rcases Nat.eq_zero_or_pos k with rfl | hk
      · push_cast
        positivity
      · exact le_of_le_rnd hx0 (by exact_mod_cast hk) h1
    · by_contra hc
      rw [not_lt] at hc
      have hk : k + 1 ≤ i := by
        have : ((k + 1 : ℕ) : ℚ) < i := by push_cast; linarith
        have : k + 1 < i := by exact_mod_cast this
        omega
      have := le_rnd (hkrep (k + 1) hk) (x := i * r) (by push_cast; exact hc)
      push_cast at this
      linarith
  · intro h1 h2
    have hk : k ≤ i := by
      have : (k : ℚ) < i := by linarith
      have : k < i := by exact_mod_cast this
      omega
    refine ⟨by exact_mod_cast le_rnd (hkrep k hk) h1, ?_⟩
    by_contra hc
    rw [not_lt] at hc
    have hc : (k : ℚ) + 1 ≤ rnd (i * r) := by exact_mod_cast hc
    have := le_of_le_rnd hx0 (k := (k : ℚ) + 1) (by linarith [(Nat.cast_nonneg k : (0 : ℚ) ≤ k)]) hc
    linarith

/-- **C174, not exactly flat**: a draw below one third, the largest one, gives 1 out of three, which is the first integer of C71 in exact arithmetic. -/
theorem C174_not_exact : ∃ r, Draw r ∧ (3 : ℚ) * r < 1 ∧ randInt 3 r = 1 := by
  refine ⟨6004799503160661 / 2 ^ 54, ⟨⟨⟨6004799503160661, -54, by norm_num, by norm_num, by norm_num⟩, ?_⟩, by norm_num, by norm_num⟩, by norm_num, by decide +kernel⟩
  rw [abs_of_nonneg (by norm_num)]
  refine lt_of_lt_of_le (b := 1) (by norm_num) (one_le_pow₀ (by norm_num))

/-- **C174, reals up to `x`**: below `x` for all normal doubles except the smallest one, at most `x` for all, and a finite double. -/
theorem C174_real (x r : ℚ) (hx : IsDouble x) (h0 : 0 < x) (hr : Draw r) :
    0 ≤ randReal x r ∧ randReal x r ≤ x ∧ IsDouble (randReal x r) ∧ ((2 : ℚ) ^ (-1022 : ℤ) < x → randReal x r < x) := by
  have hle : x * r ≤ x := by nlinarith [hr.2.2]
  have hge : 0 ≤ x * r := mul_nonneg h0.le hr.2.1
  refine ⟨rnd_nonneg hge, rnd_le hx.1 hle, isDouble_rnd hx ?_, fun hn => rnd_lt hx.1 hn (mul_draw_le h0.le hr)⟩
  rwa [abs_of_nonneg hge, abs_of_pos h0]

/-- **C174, the smallest normal double** is reached although the interval is documented as open. -/
theorem C174_real_closed : ∃ x r, IsDouble x ∧ 0 < x ∧ Draw r ∧ randReal x r = x := by
  have hone : (1 : ℚ) ≤ 2 ^ 1024 := one_le_pow₀ (by norm_num)
  refine ⟨2 ^ (-1022 : ℤ), 9007199254740991 / 2 ^ 53, ⟨rep_zpow (by norm_num), ?_⟩, two_zpow_pos _,
    ⟨⟨⟨9007199254740991, -53, by norm_num, by norm_num, by norm_num⟩, ?_⟩, by norm_num, by norm_num⟩, by decide +kernel⟩
  · rw [abs_of_pos (two_zpow_pos _)]
    refine lt_of_lt_of_le ?_ hone
    calc (2 : ℚ) ^ (-1022 : ℤ) < 2 ^ (0 : ℤ) := two_zpow_lt (by norm_num)
      _ = 1 := by norm_num
  · rw [abs_of_nonneg (by norm_num)]
    exact lt_of_lt_of_le (by norm_num) hone

/-- all numbers with an exponent that is not below `-1074` are multiples of `2^-1074` -/
theorem rep_multiple {x : ℚ} (h : Rep x) : ∃ k : ℤ, x = k * 2 ^ (-1074 : ℤ) := by
  obtain ⟨m, e, he, _, rfl⟩ := h
  obtain ⟨k, hk⟩ := zpow_int he
  exact ⟨m * k, by rw [hk]; push_cast; ring⟩

/-- **C174, reals between two bounds**: unless the difference of the bounds overflows, the result is a double between the bounds, both of them included. -/
theorem C174_between (a b r : ℚ) (ha : IsDouble a) (hb : IsDouble b) (hab : a < b) (hr : Draw r) (hd : rnd (b - a) < 2 ^ 1024) :
    ∃ y, randBetween a b r = some y ∧ IsDouble y ∧ a ≤ y ∧ y ≤ b := by
  have hD0 : 0 ≤ rnd (b - a) := rnd_nonneg (by linarith)
  have hz0 : 0 ≤ rnd (rnd (b - a) * r) := rnd_nonneg (mul_nonneg hD0 hr.2.1)
  have hzD : rnd (rnd (b - a) * r) ≤ rnd (b - a) := rnd_le (rep_rnd _) (by nlinarith [hr.2.2])
  have hz : rnd (rnd (b - a) * r) ≤ b - a := by
    by_contra hc
    rw [not_le] at hc
    have hge : rnd (b - a) ≤ rnd (rnd (b - a) * r) := rnd_le (rep_rnd _) hc.le
    by_cases hn : (2 : ℚ) ^ (-1022 : ℤ) < rnd (b - a)
    · have := rnd_lt (rep_rnd _) hn (mul_draw_le hD0 hr)
      linarith
    · rw [not_lt] at hn
      obtain ⟨k, hk⟩ := rep_multiple ha.1
      obtain ⟨l, hl⟩ := rep_multiple hb.1
      have hsub : b - a = ((l - k : ℤ) : ℚ) * 2 ^ (-1074 : ℤ) := by rw [hk, hl]; push_cast; ring
      have hrep : Rep (b - a) := by
        refine ⟨l - k, -1074, by norm_num, ?_, hsub⟩
        have h1 : (0 : ℚ) < ((l - k : ℤ) : ℚ) * 2 ^ (-1074 : ℤ) := by rw [← hsub]; linarith
        have h2 : ((l - k : ℤ) : ℚ) * 2 ^ (-1074 : ℤ) ≤ ((2 ^ 52 : ℤ) : ℚ) * 2 ^ (-1074 : ℤ) := by
          rw [← hsub, ← two_zpow_nat, ← two_zpow_add]
          refine le_trans (by linarith) (hn.trans (le_of_eq (by norm_num)))
        have h3 : ((l - k : ℤ) : ℚ) ≤ ((2 ^ 52 : ℤ) : ℚ) := le_of_mul_le_mul_right h2 (two_zpow_pos _)
        have h3 : l - k ≤ 2 ^ 52 := by exact_mod_cast h3
        have h4 : (0 : ℚ) < ((l - k : ℤ) : ℚ) := pos_of_mul_pos_left h1 (two_zpow_pos _).le
        have h4 : 0 < l - k := by exact_mod_cast h4
        rw [abs_of_pos h4]
        omega
      rw [rnd_rep hrep] at hzD hc
      linarith
  have h1 : a ≤ rnd (a + rnd (rnd (b - a) * r)) := le_rnd ha.1 (by linarith)
  have h2 : rnd (a + rnd (rnd (b - a) * r)) ≤ b := rnd_le hb.1 (by linarith)
  have hDf : IsDouble (rnd (b - a)) := ⟨rep_rnd _, (abs_of_nonneg hD0).trans_lt hd⟩
  have hzf : IsDouble (rnd (rnd (b - a) * r)) := ⟨rep_rnd _, (abs_of_nonneg hz0).trans_lt (hzD.trans_lt hd)⟩
  have hyf : IsDouble (rnd (a + rnd (rnd (b - a) * r))) := by
    refine ⟨rep_rnd _, ?_⟩
    exact abs_lt.2 ⟨(abs_lt.1 ha.2).1.trans_le h1, h2.trans_lt (abs_lt.1 hb.2).2⟩
  refine ⟨_, ?_, hyf, h1, h2⟩
  unfold randBetween
  simp only [fin_eq hDf, fin_eq hzf, fin_eq hyf]

/-- **C174, overflow**: between the smallest and the largest double there is no result. -/
theorem C174_between_overflow (r : ℚ) : randBetween (-((2 ^ 53 - 1) * 2 ^ 971)) ((2 ^ 53 - 1) * 2 ^ 971) r = none := by
  have h : fin ((2 ^ 53 - 1) * 2 ^ 971 - -((2 ^ 53 - 1) * 2 ^ 971)) = none := by decide +kernel
  unfold randBetween
  rw [h]

/-- **C174, the upper bound** is a possible result, although the interval is documented as open: between two neighbouring doubles it is the result of
every draw above one half. -/
theorem C174_between_closed (r : ℚ) (hr : Draw r) (h : 1 / 2 < r) : randBetween 1 (1 + 2 ^ (-52 : ℤ)) r = some (1 + 2 ^ (-52 : ℤ)) := by
  have h52 : (2 : ℚ) ^ (-52 : ℤ) = 1 / 4503599627370496 := by norm_num
  have hr1 := hr.2.2
  have hr0 : 0 < r := by linarith
  have hlog : Int.log 2 r = -1 := by
    have ha : -1 ≤ Int.log 2 r := (Int.zpow_le_iff_le_log (R := ℚ) (b := 2) (by norm_num) hr0).1 (by norm_num; linarith)
    have hb : Int.log 2 r < 0 := by
      rw [← two_zpow_lt_iff]
      exact (log_le hr0).trans_lt (by simpa using hr1)
    omega
  have hE : expo r = -53 := by unfold expo; rw [abs_of_pos hr0, hlog]; norm_num
  obtain ⟨n, hn⟩ := hr.1.1.grid
  rw [hE] at hn
  have hn1 : |n| ≤ 2 ^ 53 := by
    have h1 : (0 : ℚ) < n := pos_of_mul_pos_left (hn ▸ hr0) (two_zpow_pos _).le
    have h1 : 0 < n := by exact_mod_cast h1
    have h2 : (n : ℚ) ≤ ((2 ^ 53 : ℤ) : ℚ) := le_of_mul_le_mul_right (a := (2 : ℚ) ^ (-53 : ℤ)) (by
      rw [← hn]
      refine hr1.le.trans (le_of_eq ?_)
      norm_num) (two_zpow_pos _)
    rw [abs_of_pos h1]
    exact_mod_cast h2
  have hprod : Rep (2 ^ (-52 : ℤ) * r) := ⟨n, -105, by norm_num, hn1, by rw [hn, show (-105 : ℤ) = -52 + -53 by norm_num, two_zpow_add]; ring⟩
  have hb : Rep (1 + 2 ^ (-52 : ℤ)) := ⟨2 ^ 52 + 1, -52, by norm_num, by norm_num, by norm_num⟩
  have hsub : (1 + 2 ^ (-52 : ℤ) - 1 : ℚ) = 2 ^ (-52 : ℤ) := by ring
  have hx1 : (1 : ℚ) ≤ 1 + 2 ^ (-52 : ℤ) * r := by rw [h52]; linarith
  have hx2 : 1 + 2 ^ (-52 : ℤ) * r < (2 : ℚ) := by rw [h52]; linarith
  have hlx : Int.log 2 (1 + 2 ^ (-52 : ℤ) * r) = 0 := by
    have ha : 0 ≤ Int.log 2 (1 + 2 ^ (-52 : ℤ) * r) := (Int.zpow_le_iff_le_log (R := ℚ) (b := 2) (by norm_num) (by linarith)).1 (by simpa using hx1)
    have hb : Int.log 2 (1 + 2 ^ (-52 : ℤ) * r) < 1 := by
      rw [← two_zpow_lt_iff]
      exact (log_le (by linarith)).trans_lt (by simpa using hx2)
    omega
  have hEx : expo (1 + 2 ^ (-52 : ℤ) * r) = -52 := by unfold expo; rw [abs_of_pos (by linarith), hlx]; norm_num
  have hres : rnd (1 + 2 ^ (-52 : ℤ) * r) = 1 + 2 ^ (-52 : ℤ) := by
    refine le_antisymm (rnd_le hb ?_) ?_
    · have := two_zpow_pos (-52)
      nlinarith
    · have : (2 ^ 52 + 1 : ℤ) ≤ rne ((1 + 2 ^ (-52 : ℤ) * r) / 2 ^ (-52 : ℤ)) := by
        refine le_rne_of_half_lt ?_
        rw [lt_div_iff₀ (two_zpow_pos _), h52]
        push_cast
        linarith
      unfold rnd
      rw [hEx]
      have h2 : (1 : ℚ) + 2 ^ (-52 : ℤ) = ((2 ^ 52 + 1 : ℤ) : ℚ) * 2 ^ (-52 : ℤ) := by norm_num
      conv_lhs => rw [h2]
      exact mul_le_mul_of_nonneg_right (by exact_mod_cast this) (two_zpow_pos _).le
  unfold randBetween
  rw [hsub]
  have f1 : fin (2 ^ (-52 : ℤ)) = some (2 ^ (-52 : ℤ)) := by
    have := fin_eq (x := 2 ^ (-52 : ℤ)) (by rw [rnd_rep (rep_zpow (by norm_num))]; exact isDouble_small (rep_zpow (by norm_num)) (by rw [h52]; norm_num [abs_of_pos]))
    rwa [rnd_rep (rep_zpow (by norm_num))] at this
  have f2 : fin (2 ^ (-52 : ℤ) * r) = some (2 ^ (-52 : ℤ) * r) := by
    have := fin_eq (x := 2 ^ (-52 : ℤ) * r) (by
      rw [rnd_rep hprod]
      refine isDouble_small hprod ?_
      rw [abs_of_nonneg (mul_nonneg (two_zpow_pos _).le hr0.le), h52]
      linarith)
    rwa [rnd_rep hprod] at this
  have f3 : fin (1 + 2 ^ (-52 : ℤ) * r) = some (1 + 2 ^ (-52 : ℤ)) := by
    unfold fin
    rw [hres, if_pos]
    rw [abs_of_pos (by have := two_zpow_pos (-52); linarith)]
    refine lt_of_lt_of_le (b := 2 ^ 1) (by norm_num) (pow_le_pow_right₀ (by norm_num) (by norm_num))
  simp only [f1, f2, f3]

/-! ### Examples -/

/-- the largest draw -/
def exDraw : ℚ := 9007199254740991 / 2 ^ 53

theorem exDraw_draw : Draw exDraw := by
  refine ⟨isDouble_small ⟨9007199254740991, -53, by norm_num, by norm_num, by norm_num [exDraw]⟩ ?_, by norm_num [exDraw], by norm_num [exDraw]⟩
  norm_num [exDraw, abs_of_pos]

/-- the largest 64-bit number is rounded up to `2^64`, and still the result is below it -/
example : randInt (2 ^ 64 - 1) exDraw = 2 ^ 64 - 2 ^ 11 ∧ randInt (2 ^ 64 - 1) exDraw < (2 ^ 64 - 1 : ℕ) :=
  ⟨by decide +kernel, (C174_integer _ (by norm_num) _ exDraw_draw).2⟩

example : randInt 6 exDraw = 5 ∧ randInt 6 0 = 0 ∧ randInt 6 (1 / 2) = 3 := by decide +kernel

/-- a tenth is not a double; the draw of one half between 0 and the double next to it -/
example : randBetween 0 (rnd (1 / 10)) (1 / 2) = some (rnd (1 / 20)) := by decide +kernel

end Verif.RandomDouble
