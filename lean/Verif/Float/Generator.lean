import Verif.Float.Moves
import Verif.MC.Mersenne
import Mathlib.Data.Finset.Card
import Mathlib.Algebra.Order.Floor.Ring
import Mathlib.Tactic.Ring
import Mathlib.Tactic.FieldSimp

/-!
# The default random generator and the acceptance of moves in double precision

The numbers of the Mersenne twister of the library as doubles, and what they imply for the acceptance of moves, for the choice of moves and for random integers: for each of these, the number
of the `2^32` words of the generator that lead to a result.

Source: `/repo/c++/triqs/mc_tools/MersenneRNG.cpp` (26-34), `/repo/c++/triqs/mc_tools/MersenneRNG.hpp` (217), `/repo/c++/triqs/mc_tools/mc_generic.hpp` (267),
`/repo/c++/triqs/mc_tools/random_generator.hpp` (67-70).
-/

namespace Verif.GeneratorDouble

open Binary64 RandomDouble MovesDouble

/-! ## Model -/

/-- `DBL_EPSILON` -/
def dblEpsilon : ℚ := 2 ^ (-52 : ℤ)

/-- `RandMT::eval`, MersenneRNG.cpp:32, of the word `y` of `randomMT`; both operands are converted exactly -/
def eval (y : ℕ) : ℚ := rnd (rnd y / rnd 0xFFFFFFFF)

/-- `RandMT::operator()`, MersenneRNG.hpp:217 -/
def gen (y : ℕ) : ℚ := rnd (dblEpsilon + rnd (eval y * rnd (1 - rnd (2 * dblEpsilon))))

/-- the Metropolis test, mc_generic.hpp:267, for the word `y` and the finite ratio `r` -/
def accepted (y : ℕ) (r : ℚ) : Bool := decide (gen y < min 1 r)

/-! ## Specification -/

/-- the words of the generator -/
def words : Finset ℕ := Finset.range (2 ^ 32)

/-! ## Proofs -/

theorem mem_words {y : ℕ} : y ∈ words ↔ y < 4294967296 := by
  unfold words
  rw [Finset.mem_range]
  norm_num

theorem rnd_mersenne : rnd 0xFFFFFFFF = 4294967295 := by decide +kernel

theorem scale_eq : rnd (1 - rnd (2 * dblEpsilon)) = 1 - 2 / 4503599627370496 := by decide +kernel

theorem rnd_word {y : ℕ} (hy : y < 4294967296) : rnd (y : ℚ) = y := by
  have : Rep ((y : ℤ) : ℚ) := rep_int (by rw [abs_le]; constructor <;> norm_num <;> omega)
  exact rnd_rep (by exact_mod_cast this)

theorem gen_mono {x y : ℕ} (h : x ≤ y) : gen x ≤ gen y := by
  unfold gen eval
  rw [rnd_mersenne, scale_eq]
  refine rnd_mono (add_le_add (le_refl _) (rnd_mono (mul_le_mul_of_nonneg_right (rnd_mono ?_) (by norm_num))))
  exact div_le_div_of_nonneg_right (rnd_mono (by exact_mod_cast h)) (by norm_num)

/-- **C179, range**: the numbers of the generator are between `2^-52` and `1 - 2^-52`, and both are reached; the claims about random numbers (C174) and about moves (C178) apply to them. -/
theorem C179_range (y : ℕ) (hy : y ∈ words) : dblEpsilon ≤ gen y ∧ gen y ≤ 1 - dblEpsilon ∧ Draw (gen y) ∧ gen 0 = dblEpsilon ∧ gen 4294967295 = 1 - dblEpsilon := by
  have h0 : gen 0 = dblEpsilon := by decide +kernel
  have h1 : gen 4294967295 = 1 - dblEpsilon := by decide +kernel
  have hy' := mem_words.1 hy
  have h2 := gen_mono (Nat.zero_le y)
  have h3 := gen_mono (by omega : y ≤ 4294967295)
  rw [h0] at h2
  rw [h1] at h3
  have he : dblEpsilon = 1 / 4503599627370496 := by decide +kernel
  refine ⟨h2, h3, ⟨isDouble_small (rep_rnd _) ?_, ?_, ?_⟩, h0, h1⟩
  · show |gen y| ≤ 1
    rw [he] at h2 h3
    rw [abs_le]
    constructor <;> linarith
  · rw [he] at h2
    linarith
  · rw [he] at h3
    linarith

/-- **C179, accuracy**: the number is the word divided by `2^32 - 1` up to `2^-50`. -/
theorem C179_accuracy (y : ℕ) (hy : y ∈ words) : |gen y - (y : ℚ) / 4294967295| ≤ 2 ^ (-50 : ℤ) := by
  have hy' := mem_words.1 hy
  unfold gen eval
  rw [rnd_mersenne, scale_eq, rnd_word hy', show dblEpsilon = 1 / 4503599627370496 by decide +kernel, show (2 : ℚ) ^ (-50 : ℤ) = 8 / 9007199254740992 by norm_num]
  have hx0 : (0 : ℚ) ≤ (y : ℚ) / 4294967295 := by positivity
  have hx1 : (y : ℚ) / 4294967295 ≤ 1 := by
    rw [div_le_one (by norm_num)]
    exact_mod_cast (by omega : y ≤ 4294967295)
  generalize (y : ℚ) / 4294967295 = x at *
  have ha0 : 0 ≤ rnd x := rnd_nonneg hx0
  have ha1 : rnd x ≤ 1 := rnd_le rep_one hx1
  have e1 := rnd_err_abs x
  rw [abs_of_nonneg hx0] at e1
  have e2 := rnd_err_abs (rnd x * (1 - 2 / 4503599627370496))
  rw [abs_of_nonneg (a := rnd x * (1 - 2 / 4503599627370496)) (by nlinarith)] at e2
  have hb0 : 0 ≤ rnd (rnd x * (1 - 2 / 4503599627370496)) := rnd_nonneg (by nlinarith)
  have hb1 : rnd (rnd x * (1 - 2 / 4503599627370496)) ≤ 1 := rnd_le rep_one (by nlinarith)
  have e3 := rnd_err_abs (1 / 4503599627370496 + rnd (rnd x * (1 - 2 / 4503599627370496)))
  rw [abs_of_nonneg (a := 1 / 4503599627370496 + rnd (rnd x * (1 - 2 / 4503599627370496))) (by linarith)] at e3
  have ht : (2 : ℚ) ^ (-1074 : ℤ) ≤ 1 / 9007199254740992 / 8 := by
    calc (2 : ℚ) ^ (-1074 : ℤ) ≤ 2 ^ (-56 : ℤ) := two_zpow_le (by norm_num)
      _ = _ := by norm_num
  generalize (2 : ℚ) ^ (-1074 : ℤ) = e at *
  generalize rnd (1 / 4503599627370496 + rnd (rnd x * (1 - 2 / 4503599627370496))) = c at *
  generalize rnd (rnd x * (1 - 2 / 4503599627370496)) = b at *
  generalize rnd x = a at *
  rw [abs_le] at e1 e2 e3 ⊢
  constructor <;> linarith [e1.1, e1.2, e2.1, e2.2, e3.1, e3.2]

/-- **C179, no repetition**: different words give different numbers, in the same order. -/
theorem C179_strict (x y : ℕ) (h : x < y) (hy : y ∈ words) : gen x < gen y := by
  have hx : x ∈ words := mem_words.2 (by have := mem_words.1 hy; omega)
  have h1 := abs_le.1 (C179_accuracy x hx)
  have h2 := abs_le.1 (C179_accuracy y hy)
  have h3 : (x : ℚ) / 4294967295 + 1 / 4294967295 ≤ (y : ℚ) / 4294967295 := by
    rw [← add_div]
    exact div_le_div_of_nonneg_right (by exact_mod_cast h) (by norm_num)
  rw [show (2 : ℚ) ^ (-50 : ℤ) = 8 / 9007199254740992 by norm_num] at h1 h2
  linarith [h1.2, h2.1]

/-- **C179, every run**: all numbers drawn from a generator with any seed are in this range. -/
theorem C179_run (seed junk n : ℕ) : ∃ l s, MT.draws n (MT.seedMT seed junk) = some (l, s) ∧ l.length = n ∧ ∀ y ∈ l, Draw (gen y) := by
  obtain ⟨l, s, h, hl, _, _, _, hr⟩ := MT.C34_bounds seed junk n
  refine ⟨l, s, h, hl, fun y hy => (C179_range y (mem_words.2 ?_)).2.2.1⟩
  have := (hr y hy).1
  omega

/-- **C179, acceptance is certain** for ratios of at least one. -/
theorem C179_certain (y : ℕ) (hy : y ∈ words) (r : ℚ) (hr : 1 ≤ r) : accepted y r = true := by
  unfold accepted
  rw [min_eq_left hr, decide_eq_true_eq]
  exact (C179_range y hy).2.2.1.2.2

/-- **C179, acceptance is impossible** exactly for ratios of at most `2^-52`, not only for the ratio zero. -/
theorem C179_never (r : ℚ) : (∀ y ∈ words, accepted y r = false) ↔ r ≤ dblEpsilon := by
  constructor
  · intro h
    have h0 := h 0 (mem_words.2 (by norm_num))
    unfold accepted at h0
    rw [decide_eq_false_iff_not, not_lt, show gen 0 = dblEpsilon by decide +kernel] at h0
    by_contra hc
    rw [not_le] at hc
    have : dblEpsilon < 1 := by decide +kernel
    exact absurd h0 (not_le.2 (lt_min this hc))
  · intro h y hy
    unfold accepted
    rw [decide_eq_false_iff_not, not_lt]
    exact le_trans (min_le_right _ _) (h.trans (C179_range y hy).1)

/-- how many words give a number below `x` -/
def below (x : ℚ) : ℕ := (words.filter fun y => gen y < x).card

theorem below_upper {x : ℚ} (hx : 0 ≤ x) : (below x : ℚ) ≤ 4294967295 * x + 1 + 2 ^ (-18 : ℤ) := by
  have hsub : (words.filter fun y => gen y < x) ⊆ Finset.range ⌈4294967295 * (x + 2 ^ (-50 : ℤ))⌉₊ := by
    intro y hy
    obtain ⟨h1, h2⟩ := Finset.mem_filter.1 hy
    rw [Finset.mem_range, Nat.lt_ceil]
    have := (abs_le.1 (C179_accuracy y h1)).1
    have h3 : (y : ℚ) / 4294967295 < x + 2 ^ (-50 : ℤ) := by linarith
    rw [div_lt_iff₀ (by norm_num)] at h3
    linarith
  have h1 := Finset.card_le_card hsub
  rw [Finset.card_range] at h1
  have h2 : (⌈4294967295 * (x + 2 ^ (-50 : ℤ))⌉₊ : ℚ) < 4294967295 * (x + 2 ^ (-50 : ℤ)) + 1 := Nat.ceil_lt_add_one (by positivity)
  have h3 : (below x : ℚ) ≤ (⌈4294967295 * (x + 2 ^ (-50 : ℤ))⌉₊ : ℚ) := by exact_mod_cast h1
  have h4 : (4294967295 : ℚ) * 2 ^ (-50 : ℤ) ≤ 2 ^ (-18 : ℤ) := by norm_num
  linarith

theorem below_lower {x : ℚ} (hx : x ≤ 1) : 4294967295 * x - 2 ^ (-18 : ℤ) ≤ below x := by
  have hsub : Finset.range ⌈4294967295 * (x - 2 ^ (-50 : ℤ))⌉₊ ⊆ (words.filter fun y => gen y < x) := by
    intro y hy
    rw [Finset.mem_range, Nat.lt_ceil] at hy
    have hp : (0 : ℚ) < 2 ^ (-50 : ℤ) := by norm_num
    have hy1 : (y : ℚ) < 4294967295 := by nlinarith
    have hw : y ∈ words := mem_words.2 (by have : y < 4294967295 := by exact_mod_cast hy1
                                           omega)
    refine Finset.mem_filter.2 ⟨hw, ?_⟩
    have := (abs_le.1 (C179_accuracy y hw)).2
    have h3 : (y : ℚ) / 4294967295 < x - 2 ^ (-50 : ℤ) := by
      rw [div_lt_iff₀ (by norm_num)]
      linarith
    linarith
  have h1 := Finset.card_le_card hsub
  rw [Finset.card_range] at h1
  have h2 : (4294967295 : ℚ) * (x - 2 ^ (-50 : ℤ)) ≤ (⌈4294967295 * (x - 2 ^ (-50 : ℤ))⌉₊ : ℚ) := Nat.le_ceil _
  have h3 : (⌈4294967295 * (x - 2 ^ (-50 : ℤ))⌉₊ : ℚ) ≤ (below x : ℚ) := by exact_mod_cast h1
  have h4 : (4294967295 : ℚ) * 2 ^ (-50 : ℤ) ≤ 2 ^ (-18 : ℤ) := by norm_num
  linarith

/-- **C179, acceptance**: of the `2^32` words, those that accept a move of ratio `r` are `2^32 r` up to at most two. -/
theorem C179_acceptance (r : ℚ) (h0 : 0 ≤ r) (h1 : r ≤ 1) : |((words.filter fun y => accepted y r = true).card : ℚ) - 2 ^ 32 * r| ≤ 2 := by
  have he : (words.filter fun y => accepted y r = true) = words.filter fun y => gen y < r := by
    refine Finset.filter_congr fun y _ => ?_
    unfold accepted
    rw [min_eq_right h1, decide_eq_true_eq]
  rw [he]
  have hu := below_upper h0
  have hl := below_lower h1
  unfold below at hu hl
  rw [show (2 : ℚ) ^ (-18 : ℤ) = 1 / 262144 by norm_num] at hu hl
  generalize ((words.filter fun y => gen y < r).card : ℚ) = n at *
  rw [abs_le, show (2 : ℚ) ^ 32 = 4294967296 by norm_num]
  constructor <;> linarith

theorem interval_upper {a b : ℚ} (ha : a ≤ 1) (hb : 0 ≤ b) : ((words.filter fun y => a ≤ gen y ∧ gen y < b).card : ℚ) ≤ 4294967295 * (b - a) + 1 + 2 * 2 ^ (-18 : ℤ) ∨ b < a := by
  by_cases hab : b < a
  · exact Or.inr hab
  refine Or.inl ?_
  have hd : Disjoint (words.filter fun y => a ≤ gen y ∧ gen y < b) (words.filter fun y => gen y < a) := by
    rw [Finset.disjoint_left]
    intro y h1 h2
    exact absurd (Finset.mem_filter.1 h2).2 (not_lt.2 (Finset.mem_filter.1 h1).2.1)
  have hs : (words.filter fun y => a ≤ gen y ∧ gen y < b) ∪ (words.filter fun y => gen y < a) ⊆ words.filter fun y => gen y < b := by
    intro y hy
    rcases Finset.mem_union.1 hy with h | h
    · exact Finset.mem_filter.2 ⟨(Finset.mem_filter.1 h).1, (Finset.mem_filter.1 h).2.2⟩
    · exact Finset.mem_filter.2 ⟨(Finset.mem_filter.1 h).1, lt_of_lt_of_le (Finset.mem_filter.1 h).2 (not_lt.1 hab)⟩
  have h1 := Finset.card_le_card hs
  rw [Finset.card_union_of_disjoint hd] at h1
  have h2 : ((words.filter fun y => a ≤ gen y ∧ gen y < b).card : ℚ) + below a ≤ below b := by exact_mod_cast h1
  have := below_upper hb
  have := below_lower ha
  linarith

theorem interval_lower {a b : ℚ} (ha : 0 ≤ a) (hb : b ≤ 1) : 4294967295 * (b - a) - 1 - 2 * 2 ^ (-18 : ℤ) ≤ ((words.filter fun y => a ≤ gen y ∧ gen y < b).card : ℚ) := by
  have hs : (words.filter fun y => gen y < b) ⊆ (words.filter fun y => a ≤ gen y ∧ gen y < b) ∪ (words.filter fun y => gen y < a) := by
    intro y hy
    obtain ⟨h1, h2⟩ := Finset.mem_filter.1 hy
    rw [Finset.mem_union]
    by_cases h : gen y < a
    · exact Or.inr (Finset.mem_filter.2 ⟨h1, h⟩)
    · exact Or.inl (Finset.mem_filter.2 ⟨h1, not_lt.1 h, h2⟩)
  have h1 := (Finset.card_le_card hs).trans (Finset.card_union_le _ _)
  have h2 : (below b : ℚ) ≤ ((words.filter fun y => a ≤ gen y ∧ gen y < b).card : ℚ) + below a := by exact_mod_cast h1
  have := below_upper ha
  have := below_lower hb
  linarith

/-- **C179, choice of moves**: of the `2^32` words, those that choose the move `u` are `2^32` times its exact probability, up to `3 + n 2^-15` for `n` moves. -/
theorem C179_moves (w : List ℚ) (h : Weights w) (u : ℕ) (p : ℚ) (hp : w[u]? = some p) :
    |((words.filter fun y => pick w (gen y) = some u).card : ℚ) - 2 ^ 32 * (p / w.sum)| ≤ 3 + (w.length : ℚ) * 2 ^ (-15 : ℤ) := by
  have hu : u < w.length := (List.getElem?_eq_some_iff.1 hp).1
  have hstep : before w (u + 1) = before w u + p / w.sum := by
    unfold before
    rw [List.take_add_one, hp, Option.toList_some, List.sum_append, List.sum_singleton, add_div]
  have hp0 : 0 ≤ p / w.sum := div_nonneg (h.nonneg p (List.mem_of_getElem? hp)) h.pos.le
  have hb0 : 0 ≤ before w u := by
    have := before_mono h (Nat.zero_le u)
    simpa [before] using this
  have hb1 : before w (u + 1) ≤ 1 := by
    rw [← before_all h.pos]
    exact before_mono h (by omega)
  have hE : (w.length : ℚ) * 2 ^ (-15 : ℤ) = 2 ^ 34 * (w.length * 2 ^ (-49 : ℤ)) := by
    rw [show (2 : ℚ) ^ (-15 : ℤ) = 2 ^ 34 * 2 ^ (-49 : ℤ) by norm_num]
    ring
  have hE0 : (0 : ℚ) ≤ w.length * 2 ^ (-49 : ℤ) := by positivity
  have key := fun (y : ℕ) (hy : y ∈ words) => C178_probabilities w h (gen y) (C179_range y hy).2.2.1 u hu
  rw [hE]
  generalize (w.length : ℚ) * 2 ^ (-49 : ℤ) = E at *
  have hup : ((words.filter fun y => pick w (gen y) = some u).card : ℚ) ≤ ((words.filter fun y => before w u - E ≤ gen y ∧ gen y < before w (u + 1) + E + 2 ^ (-50 : ℤ)).card : ℚ) := by
    have : (words.filter fun y => pick w (gen y) = some u) ⊆ (words.filter fun y => before w u - E ≤ gen y ∧ gen y < before w (u + 1) + E + 2 ^ (-50 : ℤ)) := by
      intro y hy
      obtain ⟨h1, h2⟩ := Finset.mem_filter.1 hy
      have h3 := (key y h1).1 h2
      have h4 : (0 : ℚ) < 2 ^ (-50 : ℤ) := two_zpow_pos _
      exact Finset.mem_filter.2 ⟨h1, h3.1, by linarith [h3.2]⟩
    exact_mod_cast Finset.card_le_card this
  have hlo : ((words.filter fun y => before w u + E ≤ gen y ∧ gen y < before w (u + 1) - E).card : ℚ) ≤ ((words.filter fun y => pick w (gen y) = some u).card : ℚ) := by
    have : (words.filter fun y => before w u + E ≤ gen y ∧ gen y < before w (u + 1) - E) ⊆ (words.filter fun y => pick w (gen y) = some u) := by
      intro y hy
      obtain ⟨h1, h2⟩ := Finset.mem_filter.1 hy
      exact Finset.mem_filter.2 ⟨h1, (key y h1).2 h2.1 h2.2⟩
    exact_mod_cast Finset.card_le_card this
  have h50 : (0 : ℚ) < 2 ^ (-50 : ℤ) := two_zpow_pos _
  have i1 := interval_upper (a := before w u - E) (b := before w (u + 1) + E + 2 ^ (-50 : ℤ)) (by linarith) (by linarith)
  have i2 := interval_lower (a := before w u + E) (b := before w (u + 1) - E) (by linarith) (by linarith)
  have hq1 : p / w.sum ≤ 1 := by linarith
  rw [show (2 : ℚ) ^ (-50 : ℤ) = 8 / 9007199254740992 by norm_num] at *
  rw [show (2 : ℚ) ^ (-18 : ℤ) = 1 / 262144 by norm_num] at *
  rcases i1 with i1 | i1
  · rw [abs_le, show (2 : ℚ) ^ 32 = 4294967296 by norm_num, show (2 : ℚ) ^ 34 = 17179869184 by norm_num]
    constructor <;> linarith
  · linarith

/-- **C179, random integers**: of the `2^32` words, those for which `rng(N)` is `k` are `2^32 / N` up to at most three, for every `N` below `2^53` and every `k < N`. -/
theorem C179_integers (N : ℕ) (h1 : 1 ≤ N) (h53 : N ≤ 2 ^ 53) (k : ℕ) (hk : k < N) :
    |((words.filter fun y => randInt N (gen y) = k).card : ℚ) - 2 ^ 32 / N| ≤ 3 := by
  have hN : (1 : ℚ) ≤ N := by exact_mod_cast h1
  have hN0 : (0 : ℚ) < N := by linarith
  have hkN : (k : ℚ) + 1 ≤ N := by exact_mod_cast hk
  have hk0 : (0 : ℚ) ≤ k := Nat.cast_nonneg k
  have key := fun (y : ℕ) (hy : y ∈ words) => C174_flat N h1 h53 (gen y) (C179_range y hy).2.2.1 k
  rw [show (2 : ℚ) ^ (-53 : ℤ) = 1 / 9007199254740992 by norm_num] at key
  -- the ends of the interval
  have hA1 : (k : ℚ) / N ≤ 1 := by rw [div_le_one hN0]; linarith
  have hA0 : 0 ≤ (k : ℚ) / N := by positivity
  have hB : ((k : ℚ) + 1) / N = k / N + 1 / N := add_div _ _ _
  have hB1 : (k : ℚ) / N + 1 / N ≤ 1 := by rw [← hB, div_le_one hN0]; exact hkN
  have hup : ((words.filter fun y => randInt N (gen y) = k).card : ℚ) ≤ ((words.filter fun y => (k : ℚ) / N - 1 / 9007199254740992 ≤ gen y ∧ gen y < k / N + 1 / N).card : ℚ) := by
    have : (words.filter fun y => randInt N (gen y) = k) ⊆ (words.filter fun y => (k : ℚ) / N - 1 / 9007199254740992 ≤ gen y ∧ gen y < k / N + 1 / N) := by
      intro y hy
      obtain ⟨hw, h2⟩ := Finset.mem_filter.1 hy
      obtain ⟨a1, a2⟩ := (key y hw).1 h2
      have hg := (C179_range y hw).2.2.1
      refine Finset.mem_filter.2 ⟨hw, ?_, ?_⟩
      · have : (k : ℚ) / N ≤ gen y * (1 + 1 / 9007199254740992) := by
          rw [div_le_iff₀ hN0]
          linarith
        linarith [hg.2.2]
      · rw [← hB, lt_div_iff₀ hN0]
        linarith
    exact_mod_cast Finset.card_le_card this
  have hlo : ((words.filter fun y => (k : ℚ) / N ≤ gen y ∧ gen y < k / N + 1 / N - 1 / 9007199254740992).card : ℚ) ≤ ((words.filter fun y => randInt N (gen y) = k).card : ℚ) := by
    have : (words.filter fun y => (k : ℚ) / N ≤ gen y ∧ gen y < k / N + 1 / N - 1 / 9007199254740992) ⊆ (words.filter fun y => randInt N (gen y) = k) := by
      intro y hy
      obtain ⟨hw, a1, a2⟩ := Finset.mem_filter.1 hy
      have hg := (C179_range y hw).2.2.1
      refine Finset.mem_filter.2 ⟨hw, (key y hw).2 ?_ ?_⟩
      · rw [div_le_iff₀ hN0] at a1
        linarith
      · have h5 : gen y * (1 + 1 / 9007199254740992) < k / N + 1 / N := by linarith [hg.2.2]
        rw [← hB, lt_div_iff₀ hN0] at h5
        linarith
    exact_mod_cast Finset.card_le_card this
  have hiN : (0 : ℚ) < 1 / N := by positivity
  have hiN1 : (1 : ℚ) / N ≤ 1 := by rw [div_le_one hN0]; exact hN
  have i1 := interval_upper (a := (k : ℚ) / N - 1 / 9007199254740992) (b := k / N + 1 / N) (by linarith) (by linarith)
  have i2 := interval_lower (a := (k : ℚ) / N) (b := k / N + 1 / N - 1 / 9007199254740992) (by linarith) (by linarith)
  have he : (2 : ℚ) ^ 32 / N = 4294967296 * (1 / N) := by
    rw [show (2 : ℚ) ^ 32 = 4294967296 by norm_num]
    ring
  rw [he]
  rw [show (2 : ℚ) ^ (-18 : ℤ) = 1 / 262144 by norm_num] at *
  generalize (1 : ℚ) / N = q at *
  generalize (k : ℚ) / N = a at *
  rcases i1 with i1 | i1
  · rw [abs_le]
    constructor <;> linarith
  · linarith

/-- **C179, too many integers**: for more than `2^32` integers at least one is never drawn. -/
theorem C179_missing (N : ℕ) (hN : 2 ^ 32 < N) : ∃ k < N, ∀ y ∈ words, randInt N (gen y) ≠ k := by
  have hcard : (words.image fun y => (randInt N (gen y)).toNat).card < (Finset.range N).card := by
    refine lt_of_le_of_lt Finset.card_image_le ?_
    unfold words
    rw [Finset.card_range, Finset.card_range]
    exact hN
  obtain ⟨k, hk, hk2⟩ := Finset.exists_mem_notMem_of_card_lt_card hcard
  refine ⟨k, Finset.mem_range.1 hk, fun y hy h => hk2 (Finset.mem_image.2 ⟨y, hy, ?_⟩)⟩
  rw [h]
  rfl

/-! ### Examples -/

example : gen 2147483648 = 1 / 2 + 1048576 * 2 ^ (-53 : ℤ) := by decide +kernel
example : accepted 2147483648 (1 / 2) = false ∧ accepted 2147483647 (1 / 2) = true := by decide +kernel
example : accepted 0 (2 ^ (-52 : ℤ)) = false ∧ accepted 0 (2 ^ (-51 : ℤ)) = true := by decide +kernel
/-- the last move of weight zero of `C178_zero_last` is reached by the largest word of the generator -/
example : pick [1, 1, 1, 1, 1, 1, 1, 0] (gen 4294967295) = some 7 := by decide +kernel
example : randInt 10 (gen 2147483648) = 5 ∧ randInt 10 (gen 4294967295) = 9 := by decide +kernel

end Verif.GeneratorDouble
