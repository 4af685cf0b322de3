import Verif.Float.Mean
import Verif.Float.NodeSum
import Verif.Float.Legendre
import Verif.Float.LegendreSum

/-!
# Linear binning in double precision

C35 is about exact arithmetic. Here the data are doubles and the operations of the machine are rounded.

Source: `/repo/c++/triqs/stat/accumulator.hpp` (39-110) for `T = double`. The bins are compressed by `operator<<` only, that is by a factor of two. The moves of bins inside of the vector are left out, they are
those of C35. Conversions of `long` to `int` in `compress` are left out; they are exact below 2^31 data, which the theorems assume (see C35). `none` means that a number is not finite.
-/

namespace Verif.LinearBins

open Binary64 LinearDouble NodeSum MeanDouble

/-! ## Model -/

/-- members, accumulator.hpp:40-43 -/
structure Lin where
  maxN : ℤ
  cap : ℕ
  last : ℕ
  bins : List ℚ
deriving DecidableEq

/-- constructor, accumulator.hpp:50-56 -/
def ctor (maxN : ℤ) (cap : ℕ) : Lin := ⟨maxN, cap, 0, if maxN = 0 then [] else [0]⟩

/-- the last new bin of two old ones, accumulator.hpp:95-104 -/
def lastTwo (cap last : ℕ) (x y : ℚ) : Option ℚ :=
  (fin (x * rnd cap)).bind fun p => (fin (y * rnd last)).bind fun q => (fin (p + q)).bind fun s => fin (s / rnd ((last + cap : ℕ) : ℚ))

/-- another new bin, accumulator.hpp:89-93 -/
def two (x y : ℚ) : Option ℚ := (fin (x + y)).bind fun s => fin (s / 2)

/-- the new bins of `compress(2)`, accumulator.hpp:81-106 -/
def merge (cap last : ℕ) : List ℚ → Option (List ℚ)
  | [] => some []
  | [x] => some [x]
  | [x, y] => (lastTwo cap last x y).map fun m => [m]
  | x :: y :: l => (two x y).bind fun m => (merge cap last l).map fun r => m :: r

/-- `compress(2)`, accumulator.hpp:79-109 -/
def compress (s : Lin) : Option Lin :=
  (merge s.cap s.last s.bins).map fun l => { s with bins := l, last := if s.bins.length % 2 = 0 then s.last + s.cap else s.last, cap := s.cap * 2 }

/-- the second half of `operator<<`, accumulator.hpp:68-74 -/
def store (x : ℚ) (s : Lin) : Option Lin :=
  if s.last = s.cap ∧ s.maxN ≠ 1 then some { s with bins := s.bins ++ [x], last := 1 }
  else match s.bins.getLast? with
    | none => none
    | some b => (update b x (s.last + 1)).map fun m => { s with bins := s.bins.dropLast ++ [m], last := s.last + 1 }

/-- `operator<<`, accumulator.hpp:60-76 -/
def push (x : ℚ) (s : Lin) : Option Lin :=
  if s.maxN = 0 then some s
  else (if s.maxN > 1 ∧ (s.bins.length : ℤ) = s.maxN ∧ s.last = s.cap then compress s else some s).bind (store x)

def run : List ℚ → Lin → Option Lin
  | [], s => some s
  | x :: xs, s => (push x s).bind (run xs)

/-! ## Specification -/

/-- a bin is close to the average of its data and between the bounds -/
structure Bin (a b B : ℚ) (d : List ℚ) (m : ℚ) : Prop where
  rep : Rep m
  low : a ≤ m
  high : m ≤ b
  close : |m - d.sum / d.length| ≤ (d.length + 5) * (B * 2 ^ (-53 : ℤ)) + 3 * d.length * 2 ^ (-1074 : ℤ)

/-- doubles between `a` and `b`, of modulus at most `B` -/
structure Data (a b B : ℚ) (l : List ℚ) : Prop where
  low : Rep a
  high : Rep b
  bound : Rep B
  a1 : -B ≤ a
  b1 : b ≤ B
  big : B ≤ 2 ^ (900 : ℤ)
  data : ∀ x ∈ l, Rep x ∧ a ≤ x ∧ x ≤ b

/-! ## Proofs -/

theorem rep_mul_pow {x : ℚ} (h : Rep x) (k : ℕ) : Rep (x * 2 ^ k) := by
  obtain ⟨n, e, he, hn, rfl⟩ := h
  refine ⟨n, e + k, by omega, hn, ?_⟩
  rw [zpow_add₀ (by norm_num), zpow_natCast, mul_assoc]

/-- a division by a power of two is exact up to subnormal numbers -/
theorem div_pow {s : ℚ} (h : Rep s) (j : ℕ) : |rnd (s / 2 ^ j) - s / 2 ^ j| ≤ 2 * 2 ^ (-1074 : ℤ) := by
  obtain ⟨n, e, he, hn, rfl⟩ := h
  have hx : (n : ℚ) * 2 ^ e / 2 ^ j = n * 2 ^ (e - j) := by
    rw [zpow_sub₀ (by norm_num), zpow_natCast]
    ring
  rw [hx]
  rcases le_or_gt (-1074) (e - (j : ℤ)) with h | h
  · rw [rnd_rep ⟨n, e - j, h, hn, rfl⟩, sub_self, abs_zero]
    exact mul_nonneg (by norm_num) (two_zpow_pos _).le
  · have h1 := rnd_err_abs ((n : ℚ) * 2 ^ (e - (j : ℤ)))
    have h2 : |(n : ℚ) * 2 ^ (e - (j : ℤ))| ≤ 9007199254740992 * 2 ^ (-1074 : ℤ) := by
      rw [abs_mul, abs_of_pos (two_zpow_pos _)]
      refine mul_le_mul ?_ (two_zpow_le (by omega)) (two_zpow_pos _).le (by norm_num)
      have : |n| ≤ 9007199254740992 := hn.trans (by norm_num)
      exact_mod_cast this
    generalize (2 : ℚ) ^ (-1074 : ℤ) = η at *
    linarith

/-- the mean of two bins with the same number of data -/
theorem lastTwo_spec {a b B x y : ℚ} {k : ℕ} {l : List ℚ} (h : Data a b B l) {dx dy : List ℚ} (hx : Bin a b B dx x) (hy : Bin a b B dy y) (lx : dx.length = 2 ^ k) (ly : dy.length = 2 ^ k) (c : ℕ)
    (hc : c ≤ 50) : ∃ m, lastTwo (2 ^ c) (2 ^ c) x y = some m ∧ Bin a b B (dx ++ dy) m := by
  have hrc : rnd ((2 ^ c : ℕ) : ℚ) = 2 ^ c := by
    rw [rnd_rep (LegendreDouble.rep_nat (Nat.pow_le_pow_right (by norm_num) (by omega)))]
    push_cast
    rfl
  have hrc' : rnd ((2 ^ c + 2 ^ c : ℕ) : ℚ) = 2 ^ (c + 1) := by
    rw [show 2 ^ c + 2 ^ c = 2 ^ (c + 1) by rw [pow_succ]; omega, rnd_rep (LegendreDouble.rep_nat (Nat.pow_le_pow_right (by norm_num) (by omega)))]
    push_cast
    rfl
  have hP : (0 : ℚ) < 2 ^ c := by positivity
  have hB0 : 0 ≤ B := by
    have := h.a1
    have := h.b1
    have := hx.low
    have := hx.high
    linarith
  have hbx : |x| ≤ B := abs_le.2 ⟨h.a1.trans hx.low, hx.high.trans h.b1⟩
  have hby : |y| ≤ B := abs_le.2 ⟨h.a1.trans hy.low, hy.high.trans h.b1⟩
  have hc2 : (2 : ℚ) ^ c ≤ 2 ^ (50 : ℤ) := by
    rw [← zpow_natCast]
    exact two_zpow_le (by exact_mod_cast hc)
  have big : ∀ z : ℚ, |z| ≤ B → |z * 2 ^ c| ≤ 2 ^ (950 : ℤ) := by
    intro z hz
    rw [abs_mul, abs_of_pos hP, show (950 : ℤ) = 900 + 50 by norm_num, zpow_add₀ (by norm_num)]
    exact mul_le_mul (hz.trans h.big) hc2 hP.le (two_zpow_pos _).le
  have f1 : fin (x * 2 ^ c) = some (x * 2 ^ c) := by
    have := fin_of_le (big x hbx) (by norm_num) (by norm_num)
    rwa [rnd_rep (rep_mul_pow hx.rep c)] at this
  have f2 : fin (y * 2 ^ c) = some (y * 2 ^ c) := by
    have := fin_of_le (big y hby) (by norm_num) (by norm_num)
    rwa [rnd_rep (rep_mul_pow hy.rep c)] at this
  have hsum : |x * 2 ^ c + y * 2 ^ c| ≤ 2 ^ (951 : ℤ) := by
    refine (abs_add_le _ _).trans ((add_le_add (big x hbx) (big y hby)).trans (le_of_eq ?_))
    rw [show (951 : ℤ) = 950 + 1 by norm_num, zpow_add₀ (by norm_num), zpow_one]
    ring
  have f3 := fin_of_le hsum (by norm_num) (by norm_num)
  have hsr : |rnd (x * 2 ^ c + y * 2 ^ c)| ≤ 2 ^ (951 : ℤ) := by
    rw [abs_le] at hsum ⊢
    exact ⟨le_rnd (rep_neg (rep_zpow (by norm_num))) hsum.1, rnd_le (rep_zpow (by norm_num)) hsum.2⟩
  have hP1 : (1 : ℚ) ≤ 2 ^ (c + 1) := one_le_pow₀ (by norm_num)
  have hPp : (0 : ℚ) < 2 ^ (c + 1) := by positivity
  have f4 : fin (rnd (x * 2 ^ c + y * 2 ^ c) / 2 ^ (c + 1)) = some (rnd (rnd (x * 2 ^ c + y * 2 ^ c) / 2 ^ (c + 1))) := by
    refine fin_of_le (e := 951) ?_ (by norm_num) (by norm_num)
    rw [abs_div, abs_of_pos hPp]
    exact (div_le_self (abs_nonneg _) hP1).trans hsr
  refine ⟨rnd (rnd (x * 2 ^ c + y * 2 ^ c) / 2 ^ (c + 1)), ?_, rep_rnd _, le_rnd h.low ?_, rnd_le h.high ?_, ?_⟩
  · unfold lastTwo
    rw [hrc, hrc', f1, Option.bind_some, f2, Option.bind_some, f3, Option.bind_some, f4]
  · rw [le_div_iff₀ hPp]
    refine le_rnd (rep_mul_pow h.low _) ?_
    have h1 := mul_le_mul_of_nonneg_right hx.low hP.le
    have h2 := mul_le_mul_of_nonneg_right hy.low hP.le
    rw [pow_succ]
    linarith
  · rw [div_le_iff₀ hPp]
    refine rnd_le (rep_mul_pow h.high _) ?_
    have h1 := mul_le_mul_of_nonneg_right hx.high hP.le
    have h2 := mul_le_mul_of_nonneg_right hy.high hP.le
    rw [pow_succ]
    linarith
  · have e1 := div_pow (rep_rnd (x * 2 ^ c + y * 2 ^ c)) (c + 1)
    have e2 := add_err (rep_mul_pow hx.rep c) (rep_mul_pow hy.rep c)
    have e3 : |rnd (x * 2 ^ c + y * 2 ^ c) / 2 ^ (c + 1) - (x + y) / 2| ≤ B * (1 / 9007199254740992) := by
      have : rnd (x * 2 ^ c + y * 2 ^ c) / 2 ^ (c + 1) - (x + y) / 2 = (rnd (x * 2 ^ c + y * 2 ^ c) - (x * 2 ^ c + y * 2 ^ c)) / 2 ^ (c + 1) := by
        have hz : (x * 2 ^ c + y * 2 ^ c) / 2 ^ (c + 1) = (x + y) / 2 := by
          rw [pow_succ, ← add_mul, mul_comm (x + y), mul_div_mul_left _ _ hP.ne']
        rw [sub_div, hz]
      rw [this, abs_div, abs_of_pos hPp, div_le_iff₀ hPp]
      refine e2.trans ?_
      rw [← add_mul, abs_mul, abs_of_pos hP, pow_succ]
      have h3 := mul_le_mul_of_nonneg_right ((abs_add_le x y).trans (add_le_add hbx hby)) hP.le
      linarith
    have cx := hx.close
    have cy := hy.close
    rw [lx] at cx
    rw [ly] at cy
    rw [List.sum_append, List.length_append, lx, ly]
    rw [show (2 : ℚ) ^ (-53 : ℤ) = 1 / 9007199254740992 by norm_num] at *
    push_cast at *
    have hK : (1 : ℚ) ≤ 2 ^ k := one_le_pow₀ (by norm_num)
    have hη := two_zpow_pos (-1074)
    generalize (2 : ℚ) ^ (-1074 : ℤ) = η at *
    have hmean : (dx.sum + dy.sum) / (2 ^ k + 2 ^ k) = (dx.sum / 2 ^ k + dy.sum / 2 ^ k) / 2 := by
      have : (2 : ℚ) ^ k ≠ 0 := by positivity
      field_simp
      ring
    rw [hmean]
    generalize (2 : ℚ) ^ k = K at *
    generalize dx.sum / K = u at *
    generalize dy.sum / K = v at *
    generalize rnd (rnd (x * 2 ^ c + y * 2 ^ c) / 2 ^ (c + 1)) = m at *
    generalize rnd (x * 2 ^ c + y * 2 ^ c) / 2 ^ (c + 1) = t at *
    have hKB : B * (1 / 9007199254740992) ≤ K * (B * (1 / 9007199254740992)) := le_mul_of_one_le_left (by positivity) hK
    have hKη : η ≤ K * η := le_mul_of_one_le_left hη.le hK
    rw [abs_le] at *
    constructor <;> linarith [e1.1, e1.2, e3.1, e3.2, cx.1, cx.2, cy.1, cy.2]

theorem Bin.fin {a b B x : ℚ} {l d : List ℚ} (h : Data a b B l) (hx : Bin a b B d x) : fin x = some x := by
  have hbx : |x| ≤ B := abs_le.2 ⟨h.a1.trans hx.low, hx.high.trans h.b1⟩
  have := fin_of_le (hbx.trans h.big) (by norm_num) (by norm_num)
  rwa [rnd_rep hx.rep] at this

theorem two_spec {a b B x y : ℚ} {k : ℕ} {l : List ℚ} (h : Data a b B l) {dx dy : List ℚ} (hx : Bin a b B dx x) (hy : Bin a b B dy y) (lx : dx.length = 2 ^ k) (ly : dy.length = 2 ^ k) :
    ∃ m, two x y = some m ∧ Bin a b B (dx ++ dy) m := by
  obtain ⟨m, hm, hb⟩ := lastTwo_spec h hx hy lx ly 0 (by omega)
  refine ⟨m, ?_, hb⟩
  rw [← hm]
  unfold two lastTwo
  have h1 : rnd ((2 ^ 0 : ℕ) : ℚ) = 1 := by
    rw [show ((2 ^ 0 : ℕ) : ℚ) = 1 by norm_num, rnd_rep rep_one]
  have h2 : rnd ((2 ^ 0 + 2 ^ 0 : ℕ) : ℚ) = 2 := by
    rw [show ((2 ^ 0 + 2 ^ 0 : ℕ) : ℚ) = 2 by norm_num, rnd_rep rep_two]
  rw [h1, h2, mul_one, mul_one, hx.fin h, Option.bind_some, hy.fin h, Option.bind_some]

theorem merge_cons (cap last : ℕ) (x y : ℚ) {l : List ℚ} (h : l ≠ []) : merge cap last (x :: y :: l) = (two x y).bind fun m => (merge cap last l).map fun r => m :: r := by
  cases l with
  | nil => exact absurd rfl h
  | cons z l => rfl

theorem merge_spec {a b B : ℚ} {l : List ℚ} (h : Data a b B l) {c : ℕ} (hc : c ≤ 50) : ∀ (init : List (List ℚ)) (ms : List ℚ) (d : List ℚ) (m : ℚ), List.Forall₂ (Bin a b B) init ms → Bin a b B d m →
    (∀ e ∈ init, e.length = 2 ^ c) → d.length = 2 ^ c →
    ∃ (init' : List (List ℚ)) (ms' : List ℚ) (d' : List ℚ) (m' : ℚ), merge (2 ^ c) (2 ^ c) (ms ++ [m]) = some (ms' ++ [m']) ∧ List.Forall₂ (Bin a b B) init' ms' ∧ Bin a b B d' m' ∧ init'.flatten ++ d' = init.flatten ++ d ∧
      (∀ e ∈ init', e.length = 2 ^ (c + 1)) ∧ d'.length = (if (ms.length + 1) % 2 = 0 then 2 ^ c + 2 ^ c else 2 ^ c) ∧ ms'.length = ms.length / 2
  | [], [], d, m, _, hm, _, hd => ⟨[], [], d, m, rfl, List.Forall₂.nil, hm, rfl, by simp, by simpa using hd, rfl⟩
  | [e], [x], d, m, hf, hm, hi, hd => by
    obtain ⟨hx, -⟩ := List.forall₂_cons.1 hf
    obtain ⟨r, hr, hb⟩ := lastTwo_spec h hx hm (hi e (by simp)) hd c hc
    refine ⟨[], [], e ++ d, r, ?_, List.Forall₂.nil, hb, by simp, by simp, ?_, by simp⟩
    · show (lastTwo (2 ^ c) (2 ^ c) x m).map (fun m => [m]) = _
      rw [hr]
      rfl
    · rw [List.length_append, hi e (by simp), hd]
      simp
  | e :: f :: init, x :: y :: ms, d, m, hf, hm, hi, hd => by
    obtain ⟨hx, hf1⟩ := List.forall₂_cons.1 hf
    obtain ⟨hy, hf2⟩ := List.forall₂_cons.1 hf1
    obtain ⟨r, hr, hb⟩ := two_spec h hx hy (hi e (by simp)) (hi f (by simp))
    obtain ⟨i', ms', d', m', h1, h2, h3, h4, h5, h6, h7⟩ := merge_spec h hc init ms d m hf2 hm (fun z hz => hi z (by simp [hz])) hd
    refine ⟨(e ++ f) :: i', r :: ms', d', m', ?_, List.Forall₂.cons hb h2, h3, ?_, ?_, ?_, ?_⟩
    · rw [List.cons_append, List.cons_append, merge_cons _ _ _ _ (by simp), hr, Option.bind_some, h1]
      rfl
    · simp only [List.flatten_cons, List.append_assoc, h4]
    · intro z hz
      rcases List.mem_cons.1 hz with rfl | hz
      · rw [List.length_append, hi e (by simp), hi f (by simp), pow_succ]
        omega
      · exact h5 z hz
    · rw [h6]
      exact if_congr (by simp only [List.length_cons]; omega) rfl rfl
    · simp only [List.length_cons, h7]
      omega
  | [], _ :: _, _, _, hf, _, _, _ => by cases hf
  | _ :: _, [], _, _, hf, _, _, _ => by cases hf
  | [_], _ :: _ :: _, _, _, hf, _, _, _ => by cases hf with | cons _ h => cases h
  | _ :: _ :: _, [_], _, _, hf, _, _, _ => by cases hf with | cons _ h => cases h

/-- the state after the data `t`: the blocks of data and their bins -/
structure Inv (a b B : ℚ) (N : ℤ) (cap0 : ℕ) (t : List ℚ) (init : List (List ℚ)) (ms d : List ℚ) (m : ℚ) (s : Lin) : Prop where
  maxN : s.maxN = N
  data : init.flatten ++ d = t
  bins : s.bins = ms ++ [m]
  all : List.Forall₂ (Bin a b B) init ms
  one : Bin a b B d m
  full : ∀ e ∈ init, e.length = s.cap
  len : d.length = s.last
  pos : 1 ≤ s.last
  le : N ≠ 1 → s.last ≤ s.cap
  single : N = 1 → init.length = 0
  count : 1 ≤ N → (s.bins.length : ℤ) ≤ N
  cap : ∃ i : ℕ, s.cap = cap0 * 2 ^ i

theorem flatten_length {c : ℕ} : ∀ {l : List (List ℚ)}, (∀ e ∈ l, e.length = c) → l.flatten.length = l.length * c
  | [], _ => by simp
  | e :: l, h => by
    rw [List.flatten_cons, List.length_append, h e (by simp), flatten_length fun z hz => h z (by simp [hz]), List.length_cons]
    ring

theorem bin_single {a b B x : ℚ} {l : List ℚ} (h : Data a b B l) (hx : x ∈ l) : Bin a b B [x] x := by
  obtain ⟨r, x1, x2⟩ := h.data x hx
  have hB : 0 ≤ B := by
    have := h.a1
    have := h.b1
    linarith
  refine ⟨r, x1, x2, ?_⟩
  simp only [List.sum_singleton, List.length_singleton, Nat.cast_one, div_one, sub_self, abs_zero]
  exact add_nonneg (mul_nonneg (by norm_num) (mul_nonneg hB (two_zpow_pos _).le)) (mul_nonneg (by norm_num) (two_zpow_pos _).le)

theorem bin_update {a b B x m : ℚ} {l d : List ℚ} (h : Data a b B l) (hx : x ∈ l) (hm : Bin a b B d m) (hd : 1 ≤ d.length) (hd2 : d.length + 1 ≤ 2 ^ 53) : ∃ r, update m x (d.length + 1) = some r ∧ Bin a b B (d ++ [x]) r := by
  obtain ⟨rx, x1, x2⟩ := h.data x hx
  have h900 : (2 : ℚ) ^ (900 : ℤ) ≤ 2 ^ (1000 : ℤ) := two_zpow_le (by norm_num)
  have hbt : Between a b l := ⟨h.low, h.high, (neg_le_neg (h.big.trans h900)).trans h.a1, h.b1.trans (h.big.trans h900), h.data⟩
  obtain ⟨r, hr, rr, r1, r2⟩ := update_between hbt hm.rep rx (by omega : 2 ≤ d.length + 1) hm.low hm.high x1 x2
  refine ⟨r, hr, rr, r1, r2, ?_⟩
  have hc := hm.close
  have e53 : B * 2 ^ (-53 : ℤ) = B / 9007199254740992 := by norm_num [div_eq_mul_inv]
  rw [e53] at hc ⊢
  obtain ⟨r', hr', he⟩ := meanLoop_err (h.big.trans h900) h.bound (l := [x]) (by
    intro y hy
    rw [List.mem_singleton] at hy
    subst hy
    exact ⟨rx, abs_le.2 ⟨h.a1.trans x1, x2.trans h.b1⟩⟩) d.length m d.sum hd (by simpa using hd2) hm.rep (abs_le.2 ⟨h.a1.trans hm.low, hm.high.trans h.b1⟩) hc
  have : r' = r := by
    unfold meanLoop at hr'
    rw [hr] at hr'
    exact (Option.some.inj hr').symm
  subst this
  rw [List.sum_append, List.length_append]
  exact he

theorem store_inv {a b B : ℚ} {l : List ℚ} (h : Data a b B l) {maxN : ℤ} {cap0 : ℕ} {t : List ℚ} {init : List (List ℚ)} {ms d : List ℚ} {m : ℚ} {s : Lin} (hi : Inv a b B maxN cap0 t init ms d m s) {x : ℚ} (hx : x ∈ l)
    (ht : t.length < 2 ^ 50) (hroom : s.last = s.cap → 1 < maxN → (s.bins.length : ℤ) < maxN) (hc : 1 ≤ s.cap) : ∃ init' ms' d' m' s', store x s = some s' ∧ Inv a b B maxN cap0 (t ++ [x]) init' ms' d' m' s' ∧ s'.cap = s.cap := by
  by_cases hf : s.last = s.cap ∧ s.maxN ≠ 1
  · refine ⟨init ++ [d], ms ++ [m], [x], x, { s with bins := s.bins ++ [x], last := 1 }, ?_, ?_, rfl⟩
    · unfold store
      rw [if_pos hf]
    · have hm1 : maxN ≠ 1 := hi.maxN ▸ hf.2
      refine ⟨hi.maxN, ?_, ?_, List.rel_append hi.all (List.Forall₂.cons hi.one List.Forall₂.nil), bin_single h hx, ?_, rfl, le_refl _, fun _ => hc, fun e => absurd e hm1, ?_, hi.cap⟩
      · rw [← hi.data]
        simp
      · show s.bins ++ [x] = _
        rw [hi.bins]
      · intro e he
        rcases List.mem_append.1 he with he | he
        · exact hi.full e he
        · rw [List.mem_singleton.1 he, hi.len]
          exact hf.1
      · intro h1
        have := hroom hf.1 (by omega)
        show ((s.bins ++ [x]).length : ℤ) ≤ maxN
        rw [List.length_append]
        push_cast
        simp only [List.length_singleton]
        omega
  · have hlen : d.length ≤ t.length := by
      rw [← hi.data, List.length_append]
      omega
    obtain ⟨r, hr, hb⟩ := bin_update h hx hi.one (by rw [hi.len]; exact hi.pos) (by
      have : (2 : ℕ) ^ 50 ≤ 2 ^ 53 := by norm_num
      omega)
    refine ⟨init, ms, d ++ [x], r, { s with bins := s.bins.dropLast ++ [r], last := s.last + 1 }, ?_, ?_, rfl⟩
    · unfold store
      rw [if_neg hf, hi.bins, List.getLast?_concat]
      simp only
      rw [← hi.len, hr]
      rfl
    · refine ⟨hi.maxN, ?_, ?_, hi.all, hb, hi.full, ?_, Nat.le_add_left _ _, ?_, hi.single, ?_, hi.cap⟩
      · rw [← hi.data]
        simp
      · show s.bins.dropLast ++ [r] = _
        rw [hi.bins, List.dropLast_concat]
      · rw [List.length_append, hi.len]
        rfl
      · intro h1
        have h2 := hi.le h1
        have : s.last ≠ s.cap := fun e => hf ⟨e, hi.maxN ▸ h1⟩
        show s.last + 1 ≤ s.cap
        omega
      · intro h1
        have := hi.count h1
        show ((s.bins.dropLast ++ [r]).length : ℤ) ≤ maxN
        rw [hi.bins, List.dropLast_concat, List.length_append]
        rw [hi.bins, List.length_append] at this
        exact this

theorem push_inv {a b B : ℚ} {l : List ℚ} (h : Data a b B l) {maxN : ℤ} {j : ℕ} {t : List ℚ} {init : List (List ℚ)} {ms d : List ℚ} {m : ℚ} {s : Lin} (hi : Inv a b B maxN (2 ^ j) t init ms d m s) (h0 : maxN ≠ 0) {x : ℚ} (hx : x ∈ l)
    (ht : t.length < 2 ^ 50) : ∃ init' ms' d' m' s', push x s = some s' ∧ Inv a b B maxN (2 ^ j) (t ++ [x]) init' ms' d' m' s' := by
  obtain ⟨i, hcap⟩ := hi.cap
  rw [← pow_add] at hcap
  have hc1 : 1 ≤ s.cap := by
    rw [hcap]
    exact Nat.one_le_two_pow
  unfold push
  rw [if_neg (hi.maxN ▸ h0)]
  by_cases hf : s.maxN > 1 ∧ (s.bins.length : ℤ) = s.maxN ∧ s.last = s.cap
  · rw [if_pos hf]
    have hlt : s.cap ≤ t.length := by
      rw [← hi.data, List.length_append, hi.len, hf.2.2]
      omega
    have hc50 : j + i ≤ 50 := by
      rw [hcap] at hlt
      exact ((Nat.pow_lt_pow_iff_right (by norm_num)).1 (hlt.trans_lt ht)).le
    obtain ⟨i', ms', d', m', h1, h2, h3, h4, h5, h6, h7⟩ := merge_spec h hc50 init ms d m hi.all hi.one (fun e he => (hi.full e he).trans hcap) (by rw [hi.len, hf.2.2, hcap])
    have hbl : s.bins.length = ms.length + 1 := by rw [hi.bins, List.length_append]; rfl
    have hcomp : compress s = some { s with bins := ms' ++ [m'], last := if s.bins.length % 2 = 0 then s.last + s.cap else s.last, cap := s.cap * 2 } := by
      unfold compress
      rw [hf.2.2, hcap, hi.bins, h1]
      rfl
    rw [hcomp, Option.bind_some]
    have hN : maxN > 1 := hi.maxN ▸ hf.1
    have hbN : (s.bins.length : ℤ) = maxN := hi.maxN ▸ hf.2.1
    have hinv : Inv a b B maxN (2 ^ j) t i' ms' d' m' { s with bins := ms' ++ [m'], last := if s.bins.length % 2 = 0 then s.last + s.cap else s.last, cap := s.cap * 2 } := by
      refine ⟨hi.maxN, h4.trans hi.data, rfl, h2, h3, ?_, ?_, ?_, ?_, fun e => by omega, ?_, i + 1, ?_⟩
      · intro e he
        rw [h5 e he, pow_succ, hcap]
      · rw [h6, ← hbl]
        simp only [hf.2.2, hcap]
      · have := hi.pos
        show 1 ≤ if s.bins.length % 2 = 0 then s.last + s.cap else s.last
        split <;> omega
      · intro _
        have := hf.2.2
        show (if s.bins.length % 2 = 0 then s.last + s.cap else s.last) ≤ s.cap * 2
        split <;> omega
      · intro _
        show ((ms' ++ [m']).length : ℤ) ≤ maxN
        rw [List.length_append, h7, List.length_singleton]
        omega
      · show s.cap * 2 = _
        rw [hcap, pow_succ, pow_add]
        ring
    obtain ⟨i'', ms'', d'', m'', s'', e1, e2, -⟩ := store_inv h hinv hx ht (by
      intro _ _
      show ((ms' ++ [m']).length : ℤ) < maxN
      rw [List.length_append, h7, List.length_singleton]
      omega) (by show 1 ≤ s.cap * 2; omega)
    exact ⟨i'', ms'', d'', m'', s'', e1, e2⟩
  · rw [if_neg hf, Option.bind_some]
    obtain ⟨i'', ms'', d'', m'', s'', e1, e2, -⟩ := store_inv h hi hx ht (by
      intro e1 e2
      have h3 := hi.count (by omega)
      have : (s.bins.length : ℤ) ≠ maxN := fun e => hf ⟨hi.maxN ▸ e2, by rw [hi.maxN]; exact e, e1⟩
      omega) hc1
    exact ⟨i'', ms'', d'', m'', s'', e1, e2⟩

theorem run_inv {a b B : ℚ} {l : List ℚ} (h : Data a b B l) {maxN : ℤ} {j : ℕ} (h0 : maxN ≠ 0) : ∀ (xs : List ℚ) {t : List ℚ} {init : List (List ℚ)} {ms d : List ℚ} {m : ℚ} {s : Lin}, Inv a b B maxN (2 ^ j) t init ms d m s → (∀ x ∈ xs, x ∈ l) →
    t.length + xs.length ≤ 2 ^ 50 → ∃ init' ms' d' m' s', run xs s = some s' ∧ Inv a b B maxN (2 ^ j) (t ++ xs) init' ms' d' m' s'
  | [], t, init, ms, d, m, s, hi, _, _ => ⟨init, ms, d, m, s, rfl, by rw [List.append_nil]; exact hi⟩
  | x :: xs, t, init, ms, d, m, s, hi, hl, ht => by
    rw [List.length_cons] at ht
    obtain ⟨i1, ms1, d1, m1, s1, e1, hi1⟩ := push_inv h hi h0 (hl x (by simp)) (by omega)
    obtain ⟨i2, ms2, d2, m2, s2, e2, hi2⟩ := run_inv h h0 xs hi1 (fun y hy => hl y (by simp [hy])) (by rw [List.length_append, List.length_singleton]; omega)
    refine ⟨i2, ms2, d2, m2, s2, ?_, by simpa using hi2⟩
    unfold run
    rw [e1]
    exact e2

/-- the first datum replaces the zero of the constructor -/
theorem first_inv {a b B : ℚ} {l : List ℚ} (h : Data a b B l) {maxN : ℤ} {j : ℕ} (h0 : maxN ≠ 0) {x : ℚ} (hx : x ∈ l) : ∃ s, push x (ctor maxN (2 ^ j)) = some s ∧ Inv a b B maxN (2 ^ j) [x] [] [] [x] x s := by
  obtain ⟨rx, x1, x2⟩ := h.data x hx
  have hp : 1 ≤ 2 ^ j := Nat.one_le_two_pow
  have hne : ¬ (0 = 2 ^ j) := by omega
  have hbx : |x| ≤ 2 ^ (1000 : ℤ) := (abs_le.2 ⟨h.a1.trans x1, x2.trans h.b1⟩ : |x| ≤ B).trans (h.big.trans (two_zpow_le (by norm_num)))
  refine ⟨⟨maxN, 2 ^ j, 1, [x]⟩, ?_, rfl, rfl, rfl, List.Forall₂.nil, bin_single h hx, by simp, rfl, le_refl _, fun _ => hp, fun _ => rfl, fun e => by simpa using e, 0, by simp⟩
  have hu := update_first rx hbx
  unfold push ctor store
  simp only [h0, if_false, hne, false_and, and_false, Option.bind_some, List.getLast?_singleton, zero_add, hu, Option.map_some, List.dropLast_singleton, List.nil_append]

/-- C204. The bins of data between `a` and `b` exist, for a capacity that is a power of two. The data are cut into blocks in their order. Each bin lies between `a` and `b` and is close to the average of its block.
All blocks but the last have the size of the capacity, which is the initial one times a power of two, and there are not more than `maxN` of them. For `maxN = 1` there is one block. -/
theorem C204_bins (a b B : ℚ) (maxN : ℤ) (h0 : maxN ≠ 0) (j : ℕ) (l : List ℚ) (hl : l.isEmpty = false) (hn : l.length < 2 ^ 31) (h : Data a b B l) :
    ∃ (s : Lin) (init : List (List ℚ)) (d : List ℚ), run l (ctor maxN (2 ^ j)) = some s ∧ init.flatten ++ d = l ∧ List.Forall₂ (Bin a b B) (init ++ [d]) s.bins ∧ (∀ e ∈ init, e.length = s.cap) ∧ d.length = s.last ∧ 1 ≤ s.last ∧
      (maxN ≠ 1 → s.last ≤ s.cap) ∧ (maxN = 1 → init.length = 0) ∧ (1 ≤ maxN → (s.bins.length : ℤ) ≤ maxN) ∧ ∃ i : ℕ, s.cap = 2 ^ j * 2 ^ i := by
  cases l with
  | nil => simp at hl
  | cons x l =>
    obtain ⟨s1, e1, hi1⟩ := first_inv (j := j) h h0 (x := x) (by simp)
    obtain ⟨init, ms, d, m, s, e2, hi⟩ := run_inv h h0 l hi1 (fun y hy => by simp [hy]) (by rw [List.length_singleton]; rw [List.length_cons] at hn; omega)
    refine ⟨s, init, d, ?_, hi.data, ?_, hi.full, hi.len, hi.pos, hi.le, hi.single, hi.count, hi.cap⟩
    · unfold run
      rw [e1]
      exact e2
    · rw [hi.bins]
      exact List.rel_append hi.all (List.Forall₂.cons hi.one List.Forall₂.nil)

/-- C204. All bins of constant data are that constant, bit by bit. -/
theorem C204_constant (c : ℚ) (hc : Rep c) (hb : |c| ≤ 2 ^ (900 : ℤ)) (maxN : ℤ) (h0 : maxN ≠ 0) (j n : ℕ) (h1 : 1 ≤ n) (hn : n < 2 ^ 31) :
    ∃ s, run (List.replicate n c) (ctor maxN (2 ^ j)) = some s ∧ s.bins.isEmpty = false ∧ ∀ m ∈ s.bins, m = c := by
  have hr : Rep |c| := by
    rcases abs_choice c with e | e <;> rw [e]
    · exact hc
    · exact rep_neg hc
  have hd : Data c c |c| (List.replicate n c) := ⟨hc, hc, hr, neg_abs_le c, le_abs_self c, hb, fun x hx => by
    rw [(List.mem_replicate.1 hx).2]
    exact ⟨hc, le_refl _, le_refl _⟩⟩
  obtain ⟨s, init, d, hs, -, hf, -⟩ := C204_bins c c |c| maxN h0 j (List.replicate n c) (by cases n with | zero => omega | succ n => rfl) (by rw [List.length_replicate]; exact hn) hd
  refine ⟨s, hs, ?_, ?_⟩
  · have := hf.length_eq
    cases hb : s.bins with
    | nil => rw [hb] at this; simp at this
    | cons _ _ => rfl
  · intro m hm
    obtain ⟨k, hk, rfl⟩ := List.getElem_of_mem hm
    have := hf.get (by rw [hf.length_eq]; exact hk) hk
    exact le_antisymm this.high this.low

/-- a double for which three times it is half way between two doubles -/
def half : ℚ := 3 / 2 + 2 / 4503599627370496

/-- C204. For a capacity of three the bins of constant data are not that constant after a compression. -/
theorem C204_capacity_witness : (run (List.replicate 7 half) (ctor 2 3)).map (fun s => (s.bins, decide (s.bins = [half, half]))) = some ([half + 1 / 4503599627370496, half], false) := by
  decide +kernel

/-- **C204, the last bin.** The bin that is made of a full bin and a last bin with fewer data has the average of all data: the averages are weighted with the numbers of data. -/
theorem C204_last {B x y : ℚ} {cap last : ℕ} (hB0 : 2 ^ (-800 : ℤ) ≤ B) (hB1 : B ≤ 2 ^ (700 : ℤ)) (hc1 : 1 ≤ cap) (hc : cap ≤ 2 ^ 50) (hl1 : 1 ≤ last) (hl : last ≤ cap) (hx : |x| ≤ B) (hy : |y| ≤ B) :
    ∃ m, lastTwo cap last x y = some m ∧ |m - (cap * x + last * y) / (cap + last)| ≤ B * (7 / 9007199254740992) := by
  have hB : 0 < B := (two_zpow_pos _).trans_le hB0
  have hcq : (1 : ℚ) ≤ cap := by exact_mod_cast hc1
  have hlq : (1 : ℚ) ≤ last := by exact_mod_cast hl1
  have hlc : (last : ℚ) ≤ cap := by exact_mod_cast hl
  have hc2 : (cap : ℚ) ≤ 2 ^ (50 : ℤ) := by
    have : (cap : ℚ) ≤ (2 ^ 50 : ℕ) := by exact_mod_cast hc
    refine this.trans (by norm_num)
  have r1 : rnd (cap : ℚ) = cap := rnd_rep (LegendreDouble.rep_nat (hc.trans (Nat.pow_le_pow_right (by norm_num) (by norm_num))))
  have r2 : rnd (last : ℚ) = last := rnd_rep (LegendreDouble.rep_nat ((hl.trans hc).trans (Nat.pow_le_pow_right (by norm_num) (by norm_num))))
  have r3 : rnd ((last + cap : ℕ) : ℚ) = last + cap := by
    rw [rnd_rep (LegendreDouble.rep_nat (by
      refine (add_le_add (hl.trans hc) hc).trans ?_
      norm_num))]
    push_cast
    rfl
  have b0 : (2 : ℚ) ^ (-850 : ℤ) ≤ B := (two_zpow_le (by norm_num)).trans hB0
  have b1 : B ≤ 2 ^ (850 : ℤ) := hB1.trans (two_zpow_le (by norm_num))
  have hBc : B * cap ≤ 2 ^ (850 : ℤ) := by
    refine (mul_le_mul hB1 hc2 (by linarith) (two_zpow_pos _).le).trans ?_
    rw [← two_zpow_add]
    exact two_zpow_le (by norm_num)
  have c0 : (2 : ℚ) ^ (-850 : ℤ) ≤ B * cap := b0.trans (le_mul_of_one_le_right hB.le hcq)
  have l0 : (2 : ℚ) ^ (-850 : ℤ) ≤ B * last := b0.trans (le_mul_of_one_le_right hB.le hlq)
  have l1 : B * last ≤ 2 ^ (850 : ℤ) := (mul_le_mul_of_nonneg_left hlc hB.le).trans hBc
  have hcc : |(cap : ℚ)| ≤ cap := le_of_eq (abs_of_nonneg (by linarith))
  have hll : |(last : ℚ)| ≤ last := le_of_eq (abs_of_nonneg (by linarith))
  obtain ⟨f1, g1⟩ := LegendreSum.op (x := x * cap) c0 hBc (le_refl 1) (by norm_num) (by rw [one_mul]; exact LegendreSum.mul_abs_le hx hcc)
  obtain ⟨f2, g2⟩ := LegendreSum.op (x := y * last) l0 l1 (le_refl 1) (by norm_num) (by rw [one_mul]; exact LegendreSum.mul_abs_le hy hll)
  have p1 := LegendreSum.mul_abs_le hx hcc
  have p2 := LegendreSum.mul_abs_le hy hll
  have hBl : B * last ≤ B * cap := mul_le_mul_of_nonneg_left hlc hB.le
  generalize hp : rnd (x * cap) = p at *
  generalize hq : rnd (y * last) = q at *
  have e1 : |p + q - (x * cap + y * last)| ≤ B * (cap + last) * (9 / 8 * (1 / 9007199254740992)) := by
    rw [show p + q - (x * cap + y * last) = (p - x * cap) + (q - y * last) by ring]
    refine (abs_add_le _ _).trans ?_
    linarith
  have e2 : |x * cap + y * last| ≤ B * (cap + last) := (abs_add_le _ _).trans (by linarith)
  have hbl : 0 < B * last := (two_zpow_pos _).trans_le l0
  have hbc : 0 < B * cap := (two_zpow_pos _).trans_le c0
  have b3 := LegendreSum.abs_of_err e1 e2
  obtain ⟨f3, g3⟩ := LegendreSum.op (x := p + q) c0 hBc (by norm_num : (1 : ℚ) ≤ 3) (by norm_num) (b3.trans (by linarith))
  generalize hs : rnd (p + q) = s at *
  have hS : (0 : ℚ) < cap + last := by linarith
  have e3 : |s - (x * cap + y * last)| ≤ B * (cap + last) * (9 / 2 * (1 / 9007199254740992)) := by
    have := abs_add_le (s - (p + q)) (p + q - (x * cap + y * last))
    rw [sub_add_sub_cancel] at this
    linarith
  have hX : |(cap * x + last * y) / (cap + last)| ≤ B := by
    rw [abs_div, abs_of_pos hS, div_le_iff₀ hS, mul_comm (cap : ℚ), mul_comm (last : ℚ)]
    exact e2
  have e4 : |s / (last + cap) - (cap * x + last * y) / (cap + last)| ≤ B * (9 / 2 * (1 / 9007199254740992)) := by
    rw [add_comm (last : ℚ), ← sub_div, abs_div, abs_of_pos hS, div_le_iff₀ hS, mul_comm (cap : ℚ), mul_comm (last : ℚ)]
    linarith
  have b4 := LegendreSum.abs_of_err e4 hX
  obtain ⟨f4, g4⟩ := LegendreSum.op (x := s / (last + cap)) b0 b1 (by norm_num : (1 : ℚ) ≤ 2) (by norm_num) (b4.trans (by linarith))
  refine ⟨rnd (s / (last + cap)), ?_, ?_⟩
  · unfold lastTwo
    rw [r1, r2, r3, f1, Option.bind_some, f2, Option.bind_some, f3, Option.bind_some, f4]
  · have := abs_add_le (rnd (s / (last + cap)) - s / (last + cap)) (s / (last + cap) - (cap * x + last * y) / (cap + last))
    rw [sub_add_sub_cancel] at this
    linarith

/-! ### Examples -/

/-- the doubles nearest to 0.1, 0.2, 0.3, then 0.1 again: at most two bins, the capacity becomes two -/
def four : List ℚ := tenths ++ [3602879701896397 / 36028797018963968]

example : run four (ctor 2 1) = some ⟨2, 2, 2, [1351079888211149 / 9007199254740992, 3602879701896397 / 18014398509481984]⟩ := by decide +kernel

/-- the same data in one bin -/
example : (run four (ctor 1 1)).map (fun s => (s.cap, s.last, s.bins.length)) = some (1, 4, 1) := by decide +kernel

/-- no bins at all -/
example : run four (ctor 0 1) = some (ctor 0 1) := by decide +kernel

theorem four_data : Data (1 / 16) (1 / 2) 1 four := by
  have hr : ∀ (k : ℕ), k ≤ 1074 → Rep ((1 : ℤ) * 2 ^ (-k : ℤ)) := fun k hk => rep_of 1 k (by norm_num) hk
  refine ⟨(by have := hr 4 (by norm_num); norm_num at this ⊢; exact this), (by have := hr 1 (by norm_num); norm_num at this ⊢; exact this), rep_one, by norm_num, by norm_num, ?_, ?_⟩
  · rw [show (1 : ℚ) = 2 ^ (0 : ℤ) by norm_num]
    exact two_zpow_le (by norm_num)
  · intro x hx
    refine tenths_rep x ?_
    rcases List.mem_append.1 hx with hx | hx
    · exact hx
    · rw [List.mem_singleton.1 hx]
      exact List.mem_cons_self

/-- the bins of `four` are between 1/16 and 1/2 -/
example : ∃ s, run four (ctor 2 (2 ^ 0)) = some s ∧ ∀ m ∈ s.bins, 1 / 16 ≤ m ∧ m ≤ 1 / 2 := by
  obtain ⟨s, init, d, hs, -, hf, -⟩ := C204_bins (1 / 16) (1 / 2) 1 2 (by norm_num) 0 four rfl (by decide) four_data
  refine ⟨s, hs, fun m hm => ?_⟩
  obtain ⟨k, hk, rfl⟩ := List.getElem_of_mem hm
  have := hf.get (by rw [hf.length_eq]; exact hk) hk
  exact ⟨this.low, this.high⟩

/-- seven times the double nearest to 0.1, in at most three bins -/
example : ∃ s, run (List.replicate 7 (3602879701896397 / 36028797018963968)) (ctor 3 (2 ^ 0)) = some s ∧ s.bins.isEmpty = false ∧ ∀ m ∈ s.bins, m = 3602879701896397 / 36028797018963968 :=
  C204_constant _ (tenths_rep _ (by simp [tenths])).1 ((abs_le.2 ⟨by norm_num, by norm_num⟩ : |(3602879701896397 / 36028797018963968 : ℚ)| ≤ 2 ^ (0 : ℤ)).trans (two_zpow_le (by norm_num))) 3 (by norm_num) 0 7 (by norm_num) (by norm_num)

/-- a full bin of four data and a last bin of one -/
example : lastTwo 4 1 3 8 = some 4 ∧ ∃ m, lastTwo 4 1 3 8 = some m ∧ |m - ((4 : ℕ) * 3 + (1 : ℕ) * 8) / ((4 : ℕ) + (1 : ℕ))| ≤ 8 * (7 / 9007199254740992) :=
  ⟨by decide +kernel, C204_last ((zpow_le_one_of_nonpos₀ (by norm_num) (by norm_num)).trans (by norm_num)) ((by norm_num : (8 : ℚ) ≤ 2 ^ (3 : ℤ)).trans (two_zpow_le (by norm_num))) (by norm_num) (by norm_num) (by norm_num) (by norm_num)
    (by norm_num) (by norm_num)⟩

end Verif.LinearBins
