import Verif.Float.Relative
import Mathlib.Tactic.Ring

/-!
# Solving an equation in double precision

`/repo/python/triqs/utility/dichotomy.py` with the numbers of the machine; the model of
`Verif/Utility/RootFinding.lean` is over an exact field.

* C189: what is returned is a solution within the precision, without any rounding error; the code never divides by
  zero unless the precision is tiny; the new points stay in the interval up to rounding; a step that is too small for
  the initial guess makes the function fail.

Simplifications: no overflow and no NaN; the reports are left out; the function is evaluated without side effects.
A division by zero ends the model: `numpy.sign` makes the bounds numbers of numpy, so that the code would warn and go on
with an infinity or a NaN.
-/

namespace Verif.RootDouble
open Verif.Binary64

/-! ## Model -/

/-- outcome of `dichotomy`: the pair of the solution, `(None, None)`, or a division by zero -/
inductive Out where
  | found (x y : ℚ)
  | failed
  | divZero
  deriving DecidableEq

/-- `numpy.sign`, dichotomy.py:70 -/
def sgn (x : ℚ) : ℚ := if 0 < x then 1 else if x < 0 then -1 else 0

/-- `abs(a - b) > p`, dichotomy.py:73 and 99 -/
def far (p a b : ℚ) : Bool := decide (p < rnd (a - b) ∨ rnd (a - b) < -p)

/-- `abs(a - b) < p`, dichotomy.py:110 -/
def near (p a b : ℚ) : Bool := decide (rnd (a - b) < p ∧ -p < rnd (a - b))

/-- `abs(a) < abs(b)`, dichotomy.py:91 -/
def absLt (a b : ℚ) : Bool := decide ((if a < 0 then -a else a) < (if b < 0 then -b else b))

/-- the search for the second bound, dichotomy.py:73-76; the first number is `max_loops + 1 - nbre_loop` -/
def search (f : ℚ → ℚ) (yv p eps dx : ℚ) : ℕ → ℚ → ℚ → ℚ × ℚ × ℕ
  | 0, x2, y2 => (x2, y2, 0)
  | k + 1, x2, y2 =>
    if 0 < rnd (rnd (y2 - yv) * eps) ∧ far p y2 yv = true then search f yv p eps dx k (rnd (x2 - rnd (eps * dx))) (f (rnd (x2 - rnd (eps * dx))))
    else (x2, y2, k + 1)

/-- the new point, dichotomy.py:101 -/
def cut (yv x1 y1 x2 y2 : ℚ) : ℚ := rnd (x1 + rnd (rnd (rnd (x2 - x1) * rnd (yv - y1)) / rnd (y2 - y1)))

/-- the second loop, dichotomy.py:99-106; `none` for a division by zero -/
def narrow (f : ℚ → ℚ) (yv p : ℚ) : ℕ → ℚ → ℚ → ℚ → ℚ → ℚ → ℚ → Option (ℚ × ℚ)
  | 0, _, _, _, _, x, y => some (x, y)
  | k + 1, x1, y1, x2, y2, x, y =>
    if far p y yv then
      if rnd (y2 - y1) = 0 then none
      else if 0 < rnd (rnd (y1 - yv) * rnd (f (cut yv x1 y1 x2 y2) - yv)) then
        narrow f yv p k (cut yv x1 y1 x2 y2) (f (cut yv x1 y1 x2 y2)) x2 y2 (cut yv x1 y1 x2 y2) (f (cut yv x1 y1 x2 y2))
      else narrow f yv p k x1 y1 (cut yv x1 y1 x2 y2) (f (cut yv x1 y1 x2 y2)) (cut yv x1 y1 x2 y2) (f (cut yv x1 y1 x2 y2))
    else some (x, y)

/-- the closer of the two bounds, dichotomy.py:91-96, and the second loop -/
def start (f : ℚ → ℚ) (yv p : ℚ) (k : ℕ) (x1 y1 x2 y2 : ℚ) : Option (ℚ × ℚ) :=
  if absLt (rnd (y1 - yv)) (rnd (y2 - yv)) then narrow f yv p k x1 y1 x2 y2 x1 y1
  else narrow f yv p k x1 y1 x2 y2 x2 y2

/-- the bounds are put in order, dichotomy.py:81-83 -/
def ordered (f : ℚ → ℚ) (yv p : ℚ) (k : ℕ) (x1 y1 x2 y2 : ℚ) : Option (ℚ × ℚ) :=
  if x2 < x1 then start f yv p k x2 y2 x1 y1 else start f yv p k x1 y1 x2 y2

/-- `dichotomy` up to the last test, dichotomy.py:66-108 -/
def run (f : ℚ → ℚ) (x0 yv p dx : ℚ) (maxLoops : ℤ) : Option (ℚ × ℚ) :=
  let r := search f yv p (sgn (rnd (f x0 - yv))) (if dx < 0 then -dx else dx) (maxLoops + 1).toNat x0 (f x0)
  ordered f yv p r.2.2 x0 (f x0) r.1 r.2.1

/-- `dichotomy`, dichotomy.py:24-119 -/
def dichotomy (f : ℚ → ℚ) (x0 yv p dx : ℚ) (maxLoops : ℤ) : Out :=
  match run f x0 yv p dx maxLoops with
  | none => .divZero
  | some (x, y) => if near p y yv then .found x y else .failed

/-! ## Proofs -/

/-! ### signs of differences -/

theorem rnd_sub_pos {x y : ℚ} (hx : Rep x) (hy : Rep y) : 0 < rnd (x - y) ↔ y < x := by
  constructor
  · intro h
    by_contra hc
    rw [not_lt] at hc
    have := rnd_le rep_zero (show x - y ≤ 0 by linarith)
    linarith
  · intro h
    exact (rel_sub hx hy h.le).pos (by linarith)

theorem rnd_sub_ne {x y : ℚ} (hx : Rep x) (hy : Rep y) (h : rnd (x - y) = 0) : x = y := by
  rcases lt_trichotomy x y with hl | hl | hl
  · have := (rnd_sub_pos hy hx).2 hl
    rw [← neg_sub, rnd_neg, h] at this
    exact absurd this (by norm_num)
  · exact hl
  · have := (rnd_sub_pos hx hy).2 hl
    rw [h] at this
    exact absurd this (lt_irrefl _)

theorem far_iff (p a b : ℚ) : far p a b = true ↔ p < |rnd (a - b)| := by
  unfold far
  rw [decide_eq_true_eq, lt_abs]
  constructor
  · rintro (h | h)
    · exact .inl h
    · exact .inr (by linarith)
  · rintro (h | h)
    · exact .inl h
    · exact .inr (by linarith)

theorem near_iff (p a b : ℚ) : near p a b = true ↔ |rnd (a - b)| < p := by
  unfold near
  rw [decide_eq_true_eq, abs_lt]
  exact and_comm

theorem absLt_iff (a b : ℚ) : absLt a b = true ↔ |a| < |b| := by
  have h : ∀ x : ℚ, (if x < 0 then -x else x) = |x| := by
    intro x
    split
    · next h => exact (abs_of_neg h).symm
    · next h => exact (abs_of_nonneg (not_lt.1 h)).symm
  unfold absLt
  rw [decide_eq_true_eq, h, h]

/-! ### soundness -/

theorem narrow_value (f : ℚ → ℚ) (yv p : ℚ) : ∀ (k : ℕ) (x1 y1 x2 y2 x : ℚ) (r : ℚ × ℚ),
    narrow f yv p k x1 y1 x2 y2 x (f x) = some r → r.2 = f r.1
  | 0, _, _, _, _, x, r, h => by
    rw [narrow, Option.some.injEq] at h
    rw [← h]
  | k + 1, x1, y1, x2, y2, x, r, h => by
    rw [narrow] at h
    split at h
    · split at h
      · exact absurd h (by simp)
      · split at h
        · exact narrow_value f yv p k _ _ _ _ _ r h
        · exact narrow_value f yv p k _ _ _ _ _ r h
    · rw [Option.some.injEq] at h
      rw [← h]

theorem search_value (f : ℚ → ℚ) (yv p eps dx : ℚ) : ∀ (k : ℕ) (x2 : ℚ),
    (search f yv p eps dx k x2 (f x2)).2.1 = f (search f yv p eps dx k x2 (f x2)).1 ∧
    ((search f yv p eps dx k x2 (f x2)).2.2 ≠ 0 →
      ¬ (0 < rnd (rnd ((search f yv p eps dx k x2 (f x2)).2.1 - yv) * eps) ∧ far p (search f yv p eps dx k x2 (f x2)).2.1 yv = true))
  | 0, x2 => ⟨rfl, fun h => absurd rfl h⟩
  | k + 1, x2 => by
    rw [search]
    split
    · exact search_value f yv p eps dx k _
    · next h => exact ⟨rfl, fun _ => h⟩

/-- **C189, the second bound.**  With a budget of `k` loops and `r` left afterwards, the bound is the initial guess after `k - r` steps, with the value of the function
there; before each of these steps the value was on the same side as at the beginning and too far away, and with loops left it is not any more. -/
theorem C189_search (f : ℚ → ℚ) (yv p eps dx : ℚ) : ∀ (k : ℕ) (x : ℚ) (x2 y2 : ℚ) (r : ℕ), search f yv p eps dx k x (f x) = (x2, y2, r) →
    r ≤ k ∧ x2 = (fun z => rnd (z - rnd (eps * dx)))^[k - r] x ∧ y2 = f x2 ∧
    (∀ i < k - r, 0 < rnd (rnd (f ((fun z => rnd (z - rnd (eps * dx)))^[i] x) - yv) * eps) ∧ far p (f ((fun z => rnd (z - rnd (eps * dx)))^[i] x)) yv = true) ∧
    (r ≠ 0 → ¬ (0 < rnd (rnd (y2 - yv) * eps) ∧ far p y2 yv = true))
  | 0, x, x2, y2, r, h => by
    simp only [search, Prod.mk.injEq] at h
    obtain ⟨rfl, rfl, rfl⟩ := h
    exact ⟨le_rfl, rfl, rfl, fun i hi => absurd hi (Nat.not_lt_zero i), fun h => absurd rfl h⟩
  | k + 1, x, x2, y2, r, h => by
    rw [search] at h
    split at h
    · next hc =>
      obtain ⟨h1, h2, h3, h4, h5⟩ := C189_search f yv p eps dx k _ x2 y2 r h
      have e : k + 1 - r = (k - r) + 1 := by omega
      refine ⟨by omega, ?_, h3, ?_, h5⟩
      · rw [e, Function.iterate_succ_apply]
        exact h2
      · intro i hi
        rcases i with _ | i
        · exact hc
        · have := h4 i (by omega)
          rw [Function.iterate_succ_apply]
          exact this
    · next hc =>
      simp only [Prod.mk.injEq] at h
      obtain ⟨rfl, rfl, rfl⟩ := h
      refine ⟨le_rfl, by simp, rfl, fun i hi => ?_, fun _ => hc⟩
      rw [Nat.sub_self] at hi
      exact absurd hi (Nat.not_lt_zero i)

theorem sgn_odd (x : ℚ) : sgn (-x) = -sgn x := by
  unfold sgn
  rcases lt_trichotomy x 0 with h | rfl | h
  · rw [if_pos (by linarith), if_neg (by linarith), if_pos h, neg_neg]
  · norm_num
  · rw [if_neg (by linarith), if_pos (by linarith), if_pos h]

/-- two steps of one, three loops left -/
example : search (fun x => rnd (x * x)) 2 (2 ^ (-20 : ℤ)) (-1) 1 5 0 0 = (2, 4, 3) := by decide +kernel

theorem start_value (f : ℚ → ℚ) (yv p : ℚ) (k : ℕ) (x1 x2 : ℚ) (r : ℚ × ℚ) (h : start f yv p k x1 (f x1) x2 (f x2) = some r) : r.2 = f r.1 := by
  unfold start at h
  split at h <;> exact narrow_value f yv p k _ _ _ _ _ r h

theorem run_value (f : ℚ → ℚ) (x0 yv p dx : ℚ) (m : ℤ) (r : ℚ × ℚ) (h : run f x0 yv p dx m = some r) : r.2 = f r.1 := by
  unfold run ordered at h
  simp only at h
  rw [(search_value f yv p _ _ _ x0).1] at h
  generalize (if dx < 0 then -dx else dx) = d at h
  split at h <;> exact start_value f yv p _ _ _ r h

/-- **C189, the solution.**  What is returned has the wanted value within the precision: the inequality holds exactly,
although the test is made on a rounded difference. -/
theorem C189_sound (f : ℚ → ℚ) (x0 yv p dx : ℚ) (m : ℤ) (x y : ℚ) (hp : Rep p) (h : dichotomy f x0 yv p dx m = .found x y) :
    y = f x ∧ |f x - yv| < p := by
  unfold dichotomy at h
  split at h
  · exact absurd h (by simp)
  · next x' y' hr =>
    split at h
    · next hn =>
      rw [Out.found.injEq] at h
      obtain ⟨rfl, rfl⟩ := h
      have hv := run_value f x0 yv p dx m _ hr
      simp only at hv
      refine ⟨hv, ?_⟩
      rw [near_iff, hv, abs_lt] at hn
      rw [abs_lt]
      constructor
      · by_contra hc
        rw [not_lt] at hc
        have := rnd_le (rep_neg hp) hc
        linarith [hn.1]
      · by_contra hc
        rw [not_lt] at hc
        have := le_rnd hp hc
        linarith [hn.2]
    · exact absurd h (by simp)

/-! ### no division by zero -/

theorem mul_test {p d e : ℚ} (hp : (2 : ℚ) ^ (-500 : ℤ) ≤ p) (hd : p < |d|) (he : p < |e|) : 0 < rnd (d * e) ↔ 0 < d * e := by
  constructor
  · intro h
    by_contra hc
    rw [not_lt] at hc
    have := rnd_le rep_zero hc
    linarith
  · intro h
    have hq : (2 : ℚ) ^ (-1000 : ℤ) ≤ d * e := by
      rw [← abs_of_pos h, abs_mul, show (-1000 : ℤ) = -500 + -500 by norm_num, zpow_add₀ (by norm_num)]
      exact mul_le_mul (hp.trans hd.le) (hp.trans he.le) (two_zpow_pos _).le (abs_nonneg _)
    exact (two_zpow_pos (-1000)).trans_le (le_rnd (rep_zpow (by norm_num)) hq)

theorem narrow_isSome (f : ℚ → ℚ) (yv p : ℚ) (hf : ∀ x, Rep (f x)) (hp : (2 : ℚ) ^ (-500 : ℤ) ≤ p) : ∀ (k : ℕ) (x1 x2 x : ℚ),
    (p < |rnd (f x - yv)| → rnd (f x1 - yv) * rnd (f x2 - yv) < 0 ∧ p < |rnd (f x1 - yv)| ∧ p < |rnd (f x2 - yv)|) →
    narrow f yv p k x1 (f x1) x2 (f x2) x (f x) ≠ none
  | 0, _, _, _, _ => by simp [narrow]
  | k + 1, x1, x2, x, h => by
    rw [narrow]
    split
    · next hfar =>
      obtain ⟨h1, h2, h3⟩ := h ((far_iff _ _ _).1 hfar)
      split
      · next h0 =>
        have := rnd_sub_ne (hf x2) (hf x1) h0
        rw [this] at h1
        exact absurd (mul_self_nonneg (rnd (f x1 - yv))) (not_le.2 h1)
      · generalize cut yv x1 (f x1) x2 (f x2) = c
        split
        · next hs =>
          refine narrow_isSome f yv p hf hp k c x2 c fun hc => ⟨?_, hc, h3⟩
          rw [mul_test hp h2 hc] at hs
          rcases pos_and_pos_or_neg_and_neg_of_mul_pos hs with ⟨a, b⟩ | ⟨a, b⟩
          · exact mul_neg_of_pos_of_neg b (by by_contra hh; rw [not_lt] at hh; exact absurd h1 (not_lt.2 (mul_nonneg a.le hh)))
          · exact mul_neg_of_neg_of_pos b (by by_contra hh; rw [not_lt] at hh; exact absurd h1 (not_lt.2 (mul_nonneg_of_nonpos_of_nonpos a.le hh)))
        · next hs =>
          refine narrow_isSome f yv p hf hp k x1 c c fun hc => ⟨?_, h2, hc⟩
          rw [mul_test hp h2 hc, not_lt] at hs
          refine lt_of_le_of_ne hs fun h0 => ?_
          have hp0 : (0 : ℚ) < p := (two_zpow_pos _).trans_le hp
          rcases mul_eq_zero.1 h0 with h0 | h0
          · rw [h0, abs_zero] at h2; linarith
          · rw [h0, abs_zero] at hc; linarith
    · simp

theorem start_isSome (f : ℚ → ℚ) (yv p : ℚ) (hf : ∀ x, Rep (f x)) (hp : (2 : ℚ) ^ (-500 : ℤ) ≤ p) (k : ℕ) (x1 x2 : ℚ)
    (h : p < |rnd (f x1 - yv)| → p < |rnd (f x2 - yv)| → rnd (f x1 - yv) * rnd (f x2 - yv) < 0) :
    start f yv p k x1 (f x1) x2 (f x2) ≠ none := by
  unfold start
  split
  · next hl =>
    rw [absLt_iff] at hl
    exact narrow_isSome f yv p hf hp k x1 x2 x1 fun hx => ⟨h hx (hx.trans hl), hx, hx.trans hl⟩
  · next hl =>
    rw [absLt_iff, not_lt] at hl
    exact narrow_isSome f yv p hf hp k x1 x2 x2 fun hx => ⟨h (hx.trans_le hl) hx, hx.trans_le hl, hx⟩

theorem start_zero (f : ℚ → ℚ) (yv p x1 x2 : ℚ) : start f yv p 0 x1 (f x1) x2 (f x2) ≠ none := by
  unfold start
  split <;> simp [narrow]

theorem rnd_rnd (x : ℚ) : rnd (rnd x) = rnd x := rnd_rep (rep_rnd x)

/-- **C189, no division by zero.**  For values that are doubles and a precision of at least `2^-500` the function
returns a solution or `(None, None)`. -/
theorem C189_no_division (f : ℚ → ℚ) (x0 yv p dx : ℚ) (m : ℤ) (hf : ∀ x, Rep (f x)) (hp : (2 : ℚ) ^ (-500 : ℤ) ≤ p) :
    dichotomy f x0 yv p dx m ≠ .divZero := by
  have key : run f x0 yv p dx m ≠ none := by
    unfold run ordered
    simp only
    generalize hr : search f yv p (sgn (rnd (f x0 - yv))) (if dx < 0 then -dx else dx) (m + 1).toNat x0 (f x0) = r
    have hs := search_value f yv p (sgn (rnd (f x0 - yv))) (if dx < 0 then -dx else dx) (m + 1).toNat x0
    rw [hr] at hs
    obtain ⟨x2, y2, k⟩ := r
    simp only at hs ⊢
    obtain ⟨rfl, hs⟩ := hs
    rcases Nat.eq_zero_or_pos k with rfl | hk
    · split
      · exact start_zero f yv p _ _
      · exact start_zero f yv p _ _
    · have hs := hs (by omega)
      have hp0 : (0 : ℚ) < p := (two_zpow_pos _).trans_le hp
      have hopp : p < |rnd (f x0 - yv)| → p < |rnd (f x2 - yv)| → rnd (f x0 - yv) * rnd (f x2 - yv) < 0 := by
        intro h1 h2
        have h3 : ¬ 0 < rnd (rnd (f x2 - yv) * sgn (rnd (f x0 - yv))) := fun h => hs ⟨h, (far_iff _ _ _).2 h2⟩
        have hne : rnd (f x2 - yv) ≠ 0 := fun h0 => by rw [h0, abs_zero] at h2; linarith
        unfold sgn at h3
        split at h3
        · next hpos =>
          rw [mul_one, rnd_rnd, not_lt] at h3
          exact mul_neg_of_pos_of_neg hpos (lt_of_le_of_ne h3 hne)
        · split at h3
          · next hneg =>
            rw [mul_neg, mul_one, rnd_neg, rnd_rnd, not_lt] at h3
            exact mul_neg_of_neg_of_pos hneg (lt_of_le_of_ne (by linarith) (Ne.symm hne))
          · next ha hb =>
            have : rnd (f x0 - yv) = 0 := le_antisymm (not_lt.1 ha) (not_lt.1 hb)
            rw [this, abs_zero] at h1
            linarith
      split
      · refine start_isSome f yv p hf hp k x2 x0 fun h1 h2 => ?_
        rw [mul_comm]
        exact hopp h2 h1
      · exact start_isSome f yv p hf hp k x0 x2 hopp
  unfold dichotomy
  split
  · next h => exact absurd h key
  · split <;> simp

/-! ### the new point -/

theorem cut_flip (yv x1 y1 x2 y2 : ℚ) : cut (-yv) x1 (-y1) x2 (-y2) = cut yv x1 y1 x2 y2 := by
  unfold cut
  rw [show -yv - -y1 = -(yv - y1) by ring, show -y2 - -y1 = -(y2 - y1) by ring, rnd_neg, rnd_neg, mul_neg, rnd_neg, neg_div_neg_eq]

theorem cut_bounds_up (yv x1 y1 x2 y2 : ℚ) (hx1 : Rep x1) (hx : x1 ≤ x2) (hy1 : y1 < yv) (hy2 : yv < y2)
    (hc : (2 : ℚ) ^ (-500 : ℤ) ≤ rnd (y2 - y1)) :
    x1 ≤ cut yv x1 y1 x2 y2 ∧ cut yv x1 y1 x2 y2 ≤ x2 + 2 ^ (-50 : ℤ) * (|x1| + |x2|) + 2 ^ (-500 : ℤ) := by
  unfold cut
  have ha := rnd_err_abs (x2 - x1)
  have ha0 : 0 ≤ rnd (x2 - x1) := le_rnd rep_zero (by linarith)
  have hb0 : 0 ≤ rnd (yv - y1) := le_rnd rep_zero (by linarith)
  have hbc : rnd (yv - y1) ≤ rnd (y2 - y1) := rnd_mono (by linarith)
  have hc0 : 0 < rnd (y2 - y1) := (two_zpow_pos _).trans_le hc
  generalize rnd (x2 - x1) = a at *
  generalize rnd (yv - y1) = b at *
  generalize rnd (y2 - y1) = c at *
  have ht0 : 0 ≤ rnd (a * b) := le_rnd rep_zero (mul_nonneg ha0 hb0)
  have ht := rnd_err_abs (a * b)
  have hab : a * b ≤ a * c := mul_le_mul_of_nonneg_left hbc ha0
  rw [abs_of_nonneg (mul_nonneg ha0 hb0), abs_le] at ht
  have ht2 : rnd (a * b) ≤ a * c * (1 + 1 / 9007199254740992) + 2 ^ (-1074 : ℤ) := by linarith [ht.2]
  generalize rnd (a * b) = t at *
  have hq0 : 0 ≤ t / c := div_nonneg ht0 hc0.le
  have hq1 : t / c ≤ a * (1 + 1 / 9007199254740992) + 2 ^ (-574 : ℤ) := by
    rw [div_le_iff₀ hc0]
    have e : (2 : ℚ) ^ (-1074 : ℤ) = 2 ^ (-574 : ℤ) * 2 ^ (-500 : ℤ) := by rw [← zpow_add₀ (by norm_num)]; norm_num
    have h1 : (2 : ℚ) ^ (-574 : ℤ) * 2 ^ (-500 : ℤ) ≤ 2 ^ (-574 : ℤ) * c := mul_le_mul_of_nonneg_left hc (two_zpow_pos _).le
    rw [e] at ht2
    have e2 : (a * (1 + 1 / 9007199254740992) + 2 ^ (-574 : ℤ)) * c = a * c * (1 + 1 / 9007199254740992) + 2 ^ (-574 : ℤ) * c := by ring
    rw [e2]
    linarith
  have hq := rnd_err_abs (t / c)
  have hqr0 : 0 ≤ rnd (t / c) := le_rnd rep_zero hq0
  rw [abs_of_nonneg hq0] at hq
  generalize rnd (t / c) = q at *
  constructor
  · exact le_rnd hx1 (by linarith)
  · have hx' := rnd_err_abs (x1 + q)
    have h1 : |x1 + q| ≤ |x1| + q := by
      have := abs_add_le x1 q
      rwa [abs_of_nonneg hqr0] at this
    have hd : |x2 - x1| = x2 - x1 := abs_of_nonneg (by linarith)
    rw [hd] at ha
    have hm1 := neg_abs_le x1
    have hm2 := le_abs_self x2
    have hm3 := abs_nonneg x1
    have hm4 := abs_nonneg x2
    generalize rnd (x1 + q) = x at *
    have s1 : (2 : ℚ) ^ (-1074 : ℤ) ≤ 2 ^ (-510 : ℤ) := zpow_le_zpow_right₀ (by norm_num) (by norm_num)
    have s2 : (2 : ℚ) ^ (-574 : ℤ) ≤ 2 ^ (-510 : ℤ) := zpow_le_zpow_right₀ (by norm_num) (by norm_num)
    have s3 : (2 : ℚ) ^ (-500 : ℤ) = 1024 * 2 ^ (-510 : ℤ) := by
      rw [show (1024 : ℚ) = 2 ^ (10 : ℤ) by norm_num, ← zpow_add₀ (by norm_num)]; norm_num
    have s4 : (0 : ℚ) < 2 ^ (-510 : ℤ) := two_zpow_pos _
    rw [s3, show (2 : ℚ) ^ (-50 : ℤ) = 8 / 9007199254740992 by norm_num]
    generalize (2 : ℚ) ^ (-1074 : ℤ) = η at *
    generalize (2 : ℚ) ^ (-574 : ℤ) = η' at *
    generalize (2 : ℚ) ^ (-510 : ℤ) = ε at *
    generalize t / c = z at *
    rw [abs_le] at ha hq hx'
    have e1 := ha.2
    have e2 := hq.2
    have e3 := hx'.2
    clear ha hq hx' ht ht2 hab hbc hc hd s3
    generalize |x1| = A at *
    generalize |x2| = B at *
    generalize |x1 + q| = C at *
    linarith

/-- **C189, the new point.**  It is never below the lower bound, and above the upper one at most by rounding. -/
theorem C189_cut (yv x1 y1 x2 y2 : ℚ) (hx1 : Rep x1) (hx : x1 ≤ x2) (hy : (y1 < yv ∧ yv < y2) ∨ (y2 < yv ∧ yv < y1))
    (hc : (2 : ℚ) ^ (-500 : ℤ) ≤ |rnd (y2 - y1)|) :
    x1 ≤ cut yv x1 y1 x2 y2 ∧ cut yv x1 y1 x2 y2 ≤ x2 + 2 ^ (-50 : ℤ) * (|x1| + |x2|) + 2 ^ (-500 : ℤ) := by
  rcases hy with ⟨h1, h2⟩ | ⟨h1, h2⟩
  · rw [abs_of_nonneg (a := rnd (y2 - y1)) (le_rnd rep_zero (by linarith))] at hc
    exact cut_bounds_up yv x1 y1 x2 y2 hx1 hx h1 h2 hc
  · have h3 : rnd (y2 - y1) ≤ 0 := rnd_le rep_zero (by linarith)
    rw [abs_of_nonpos h3, ← rnd_neg] at hc
    rw [← cut_flip]
    refine cut_bounds_up (-yv) x1 (-y1) x2 (-y2) hx1 hx (by linarith) (by linarith) ?_
    rwa [show -y2 - -y1 = -(y2 - y1) by ring]

/-! ### steps that are too small -/

theorem search_stuck (f : ℚ → ℚ) (yv p eps dx x0 : ℚ) (hd : rnd (x0 - rnd (eps * dx)) = x0) : ∀ k,
    (search f yv p eps dx k x0 (f x0)).1 = x0
  | 0 => rfl
  | k + 1 => by
    rw [search]
    split
    · rw [hd]
      exact search_stuck f yv p eps dx x0 hd k
    · rfl

theorem search_stuck_left (f : ℚ → ℚ) (yv p eps dx x0 : ℚ) (hd : rnd (x0 - rnd (eps * dx)) = x0)
    (h : 0 < rnd (rnd (f x0 - yv) * eps) ∧ far p (f x0) yv = true) : ∀ k, (search f yv p eps dx k x0 (f x0)).2.2 = 0
  | 0 => rfl
  | k + 1 => by
    rw [search, if_pos h, hd]
    exact search_stuck_left f yv p eps dx x0 hd h k

/-- **C189, steps that are too small.**  If adding and subtracting the step does not change the initial guess (which
happens below half a unit of its last digit) and the guess is not yet a solution, the function fails, whatever the
number of loops and whether or not there is a solution. -/
theorem C189_stuck (f : ℚ → ℚ) (x0 yv p dx : ℚ) (m : ℤ) (hp0 : 0 ≤ p) (hm : 0 ≤ m) (hdx : Rep dx)
    (h1 : rnd (x0 - dx) = x0) (h2 : rnd (x0 + dx) = x0) (hfar : p < |rnd (f x0 - yv)|) :
    dichotomy f x0 yv p dx m = .failed := by
  have hd : rnd (x0 - rnd (sgn (rnd (f x0 - yv)) * (if dx < 0 then -dx else dx))) = x0 := by
    unfold sgn
    have e1 : rnd dx = dx := rnd_rep hdx
    have h2' : rnd (x0 - -dx) = x0 := by rw [sub_neg_eq_add]; exact h2
    have h0 : ¬ (rnd (f x0 - yv) = 0) := fun h0 => by rw [h0, abs_zero] at hfar; linarith
    rcases lt_trichotomy (rnd (f x0 - yv)) 0 with hs | hs | hs
    · rw [if_neg (not_lt.2 hs.le), if_pos hs]
      split
      · rw [neg_mul_neg, one_mul, e1]; exact h1
      · rw [neg_one_mul, rnd_neg, e1]; exact h2'
    · exact absurd hs h0
    · rw [if_pos hs, one_mul]
      split
      · rw [rnd_neg, e1]; exact h2'
      · rw [e1]; exact h1
  have hfar' : far p (f x0) yv = true := (far_iff _ _ _).2 hfar
  have htest : 0 < rnd (rnd (f x0 - yv) * sgn (rnd (f x0 - yv))) := by
    unfold sgn
    rcases lt_trichotomy (rnd (f x0 - yv)) 0 with hs | hs | hs
    · rw [if_neg (not_lt.2 hs.le), if_pos hs, mul_neg, mul_one, rnd_neg, rnd_rnd]
      linarith
    · rw [hs, abs_zero] at hfar
      linarith
    · rw [if_pos hs, mul_one, rnd_rnd]
      exact hs
  have hval := (search_value f yv p (sgn (rnd (f x0 - yv))) (if dx < 0 then -dx else dx) (m + 1).toNat x0).1
  have hrun : run f x0 yv p dx m = some (x0, f x0) := by
    unfold run
    simp only
    rw [hval, search_stuck f yv p _ _ x0 hd, search_stuck_left f yv p _ _ x0 hd ⟨htest, hfar'⟩, ordered, if_neg (lt_irrefl _), start]
    split <;> rfl
  unfold dichotomy
  rw [hrun]
  have hn : near p (f x0) yv = false := by
    rw [Bool.eq_false_iff]
    intro h
    rw [near_iff] at h
    linarith
  simp only [hn, Bool.false_eq_true, if_false]

/-! ### Examples -/

/-- the step is half a unit of the last digit of the guess: no solution is found, although there is one at `2^53 + 2` -/
example (m : ℤ) (hm : 0 ≤ m) : dichotomy (fun x => rnd (x - (2 ^ 53 + 2))) (2 ^ 53) 0 1 (1 / 2) m = .failed :=
  C189_stuck _ _ _ _ _ m (by norm_num) hm ⟨1, -1, by norm_num, by norm_num, by norm_num⟩ (by decide +kernel) (by decide +kernel)
    (by
      have h : rnd (rnd ((2 : ℚ) ^ 53 - (2 ^ 53 + 2)) - 0) = -2 := by decide +kernel
      rw [h]
      norm_num)

/-- **C189, tiny precision.**  With a precision below `2^-600` the test of the signs can underflow, and the code divides
by zero. -/
theorem C189_underflow : dichotomy (fun x => if x < 1 / 2 then -2 ^ (-600 : ℤ) else 1) 0 0 (2 ^ (-700 : ℤ)) 1 10 = .divZero := by decide +kernel

/-- the square root of two with a precision of `2^-20` -/
example : dichotomy (fun x => rnd (x * x)) 0 2 (2 ^ (-20 : ℤ)) 1 100 =
    .found (796131423869093 / 562949953421312) (4503599229166109 / 2251799813685248) := by decide +kernel

/-- the value there is below two by less than the precision -/
example : |rnd (796131423869093 / 562949953421312 * (796131423869093 / 562949953421312)) - 2| < (2 : ℚ) ^ (-20 : ℤ) :=
  (C189_sound (fun x => rnd (x * x)) 0 2 (2 ^ (-20 : ℤ)) 1 100 _ (4503599229166109 / 2251799813685248) (rep_zpow (by norm_num))
    (by decide +kernel)).2

/-- the new point can lie above the upper bound 3.6 (by one unit of the last digit) -/
example : rnd (36 / 10) < cut 0 (rnd (6 / 10)) (rnd (-8463435694934305 / 10000000000000000)) (rnd (36 / 10)) (rnd (4 / 1000000000000000000)) := by
  decide +kernel

/-- and is bounded as stated: between -1 at 1 and 2 at 4 -/
example : 1 ≤ cut 0 1 (-1) 4 2 ∧ cut 0 1 (-1) 4 2 ≤ 4 + 2 ^ (-50 : ℤ) * (|1| + |4|) + 2 ^ (-500 : ℤ) :=
  C189_cut 0 1 (-1) 4 2 rep_one (by norm_num) (.inl ⟨by norm_num, by norm_num⟩) (by
    have h : (2 : ℚ) ^ (-500 : ℤ) ≤ 2 ^ (0 : ℤ) := zpow_le_zpow_right₀ (by norm_num) (by norm_num)
    rw [show rnd (2 - -1 : ℚ) = 3 by decide +kernel]
    exact h.trans (by norm_num))

end Verif.RootDouble
