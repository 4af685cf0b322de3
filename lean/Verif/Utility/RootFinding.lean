import Mathlib.Algebra.Order.Field.Basic
import Mathlib.Topology.UniformSpace.HeineCantor
import Mathlib.Topology.Order.Compact
import Mathlib.Analysis.Normed.Group.Bounded
import Mathlib.Analysis.Normed.Group.Real
import Mathlib.Topology.Order.IntermediateValue
import Mathlib.Topology.MetricSpace.Basic
import Mathlib.Topology.Instances.Real.Lemmas
import Mathlib.Analysis.SpecificLimits.Basic
import Mathlib.Tactic.Linarith
import Mathlib.Tactic.FieldSimp
import Mathlib.Tactic.NormNum

/-!
# Properties C127, C128: solving an equation for one unknown

Sources: `/repo/python/triqs/utility/dichotomy.py`, `/repo/python/triqs/utility/bound_and_bisect.py`.

Simplifications: exact numbers of an ordered field; the reports printed by the functions are left out;
the function is evaluated without side effects. `scipy.optimize.bisect` is not modelled.
-/

namespace Verif.RootFinding

variable {K : Type} [Field K] [LinearOrder K]

/-! ## Model -/

/-- outcome of `dichotomy`: the pair of the solution, `(None, None)`, or a division by zero -/
inductive Out (K : Type) where
  | found (x y : K)
  | failed
  | divZero
  deriving DecidableEq

/-- `numpy.sign` -/
def sgn (x : K) : K := if 0 < x then 1 else if x < 0 then -1 else 0

/-- the search for the second bound, dichotomy.py:73-76, started at `x2` with `y2 = f x2`. The first number is
`max_loops + 1 - nbre_loop`; the result is `x2`, `y2` and what is left of the number of loops -/
def search (f : K → K) (yv p eps dx : K) : ℕ → K → K → K × K × ℕ
  | 0, x2, y2 => (x2, y2, 0)
  | k + 1, x2, y2 =>
    if (y2 - yv) * eps > 0 ∧ |y2 - yv| > p then search f yv p eps dx k (x2 - eps * dx) (f (x2 - eps * dx))
    else (x2, y2, k + 1)

/-- the new point, dichotomy.py:101 -/
def cut (yv x1 y1 x2 y2 : K) : K := x1 + (x2 - x1) * (yv - y1) / (y2 - y1)

/-- the second loop, dichotomy.py:99-106; `none` for a division by zero -/
def narrow (f : K → K) (yv p : K) : ℕ → K → K → K → K → K → K → Option (K × K)
  | 0, _, _, _, _, x, y => some (x, y)
  | k + 1, x1, y1, x2, y2, x, y =>
    if |y - yv| > p then
      if y2 - y1 = 0 then none
      else
        let x' := cut yv x1 y1 x2 y2
        let y' := f x'
        if (y1 - yv) * (y' - yv) > 0 then narrow f yv p k x' y' x2 y2 x' y'
        else narrow f yv p k x1 y1 x' y' x' y'
    else some (x, y)

/-- the closer of the two bounds, dichotomy.py:91-96, and the second loop -/
def start (f : K → K) (yv p : K) (k : ℕ) (x1 y1 x2 y2 : K) : Option (K × K) :=
  if |y1 - yv| < |y2 - yv| then narrow f yv p k x1 y1 x2 y2 x1 y1
  else narrow f yv p k x1 y1 x2 y2 x2 y2

/-- the bounds are put in order, dichotomy.py:81-83 -/
def ordered (f : K → K) (yv p : K) (k : ℕ) (x1 y1 x2 y2 : K) : Option (K × K) :=
  if x1 > x2 then start f yv p k x2 y2 x1 y1 else start f yv p k x1 y1 x2 y2

/-- `dichotomy` up to the last test, dichotomy.py:66-108 -/
def run (f : K → K) (x0 yv p dx : K) (maxLoops : ℤ) : Option (K × K) :=
  let r := search f yv p (sgn (f x0 - yv)) |dx| (maxLoops + 1).toNat x0 (f x0)
  ordered f yv p r.2.2 x0 (f x0) r.1 r.2.1

/-- `dichotomy`, dichotomy.py:24-119 -/
def dichotomy (f : K → K) (x0 yv p dx : K) (maxLoops : ℤ) : Out K :=
  match run f x0 yv p dx maxLoops with
  | none => .divZero
  | some (x, y) => if |y - yv| < p then .found x y else .failed

/-- one of the two loops of `determine_bounds`, bound_and_bisect.py:28-33 and 35-40: steps until the test holds;
`none` is the exception -/
def seek (test : K → Bool) (step : K) : ℕ → K → Option K
  | 0, x => if test x then some x else none
  | k + 1, x => if test x then some x else seek test step k (x + step)

/-- `determine_bounds`, bound_and_bisect.py:22-41 -/
def determineBounds (F : K → K) (x0 dx : K) (maxiter : ℤ) : Option (K × K) :=
  let d := if F (x0 + dx) - F x0 < 0 then dx * (-1) else dx
  match seek (fun x => decide (F x < 0)) (-d) maxiter.toNat x0 with
  | none => none
  | some a =>
    match seek (fun x => decide (F x > 0)) d maxiter.toNat x0 with
    | none => none
    | some b => some (a, b)

/-! ## Specification -/

/-- strictly on both sides of the target -/
def Brackets (yv y1 y2 : K) : Prop := (y1 - yv) * (y2 - yv) < 0

/-! ## Proofs -/

variable [IsStrictOrderedRing K]

theorem sgn_cases (x : K) : (0 < x ∧ sgn x = 1) ∨ (x < 0 ∧ sgn x = -1) ∨ (x = 0 ∧ sgn x = 0) := by
  unfold sgn
  rcases lt_trichotomy x 0 with h | h | h
  · exact Or.inr (Or.inl ⟨h, by rw [if_neg h.not_gt, if_pos h]⟩)
  · exact Or.inr (Or.inr ⟨h, by simp [h]⟩)
  · exact Or.inl ⟨h, by rw [if_pos h]⟩

/-- the search ends at a multiple of the step, with the value there; if loops are left the target is bracketed or close -/
theorem search_spec (f : K → K) (yv p eps dx : K) : ∀ (k : ℕ) (x2 : K),
    ∃ j, j ≤ k ∧ (search f yv p eps dx k x2 (f x2)).1 = x2 - j * (eps * dx) ∧
      (search f yv p eps dx k x2 (f x2)).2.1 = f (search f yv p eps dx k x2 (f x2)).1 ∧
      (search f yv p eps dx k x2 (f x2)).2.2 = k - j ∧
      (j < k → ¬ ((f (search f yv p eps dx k x2 (f x2)).1 - yv) * eps > 0 ∧ |f (search f yv p eps dx k x2 (f x2)).1 - yv| > p)) ∧
      ∀ i < j, (f (x2 - i * (eps * dx)) - yv) * eps > 0 ∧ |f (x2 - i * (eps * dx)) - yv| > p
  | 0, x2 => ⟨0, le_refl _, by simp [search], by simp [search], by simp [search], by simp, by simp⟩
  | k + 1, x2 => by
    rw [search]
    split
    · rename_i h
      obtain ⟨j, h1, h2, h3, h4, h5, h6⟩ := search_spec f yv p eps dx k (x2 - eps * dx)
      refine ⟨j + 1, by omega, ?_, h3, by rw [h4]; omega, fun hj => h5 (by omega), ?_⟩
      · rw [h2]; push_cast; ring
      · intro i hi
        cases i with
        | zero => simpa using h
        | succ i =>
          have := h6 i (by omega)
          have e : x2 - eps * dx - i * (eps * dx) = x2 - ((i + 1 : ℕ) : K) * (eps * dx) := by push_cast; ring
          rwa [e] at this
    · rename_i h
      exact ⟨0, by omega, by simp, rfl, rfl, fun _ => h, by simp⟩

/-- the new point lies strictly between the bounds -/
theorem cut_between (yv x1 y1 x2 y2 : K) (hx : x1 < x2) (hb : Brackets yv y1 y2) :
    x1 < cut yv x1 y1 x2 y2 ∧ cut yv x1 y1 x2 y2 < x2 := by
  unfold Brackets at hb
  unfold cut
  rcases mul_neg_iff.mp hb with ⟨h1, h2⟩ | ⟨h1, h2⟩
  · have hd : y2 - y1 < 0 := by linarith
    have e : (x2 - x1) * (yv - y1) / (y2 - y1) = (x2 - x1) * ((y1 - yv) / (y1 - y2)) := by
      rw [mul_div_assoc, ← neg_div_neg_eq (yv - y1), neg_sub, neg_sub]
    rw [e]
    have l1 : 0 < (y1 - yv) / (y1 - y2) := div_pos h1 (by linarith)
    have l2 : (y1 - yv) / (y1 - y2) < 1 := (div_lt_one (by linarith)).mpr (by linarith)
    constructor <;> nlinarith
  · rw [mul_div_assoc]
    have l1 : 0 < (yv - y1) / (y2 - y1) := div_pos (by linarith) (by linarith)
    have l2 : (yv - y1) / (y2 - y1) < 1 := (div_lt_one (by linarith)).mpr (by linarith)
    constructor <;> nlinarith

theorem brackets_ne {yv y1 y2 : K} (hb : Brackets yv y1 y2) : y2 - y1 ≠ 0 := by
  intro h
  have : y2 = y1 := sub_eq_zero.mp h
  subst this
  exact absurd hb (not_lt.mpr (mul_self_nonneg _))

/-- the second loop never divides by zero, keeps values and points together and stays between the bounds -/
theorem narrow_spec (f : K → K) (yv p : K) (hp : 0 ≤ p) : ∀ (k : ℕ) (x1 x2 x : K), x1 < x2 → x1 ≤ x → x ≤ x2 →
    (|f x - yv| > p → Brackets yv (f x1) (f x2)) →
    ∃ z, narrow f yv p k x1 (f x1) x2 (f x2) x (f x) = some (z, f z) ∧ x1 ≤ z ∧ z ≤ x2
  | 0, x1, x2, x, _, h1, h2, _ => ⟨x, rfl, h1, h2⟩
  | k + 1, x1, x2, x, h, h1, h2, hb => by
    rw [narrow]
    split
    swap
    · exact ⟨x, rfl, h1, h2⟩
    rename_i hc
    have hb := hb hc
    obtain ⟨c1, c2⟩ := cut_between yv x1 (f x1) x2 (f x2) h hb
    rw [if_neg (brackets_ne hb)]
    simp only
    generalize cut yv x1 (f x1) x2 (f x2) = c at *
    split
    · rename_i hs
      obtain ⟨z, e, z1, z2⟩ := narrow_spec f yv p hp k c x2 c c2 (le_refl _) c2.le (fun _ => by
        unfold Brackets at *
        rcases mul_neg_iff.mp hb with ⟨g1, g2⟩ | ⟨g1, g2⟩
        · exact mul_neg_of_pos_of_neg ((mul_pos_iff_of_pos_left g1).mp hs) g2
        · exact mul_neg_of_neg_of_pos (neg_of_mul_pos_right hs g1.le) g2)
      exact ⟨z, e, c1.le.trans z1, z2⟩
    · rename_i hs
      obtain ⟨z, e, z1, z2⟩ := narrow_spec f yv p hp k x1 c c c1 c1.le (le_refl _) (fun hcc => by
        unfold Brackets at *
        refine lt_of_le_of_ne (not_lt.mp hs) (fun h0 => ?_)
        rcases mul_eq_zero.mp h0 with h0 | h0
        · rw [h0, zero_mul] at hb; exact lt_irrefl _ hb
        · rw [h0, abs_zero] at hcc; exact absurd hcc (not_lt.mpr hp))
      exact ⟨z, e, z1, z2.trans c2.le⟩

theorem narrow_stop (f : K → K) (yv p : K) (k : ℕ) (x1 y1 x2 y2 x y : K) (h : ¬ |y - yv| > p) :
    narrow f yv p k x1 y1 x2 y2 x y = some (x, y) := by
  cases k with
  | zero => rfl
  | succ k => rw [narrow, if_neg h]

/-- what holds when the second loop starts: it has no loops left, or a bound is close, or the target is bracketed -/
def Ready (f : K → K) (yv p : K) (k : ℕ) (x1 x2 : K) : Prop :=
  k = 0 ∨ |f x1 - yv| ≤ p ∨ |f x2 - yv| ≤ p ∨ Brackets yv (f x1) (f x2)

theorem start_spec (f : K → K) (yv p : K) (hp : 0 ≤ p) (k : ℕ) (x1 x2 : K) (hx : x1 ≤ x2) (hr : Ready f yv p k x1 x2) :
    ∃ z, start f yv p k x1 (f x1) x2 (f x2) = some (z, f z) ∧ x1 ≤ z ∧ z ≤ x2 := by
  have hne : Brackets yv (f x1) (f x2) → x1 < x2 := by
    intro hb
    refine lt_of_le_of_ne hx ?_
    rintro rfl
    exact brackets_ne hb (sub_self _)
  unfold start
  rcases hr with rfl | h | h | h
  · split
    · exact ⟨x1, rfl, le_refl _, hx⟩
    · exact ⟨x2, rfl, hx, le_refl _⟩
  · split
    · rw [narrow_stop _ _ _ _ _ _ _ _ _ _ (not_lt.mpr h)]
      exact ⟨x1, rfl, le_refl _, hx⟩
    · rename_i h'
      rw [narrow_stop _ _ _ _ _ _ _ _ _ _ (not_lt.mpr ((not_lt.mp h').trans h))]
      exact ⟨x2, rfl, hx, le_refl _⟩
  · split
    · rename_i h'
      rw [narrow_stop _ _ _ _ _ _ _ _ _ _ (not_lt.mpr (h'.le.trans h))]
      exact ⟨x1, rfl, le_refl _, hx⟩
    · rw [narrow_stop _ _ _ _ _ _ _ _ _ _ (not_lt.mpr h)]
      exact ⟨x2, rfl, hx, le_refl _⟩
  · split
    · exact narrow_spec f yv p hp k x1 x2 x1 (hne h) (le_refl _) hx (fun _ => h)
    · exact narrow_spec f yv p hp k x1 x2 x2 (hne h) hx (le_refl _) (fun _ => h)

theorem Ready.symm {f : K → K} {yv p : K} {k : ℕ} {x1 x2 : K} (h : Ready f yv p k x1 x2) : Ready f yv p k x2 x1 := by
  rcases h with h | h | h | h
  · exact Or.inl h
  · exact Or.inr (Or.inr (Or.inl h))
  · exact Or.inr (Or.inl h)
  · exact Or.inr (Or.inr (Or.inr (by unfold Brackets at *; rwa [mul_comm])))

theorem ordered_spec (f : K → K) (yv p : K) (hp : 0 ≤ p) (k : ℕ) (x1 x2 : K) (hr : Ready f yv p k x1 x2) :
    ∃ z, ordered f yv p k x1 (f x1) x2 (f x2) = some (z, f z) ∧ min x1 x2 ≤ z ∧ z ≤ max x1 x2 := by
  unfold ordered
  split
  · rename_i h
    obtain ⟨z, e, h1, h2⟩ := start_spec f yv p hp k x2 x1 (le_of_lt h) hr.symm
    exact ⟨z, e, by rwa [min_eq_right (le_of_lt h)], by rwa [max_eq_left (le_of_lt h)]⟩
  · rename_i h
    have h := not_lt.mp h
    obtain ⟨z, e, h1, h2⟩ := start_spec f yv p hp k x1 x2 h hr
    exact ⟨z, e, by rwa [min_eq_left h], by rwa [max_eq_right h]⟩

/-- the state after the search is fit for the second loop -/
theorem search_ready (f : K → K) (yv p dx x0 : K) (hp : 0 ≤ p) (k : ℕ) :
    Ready f yv p (search f yv p (sgn (f x0 - yv)) dx k x0 (f x0)).2.2 x0
      (search f yv p (sgn (f x0 - yv)) dx k x0 (f x0)).1 := by
  obtain ⟨j, h1, h2, h3, h4, h5, h6⟩ := search_spec f yv p (sgn (f x0 - yv)) dx k x0
  rcases Nat.eq_or_lt_of_le h1 with rfl | hj
  · exact Or.inl (by rw [h4]; omega)
  have h5 := h5 hj
  generalize (search f yv p (sgn (f x0 - yv)) dx k x0 (f x0)).1 = x2 at *
  by_cases hc : |f x2 - yv| ≤ p
  · exact Or.inr (Or.inr (Or.inl hc))
  by_cases hc1 : |f x0 - yv| ≤ p
  · exact Or.inr (Or.inl hc1)
  refine Or.inr (Or.inr (Or.inr ?_))
  have h7 : ¬ (f x2 - yv) * sgn (f x0 - yv) > 0 := fun h => h5 ⟨h, not_le.mp hc⟩
  have hne : f x2 - yv ≠ 0 := fun h => hc (by rw [h, abs_zero]; exact hp)
  unfold Brackets
  rcases sgn_cases (f x0 - yv) with ⟨g, e⟩ | ⟨g, e⟩ | ⟨g, e⟩
  · rw [e, mul_one] at h7
    exact mul_neg_of_pos_of_neg g (lt_of_le_of_ne (not_lt.mp h7) hne)
  · rw [e] at h7
    have : f x2 - yv > 0 := lt_of_le_of_ne (by linarith [not_lt.mp h7]) hne.symm
    exact mul_neg_of_neg_of_pos g this
  · exact absurd (by rw [g, abs_zero]; exact hp) hc1

theorem run_spec (f : K → K) (x0 yv p dx : K) (hp : 0 ≤ p) (m : ℤ) :
    ∃ z, ∃ j : ℕ, run f x0 yv p dx m = some (z, f z) ∧ (j : ℤ) ≤ max (m + 1) 0 ∧
      min x0 (x0 - j * (sgn (f x0 - yv) * |dx|)) ≤ z ∧ z ≤ max x0 (x0 - j * (sgn (f x0 - yv) * |dx|)) := by
  obtain ⟨j, h1, h2, h3, h4, h5, h6⟩ := search_spec f yv p (sgn (f x0 - yv)) |dx| (m + 1).toNat x0
  obtain ⟨z, e, z1, z2⟩ := ordered_spec f yv p hp _ _ _ (search_ready f yv p |dx| x0 hp (m + 1).toNat)
  rw [h2] at z1 z2
  refine ⟨z, j, ?_, by omega, z1, z2⟩
  unfold run
  simp only
  rw [← e]
  congr 1

/-- **C127** the function never divides by zero -/
theorem C127_no_division (f : K → K) (x0 yv p dx : K) (hp : 0 ≤ p) (m : ℤ) : dichotomy f x0 yv p dx m ≠ .divZero := by
  obtain ⟨z, j, e, _⟩ := run_spec f x0 yv p dx hp m
  unfold dichotomy
  rw [e]
  simp only
  split <;> exact fun h => by cases h

/-- **C127** what is returned is a solution within the precision, and it lies between the initial guess and a point
reached by at most `max_loops + 1` steps: downwards if the initial value is too large, upwards if it is too small -/
theorem C127_sound (f : K → K) (x0 yv p dx : K) (m : ℤ) (x y : K) (h : dichotomy f x0 yv p dx m = .found x y) :
    y = f x ∧ |f x - yv| < p ∧ ∃ j : ℕ, (j : ℤ) ≤ max (m + 1) 0 ∧
      (yv < f x0 → x0 - j * |dx| ≤ x ∧ x ≤ x0) ∧ (f x0 < yv → x0 ≤ x ∧ x ≤ x0 + j * |dx|) ∧ (f x0 = yv → x = x0) := by
  have hp : 0 ≤ p := by
    unfold dichotomy at h
    split at h
    · cases h
    · split at h
      · rename_i h'
        exact (abs_nonneg _).trans h'.le
      · cases h
  obtain ⟨z, j, e, h1, h2, h3⟩ := run_spec f x0 yv p dx hp m
  unfold dichotomy at h
  rw [e] at h
  simp only at h
  split at h
  swap
  · cases h
  rename_i hlt
  cases h
  refine ⟨rfl, hlt, j, h1, fun hy => ?_, fun hy => ?_, fun hy => ?_⟩
  · have : sgn (f x0 - yv) = 1 := by unfold sgn; rw [if_pos (sub_pos.mpr hy)]
    rw [this, one_mul] at h2 h3
    have hj : (0 : K) ≤ j * |dx| := mul_nonneg (Nat.cast_nonneg j) (abs_nonneg _)
    rw [min_eq_right (by linarith)] at h2
    rw [max_eq_left (by linarith)] at h3
    exact ⟨h2, h3⟩
  · have : sgn (f x0 - yv) = -1 := by unfold sgn; rw [if_neg (by linarith), if_pos (sub_neg.mpr hy)]
    rw [this] at h2 h3
    have hj : (0 : K) ≤ j * |dx| := mul_nonneg (Nat.cast_nonneg j) (abs_nonneg _)
    rw [min_eq_left (by linarith)] at h2
    rw [max_eq_right (by linarith)] at h3
    exact ⟨h2, by linarith⟩
  · have : sgn (f x0 - yv) = 0 := by unfold sgn; simp [hy]
    rw [this] at h2 h3
    simp only [zero_mul, mul_zero, sub_zero, min_self, max_self] at h2 h3
    exact le_antisymm h3 h2

/-- **C127** the search assumes an increasing function: for a decreasing function it walks away from the solution and fails,
unless the initial guess is already good -/
theorem C127_decreasing (f : K → K) (hf : Antitone f) (x0 yv p dx : K) (hp : 0 ≤ p) (m : ℤ) (hfar : p < |f x0 - yv|) :
    dichotomy f x0 yv p dx m = .failed := by
  obtain ⟨z, j, e, h1, h2, h3⟩ := run_spec f x0 yv p dx hp m
  have hz : |f x0 - yv| ≤ |f z - yv| := by
    have hj : (0 : K) ≤ j * |dx| := mul_nonneg (Nat.cast_nonneg j) (abs_nonneg _)
    rcases sgn_cases (f x0 - yv) with ⟨g, es⟩ | ⟨g, es⟩ | ⟨g, es⟩
    · rw [es, one_mul, max_eq_left (by linarith)] at h3
      have := hf h3
      rw [abs_of_pos g, abs_of_pos (by linarith)]
      linarith
    · rw [es, min_eq_left (by linarith)] at h2
      have := hf h2
      rw [abs_of_neg g, abs_of_neg (by linarith)]
      linarith
    · rw [g, abs_zero]; exact abs_nonneg _
  unfold dichotomy
  rw [e]
  simp only
  rw [if_neg (not_lt.mpr (hfar.le.trans hz))]

/-- **C127** a value at exactly the distance of the precision stops the loops but is not accepted -/
theorem C127_boundary (f : K → K) (x0 yv p dx : K) (m : ℤ) (h : |f x0 - yv| = p) : dichotomy f x0 yv p dx m = .failed := by
  have hs : ∀ k, search f yv p (sgn (f x0 - yv)) |dx| k x0 (f x0) = (x0, f x0, k) := by
    intro k
    cases k with
    | zero => rfl
    | succ k => rw [search, if_neg]; rintro ⟨_, h'⟩; rw [h] at h'; exact lt_irrefl _ h'
  have : run f x0 yv p dx m = some (x0, f x0) := by
    unfold run
    simp only [hs]
    unfold ordered start
    rw [if_neg (lt_irrefl _), if_neg (lt_irrefl _), narrow_stop]
    rw [h]; exact lt_irrefl _
  unfold dichotomy
  rw [this]
  simp only
  rw [h, if_neg (lt_irrefl _)]

section converge

/-- a step of the second loop shrinks the interval by a fixed factor, whichever end is replaced -/
theorem cut_shrinks (yv x1 y1 x2 y2 p D : K) (hx : x1 < x2) (hb : Brackets yv y1 y2) (hp : 0 < p)
    (h1 : p < |y1 - yv|) (h2 : p < |y2 - yv|) (hD1 : |y1 - yv| ≤ D) (hD2 : |y2 - yv| ≤ D) :
    x2 - cut yv x1 y1 x2 y2 ≤ (1 - p / (2 * D)) * (x2 - x1) ∧ cut yv x1 y1 x2 y2 - x1 ≤ (1 - p / (2 * D)) * (x2 - x1) := by
  have hD : 0 < D := hp.trans (h1.trans_le hD1)
  have hl : 0 < x2 - x1 := sub_pos.mpr hx
  have aux : ∀ a b : K, p < a → p < b → a ≤ D → b ≤ D → p / (2 * D) ≤ a / (a + b) := by
    intro a b ha hb ha' hb'
    rw [div_le_div_iff₀ (by linarith) (by linarith)]
    nlinarith
  unfold Brackets at hb
  unfold cut
  rcases mul_neg_iff.mp hb with ⟨g1, g2⟩ | ⟨g1, g2⟩
  · rw [abs_of_pos g1] at h1 hD1
    rw [abs_of_neg g2] at h2 hD2
    have a1 := aux _ _ h1 h2 hD1 hD2
    have a2 := aux _ _ h2 h1 hD2 hD1
    have e : (x2 - x1) * (yv - y1) / (y2 - y1) = (x2 - x1) * ((y1 - yv) / (y1 - yv + -(y2 - yv))) := by
      rw [mul_div_assoc, ← neg_div_neg_eq (yv - y1)]
      congr 2 <;> ring
    have e2 : (y1 - yv) / (y1 - yv + -(y2 - yv)) = 1 - (-(y2 - yv)) / (-(y2 - yv) + (y1 - yv)) := by
      have : y1 - yv + -(y2 - yv) ≠ 0 := by linarith
      rw [add_comm (-(y2 - yv)), eq_sub_iff_add_eq, ← add_div, div_self this]
    rw [e]
    constructor
    · have := mul_le_mul_of_nonneg_left a1 hl.le
      linarith
    · rw [e2]
      have := mul_le_mul_of_nonneg_left a2 hl.le
      linarith
  · rw [abs_of_neg g1] at h1 hD1
    rw [abs_of_pos g2] at h2 hD2
    have a1 := aux _ _ h1 h2 hD1 hD2
    have a2 := aux _ _ h2 h1 hD2 hD1
    have e : (x2 - x1) * (yv - y1) / (y2 - y1) = (x2 - x1) * (-(y1 - yv) / (-(y1 - yv) + (y2 - yv))) := by
      rw [mul_div_assoc]
      congr 2 <;> ring
    have e2 : -(y1 - yv) / (-(y1 - yv) + (y2 - yv)) = 1 - (y2 - yv) / (y2 - yv + -(y1 - yv)) := by
      have : -(y1 - yv) + (y2 - yv) ≠ 0 := by linarith
      rw [add_comm (y2 - yv), eq_sub_iff_add_eq, ← add_div, div_self this]
    rw [e]
    constructor
    · have := mul_le_mul_of_nonneg_left a1 hl.le
      linarith
    · rw [e2]
      have := mul_le_mul_of_nonneg_left a2 hl.le
      linarith

/-- enough loops for an interval of given length -/
theorem narrow_converges (f : K → K) (yv p D δ A B : K) (hp : 0 < p) (hD : ∀ x, A ≤ x → x ≤ B → |f x - yv| ≤ D)
    (hδ : ∀ x y, A ≤ x → x ≤ B → A ≤ y → y ≤ B → |x - y| < δ → |f x - f y| < 2 * p) :
    ∀ (L k : ℕ) (x1 x2 x : K), A ≤ x1 → x2 ≤ B → x1 < x2 →
      (|f x - yv| > p → Brackets yv (f x1) (f x2) ∧ p < |f x1 - yv| ∧ p < |f x2 - yv|) →
      (1 - p / (2 * D)) ^ L * (x2 - x1) < δ → L ≤ k →
      ∃ z w, narrow f yv p k x1 (f x1) x2 (f x2) x (f x) = some (z, w) ∧ |w - yv| ≤ p := by
  intro L
  induction L with
  | zero =>
    intro k x1 x2 x hA hB hx hb hl _
    have : ¬ |f x - yv| > p := by
      intro h
      obtain ⟨hb, h1, h2⟩ := hb h
      rw [pow_zero, one_mul] at hl
      have := hδ x1 x2 hA (hx.le.trans hB) (hA.trans hx.le) hB (by rw [abs_sub_comm, abs_of_pos (sub_pos.mpr hx)]; exact hl)
      rcases mul_neg_iff.mp hb with ⟨g1, g2⟩ | ⟨g1, g2⟩
      · rw [abs_of_pos g1] at h1
        rw [abs_of_neg g2] at h2
        have := (abs_lt.mp this).2
        linarith
      · rw [abs_of_neg g1] at h1
        rw [abs_of_pos g2] at h2
        have := (abs_lt.mp this).1
        linarith
    exact ⟨x, f x, narrow_stop _ _ _ _ _ _ _ _ _ _ this, not_lt.mp this⟩
  | succ L ih =>
    intro k x1 x2 x hA hB hx hb hl hk
    obtain ⟨k, rfl⟩ : ∃ k', k = k' + 1 := ⟨k - 1, by omega⟩
    by_cases hc : |f x - yv| > p
    swap
    · exact ⟨x, f x, narrow_stop _ _ _ _ _ _ _ _ _ _ hc, not_lt.mp hc⟩
    obtain ⟨hbr, h1, h2⟩ := hb hc
    have d1 := hD x1 hA (hx.le.trans hB)
    have d2 := hD x2 (hA.trans hx.le) hB
    obtain ⟨s1, s2⟩ := cut_shrinks yv x1 (f x1) x2 (f x2) p D hx hbr hp h1 h2 d1 d2
    obtain ⟨c1, c2⟩ := cut_between yv x1 (f x1) x2 (f x2) hx hbr
    have hDpos : 0 < D := hp.trans (h1.trans_le d1)
    have hρ : 0 ≤ 1 - p / (2 * D) := by
      rw [sub_nonneg, div_le_one (by linarith)]
      linarith
    have hpow : ∀ w, w ≤ (1 - p / (2 * D)) * (x2 - x1) → (1 - p / (2 * D)) ^ L * w < δ := by
      intro w hw
      refine lt_of_le_of_lt (mul_le_mul_of_nonneg_left hw (pow_nonneg hρ L)) ?_
      rwa [← mul_assoc, ← pow_succ]
    rw [narrow, if_pos hc, if_neg (brackets_ne hbr)]
    simp only
    generalize cut yv x1 (f x1) x2 (f x2) = c at *
    split
    · rename_i hs
      refine ih k c x2 c (hA.trans c1.le) hB c2 (fun hcc => ⟨?_, hcc, h2⟩) (hpow _ s1) (by omega)
      unfold Brackets at *
      rcases mul_neg_iff.mp hbr with ⟨g1, g2⟩ | ⟨g1, g2⟩
      · exact mul_neg_of_pos_of_neg ((mul_pos_iff_of_pos_left g1).mp hs) g2
      · exact mul_neg_of_neg_of_pos (neg_of_mul_pos_right hs g1.le) g2
    · rename_i hs
      refine ih k x1 c c hA (c2.le.trans hB) c1 (fun hcc => ⟨?_, h1, hcc⟩) (hpow _ s2) (by omega)
      unfold Brackets at *
      refine lt_of_le_of_ne (not_lt.mp hs) (fun h0 => ?_)
      rcases mul_eq_zero.mp h0 with h0 | h0
      · rw [h0, zero_mul] at hbr; exact lt_irrefl _ hbr
      · rw [h0, abs_zero] at hcc; exact absurd hcc (not_lt.mpr hp.le)

/-- the second loop converges for a continuous function -/
theorem ordered_converges (f : ℝ → ℝ) (hf : Continuous f) (yv p : ℝ) (hp : 0 < p) (x1 x2 : ℝ)
    (hr : |f x1 - yv| ≤ p ∨ |f x2 - yv| ≤ p ∨ Brackets yv (f x1) (f x2)) :
    ∃ L, ∀ k ≥ L, ∃ z w, ordered f yv p k x1 (f x1) x2 (f x2) = some (z, w) ∧ |w - yv| ≤ p := by
  have key : ∀ x1 x2 : ℝ, x1 ≤ x2 → (|f x1 - yv| ≤ p ∨ |f x2 - yv| ≤ p ∨ Brackets yv (f x1) (f x2)) →
      ∃ L, ∀ k ≥ L, ∃ z w, start f yv p k x1 (f x1) x2 (f x2) = some (z, w) ∧ |w - yv| ≤ p := by
    intro x1 x2 hx hr
    by_cases hnear : |f x1 - yv| ≤ p ∨ |f x2 - yv| ≤ p
    · refine ⟨0, fun k _ => ?_⟩
      unfold start
      split
      · rename_i h
        have : |f x1 - yv| ≤ p := by
          rcases hnear with h' | h'
          · exact h'
          · exact h.le.trans h'
        exact ⟨x1, f x1, narrow_stop _ _ _ _ _ _ _ _ _ _ (not_lt.mpr this), this⟩
      · rename_i h
        have : |f x2 - yv| ≤ p := by
          rcases hnear with h' | h'
          · exact (not_lt.mp h).trans h'
          · exact h'
        exact ⟨x2, f x2, narrow_stop _ _ _ _ _ _ _ _ _ _ (not_lt.mpr this), this⟩
    · have hn := not_or.mp hnear
      have hb : Brackets yv (f x1) (f x2) := by
        rcases hr with h | h | h
        · exact absurd h hn.1
        · exact absurd h hn.2
        · exact h
      have hlt : x1 < x2 := by
        refine lt_of_le_of_ne hx ?_
        rintro rfl
        exact brackets_ne hb (sub_self _)
      have hc : IsCompact (Set.Icc x1 x2) := isCompact_Icc
      obtain ⟨D, hD⟩ := hc.exists_bound_of_continuousOn (f := fun x => f x - yv) (by fun_prop)
      have hD' : ∀ x, x1 ≤ x → x ≤ x2 → |f x - yv| ≤ D := fun x h1 h2 => hD x ⟨h1, h2⟩
      have hu := hc.uniformContinuousOn_of_continuous hf.continuousOn
      rw [Metric.uniformContinuousOn_iff] at hu
      obtain ⟨δ, hδ, hu⟩ := hu (2 * p) (by linarith)
      have hDpos : 0 < D := hp.trans ((not_le.mp hn.1).trans_le (hD' x1 (le_refl _) hx))
      have hpD : p < D := (not_le.mp hn.1).trans_le (hD' x1 (le_refl _) hx)
      have hq0 : 0 ≤ 1 - p / (2 * D) := by
        rw [sub_nonneg, div_le_one (by linarith)]
        linarith
      have hq1 : 1 - p / (2 * D) < 1 := by
        have : 0 < p / (2 * D) := by positivity
        linarith
      obtain ⟨L, hL⟩ := exists_pow_lt_of_lt_one (div_pos hδ (sub_pos.mpr hlt)) hq1
      rw [lt_div_iff₀ (sub_pos.mpr hlt)] at hL
      refine ⟨L, fun k hk => ?_⟩
      have h3 : ∀ x, |f x - yv| > p → Brackets yv (f x1) (f x2) ∧ p < |f x1 - yv| ∧ p < |f x2 - yv| :=
        fun _ _ => ⟨hb, not_le.mp hn.1, not_le.mp hn.2⟩
      have hdist : ∀ x y, x1 ≤ x → x ≤ x2 → x1 ≤ y → y ≤ x2 → |x - y| < δ → |f x - f y| < 2 * p :=
        fun x y a1 a2 a3 a4 a5 => hu x ⟨a1, a2⟩ y ⟨a3, a4⟩ a5
      unfold start
      split
      · exact narrow_converges f yv p D δ x1 x2 hp hD' hdist L k x1 x2 x1 (le_refl _) (le_refl _) hlt (h3 _) hL hk
      · exact narrow_converges f yv p D δ x1 x2 hp hD' hdist L k x1 x2 x2 (le_refl _) (le_refl _) hlt (h3 _) hL hk
  unfold ordered
  split
  · rename_i h
    refine key x2 x1 (le_of_lt h) ?_
    rcases hr with h | h | h
    · exact Or.inr (Or.inl h)
    · exact Or.inl h
    · exact Or.inr (Or.inr (by unfold Brackets at *; rwa [mul_comm]))
  · rename_i h
    exact key x1 x2 (not_lt.mp h) hr

theorem search_stable (f : ℝ → ℝ) (yv p eps dx : ℝ) : ∀ (j : ℕ) (x2 : ℝ),
    ¬ ((f (x2 - j * (eps * dx)) - yv) * eps > 0 ∧ |f (x2 - j * (eps * dx)) - yv| > p) →
    ∃ i ≤ j, ∀ k, search f yv p eps dx (k + i + 1) x2 (f x2) = (x2 - i * (eps * dx), f (x2 - i * (eps * dx)), k + 1) ∧
      ¬ ((f (x2 - i * (eps * dx)) - yv) * eps > 0 ∧ |f (x2 - i * (eps * dx)) - yv| > p)
  | 0, x2, h => ⟨0, le_refl _, fun k => ⟨by
      rw [search, if_neg (by simpa using h)]; simp, h⟩⟩
  | j + 1, x2, h => by
    by_cases h0 : (f x2 - yv) * eps > 0 ∧ |f x2 - yv| > p
    · have e : ∀ i : ℕ, x2 - eps * dx - i * (eps * dx) = x2 - ((i + 1 : ℕ) : ℝ) * (eps * dx) := by
        intro i; push_cast; ring
      obtain ⟨i, hi, hs⟩ := search_stable f yv p eps dx j (x2 - eps * dx) (by rw [e]; exact h)
      refine ⟨i + 1, by omega, fun k => ?_⟩
      obtain ⟨s1, s2⟩ := hs k
      rw [e] at s1 s2
      refine ⟨?_, s2⟩
      rw [show k + (i + 1) + 1 = (k + i + 1) + 1 by ring, search, if_pos h0, s1]
    · exact ⟨0, Nat.zero_le _, fun k => ⟨by rw [search, if_neg h0]; simp, by simpa using h0⟩⟩

/-- **C127** convergence: if the function is continuous and some number of steps from the initial guess reaches or passes
the target, then with enough loops the point found has the target value within the precision. (It is then returned, unless
it is at exactly the distance of the precision, see `C127_boundary`.) -/
theorem C127_converges (f : ℝ → ℝ) (hf : Continuous f) (x0 yv p dx : ℝ) (hp : 0 < p) (j : ℕ)
    (hj : (f x0 ≤ yv → yv ≤ f (x0 + j * |dx|)) ∧ (yv ≤ f x0 → f (x0 - j * |dx|) ≤ yv)) :
    ∃ L : ℤ, ∀ m ≥ L, ∃ x, |f x - yv| ≤ p ∧
      dichotomy f x0 yv p dx m = if |f x - yv| < p then .found x (f x) else .failed := by
  obtain ⟨i, hi, hs⟩ := search_stable f yv p (sgn (f x0 - yv)) |dx| j x0 (by
    rintro ⟨h1, h2⟩
    rcases sgn_cases (f x0 - yv) with ⟨g, e⟩ | ⟨g, e⟩ | ⟨g, e⟩
    · rw [e, mul_one, one_mul] at h1
      have := hj.2 (by linarith)
      linarith
    · rw [e] at h1
      have := hj.1 (by linarith)
      rw [show x0 - (j : ℝ) * (-1 * |dx|) = x0 + j * |dx| by ring] at h1
      linarith
    · rw [e, mul_zero] at h1
      exact lt_irrefl _ h1)
  obtain ⟨L, hL⟩ := ordered_converges f hf yv p hp x0 (x0 - i * (sgn (f x0 - yv) * |dx|)) (by
    have := search_ready f yv p |dx| x0 hp.le (0 + i + 1)
    rw [(hs 0).1] at this
    rcases this with h | h
    · simp at h
    · exact h)
  refine ⟨L + i, fun m hm => ?_⟩
  obtain ⟨k, hk⟩ : ∃ k : ℕ, (m + 1).toNat = k + i + 1 := ⟨(m + 1).toNat - (i + 1), by omega⟩
  obtain ⟨z, w, e, hz⟩ := hL (k + 1) (by omega)
  obtain ⟨z', j', e', _⟩ := run_spec f x0 yv p dx hp.le m
  have er : run f x0 yv p dx m = some (z, w) := by
    unfold run
    simp only [hk, (hs k).1]
    exact e
  rw [er] at e'
  cases e'
  refine ⟨z, hz, ?_⟩
  unfold dichotomy
  rw [er]

end converge

/-! ### determine_bounds -/

theorem seek_some (test : K → Bool) (step : K) : ∀ (k : ℕ) (x a : K), seek test step k x = some a →
    test a = true ∧ ∃ j ≤ k, a = x + j * step
  | 0, x, a, h => by
    rw [seek] at h
    split at h
    · cases h; exact ⟨by assumption, 0, le_refl _, by simp⟩
    · cases h
  | k + 1, x, a, h => by
    rw [seek] at h
    split at h
    · cases h; exact ⟨by assumption, 0, Nat.zero_le _, by simp⟩
    · obtain ⟨h1, j, hj, e⟩ := seek_some test step k _ a h
      exact ⟨h1, j + 1, by omega, by rw [e]; push_cast; ring⟩

theorem seek_none (test : K → Bool) (step : K) : ∀ (k : ℕ) (x : K), seek test step k x = none ↔
    ∀ j ≤ k, test (x + (j : ℕ) * step) = false
  | 0, x => by
    rw [seek]
    constructor
    · intro h j hj
      split at h
      · cases h
      · have : j = 0 := by omega
        subst this
        simpa using ‹¬ test x = true›
    · intro h
      have := h 0 (le_refl _)
      simp at this
      simp [this]
  | k + 1, x => by
    rw [seek]
    by_cases ht : test x = true
    · rw [if_pos ht]
      simp only [reduceCtorEq, false_iff]
      intro h
      have := h 0 (Nat.zero_le _)
      simp [ht] at this
    · rw [if_neg ht, seek_none test step k]
      constructor
      · intro h j hj
        cases j with
        | zero => simpa using ht
        | succ j =>
          have := h j (by omega)
          rwa [show x + step + j * step = x + ((j + 1 : ℕ) : K) * step by push_cast; ring] at this
      · intro h j hj
        have := h (j + 1) (by omega)
        rwa [show x + ((j + 1 : ℕ) : K) * step = x + step + j * step by push_cast; ring] at this

/-- the direction chosen by the code -/
def dir (F : K → K) (x0 dx : K) : K := if F (x0 + dx) - F x0 < 0 then dx * (-1) else dx

/-- **C128** the bounds have values of opposite sign and are whole numbers of steps, at most `maxiter`, away from the guess,
on opposite sides of it -/
theorem C128_sound (F : K → K) (x0 dx : K) (m : ℤ) (a b : K) (h : determineBounds F x0 dx m = some (a, b)) :
    F a < 0 ∧ 0 < F b ∧ ∃ i j : ℕ, (i : ℤ) ≤ max m 0 ∧ (j : ℤ) ≤ max m 0 ∧
      ((a = x0 - i * dx ∧ b = x0 + j * dx) ∨ (a = x0 + i * dx ∧ b = x0 - j * dx)) := by
  unfold determineBounds at h
  simp only at h
  split at h
  · cases h
  rename_i a' ha
  split at h
  · cases h
  rename_i b' hb
  cases h
  obtain ⟨h1, i, hi, e1⟩ := seek_some _ _ _ _ _ ha
  obtain ⟨h2, j, hj, e2⟩ := seek_some _ _ _ _ _ hb
  refine ⟨of_decide_eq_true h1, of_decide_eq_true h2, i, j, by omega, by omega, ?_⟩
  split at e1
  · rename_i hc
    rw [if_pos hc] at e2
    exact Or.inr ⟨by rw [e1]; ring, by rw [e2]; ring⟩
  · rename_i hc
    rw [if_neg hc] at e2
    exact Or.inl ⟨by rw [e1]; ring, e2⟩

/-- **C128** so that a continuous function has a zero between the bounds -/
theorem C128_zero (F : ℝ → ℝ) (hF : Continuous F) (x0 dx : ℝ) (m : ℤ) (a b : ℝ)
    (h : determineBounds F x0 dx m = some (a, b)) : ∃ x ∈ Set.uIcc a b, F x = 0 := by
  obtain ⟨h1, h2, _⟩ := C128_sound F x0 dx m a b h
  have := intermediate_value_uIcc (hF.continuousOn (s := Set.uIcc a b))
  obtain ⟨x, hx, e⟩ := this (by rw [Set.uIcc_of_le (h1.le.trans h2.le)]; exact ⟨h1.le, h2.le⟩ : (0 : ℝ) ∈ Set.uIcc (F a) (F b))
  exact ⟨x, hx, e⟩

theorem determine_iff (F : K → K) (x0 dx : K) (m : ℤ) : (∃ a b, determineBounds F x0 dx m = some (a, b)) ↔
    (∃ i : ℕ, i ≤ m.toNat ∧ F (x0 - i * dir F x0 dx) < 0) ∧ ∃ j : ℕ, j ≤ m.toNat ∧ 0 < F (x0 + j * dir F x0 dx) := by
  have n1 := seek_none (fun x => decide (F x < 0)) (-dir F x0 dx) m.toNat x0
  have n2 := seek_none (fun x => decide (F x > 0)) (dir F x0 dx) m.toNat x0
  simp only [decide_eq_false_iff_not, mul_neg, ← sub_eq_add_neg] at n1 n2
  have e : determineBounds F x0 dx m = match seek (fun x => decide (F x < 0)) (-dir F x0 dx) m.toNat x0 with
    | none => none
    | some a => match seek (fun x => decide (F x > 0)) (dir F x0 dx) m.toNat x0 with
      | none => none
      | some b => some (a, b) := rfl
  rw [e]
  cases h1 : seek (fun x => decide (F x < 0)) (-dir F x0 dx) m.toNat x0 with
  | none =>
    have := n1.mp h1
    simp only [reduceCtorEq, exists_false, false_iff]
    rintro ⟨⟨i, hi, h⟩, _⟩
    exact this i hi h
  | some a =>
    have e1 : ∃ i : ℕ, i ≤ m.toNat ∧ F (x0 - i * dir F x0 dx) < 0 := by
      by_contra hc
      have : seek (fun x => decide (F x < 0)) (-dir F x0 dx) m.toNat x0 = none :=
        n1.mpr (fun j hj h => hc ⟨j, hj, h⟩)
      rw [h1] at this
      cases this
    cases h2 : seek (fun x => decide (F x > 0)) (dir F x0 dx) m.toNat x0 with
    | none =>
      have := n2.mp h2
      simp only [reduceCtorEq, exists_false, false_iff]
      rintro ⟨_, ⟨i, hi, h⟩⟩
      exact this i hi h
    | some b =>
      have e2 : ∃ j : ℕ, j ≤ m.toNat ∧ 0 < F (x0 + j * dir F x0 dx) := by
        by_contra hc
        have : seek (fun x => decide (F x > 0)) (dir F x0 dx) m.toNat x0 = none :=
          n2.mpr (fun j hj h => hc ⟨j, hj, h⟩)
        rw [h2] at this
        cases this
      simp only [Option.some.injEq, Prod.mk.injEq]
      exact ⟨fun _ => ⟨e1, e2⟩, fun _ => ⟨a, b, rfl, rfl⟩⟩

/-- **C128** for a strictly monotonic function, rising or falling, and a step of either sign, bounds are found exactly if
the function changes its sign within `maxiter` steps on both sides -/
theorem C128_complete (F : K → K) (hF : StrictMono F ∨ StrictAnti F) (x0 dx : K) (hdx : dx ≠ 0) (m : ℕ) :
    (∃ a b, determineBounds F x0 dx m = some (a, b)) ↔
      F (x0 - m * |dx|) * F (x0 + m * |dx|) < 0 := by
  have hm : (0 : K) ≤ m := Nat.cast_nonneg m
  have hpos : 0 < |dx| := abs_pos.mpr hdx
  rw [determine_iff]
  simp only [Int.toNat_natCast]
  rcases hF with hF | hF
  · have hd : dir F x0 dx = |dx| := by
      unfold dir
      rcases lt_or_gt_of_ne hdx with h | h
      · rw [if_pos (sub_neg.mpr (hF (by linarith))), abs_of_neg h]; ring
      · rw [if_neg (not_lt.mpr (sub_nonneg.mpr (hF (by linarith)).le)), abs_of_pos h]
    rw [hd]
    have mono : F (x0 - m * |dx|) ≤ F (x0 + m * |dx|) := hF.monotone (by nlinarith)
    constructor
    · rintro ⟨⟨i, hi, h1⟩, ⟨j, hj, h2⟩⟩
      have hi' : (i : K) ≤ m := by exact_mod_cast hi
      have hj' : (j : K) ≤ m := by exact_mod_cast hj
      refine mul_neg_of_neg_of_pos (lt_of_le_of_lt (hF.monotone ?_) h1) (lt_of_lt_of_le h2 (hF.monotone ?_)) <;> nlinarith
    · intro h
      rcases mul_neg_iff.mp h with ⟨g1, g2⟩ | ⟨g1, g2⟩
      · exact absurd mono (not_le.mpr (g2.trans g1))
      · exact ⟨⟨m, le_refl _, g1⟩, ⟨m, le_refl _, g2⟩⟩
  · have hd : dir F x0 dx = -|dx| := by
      unfold dir
      rcases lt_or_gt_of_ne hdx with h | h
      · rw [if_neg (not_lt.mpr (sub_nonneg.mpr (hF (by linarith)).le)), abs_of_neg h]; ring
      · rw [if_pos (sub_neg.mpr (hF (by linarith))), abs_of_pos h]; ring
    rw [hd]
    simp only [mul_neg, sub_neg_eq_add, ← sub_eq_add_neg]
    have anti : F (x0 + m * |dx|) ≤ F (x0 - m * |dx|) := hF.antitone (by nlinarith)
    constructor
    · rintro ⟨⟨i, hi, h1⟩, ⟨j, hj, h2⟩⟩
      have hi' : (i : K) ≤ m := by exact_mod_cast hi
      have hj' : (j : K) ≤ m := by exact_mod_cast hj
      refine mul_neg_of_pos_of_neg (lt_of_lt_of_le h2 (hF.antitone ?_)) (lt_of_le_of_lt (hF.antitone ?_) h1) <;> nlinarith
    · intro h
      rcases mul_neg_iff.mp h with ⟨g1, g2⟩ | ⟨g1, g2⟩
      · exact ⟨⟨m, le_refl _, g2⟩, ⟨m, le_refl _, g1⟩⟩
      · exact absurd anti (not_le.mpr (g1.trans g2))

/-- **C128** a plateau at the guess hides the direction: a decreasing function which is constant over the first step is taken
for increasing, and no bounds are found however many steps are allowed -/
theorem C128_plateau (F : K → K) (hF : Antitone F) (x0 dx : K) (hdx : 0 < dx) (hflat : F (x0 + dx) = F x0) (h0 : F x0 ≠ 0)
    (m : ℤ) : determineBounds F x0 dx m = none := by
  have hd : dir F x0 dx = dx := by unfold dir; simp [hflat]
  cases h : determineBounds F x0 dx m with
  | none => rfl
  | some ab =>
    obtain ⟨⟨i, _, h1⟩, ⟨j, _, h2⟩⟩ := (determine_iff F x0 dx m).mp ⟨ab.1, ab.2, h⟩
    rw [hd] at h1 h2
    have hi : (0 : K) ≤ i * dx := mul_nonneg (Nat.cast_nonneg i) hdx.le
    have hj : (0 : K) ≤ j * dx := mul_nonneg (Nat.cast_nonneg j) hdx.le
    have a1 : F x0 ≤ F (x0 - i * dx) := hF (by linarith)
    have a2 : F (x0 + j * dx) ≤ F x0 := hF (by linarith)
    linarith

/-! ### Examples -/

/-- the cube root of 20: two steps up, then cuts -/
example : (match dichotomy (fun x : ℚ => x * x * x) 1 20 (1 / 2) 1 100 with | .found x _ => some x | _ => none)
    = some (947673080 / 349460341) := by
  decide +kernel

/-- a decreasing function -/
example : dichotomy (fun x : ℚ => -x) 1 (-5) (1 / 2) 1 1000 = .failed :=
  C127_decreasing _ (fun _ _ h => neg_le_neg h) _ _ _ _ (by norm_num) _ (by norm_num [abs_of_pos])

/-- an exact solution is refused with the precision 0 -/
example : dichotomy (fun x : ℚ => x) 3 3 0 1 1000 = .failed := C127_boundary _ _ _ _ _ _ (by norm_num)

example : determineBounds (fun x : ℚ => 7 - 2 * x) 0 1 10 = some (4, 0) := by decide +kernel

/-- a decreasing function with a plateau -/
example : determineBounds (fun x : ℚ => if x ≤ 1 then 1 else -1) 0 1 1000 = none :=
  C128_plateau _ (fun a b h => by
    split_ifs
    · exact le_refl _
    · linarith
    · norm_num
    · exact le_refl _) _ _ (by norm_num) (by norm_num) (by norm_num) _

end Verif.RootFinding
