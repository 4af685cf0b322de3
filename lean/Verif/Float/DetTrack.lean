import Verif.Float.Relative
import Mathlib.Algebra.BigOperators.Group.List.Basic
import Mathlib.Tactic.LinearCombination

/-!
# The determinant kept by `det_manip` in double precision

C19 to C24 are about a field, where the determinant that is kept is the determinant of the matrix. In the machine it is a product that is rounded once for every accepted
operation, and the ratios returned to the user are not divided by it. Here the kept determinant and the ratios are followed for `value_type = double`. The number by
which an operation multiplies the determinant (`ksi`), the determinant of nda (LAPACK) and the outcome of a regeneration are arbitrary doubles: nothing is assumed of
the inverse matrix that is kept.

Source: `/repo/c++/triqs/det_manip/det_manip.hpp` (336-345, 392-395, 441-456, 494-497, 509-512, 528-531, 543-546, 649-652, 668-673, 751-755, 760-763, 842-848, 854-857, 932-937, 979-983,
1042-1046, 1099-1103, 1114-1117, 1126-1131, 1148-1203, 1214-1233, 1321-1354). The state is the part of the object that these lines use. An operation that is tried and rejected changes nothing of it
(C20). The comparison of the two inverses in a check, which may throw, is part of the arbitrary outcome of the regeneration.
-/

namespace Verif.DetDouble

open Binary64

/-! ## Model -/

/-- members `N`, `det`, `sign`, `n_opts`, `n_opts_max_before_check`, det_manip.hpp:61-62, 78-81 -/
structure St where
  n : ℕ
  det : ℚ
  sign : ℤ
  nopts : ℕ
  nmax : ℕ
deriving DecidableEq, Repr

/-- accepted operations; `sum` is the sum of the positions of rows and columns, `ksi` the number computed from the inverse matrix -/
inductive Op where
  /-- insertion of `k` rows and columns, det_manip.hpp:480-547, 610-674 -/
  | insert (k sum : ℕ) (ksi : ℚ)
  /-- removal of `k` rows and columns, det_manip.hpp:739-756, 812-849 -/
  | remove (k sum : ℕ) (ksi : ℚ)
  /-- new values of a row, of a column or of both, det_manip.hpp:917-938, 964-984, 1009-1047 -/
  | change (ksi : ℚ)
  /-- a new matrix of `n` rows with determinant `d`, det_manip.hpp:1091-1118 -/
  | refill (n : ℕ) (d : ℚ)
  /-- exchange of two different rows or columns, det_manip.hpp:441-456 -/
  | swap
  /-- rotation of the rows or of the columns, det_manip.hpp:1321-1354 -/
  | roll
deriving DecidableEq, Repr

/-- the outcome of a regeneration, if one is made: the determinant of nda and that of the permutations, or an exception -/
abbrev Fresh := Option (ℚ × ℚ)

/-- not `std::isnormal(std::abs(det))`, det_manip.hpp:1203, with the default `singular_threshold`; finite numbers only -/
def singular (d : ℚ) : Bool := decide (|d| < 2 ^ (-1022 : ℤ))

/-- `_regenerate_with_check`, det_manip.hpp:1148-1198 -/
def regenerate (s : St) (f : Fresh) : Option St :=
  if s.n = 0 then some { s with det := 1, sign := 1 }
  else match f with
    | none => none
    | some (d, p) => if singular d then none else some { s with det := d, sign := if 0 < p then 1 else -1, nopts := 0 }

/-- end of `complete_operation`, det_manip.hpp:1228-1232 -/
def finish (s : St) (newdet : ℚ) (newsign : ℤ) (f : Fresh) : Option St :=
  let s' := { s with det := newdet, sign := newsign, nopts := s.nopts + 1 }
  if s'.nmax < s'.nopts then regenerate s' f else some s'

/-- `clear`, det_manip.hpp:336-345 -/
def clear (s : St) : St := { s with n := 0, sign := 1, det := 1 }

/-- the sign after an insertion or a removal, det_manip.hpp:511, 672, 754, 846 -/
def newsign (s : St) (sum : ℕ) : ℤ := if sum % 2 = 0 then s.sign else -s.sign

/-- an operation that is tried and accepted: the state after it and the number returned by the try (by the operation itself for `roll`; `swap` returns nothing, the sign is
written here); `none` for an infinite result, a division by zero, an exception or a failing assertion -/
def step (s : St) : Op × Fresh → Option (St × ℚ)
  | (.insert k sum ksi, f) =>
    if k = 0 then none
    else if s.n = 0 then (finish { s with n := k } ksi 1 f).map fun s' => (s', ksi)
    else match fin (s.det * ksi) with
      | none => none
      | some d => (finish { s with n := s.n + k } d (newsign s sum) f).map fun s' => (s', ksi * ((newsign s sum * s.sign : ℤ) : ℚ))
  | (.remove k sum ksi, f) =>
    if k = 0 ∨ s.n < k then none
    else match fin (s.det * ksi) with
      | none => none
      | some d => (finish (if s.n = k then clear s else { s with n := s.n - k }) d (newsign s sum) f).map fun s' => (s', ksi * ((newsign s sum * s.sign : ℤ) : ℚ))
  | (.change ksi, f) =>
    if s.n = 0 then none
    else match fin (s.det * ksi) with
      | none => none
      | some d => (finish s d s.sign f).map fun s' => (s', ksi)
  | (.refill n d, f) =>
    if s.det = 0 then none
    else match fin ((if n = 0 then 1 else d) / (s.sign * s.det)) with
      | none => none
      | some r => (finish (if n = 0 then clear s else { s with n := n }) (if n = 0 then 1 else d) 1 f).map fun s' => (s', r)
  | (.swap, _) => if s.n < 2 then none else some ({ s with sign := -s.sign }, -1)
  | (.roll, _) =>
    if s.n = 0 then none
    else if (s.n - 1) % 2 = 1 then some ({ s with sign := -s.sign }, -1) else some (s, 1)

/-- `determinant`, det_manip.hpp:392-395: the value and the state after the call -/
def determinant (s : St) (f : Fresh) : Option (ℚ × St) :=
  if singular s.det then (regenerate s f).map fun s' => (s'.sign * s'.det, s') else some (s.sign * s.det, s)

/-! ## Specification -/

/-- the kept determinant of the matrix in the order of the user -/
def value (s : St) : ℚ := s.sign * s.det

/-- what `is_singular` tests: the kept determinant is not zero and not subnormal -/
def Normal (s : St) : Prop := (2 : ℚ) ^ (-1022 : ℤ) ≤ |s.det|

/-- the operation multiplies the kept determinant: nothing is inserted into the empty matrix, the matrix is not replaced, and the check is not due -/
def Carries (s : St) : Op → Prop
  | .insert _ _ _ => s.n ≠ 0 ∧ s.nopts < s.nmax
  | .remove _ _ _ => s.nopts < s.nmax
  | .change _ => s.nopts < s.nmax
  | .refill _ _ => False
  | .swap => True
  | .roll => True

/-- number of roundings of the kept determinant in an operation -/
def cost : Op → ℕ
  | .swap => 0
  | .roll => 0
  | _ => 1

/-- a history of operations through states that are not singular, with the ratios of the operations -/
inductive Reach (s₀ : St) : List ℚ → St → Prop
  | nil : Normal s₀ → Reach s₀ [] s₀
  | snoc {rs : List ℚ} {s s' : St} {r : ℚ} {x : Op × Fresh} : Reach s₀ rs s → step s x = some (s', r) → Normal s' → Reach s₀ (rs ++ [r]) s'

/-- a history of operations that multiply the determinant, with the number of roundings -/
inductive Carried (m : St) : List ℚ → ℕ → St → Prop
  | nil : Normal m → Carried m [] 0 m
  | snoc {rs : List ℚ} {k : ℕ} {s s' : St} {r : ℚ} {x : Op × Fresh} :
    Carried m rs k s → step s x = some (s', r) → Carries s x.1 → Normal s' → Carried m (rs ++ [r]) (k + cost x.1) s'

/-! ## Proofs -/

theorem rnd_abs (x : ℚ) : |rnd x| = rnd |x| := by
  rcases le_total 0 x with h | h
  · rw [abs_of_nonneg h, abs_of_nonneg (rnd_nonneg h)]
  · have : rnd x ≤ 0 := by have := rnd_nonneg (neg_nonneg.2 h); rw [rnd_neg] at this; linarith
    rw [abs_of_nonpos h, abs_of_nonpos this, rnd_neg]

/-- a result that is not subnormal has a small relative error, even if the exact one is just below -/
theorem rel_rnd_of_result {x : ℚ} (h : (2 : ℚ) ^ (-1022 : ℤ) ≤ rnd x) : Rel 1 x (rnd x) := by
  by_cases hx : (2 : ℚ) ^ (-1022 : ℤ) ≤ x
  · exact rel_rnd hx
  · have hlt := lt_of_not_ge hx
    have h0 : 0 < x := by
      by_contra hn
      have := rnd_le rep_zero (not_lt.1 hn)
      exact absurd (lt_of_lt_of_le (two_zpow_pos (-1022)) h) (not_lt.2 this)
    have hup : rnd x ≤ 2 ^ (-1022 : ℤ) := rnd_le (rep_zpow (by norm_num)) hlt.le
    have heq : rnd x = 2 ^ (-1022 : ℤ) := le_antisymm hup h
    have hlog : Int.log 2 x < -1022 := by
      have := lt_of_le_of_lt (log_le h0) hlt
      exact two_zpow_lt_iff.1 this
    have he : expo x = -1074 := by
      unfold expo
      rw [abs_of_pos h0]
      exact max_eq_left (by omega)
    have herr := rnd_err x
    rw [he, heq, abs_le] at herr
    have e1 : (2 : ℚ) ^ (-1074 : ℤ) / 2 = 2 ^ (-1022 : ℤ) * (1 / 9007199254740992) := by
      rw [show (-1074 : ℤ) = -1022 + -52 by norm_num, two_zpow_add]
      norm_num
      ring
    rw [e1] at herr
    rw [heq]
    generalize (2 : ℚ) ^ (-1022 : ℤ) = t at *
    unfold Rel c53
    constructor
    · have : x * (1 - 1 / 9007199254740992) ≤ x * 1 := mul_le_mul_of_nonneg_left (by norm_num) h0.le
      rw [pow_one]
      linarith
    · rw [pow_one]
      linarith [herr.2]

theorem sign_rnd {x : ℚ} (h : rnd x ≠ 0) : 0 < x * rnd x := by
  rcases lt_trichotomy x 0 with hx | hx | hx
  · have : rnd x ≤ 0 := rnd_le rep_zero hx.le
    exact mul_pos_of_neg_of_neg hx (lt_of_le_of_ne this h)
  · subst hx
    exact absurd rnd_zero h
  · exact mul_pos hx (lt_of_le_of_ne (rnd_nonneg hx.le) (Ne.symm h))

theorem normal_ne {s : St} (h : Normal s) : s.det ≠ 0 := by
  intro h0
  unfold Normal at h
  rw [h0, abs_zero] at h
  exact absurd (two_zpow_pos (-1022)) (not_lt.2 h)

/-- the sign is `1` or `-1` -/
def Unit (s : St) : Prop := s.sign = 1 ∨ s.sign = -1

theorem unit_abs {s : St} (h : Unit s) : |value s| = |s.det| := by
  unfold value
  rcases h with h | h <;> rw [h] <;> simp

theorem unit_sq {s : St} (h : Unit s) : (s.sign : ℚ) * s.sign = 1 := by rcases h with h | h <;> rw [h] <;> norm_num

theorem newsign_unit {s : St} (h : Unit s) (sum : ℕ) : newsign s sum = 1 ∨ newsign s sum = -1 := by
  unfold newsign Unit at *
  split <;> omega

theorem regenerate_unit {s s' : St} {f : Fresh} (h : regenerate s f = some s') : Unit s' := by
  unfold regenerate at h
  split at h
  · cases h
    exact Or.inl rfl
  · split at h
    · cases h
    · split at h
      · cases h
      · cases h
        unfold Unit
        simp only
        split <;> simp

theorem regenerate_nopts {s s' : St} {f : Fresh} (h : regenerate s f = some s') : s'.nmax = s.nmax := by
  unfold regenerate at h
  split at h
  · cases h
    rfl
  · split at h
    · cases h
    · split at h
      · cases h
      · cases h
        rfl

theorem finish_unit {s s' : St} {d : ℚ} {g : ℤ} {f : Fresh} (hg : g = 1 ∨ g = -1) (h : finish s d g f = some s') : Unit s' := by
  unfold finish at h
  simp only at h
  split at h
  · exact regenerate_unit h
  · cases h
    exact hg

theorem finish_nmax {s s' : St} {d : ℚ} {g : ℤ} {f : Fresh} (h : finish s d g f = some s') : s'.nmax = s.nmax := by
  unfold finish at h
  simp only at h
  split at h
  · exact (regenerate_nopts h).trans rfl
  · cases h
    rfl

theorem finish_quiet {s : St} {d : ℚ} {g : ℤ} {f : Fresh} (h : s.nopts < s.nmax) : finish s d g f = some { s with det := d, sign := g, nopts := s.nopts + 1 } := by
  unfold finish
  simp only
  exact if_neg (by omega)

theorem step_unit {s s' : St} {r : ℚ} {x : Op × Fresh} (hu : Unit s) (h : step s x = some (s', r)) : Unit s' ∧ s'.nmax = s.nmax := by
  obtain ⟨op, f⟩ := x
  cases op with
  | insert k sum ksi =>
    simp only [step] at h
    split at h
    · cases h
    · split at h
      · obtain ⟨t, ht, he⟩ := Option.map_eq_some_iff.1 h
        cases he
        exact ⟨finish_unit (Or.inl rfl) ht, (finish_nmax ht).trans rfl⟩
      · split at h
        · cases h
        · obtain ⟨t, ht, he⟩ := Option.map_eq_some_iff.1 h
          cases he
          exact ⟨finish_unit (newsign_unit hu sum) ht, (finish_nmax ht).trans rfl⟩
  | remove k sum ksi =>
    simp only [step] at h
    split at h
    · cases h
    · split at h
      · cases h
      · obtain ⟨t, ht, he⟩ := Option.map_eq_some_iff.1 h
        cases he
        refine ⟨finish_unit (newsign_unit hu sum) ht, (finish_nmax ht).trans ?_⟩
        split <;> rfl
  | change ksi =>
    simp only [step] at h
    split at h
    · cases h
    · split at h
      · cases h
      · obtain ⟨t, ht, he⟩ := Option.map_eq_some_iff.1 h
        cases he
        exact ⟨finish_unit hu ht, finish_nmax ht⟩
  | refill n d =>
    simp only [step] at h
    split at h
    · cases h
    · split at h
      · cases h
      · obtain ⟨t, ht, he⟩ := Option.map_eq_some_iff.1 h
        cases he
        refine ⟨finish_unit (Or.inl rfl) ht, (finish_nmax ht).trans ?_⟩
        split <;> rfl
  | swap =>
    simp only [step] at h
    split at h
    · cases h
    · cases h
      refine ⟨?_, rfl⟩
      unfold Unit at *
      simp only
      omega
  | roll =>
    simp only [step] at h
    split at h
    · cases h
    · split at h
      · cases h
        refine ⟨?_, rfl⟩
        unfold Unit at *
        simp only
        omega
      · cases h
        exact ⟨hu, rfl⟩

/-- what an operation that multiplies does: the product of the kept determinant and the ratio, rounded at most once -/
theorem step_carries {s s' : St} {r : ℚ} {x : Op × Fresh} (hu : Unit s) (hc : Carries s x.1) (h : step s x = some (s', r)) :
    (cost x.1 = 0 ∧ value s' = value s * r ∧ s'.nopts = s.nopts) ∨ (cost x.1 = 1 ∧ value s' = rnd (value s * r) ∧ s'.nopts = s.nopts + 1 ∧ s.nopts < s.nmax) := by
  have key : ∀ (g : ℤ) (ksi : ℚ), (g = 1 ∨ g = -1) → (g : ℚ) * rnd (s.det * ksi) = rnd (value s * (ksi * ((g * s.sign : ℤ) : ℚ))) := by
    intro g ksi hg
    have e : value s * (ksi * ((g * s.sign : ℤ) : ℚ)) = g * (s.det * ksi) := by
      unfold value
      push_cast
      linear_combination (g * s.det * ksi : ℚ) * unit_sq hu
    rw [e]
    rcases hg with hg | hg <;> rw [hg]
    · push_cast
      rw [one_mul, one_mul]
    · push_cast
      rw [neg_one_mul, neg_one_mul, rnd_neg]
  obtain ⟨op, f⟩ := x
  cases op with
  | insert k sum ksi =>
    right
    simp only [Carries] at hc
    simp only [step] at h
    split at h
    · cases h
    · rw [if_neg hc.1] at h
      split at h
      · cases h
      · rename_i d hd
        rw [finish_quiet (by exact hc.2)] at h
        cases h
        refine ⟨rfl, ?_, rfl, hc.2⟩
        rw [(fin_some hd).1]
        exact key _ _ (newsign_unit hu sum)
  | remove k sum ksi =>
    right
    simp only [Carries] at hc
    simp only [step] at h
    split at h
    · cases h
    · split at h
      · cases h
      · rename_i d hd
        have hq : (if s.n = k then clear s else { s with n := s.n - k }).nopts < (if s.n = k then clear s else { s with n := s.n - k }).nmax := by
          split <;> exact hc
        have hn : (if s.n = k then clear s else { s with n := s.n - k }).nopts = s.nopts := by split <;> rfl
        rw [finish_quiet hq] at h
        cases h
        refine ⟨rfl, ?_, by simp only; rw [hn], hc⟩
        rw [(fin_some hd).1]
        exact key _ _ (newsign_unit hu sum)
  | change ksi =>
    right
    simp only [Carries] at hc
    simp only [step] at h
    split at h
    · cases h
    · split at h
      · cases h
      · rename_i d hd
        rw [finish_quiet hc] at h
        cases h
        refine ⟨rfl, ?_, rfl, hc⟩
        rw [(fin_some hd).1]
        have := key s.sign r hu
        rw [show ((s.sign * s.sign : ℤ) : ℚ) = 1 by push_cast; exact unit_sq hu, mul_one] at this
        exact this
  | refill n d => exact absurd hc (by simp [Carries])
  | swap =>
    left
    simp only [step] at h
    split at h
    · cases h
    · cases h
      refine ⟨rfl, ?_, rfl⟩
      unfold value
      push_cast
      ring
  | roll =>
    left
    simp only [step] at h
    split at h
    · cases h
    · split at h
      · cases h
        refine ⟨rfl, ?_, rfl⟩
        unfold value
        push_cast
        ring
      · cases h
        exact ⟨rfl, by ring, rfl⟩

theorem carried_normal {m s : St} {rs : List ℚ} {k : ℕ} (h : Carried m rs k s) : Normal s := by cases h <;> assumption

theorem carried_unit {m s : St} {rs : List ℚ} {k : ℕ} (h : Carried m rs k s) (hu : Unit m) : Unit s := by
  induction h with
  | nil _ => exact hu
  | snoc _ hs _ _ ih => exact (step_unit ih hs).1

/-- **C197**: as long as operations multiply it, the kept determinant is the product of the determinant at the beginning and of the ratios returned, with one rounding for each operation and with
exactly their sign; exchanges and rotations do not round -/
theorem C197_track {m s : St} {rs : List ℚ} {k : ℕ} (hu : m.sign = 1 ∨ m.sign = -1) (h : Carried m rs k s) :
    0 < value m * rs.prod * value s ∧ Rel k |value m * rs.prod| |value s| := by
  induction h with
  | nil hn =>
    have h0 : value m ≠ 0 := fun h0 => normal_ne hn (abs_eq_zero.1 (by rw [← unit_abs hu, h0, abs_zero]))
    rw [List.prod_nil, mul_one]
    exact ⟨by rw [← sq]; exact pow_pos (abs_pos.2 h0) 2 |>.trans_eq (sq_abs _), Rel.refl _⟩
  | @snoc rs k s s' r x hc hs hx hn ih =>
    have hus := carried_unit hc hu
    have hus' := (step_unit hus hs).1
    have h0 : value s' ≠ 0 := fun h0 => normal_ne hn (abs_eq_zero.1 (by rw [← unit_abs hus', h0, abs_zero]))
    rw [List.prod_append, List.prod_singleton, ← mul_assoc]
    -- the exact product with the kept determinant
    have hpos : 0 < value s * r * value s' ∧ Rel (cost x.1) |value s * r| |value s'| := by
      rcases step_carries hus hx hs with ⟨h1, h2, _⟩ | ⟨h1, h2, _, _⟩
      · rw [h1, ← h2]
        exact ⟨by rw [← sq]; exact pow_pos (abs_pos.2 h0) 2 |>.trans_eq (sq_abs _), Rel.refl _⟩
      · rw [h1, h2]
        rw [h2] at h0
        refine ⟨sign_rnd h0, ?_⟩
        rw [rnd_abs]
        apply rel_rnd_of_result
        rw [← rnd_abs, ← h2, unit_abs hus']
        exact hn
    constructor
    · -- signs
      have e : (value m * rs.prod * value s) * (value s * r * value s') = (value m * rs.prod * r * value s') * (value s * value s) := by ring
      have hvs : 0 < value s * value s := by
        have : value s ≠ 0 := by
          intro h
          have := hpos.1
          rw [h] at this
          simp at this
        exact lt_of_le_of_ne (mul_self_nonneg _) (Ne.symm (mul_self_ne_zero.2 this))
      have hp := mul_pos ih.1 hpos.1
      rw [e] at hp
      exact pos_of_mul_pos_left hp hvs.le
    · have h1 := ih.2.mul (Rel.refl |r|) (abs_nonneg _) (abs_nonneg _)
      rw [← abs_mul, ← abs_mul, Nat.add_zero] at h1
      exact h1.trans hpos.2

/-- **C197**: of any history, at most `n_opts_max_before_check` roundings are in the kept determinant: it goes back to a state where the history begins or where the operation did not multiply the
determinant (the matrix was filled anew, rows were inserted into the empty matrix, or the check regenerated it), and from there on it is tracked by the ratios -/
theorem C197_budget {s₀ s : St} {rs : List ℚ} (h : Reach s₀ rs s) (hu : s₀.sign = 1 ∨ s₀.sign = -1) :
    ∃ (m : St) (rs₁ rs₂ : List ℚ) (k : ℕ), rs = rs₁ ++ rs₂ ∧ Reach s₀ rs₁ m ∧
      ((m = s₀ ∧ rs₁ = []) ∨ ∃ (p : St) (x : Op × Fresh) (r : ℚ) (l : List ℚ), rs₁ = l ++ [r] ∧ Reach s₀ l p ∧ step p x = some (m, r) ∧ ¬ Carries p x.1) ∧
      Carried m rs₂ k s ∧ k ≤ s₀.nmax := by
  suffices H : Unit s ∧ s.nmax = s₀.nmax ∧ ∃ (m : St) (rs₁ rs₂ : List ℚ) (k : ℕ), rs = rs₁ ++ rs₂ ∧ Reach s₀ rs₁ m ∧
      ((m = s₀ ∧ rs₁ = []) ∨ ∃ (p : St) (x : Op × Fresh) (r : ℚ) (l : List ℚ), rs₁ = l ++ [r] ∧ Reach s₀ l p ∧ step p x = some (m, r) ∧ ¬ Carries p x.1) ∧
      Carried m rs₂ k s ∧ k ≤ s₀.nmax ∧ k ≤ s.nopts by
    obtain ⟨_, _, m, a, b, k, h1, h2, h3, h4, h5, _⟩ := H
    exact ⟨m, a, b, k, h1, h2, h3, h4, h5⟩
  induction h with
  | nil hn => exact ⟨hu, rfl, s₀, [], [], 0, rfl, Reach.nil hn, Or.inl ⟨rfl, rfl⟩, Carried.nil hn, Nat.zero_le _, Nat.zero_le _⟩
  | @snoc rs s s' r x hr hs hn ih =>
    obtain ⟨ihu, ihm, m, a, b, k, h1, h2, h3, h4, h5, h6⟩ := ih
    obtain ⟨hu', hm'⟩ := step_unit ihu hs
    refine ⟨hu', hm'.trans ihm, ?_⟩
    by_cases hc : Carries s x.1
    · refine ⟨m, a, b ++ [r], k + cost x.1, by rw [h1, List.append_assoc], h2, h3, Carried.snoc h4 hs hc hn, ?_, ?_⟩
      · rcases step_carries ihu hc hs with ⟨c, _, _⟩ | ⟨c, _, _, hlt⟩ <;> rw [c] <;> omega
      · rcases step_carries ihu hc hs with ⟨c, _, e⟩ | ⟨c, _, e, _⟩ <;> rw [c, e] <;> omega
    · exact ⟨s', rs ++ [r], [], 0, (List.append_nil _).symm, Reach.snoc hr hs hn, Or.inr ⟨s, x, r, rs, rfl, hr, hs, hc⟩, Carried.nil hn, Nat.zero_le _, Nat.zero_le _⟩

/-- **C197**: the relative deviation of the kept determinant from the product of the ratios is at most `2^-52` for each operation since then -/
theorem C197_error {m s : St} {rs : List ℚ} {k : ℕ} (hu : m.sign = 1 ∨ m.sign = -1) (h : Carried m rs k s) (hk : k ≤ 2 ^ 51) :
    |value s - value m * rs.prod| ≤ |value m * rs.prod| * (2 * k / 9007199254740992) := by
  obtain ⟨h1, h2⟩ := C197_track hu h
  have h3 := h2.err hk (abs_nonneg _)
  refine le_trans (le_of_eq ?_) h3
  generalize value m * rs.prod = p at *
  generalize value s = v at *
  rcases pos_and_pos_or_neg_and_neg_of_mul_pos h1 with ⟨hp, hv⟩ | ⟨hp, hv⟩
  · rw [abs_of_pos hp, abs_of_pos hv]
  · rw [abs_of_neg hp, abs_of_neg hv, ← abs_neg]
    congr 1
    ring

/-- **C197**: filling the matrix anew returns the ratio of the two determinants up to one rounding -/
theorem C197_refill {s s' : St} {n : ℕ} {d r : ℚ} {f : Fresh} (hu : s.sign = 1 ∨ s.sign = -1) (hq : s.nopts < s.nmax) (h : step s (.refill n d, f) = some (s', r))
    (hr : (2 : ℚ) ^ (-1022 : ℤ) ≤ |r|) : value s' = (if n = 0 then 1 else d) ∧ Rel 1 |value s' / value s| |r| := by
  simp only [step] at h
  split at h
  · cases h
  · split at h
    · cases h
    · rename_i q hfin
      have hq' : (if n = 0 then clear s else { s with n := n }).nopts < (if n = 0 then clear s else { s with n := n }).nmax := by split <;> exact hq
      rw [finish_quiet hq'] at h
      cases h
      have e := (fin_some hfin).1
      have hv : value { (if n = 0 then clear s else { s with n := n }) with det := if n = 0 then 1 else d, sign := 1, nopts := (if n = 0 then clear s else { s with n := n }).nopts + 1 } =
          (if n = 0 then 1 else d) := by
        unfold value
        simp
      refine ⟨hv, ?_⟩
      rw [hv, e, rnd_abs]
      apply rel_rnd_of_result
      rw [← rnd_abs]
      have e' : (if n = 0 then 1 else d) / value s = (if n = 0 then 1 else d) / (s.sign * s.det) := rfl
      rw [e', ← e]
      exact hr

/-- a determinant that has underflowed to zero remains zero -/
theorem C197_stuck {s s' : St} {r : ℚ} {x : Op × Fresh} (hu : s.sign = 1 ∨ s.sign = -1) (h0 : s.det = 0) (hc : Carries s x.1) (h : step s x = some (s', r)) : s'.det = 0 := by
  have hv : value s' = 0 := by
    have hz : value s = 0 := by unfold value; rw [h0, mul_zero]
    rcases step_carries hu hc h with ⟨_, e, _⟩ | ⟨_, e, _, _⟩
    · rw [e, hz, zero_mul]
    · rw [e, hz, zero_mul, rnd_zero]
  exact abs_eq_zero.1 (by rw [← unit_abs (step_unit hu h).1, hv, abs_zero])

/-- **C197**: the signs of the ratios: minus one to the sum of the positions for insertions and removals, to the size minus one for rotations, minus one for exchanges -/
theorem C197_signs {s : St} (hu : s.sign = 1 ∨ s.sign = -1) :
    (∀ s' k sum ksi f r, s.n ≠ 0 → step s (.insert k sum ksi, f) = some (s', r) → r = (-1) ^ sum * ksi) ∧
      (∀ s' k sum ksi f r, step s (.remove k sum ksi, f) = some (s', r) → r = (-1) ^ sum * ksi) ∧
      (∀ s' f r, step s (.roll, f) = some (s', r) → r = (-1) ^ (s.n - 1) ∧ value s' = (-1) ^ (s.n - 1) * value s) ∧
      ∀ s' f r, step s (.swap, f) = some (s', r) → r = -1 ∧ value s' = -value s := by
  have hs : ∀ (sum : ℕ) (ksi : ℚ), ksi * ((newsign s sum * s.sign : ℤ) : ℚ) = (-1) ^ sum * ksi := by
    intro sum ksi
    have h2 : ((s.sign * s.sign : ℤ) : ℚ) = 1 := by rcases hu with h | h <;> rw [h] <;> norm_num
    unfold newsign
    rcases Nat.mod_two_eq_zero_or_one sum with h | h
    · rw [if_pos h, h2, (Nat.even_iff.2 h).neg_one_pow]
      ring
    · rw [if_neg (by omega), neg_mul, Int.cast_neg, h2, (Nat.odd_iff.2 h).neg_one_pow]
      ring
  refine ⟨?_, ?_, ?_, ?_⟩
  · intro s' k sum ksi f r hn h
    simp only [step, if_neg hn] at h
    split at h
    · cases h
    · split at h
      · cases h
      · rw [Option.map_eq_some_iff] at h
        obtain ⟨_, _, h⟩ := h
        cases h
        exact hs sum ksi
  · intro s' k sum ksi f r h
    simp only [step] at h
    split at h
    · cases h
    · split at h
      · cases h
      · rw [Option.map_eq_some_iff] at h
        obtain ⟨_, _, h⟩ := h
        cases h
        exact hs sum ksi
  · intro s' f r h
    simp only [step] at h
    split at h
    · cases h
    · split at h
      · rename_i ho
        cases h
        rw [(Nat.odd_iff.2 ho).neg_one_pow]
        refine ⟨rfl, ?_⟩
        unfold value
        push_cast
        ring
      · rename_i he
        cases h
        rw [(Nat.even_iff.2 (by omega : (s.n - 1) % 2 = 0)).neg_one_pow, one_mul]
        exact ⟨rfl, rfl⟩
  · intro s' f r h
    simp only [step] at h
    split at h
    · cases h
    · cases h
      refine ⟨rfl, ?_⟩
      unfold value
      push_cast
      ring

/-- **C197**: `determinant` returns the kept value with its sign, and regenerates if it is not normal -/
theorem C197_determinant (s : St) (f : Fresh) : (Normal s → determinant s f = some (value s, s)) ∧ (¬ Normal s → determinant s f = (regenerate s f).map fun s' => (value s', s')) := by
  constructor
  · intro h
    unfold determinant singular
    rw [decide_eq_false (not_lt.2 h), if_neg (by decide)]
    rfl
  · intro h
    unfold determinant singular
    rw [decide_eq_true (not_le.1 h), if_pos rfl]
    rfl

/-- **C197**: a row and a column inserted into the empty matrix and removed again, the inverse being `1 / f(x, y)` (det_manip.hpp:561): the kept determinant of the empty matrix is one up to one
rounding, though `clear` has set it to one -/
theorem C197_empty {s s₁ s₂ : St} {v r₁ r₂ : ℚ} {f₁ f₂ : Fresh} (h0 : s.n = 0) (hq : s.nopts + 1 < s.nmax) (hv : (2 : ℚ) ^ (-1022 : ℤ) ≤ |1 / v|)
    (h₁ : step s (.insert 1 0 v, f₁) = some (s₁, r₁)) (h₂ : step s₁ (.remove 1 0 (rnd (1 / v)), f₂) = some (s₂, r₂)) :
    s₂.n = 0 ∧ s₂.sign = 1 ∧ |s₂.det - 1| ≤ 2 ^ (-53 : ℤ) := by
  simp only [step, h0, if_true, Nat.one_ne_zero, if_false] at h₁
  rw [finish_quiet (by show s.nopts < s.nmax; omega)] at h₁
  cases h₁
  simp only [step] at h₂
  rw [if_neg (by simp)] at h₂
  split at h₂
  · cases h₂
  · rename_i d hd
    simp only [if_true] at h₂
    rw [finish_quiet (by show s.nopts + 1 < s.nmax; exact hq)] at h₂
    cases h₂
    refine ⟨rfl, by simp [newsign], ?_⟩
    show |d - 1| ≤ _
    rw [(fin_some hd).1]
    have hv0 : v ≠ 0 := by
      intro h
      rw [h, div_zero, abs_zero] at hv
      exact absurd (two_zpow_pos (-1022)) (not_lt.2 hv)
    have hr := rnd_rel hv
    have hx : |v * rnd (1 / v) - 1| ≤ 2 ^ (-53 : ℤ) := by
      have e : v * rnd (1 / v) - 1 = v * (rnd (1 / v) - 1 / v) := by field_simp
      rw [e, abs_mul]
      calc |v| * |rnd (1 / v) - 1 / v| ≤ |v| * (|1 / v| * 2 ^ (-53 : ℤ)) := mul_le_mul_of_nonneg_left hr (abs_nonneg _)
        _ = 2 ^ (-53 : ℤ) := by rw [← mul_assoc, ← abs_mul, mul_one_div_cancel hv0, abs_one, one_mul]
    rw [abs_le] at hx
    have e53 : (2 : ℚ) ^ (-53 : ℤ) = 1 / 9007199254740992 := by norm_num
    rw [e53] at hx ⊢
    have lo : (9007199254740991 / 9007199254740992 : ℚ) ≤ rnd (v * rnd (1 / v)) := by
      apply le_rnd
      · exact ⟨9007199254740991, -53, by norm_num, by norm_num, by norm_num⟩
      · linarith [hx.1]
    have hi : rnd (v * rnd (1 / v)) ≤ rnd (9007199254740993 / 9007199254740992) := rnd_mono (by linarith [hx.2])
    have h1 : rnd (9007199254740993 / 9007199254740992) = 1 := by decide +kernel
    rw [h1] at hi
    rw [abs_le]
    constructor <;> linarith

/-- the constructed object, det_manip.hpp:287-291 -/
def start : St := { n := 0, det := 1, sign := 1, nopts := 0, nmax := 100 }

/-- **C197** is sharp: with `f(x, y) = 49` the determinant of the matrix that is empty again is `1 - 2^-53`, and replacing the empty matrix by the empty matrix returns a ratio that is not one -/
theorem C197_empty_not_one : ∃ s₁ s₂ s₃ : St, ∃ r₃ : ℚ, step start (.insert 1 0 49, none) = some (s₁, 49) ∧
    step s₁ (.remove 1 0 (rnd (1 / 49)), none) = some (s₂, rnd (1 / 49)) ∧ s₂.n = 0 ∧ determinant s₂ none = some (1 - 1 / 9007199254740992, s₂) ∧
    step s₂ (.refill 0 0, none) = some (s₃, r₃) ∧ r₃ = 1 + 1 / 4503599627370496 :=
  ⟨⟨1, 49, 1, 1, 100⟩, ⟨0, 1 - 1 / 9007199254740992, 1, 2, 100⟩, ⟨0, 1, 1, 3, 100⟩, 1 + 1 / 4503599627370496, by decide +kernel, by decide +kernel, rfl, by decide +kernel, by decide +kernel, rfl⟩

/-- the condition of `C197_track` cannot be left out: after underflow the ratios multiply to one, and the kept determinant is zero; only `determinant`, which regenerates, is right, and a new
filling divides by zero -/
theorem C197_underflow : ∃ s₁ s₂ s₃ s₄ : St, step ⟨1, 1, 1, 0, 100⟩ (.change (1 / 2 ^ 600), none) = some (s₁, 1 / 2 ^ 600) ∧
    step s₁ (.change (1 / 2 ^ 600), none) = some (s₂, 1 / 2 ^ 600) ∧ step s₂ (.change (2 ^ 600), none) = some (s₃, 2 ^ 600) ∧ step s₃ (.change (2 ^ 600), none) = some (s₄, 2 ^ 600) ∧
    s₄.det = 0 ∧ (determinant s₄ (some (1, 1))).map Prod.fst = some 1 ∧ step s₄ (.refill 1 1, none) = none :=
  ⟨⟨1, 1 / 2 ^ 600, 1, 1, 100⟩, ⟨1, 0, 1, 2, 100⟩, ⟨1, 0, 1, 3, 100⟩, ⟨1, 0, 1, 4, 100⟩, by decide +kernel, by decide +kernel, by decide +kernel, by decide +kernel, rfl, by decide +kernel,
    by decide +kernel⟩

/-! ### Examples -/

/-- two rows are inserted at odd and even positions, exchanged, and one is removed -/
example : step start (.insert 1 0 (1 / 2), none) = some (⟨1, 1 / 2, 1, 1, 100⟩, 1 / 2) ∧ step ⟨1, 1 / 2, 1, 1, 100⟩ (.insert 1 1 3, none) = some (⟨2, 3 / 2, -1, 2, 100⟩, -3) ∧
    step ⟨2, 3 / 2, -1, 2, 100⟩ (.swap, none) = some (⟨2, 3 / 2, 1, 2, 100⟩, -1) ∧ step ⟨2, 3 / 2, 1, 2, 100⟩ (.remove 1 3 (rnd (1 / 3)), none) = some (⟨1, 1 / 2, -1, 3, 100⟩, -rnd (1 / 3)) := by
  decide +kernel

/-- the check is made after the operation that exceeds the number allowed -/
example : step ⟨2, 3, 1, 99, 100⟩ (.change 2, some (7, -1)) = some (⟨2, 6, 1, 100, 100⟩, 2) ∧ step ⟨2, 6, 1, 100, 100⟩ (.change 2, some (7, -1)) = some (⟨2, 7, -1, 0, 100⟩, 2) ∧
    step ⟨2, 6, 1, 100, 100⟩ (.change 2, some (0, -1)) = none := by decide +kernel

/-- a tracked history with three roundings -/
example : Carried ⟨2, 3, 1, 0, 100⟩ [rnd (1 / 3), rnd (1 / 3)] 2 ⟨2, rnd (rnd (3 * rnd (1 / 3)) * rnd (1 / 3)), 1, 2, 100⟩ := by
  have n1 : Normal ⟨2, 3, 1, 0, 100⟩ := by unfold Normal; decide +kernel
  have n2 : Normal ⟨2, rnd (3 * rnd (1 / 3)), 1, 1, 100⟩ := by unfold Normal; decide +kernel
  have n3 : Normal ⟨2, rnd (rnd (3 * rnd (1 / 3)) * rnd (1 / 3)), 1, 2, 100⟩ := by unfold Normal; decide +kernel
  exact Carried.snoc (rs := [rnd (1 / 3)]) (k := 1) (x := (.change (rnd (1 / 3)), none))
    (Carried.snoc (rs := []) (k := 0) (x := (.change (rnd (1 / 3)), none)) (Carried.nil n1) (by decide +kernel) (by simp [Carries]) n2) (by decide +kernel) (by simp [Carries]) n3

end Verif.DetDouble
