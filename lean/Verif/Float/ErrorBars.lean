import Verif.Float.LogErrors

/-!
# Error bars of `mean_and_err` in double precision

Source: `/repo/c++/triqs/stat/mean_error.hpp` (61-70).

C181 is about the square of the error; here its root is taken (line 68).
-/

namespace Verif.ErrorBars

open Binary64 MeanDouble
open LogErrors (root root_spec root_some root_nonneg)

/-! ## Model -/

/-- `mean_and_err(data)`, mean_error.hpp:61-70: mean and error -/
def meanError (l : List ℚ) : Option (ℚ × ℚ) := (meanAndErr l).bind fun p => (root p.2).map fun e => (p.1, e)

/-! ## Specification -/

/-- square of the standard error around `m` -/
def squareError (m : ℚ) (l : List ℚ) : ℚ := (l.map fun x => (x - m) * (x - m) / (l.length * (l.length - 1))).sum

/-! ## Proofs -/

/-- root of a number with an error -/
theorem root_close {S E d : ℚ} (hS : 0 ≤ S) (hE : 0 ≤ E) (hd : 0 ≤ d) (hd1 : d ≤ 1) (h : |E - S| ≤ S * d) :
    ∃ r, root E = some r ∧ 0 ≤ r ∧ |(r : ℝ) - Real.sqrt S| ≤ Real.sqrt S * (d + 2 / 9007199254740992) := by
  rcases hS.eq_or_lt with rfl | hS
  · have : E = 0 := by
      rw [zero_mul, sub_zero] at h
      exact abs_nonpos_iff.1 h
    subst this
    exact ⟨0, by simp [root], le_refl _, by simp⟩
  have s0 : 0 < Real.sqrt (S : ℝ) := Real.sqrt_pos.2 (by exact_mod_cast hS)
  have e0 := Real.sqrt_nonneg (E : ℝ)
  have hS2 := Real.mul_self_sqrt (show (0 : ℝ) ≤ S by exact_mod_cast hS.le)
  have hE2 := Real.mul_self_sqrt (show (0 : ℝ) ≤ E by exact_mod_cast hE)
  have h' : |(E : ℝ) - S| ≤ S * d := by exact_mod_cast h
  have d0 : (0 : ℝ) ≤ d := by exact_mod_cast hd
  have d1 : (d : ℝ) ≤ 1 := by exact_mod_cast hd1
  have key : |Real.sqrt (E : ℝ) - Real.sqrt (S : ℝ)| ≤ Real.sqrt S * d := by
    rw [← hS2, ← hE2, show ∀ a b : ℝ, a * a - b * b = (a - b) * (a + b) by intro a b; ring, abs_mul, abs_of_nonneg (by linarith : 0 ≤ Real.sqrt (E : ℝ) + Real.sqrt (S : ℝ))] at h'
    have h1 : |Real.sqrt (E : ℝ) - Real.sqrt (S : ℝ)| * Real.sqrt S ≤ Real.sqrt S * d * Real.sqrt S := by
      refine (mul_le_mul_of_nonneg_left (by linarith) (abs_nonneg _)).trans (h'.trans (le_of_eq (by ring)))
    exact le_of_mul_le_mul_right h1 s0
  obtain ⟨r, hr⟩ := root_some hE
  refine ⟨r, hr, root_nonneg hr, ?_⟩
  have hr2 : |(r : ℝ) - Real.sqrt E| ≤ Real.sqrt E * (1 / 9007199254740992) := by
    rcases hE.eq_or_lt with rfl | hE
    · have : r = 0 := by
        simp [root] at hr
        exact hr.symm
      subst this
      simp
    · obtain ⟨r', hr', _, _, h3⟩ := root_spec hE
      rw [hr] at hr'
      rw [Option.some.inj hr']
      exact h3
  generalize Real.sqrt (E : ℝ) = a at *
  generalize Real.sqrt (S : ℝ) = b at *
  have bd : b * d ≤ b := by nlinarith
  have h1 := abs_le.1 key
  have h2 := abs_le.1 hr2
  rw [abs_le]
  constructor <;> linarith [h1.1, h1.2, h2.1, h2.2]

/-- **C215, accuracy.** For ordinary data the error is the standard error around the computed mean up to a small relative error. -/
theorem C215_error (a b : ℚ) (l : List ℚ) (hl : 2 ≤ l.length) (hn : l.length ≤ 3037000500) (h : Between a b l) (ho : ∀ m, mean l = some m → Ordinary m l) :
    ∃ m e, meanError l = some (m, e) ∧ mean l = some m ∧ 0 ≤ e ∧
      |(e : ℝ) - Real.sqrt (squareError m l : ℚ)| ≤ Real.sqrt (squareError m l : ℚ) * ((2 * l.length + 12) * 2 ^ (-53 : ℤ)) := by
  obtain ⟨m, E, h1, h2, h3⟩ := C181_error a b l hl hn h ho
  have hE := (C181_nonneg_direct l m E h1).2
  have hlq : (2 : ℚ) ≤ l.length := by exact_mod_cast hl
  have hnq : (l.length : ℚ) ≤ 3037000500 := by exact_mod_cast hn
  have hS : 0 ≤ squareError m l := by
    unfold squareError
    refine List.sum_nonneg fun y hy => ?_
    obtain ⟨x, _, rfl⟩ := List.mem_map.1 hy
    exact div_nonneg (mul_self_nonneg _) (mul_nonneg (by linarith) (by linarith))
  have e53 : (2 : ℚ) ^ (-53 : ℤ) = 1 / 9007199254740992 := by norm_num
  rw [e53] at h3
  obtain ⟨r, hr, r0, hc⟩ := root_close hS hE (by positivity) (by linarith) h3
  refine ⟨m, r, ?_, h2, r0, ?_⟩
  · unfold meanError
    rw [h1, Option.bind_some, hr]
    rfl
  · refine hc.trans (le_of_eq ?_)
    rw [show (2 : ℝ) ^ (-53 : ℤ) = 1 / 9007199254740992 by norm_num]
    push_cast
    ring

/-- **C215, no NaN.** Whenever the square of the error is finite, there is an error, and it is not negative. -/
theorem C215_defined (l : List ℚ) : (meanError l).isSome = (meanAndErr l).isSome ∧ ∀ m e, meanError l = some (m, e) → mean l = some m ∧ 0 ≤ e := by
  unfold meanError
  cases h : meanAndErr l with
  | none => simp
  | some p =>
    obtain ⟨m, E⟩ := p
    obtain ⟨h1, h2⟩ := C181_nonneg_direct l m E h
    obtain ⟨r, hr⟩ := root_some h2
    rw [Option.bind_some, hr]
    refine ⟨rfl, ?_⟩
    intro m' e' he
    obtain ⟨rfl, rfl⟩ := Prod.mk.inj (Option.some.inj he)
    exact ⟨h1, root_nonneg hr⟩

/-- **C215, equal data.** The error of equal data is exactly zero. -/
theorem C215_constant (c : ℚ) (hc : Rep c) (hb : |c| ≤ 2 ^ (1000 : ℤ)) (n : ℕ) (hn : 2 ≤ n) (hn' : n ≤ 3037000500) : meanError (List.replicate n c) = some (c, 0) := by
  unfold meanError
  rw [(C181_constant c hc hb n (by omega)).2 hn hn', Option.bind_some]
  simp [root]

/-! ### Examples -/

example : meanError [1, 3, 5, 7] = some (4, 5814122118263953 / 4503599627370496) := by decide +kernel

example : meanError [1] = none ∧ meanError [2, 2, 2] = some (2, 0) := by decide +kernel

end Verif.ErrorBars
