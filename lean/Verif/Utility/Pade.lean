import Mathlib.Algebra.Field.Basic
import Mathlib.Algebra.Field.Rat
import Mathlib.Tactic.FieldSimp
import Mathlib.Tactic.LinearCombination
import Mathlib.Tactic.Ring

/-!
# Property C60: Padé approximants

Source: `/repo/c++/triqs/utility/pade_approximants.hpp`.

Simplifications: a field `F` in place of 256-bit complex floats (coefficients) and of `std::complex<double>` (evaluation); the
test `norm() < 1e-20` is a parameter `small`. A division by zero throws in the constructor and is undefined (an infinity or
not-a-number) in the evaluation. `N` points `z 0 … z (N-1)`. The default precision of GMP is a number in the state.
-/

namespace Verif.Pade

/-! ## Model -/

variable {F : Type} [Field F] [DecidableEq F]

/-- inner loop, pade_approximants.hpp:92-97: row `p` from row `p - 1`; `none`: division by zero -/
def rowStep (z : ℕ → F) (N p : ℕ) (prev : ℕ → F) : Option (ℕ → F) :=
  if (List.range N).all (fun j => decide (j < p) || (decide (prev j ≠ 0) && decide (z j - z (p - 1) ≠ 0))) then
    some (fun j => if p ≤ j ∧ j < N then (prev (p - 1) / prev j - 1) / (z j - z (p - 1)) else 0)
  else none

/-- outer loop and diagonal, pade_approximants.hpp:87-103: `k` rows after row `q` -/
def coefLoop (z : ℕ → F) (small : F → Bool) (N : ℕ) : ℕ → ℕ → (ℕ → F) → Option (List F)
  | 0, q, prev => some [prev q]
  | k + 1, q, prev =>
    if small (prev q) then some (prev q :: List.replicate (k + 1) 0)
    else (rowStep z N (q + 1) prev).bind fun r => (coefLoop z small N k (q + 1) r).map (prev q :: ·)

/-- `pade_approximant` constructor, pade_approximants.hpp:72-107: coefficients (`none`: exception) and the default precision
of GMP afterwards, from the precision before -/
def construct (z u : ℕ → F) (small : F → Bool) (N : ℕ) (prec : ℕ) : Option (List F) × ℕ :=
  let oldPrec := prec
  let res := if N = 0 then some [] else coefLoop z small N (N - 1) 0 u
  match res with
  | none => (none, 256)
  | some a => (some a, oldPrec)

/-- loop of `operator()`, pade_approximants.hpp:117-124 -/
def evalLoop (z : ℕ → F) (e : F) : ℕ → List F → F → F → F → Option F
  | _, [], _, A2, _ => some A2
  | i, a :: as, A1, A2, B1 =>
    let Bnew := 1 + (e - z i) * a * B1
    if Bnew = 0 then none else evalLoop z e (i + 1) as (A2 / Bnew) ((A2 + (e - z i) * a * A1) / Bnew) (1 / Bnew)

/-- `operator()`, pade_approximants.hpp:110-126 -/
def eval (z : ℕ → F) (a : List F) (e : F) : Option F :=
  match a with
  | [] => none
  | a0 :: as => evalLoop z e 0 as 0 a0 1

/-! ## Proofs -/

theorem rowStep_spec {z : ℕ → F} {N p : ℕ} {prev r : ℕ → F} (h : rowStep z N p prev = some r) (j : ℕ) (hp : p ≤ j) (hj : j < N) :
    prev j ≠ 0 ∧ z j - z (p - 1) ≠ 0 ∧ r j = (prev (p - 1) / prev j - 1) / (z j - z (p - 1)) := by
  unfold rowStep at h
  split at h
  · rename_i hc
    rw [List.all_eq_true] at hc
    have := hc j (List.mem_range.mpr hj)
    simp only [Bool.or_eq_true, Bool.and_eq_true, decide_eq_true_eq] at this
    rcases this with h1 | ⟨h1, h2⟩
    · omega
    · refine ⟨h1, h2, ?_⟩
      rw [← Option.some.inj h]
      simp only [hp, hj, and_self, if_true]
  · cases h

/-- once the value is reached, the remaining steps keep it -/
theorem evalLoop_keep (z : ℕ → F) (e : F) (as : List F) : ∀ (i : ℕ) (A1 A2 B1 res : F), A1 = A2 * B1 →
    evalLoop z e i as A1 A2 B1 = some res → res = A2 := by
  induction as with
  | nil => intro i A1 A2 B1 res _ h; exact (Option.some.inj h).symm
  | cons a as ih =>
    intro i A1 A2 B1 res hA h
    rw [evalLoop] at h
    split at h
    · cases h
    · rename_i hB
      have hA2 : (A2 + (e - z i) * a * A1) / (1 + (e - z i) * a * B1) = A2 := by
        rw [div_eq_iff hB, hA]; ring
      rw [hA2] at h
      exact ih _ _ _ _ _ (by rw [mul_one_div]) h

theorem evalLoop_at (z : ℕ → F) (m : ℕ) (as : List F) (A1 A2 B1 res : F) (h : evalLoop z (z m) m as A1 A2 B1 = some res) : res = A2 := by
  rcases as with _ | ⟨a, as⟩
  · exact (Option.some.inj h).symm
  · rw [evalLoop] at h
    simp only [sub_self, zero_mul, add_zero, one_ne_zero, if_false, div_one] at h
    exact evalLoop_keep z (z m) as _ _ _ _ _ (by ring) h

theorem coefLoop_cons {z : ℕ → F} {small : F → Bool} {N k q : ℕ} {prev : ℕ → F} {l : List F} (h : coefLoop z small N k q prev = some l) :
    ∃ t, l = prev q :: t := by
  rcases k with _ | k
  · exact ⟨[], (Option.some.inj h).symm⟩
  · rw [coefLoop] at h
    split at h
    · exact ⟨_, (Option.some.inj h).symm⟩
    · obtain ⟨r, -, h2⟩ := Option.bind_eq_some_iff.mp h
      obtain ⟨t, -, h3⟩ := Option.map_eq_some_iff.mp h2
      exact ⟨t, h3.symm⟩

theorem evalLoop_reach (z : ℕ → F) (small : F → Bool) (N m : ℕ) (hm : m < N) (U : F) (k : ℕ) :
    ∀ (q : ℕ) (prev : ℕ → F) (rest : List F) (A1 A2 B1 res : F), q + k + 1 = N → q ≤ m →
      coefLoop z small N k q prev = some (prev q :: rest) →
      (∀ i, q + i < m → small ((prev q :: rest).getD i 0) = false) →
      (q = m → A2 = U) → (q < m → prev m ≠ 0 → U * (1 + B1 * (prev q / prev m - 1)) = A2 + (prev q / prev m - 1) * A1) →
      evalLoop z (z m) q rest A1 A2 B1 = some res → res = U := by
  induction k with
  | zero =>
    intro q prev rest A1 A2 B1 res hN hq hc _ h0 _ he
    obtain rfl : q = m := by omega
    rw [← h0 rfl]
    exact evalLoop_at z q rest A1 A2 B1 res he
  | succ k ih =>
    intro q prev rest A1 A2 B1 res hN hq hc hs h0 h1 he
    rcases eq_or_lt_of_le hq with rfl | hlt
    · rw [← h0 rfl]
      exact evalLoop_at z q rest A1 A2 B1 res he
    · have hsm := hs 0 (by omega)
      simp only [List.getD_cons_zero] at hsm
      rw [coefLoop, hsm] at hc
      simp only [Bool.false_eq_true, if_false] at hc
      obtain ⟨r, hr, h2⟩ := Option.bind_eq_some_iff.mp hc
      obtain ⟨t, ht, h3⟩ := Option.map_eq_some_iff.mp h2
      obtain ⟨t', rfl⟩ := coefLoop_cons ht
      obtain rfl : r (q + 1) :: t' = rest := by simpa using h3
      obtain ⟨hpm, hzm, hrm⟩ := rowStep_spec hr m (by omega) hm
      rw [Nat.add_sub_cancel] at hzm hrm
      have hinv := h1 hlt hpm
      have hprod : prev q / prev m - 1 = r m * (z m - z q) := by rw [hrm, div_mul_cancel₀ _ hzm]
      rw [hprod] at hinv
      rw [evalLoop] at he
      split at he
      · cases he
      · rename_i hB
        refine ih (q + 1) r t' _ _ _ res (by omega) (by omega) ht ?_ ?_ ?_ he
        · intro i hi
          have := hs (i + 1) (by omega)
          simpa using this
        · rintro rfl
          rw [div_eq_iff hB]
          linear_combination -hinv
        · intro hq' hrm0
          set B := 1 + (z m - z q) * r (q + 1) * B1 with hBdef
          have key : U * (B + (r (q + 1) / r m - 1)) = A2 + (z m - z q) * r (q + 1) * A1 + (r (q + 1) / r m - 1) * A2 := by
            rw [hBdef]
            have e : r (q + 1) = r (q + 1) / r m * r m := by field_simp
            generalize r (q + 1) / r m = s at *
            rw [e]
            linear_combination s * hinv
          have : U * (1 + 1 / B * (r (q + 1) / r m - 1)) = U * (B + (r (q + 1) / r m - 1)) / B := by field_simp
          rw [this, key]
          field_simp

/-- **C60, interpolation.** For any number of points and values: if the construction succeeds and the fraction is not
truncated before coefficient `m`, then the approximant evaluated at point `m`, whenever no division by zero happens, is the
value given for that point. -/
theorem C60_interpolates_partial (z u : ℕ → F) (small : F → Bool) (N prec m : ℕ) (hm : m < N) (a : List F)
    (hc : (construct z u small N prec).1 = some a) (hs : ∀ i < m, small (a.getD i 0) = false)
    (v : F) (hv : eval z a (z m) = some v) : v = u m := by
  have hN : N ≠ 0 := by omega
  unfold construct at hc
  simp only [hN, if_false] at hc
  have hc' : coefLoop z small N (N - 1) 0 u = some a := by
    cases h : coefLoop z small N (N - 1) 0 u with
    | none => rw [h] at hc; cases hc
    | some b => rw [h] at hc; exact hc
  obtain ⟨t, rfl⟩ := coefLoop_cons hc'
  refine evalLoop_reach z small N m hm (u m) (N - 1) 0 u t 0 (u 0) 1 v (by omega) (by omega) hc' ?_ ?_ ?_ hv
  · intro i hi
    exact hs i (by omega)
  · rintro rfl; rfl
  · intro _ h
    field_simp
    ring

/-- four points of `1 / (1 + z)`: three coefficients are found, the fraction is truncated, and a point outside the data gives
`1/11` -/
example : (construct (F := ℚ) (fun i => i) (fun i => 1 / (1 + i)) (fun x => x == 0) 4 53).1 = some [1, 1, 0, 0] ∧
    eval (F := ℚ) (fun i => i) [1, 1, 0, 0] 2 = some (1 / 3) ∧ eval (F := ℚ) (fun i => i) [1, 1, 0, 0] 10 = some (1 / 11) := by decide +kernel

/-- three points without truncation, all values reproduced -/
example : (construct (F := ℚ) (fun i => i) (fun i => if i = 0 then 1 else if i = 1 then 3 else 7) (fun x => x == 0) 3 53).1 = some [1, -2 / 3, 5 / 9] ∧
    (List.map (fun i : ℕ => eval (F := ℚ) (fun i => i) [1, -2 / 3, 5 / 9] i) [0, 1, 2]) = [some 1, some 3, some 7] := by decide +kernel

/-- **The evaluation can divide by zero at an input point**: for `u = 1 + z` at `0, 1, 2` the constructor succeeds without
truncation and the evaluation at 2 is undefined, although the value there is 3. -/
theorem C60_evaluation_undefined : (construct (F := ℚ) (fun i => i) (fun i => 1 + i) (fun x => x == 0) 3 53).1 = some [1, -1 / 2, 1 / 2] ∧
    eval (F := ℚ) (fun i => i) [1, -1 / 2, 1 / 2] 2 = none := by decide +kernel

/-- **Truncation loses the later points**: `u = 1, 0, …` -/
theorem C60_truncated : (construct (F := ℚ) (fun i => i) (fun i => if i = 0 then 0 else 5) (fun x => x == 0) 2 53).1 = some [0, 0] ∧
    eval (F := ℚ) (fun i => i) [0, 0] 1 = some 0 := by decide +kernel

/-- **C60, precision.** A successful construction leaves the default precision as it was. -/
theorem C60_precision_partial (z u : ℕ → F) (small : F → Bool) (N prec : ℕ) (a : List F) (p : ℕ)
    (h : construct z u small N prec = (some a, p)) : p = prec := by
  unfold construct at h
  simp only at h
  split at h
  · cases h
  · exact (Prod.mk.inj h).2.symm

/-- **C60 fails for the precision**: with a zero value the constructor throws and the default precision stays at 256. -/
theorem C60_precision_leaks : construct (F := ℚ) (fun i => i) (fun i => if i = 0 then 1 else 0) (fun x => x == 0) 2 53 = (none, 256) := by
  decide +kernel

end Verif.Pade
