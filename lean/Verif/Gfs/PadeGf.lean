import Verif.Utility.Pade
import Verif.Mesh.Matsubara
import Mathlib.Analysis.SpecialFunctions.Trigonometric.Basic
import Mathlib.Tactic.Linarith

/-!
# Property C161: analytic continuation of Green functions with Padé approximants

Sources: `/repo/c++/triqs/gfs/transform/pade.cpp`, `/repo/c++/triqs/gfs/transform/pade.hpp`,
`/repo/python/triqs/gf/gf_fnt_desc.py` (`set_from_pade`). The approximant itself (coefficients and evaluation) is the model of
C60 in `Verif/Utility/Pade.lean`.

Simplifications: a field `F` in place of 256-bit floats (coefficients) and `std::complex<double>` (evaluation), in the last
section `ℂ`; a division by zero of the evaluation (an infinity or not-a-number) is `none`. The test `norm() < 1e-20` is a
parameter `small`. A function of real frequencies is a function from the points of its mesh (type `W`, values `om`) to values;
`T` is the type of the indices of the target space. The equality of the two target shapes (`EXPECTS`, only checked in debug
mode) is assumed by the use of one list of target indices.
-/

namespace Verif.PadeGf

open Verif.Pade Verif.Matsubara

/-! ## Model -/

variable {F : Type} [Field F] [DecidableEq F] {W T : Type} [DecidableEq T]

/-- How a call ends and what the output holds then. `undef`: a read outside of an array. -/
inductive Out (S : Type) where
  | ok (s : S)
  | thrown (s : S)
  | undef

/-- `pade` for a scalar-valued function, pade.cpp:30-56. `z i`, `u i`: the Matsubara frequency of index `i` and the value
there; `last`: `gw.mesh().last_index()`; `off`: `1i * freq_offset`; `gr`: the output before. With no points the vector of
coefficients is empty and its first element is read (pade_approximants.hpp:113) at every point of the mesh. -/
def padeScalar (small : F → Bool) (z u : ℕ → F) (last n : ℤ) (ws : List W) (om : W → F) (off : F) (gr : W → Option F) :
    Out (W → Option F) :=
  if n < 0 ∨ n > last + 1 then .thrown gr
  else match (construct z u small n.toNat 0).1 with
    | none => .thrown (fun _ => some 0)
    | some a => if a = [] ∧ ws ≠ [] then .undef else .ok (fun w => eval z a (om w + off))

/-- `pade` for a function with a target space, pade.hpp:26-35: the loop over the target indices -/
def padeTensor (small : F → Bool) (z : ℕ → F) (gw : T → ℕ → F) (last n : ℤ) (ws : List W) (om : W → F) (off : F) :
    List T → (T → W → Option F) → Out (T → W → Option F)
  | [], gr => .ok gr
  | t :: ts, gr =>
    match padeScalar small z (gw t) last n ws om off (gr t) with
    | .undef => .undef
    | .thrown r => .thrown (Function.update gr t r)
    | .ok r => padeTensor small z gw last n ws om off ts (Function.update gr t r)

/-! ## Specification -/

/-- The continued fraction `a₀ / (1 + (x - zᵢ) a₁ / (1 + (x - zᵢ₊₁) a₂ / …))` -/
def cf (z : ℕ → F) (x : F) : ℕ → List F → F
  | _, [] => 0
  | i, a :: as => a / (1 + (x - z i) * cf z x (i + 1) as)

/-- no denominator of the fraction vanishes -/
def cfOk (z : ℕ → F) (x : F) : ℕ → List F → Prop
  | _, [] => True
  | i, _ :: as => 1 + (x - z i) * cf z x (i + 1) as ≠ 0 ∧ cfOk z x (i + 1) as

/-! ## Proofs -/

/-! ### The evaluation is the continued fraction -/

theorem evalLoop_cf (z : ℕ → F) (x : F) (as : List F) : ∀ (i : ℕ) (A1 A2 B1 v : F), cfOk z x (i + 1) as →
    evalLoop z x i as A1 A2 B1 = some v →
    v * (1 + (x - z i) * cf z x (i + 1) as * B1) = A2 + (x - z i) * cf z x (i + 1) as * A1 := by
  induction as with
  | nil =>
    intro i A1 A2 B1 v _ h
    rw [evalLoop] at h
    cases h
    simp [cf]
  | cons a as ih =>
    intro i A1 A2 B1 v hok h
    rw [evalLoop] at h
    split at h
    · cases h
    · rename_i hB
      have h2 := ih _ _ _ _ _ hok.2 h
      have hd := hok.1
      simp only [cf]
      set w := (x - z (i + 1)) * cf z x (i + 1 + 1) as with hw
      have e1 : v * (1 + (x - z i) * a * B1 + w) = A2 + (x - z i) * a * A1 + w * A2 := by
        set B := 1 + (x - z i) * a * B1 with hBdef
        have : v * (B + w) = v * (1 + w * (1 / B)) * B := by field_simp
        rw [this, h2]
        field_simp
      have e2 : (x - z i) * (a / (1 + w)) * B1 = (x - z i) * a * B1 / (1 + w) := by ring
      have e3 : (x - z i) * (a / (1 + w)) * A1 = (x - z i) * a * A1 / (1 + w) := by ring
      rw [e2, e3]
      field_simp
      linear_combination e1

/-- **C161, evaluation.** For any nodes, coefficients and argument: when the evaluation is defined and the fraction has no
vanishing denominator, the value is that of the continued fraction. -/
theorem C161_evaluation (z : ℕ → F) (a : List F) (x v : F) (hok : cfOk z x 0 a) (h : eval z a x = some v) : v = cf z x 0 a := by
  rcases a with _ | ⟨a0, as⟩
  · cases h
  · have h2 := evalLoop_cf z x as 0 0 a0 1 v hok.2 h
    rw [cf, eq_div_iff hok.1]
    simpa using h2

theorem cf_replicate (z : ℕ → F) (x : F) (a : List F) : ∀ (i k : ℕ), cf z x i (a ++ List.replicate k 0) = cf z x i a := by
  induction a with
  | nil =>
    intro i k
    rcases k with _ | k
    · rfl
    · simp [cf, List.replicate_succ]
  | cons b a ih => intro i k; simp only [List.cons_append, cf, ih]

theorem cfOk_replicate (z : ℕ → F) (x : F) (a : List F) : ∀ (i k : ℕ), cfOk z x i a → cfOk z x i (a ++ List.replicate k 0) := by
  induction a with
  | nil =>
    intro i k _
    induction k generalizing i with
    | zero => trivial
    | succ k ih =>
      rw [List.nil_append, List.replicate_succ]
      refine ⟨?_, by simpa using ih (i + 1) trivial⟩
      have := cf_replicate z x [] (i + 1) k
      rw [List.nil_append] at this
      rw [this]; simp [cf]
  | cons b a ih =>
    intro i k h
    rw [List.cons_append]
    exact ⟨by rw [cf_replicate]; exact h.1, ih _ _ h.2⟩

/-! ### The coefficients of a continued fraction are found -/

theorem coefLoop_zero (z : ℕ → F) (small : F → Bool) (h0 : small 0 = true) (N k q : ℕ) (prev : ℕ → F) (hp : prev q = 0) :
    coefLoop z small N k q prev = some (List.replicate (k + 1) 0) := by
  rcases k with _ | k
  · simp [coefLoop, hp]
  · rw [coefLoop, hp, h0]; simp [List.replicate_succ]

theorem coefLoop_cf (z : ℕ → F) (small : F → Bool) (h0 : small 0 = true) (N : ℕ)
    (hz : ∀ i j, i < j → j < N → z i ≠ z j) (a : List F) : ∀ (b : F) (k q : ℕ) (prev : ℕ → F), q + k + 1 = N →
    q + a.length + 1 ≤ N → (∀ i, i < a.length → small ((b :: a).getD i 0) = false) →
    (∀ j, q ≤ j → j < N → cfOk z (z j) q (b :: a) ∧ prev j = cf z (z j) q (b :: a)) →
    coefLoop z small N k q prev = some (b :: a ++ List.replicate (k - a.length) 0) := by
  induction a with
  | nil =>
    intro b k q prev hk hN hs hp
    have hq : prev q = b := by rw [(hp q le_rfl (by omega)).2]; simp [cf]
    rcases k with _ | k
    · simp [coefLoop, hq]
    · rw [coefLoop, hq]
      by_cases hb : small b = true
      · simp [hb, List.replicate_succ]
      · have hb0 : b ≠ 0 := by rintro rfl; exact hb h0
        have hconst : ∀ j, q ≤ j → j < N → prev j = b := by
          intro j h1 h2; rw [(hp j h1 h2).2]; simp [cf]
        have hr : rowStep z N (q + 1) prev = some (fun j => if q + 1 ≤ j ∧ j < N then
            (prev (q + 1 - 1) / prev j - 1) / (z j - z (q + 1 - 1)) else 0) := by
          unfold rowStep
          rw [if_pos]
          rw [List.all_eq_true]
          intro j hj
          have hj' := List.mem_range.mp hj
          by_cases hlt : j < q + 1
          · simp [hlt]
          · have hzz := hz q j (by omega) hj'
            simp [hlt, hconst j (by omega) hj', hb0, sub_ne_zero, hzz.symm]
        rw [if_neg hb, hr, Option.bind_some]
        rw [coefLoop_zero z small h0 N k (q + 1)]
        · simp
        · have h1 := hconst q le_rfl (by omega)
          have h2 := hconst (q + 1) (by omega) (by omega)
          simp only [Nat.add_sub_cancel, h1, h2, div_self hb0, sub_self, zero_div, ite_self]
  | cons c a ih =>
    intro b k q prev hk hN hs hp
    rw [List.length_cons] at hN
    obtain ⟨k, rfl⟩ : ∃ k', k = k' + 1 := ⟨k - 1, by omega⟩
    have hq : prev q = b := by rw [(hp q le_rfl (by omega)).2]; simp [cf]
    have hb : small b = false := by simpa using hs 0 (by simp)
    have hb0 : b ≠ 0 := by rintro rfl; rw [h0] at hb; cases hb
    have hne : ∀ j, q ≤ j → j < N → prev j ≠ 0 := by
      intro j h1 h2
      obtain ⟨hok, he⟩ := hp j h1 h2
      rw [he, cf]
      exact div_ne_zero hb0 hok.1
    have hr : rowStep z N (q + 1) prev = some (fun j => if q + 1 ≤ j ∧ j < N then
        (prev (q + 1 - 1) / prev j - 1) / (z j - z (q + 1 - 1)) else 0) := by
      unfold rowStep
      rw [if_pos]
      rw [List.all_eq_true]
      intro j hj
      have hj' := List.mem_range.mp hj
      by_cases hlt : j < q + 1
      · simp [hlt]
      · have hzz := hz q j (by omega) hj'
        simp [hlt, hne j (by omega) hj', sub_ne_zero, hzz.symm]
    rw [coefLoop, hq, hb, if_neg (by simp), hr, Option.bind_some]
    rw [ih c k (q + 1) _ (by omega) (by omega)]
    · simp [Nat.add_sub_add_right]
    · intro i hi
      have := hs (i + 1) (by simpa using hi)
      simpa using this
    · intro j h1 h2
      obtain ⟨hok, he⟩ := hp j (by omega) h2
      refine ⟨hok.2, ?_⟩
      have hzz : z j - z q ≠ 0 := sub_ne_zero.mpr (hz q j (by omega) h2).symm
      simp only [h1, h2, and_self, if_true, Nat.add_sub_cancel, hq, he]
      rw [cf, div_div_cancel₀ hb0, add_sub_cancel_left, mul_div_cancel_left₀ _ hzz]

/-- **C161, coefficients.** The values of a continued fraction at the nodes determine it: for any coefficients, of which only
the last may be small, any number `N` of distinct nodes, not smaller than the number of coefficients, at which the
denominators do not vanish, the constructor finds exactly these coefficients, followed by zeros. -/
theorem C161_coefficients (z u : ℕ → F) (small : F → Bool) (h0 : small 0 = true) (N prec : ℕ) (b : F) (a : List F)
    (hN : a.length + 1 ≤ N) (hz : ∀ i j, i < j → j < N → z i ≠ z j)
    (hs : ∀ i, i < a.length → small ((b :: a).getD i 0) = false)
    (hok : ∀ j < N, cfOk z (z j) 0 (b :: a)) (hu : ∀ j < N, u j = cf z (z j) 0 (b :: a)) :
    (construct z u small N prec).1 = some (b :: a ++ List.replicate (N - (a.length + 1)) 0) := by
  have h := coefLoop_cf z small h0 N hz a b (N - 1) 0 u (by omega) (by omega) hs (fun j _ hj => ⟨hok j hj, hu j hj⟩)
  unfold construct
  rw [if_neg (by omega), h]
  simp only [Option.some.injEq]
  congr 2
  omega

/-! ### Functions -/

/-- **C161, exact continuation.** If the data at the frequencies used are those of a continued fraction with at most as many
coefficients as points, the call succeeds and at every point where the result is defined and the fraction has no vanishing
denominator, the result is the fraction at the shifted real frequency. -/
theorem C161_continuation_partial (z u : ℕ → F) (small : F → Bool) (h0 : small 0 = true) (last n : ℤ) (b : F) (a : List F)
    (hn : (a.length + 1 : ℤ) ≤ n) (hl : n ≤ last + 1) (hz : ∀ i j : ℕ, i < j → (j : ℤ) < n → z i ≠ z j)
    (hs : ∀ i, i < a.length → small ((b :: a).getD i 0) = false)
    (hok : ∀ j : ℕ, (j : ℤ) < n → cfOk z (z j) 0 (b :: a)) (hu : ∀ j : ℕ, (j : ℤ) < n → u j = cf z (z j) 0 (b :: a))
    (ws : List W) (om : W → F) (off : F) (gr : W → Option F) :
    ∃ res, padeScalar small z u last n ws om off gr = .ok res ∧
      ∀ w v, cfOk z (om w + off) 0 (b :: a) → res w = some v → v = cf z (om w + off) 0 (b :: a) := by
  have hc := C161_coefficients z u small h0 n.toNat 0 b a (by omega) (fun i j h1 h2 => hz i j h1 (by omega)) hs
    (fun j hj => hok j (by omega)) (fun j hj => hu j (by omega))
  refine ⟨fun w => eval z (b :: a ++ List.replicate (n.toNat - (a.length + 1)) 0) (om w + off), ?_, ?_⟩
  · unfold padeScalar
    rw [if_neg (by omega), hc]
    simp
  · intro w v hw h
    rw [C161_evaluation _ _ _ _ (cfOk_replicate z _ _ 0 _ hw) h, cf_replicate]

theorem evalLoop_zeros (z : ℕ → F) (x : F) (k : ℕ) : ∀ (i : ℕ) (A1 A2 B1 : F),
    evalLoop z x i (List.replicate k 0) A1 A2 B1 = some A2 := by
  induction k with
  | zero => intro i A1 A2 B1; rfl
  | succ k ih =>
    intro i A1 A2 B1
    rw [List.replicate_succ, evalLoop]
    simp [ih]

/-- **C161, one pole.** For `r / (z - p)` with a pole outside of the nodes and at least two points: the result is defined and
exact at every frequency but the pole. -/
theorem C161_pole (z u : ℕ → F) (small : F → Bool) (h0 : small 0 = true) (last n : ℤ) (r p : F)
    (hn : 2 ≤ n) (hl : n ≤ last + 1) (hz : ∀ i j : ℕ, i < j → (j : ℤ) < n → z i ≠ z j)
    (hp : ∀ j : ℕ, (j : ℤ) < n → z j ≠ p) (hu : ∀ j : ℕ, (j : ℤ) < n → u j = r / (z j - p))
    (hs : small (u 0) = false) (ws : List W) (om : W → F) (off : F) (gr : W → Option F) :
    ∃ res, padeScalar small z u last n ws om off gr = .ok res ∧
      ∀ w, om w + off ≠ p → res w = some (r / (om w + off - p)) := by
  have hz0 : z 0 - p ≠ 0 := sub_ne_zero.mpr (hp 0 (by omega))
  have hden : ∀ x, 1 + (x - z 0) * (1 / (z 0 - p)) = (x - p) / (z 0 - p) := by
    intro x; field_simp; ring
  have hcf : ∀ x, cf z x 0 [r / (z 0 - p), 1 / (z 0 - p)] = r / (x - p) := by
    intro x
    simp only [cf, mul_zero, add_zero, div_one]
    rw [hden, div_div_div_cancel_right₀ hz0]
  have hok : ∀ x, x ≠ p → cfOk z x 0 [r / (z 0 - p), 1 / (z 0 - p)] := by
    intro x hx
    refine ⟨?_, ?_, trivial⟩
    · simp only [cf, mul_zero, add_zero, div_one]
      rw [hden]
      exact div_ne_zero (sub_ne_zero.mpr hx) hz0
    · simp [cf]
  have hc := C161_coefficients z u small h0 n.toNat 0 (r / (z 0 - p)) [1 / (z 0 - p)]
    (by simp only [List.length_cons, List.length_nil]; omega) (fun i j h1 h2 => hz i j h1 (by omega))
    (by
      intro i hi
      obtain rfl : i = 0 := by simpa using hi
      simpa [hu 0 (by omega)] using hs)
    (fun j hj => hok _ (hp j (by omega))) (fun j hj => by rw [hcf, hu j (by omega)])
  refine ⟨fun w => eval z ([r / (z 0 - p), 1 / (z 0 - p)] ++ List.replicate (n.toNat - 2) 0) (om w + off), ?_, ?_⟩
  · unfold padeScalar
    rw [if_neg (by omega), hc]
    simp
  · intro w hw
    have hB : 1 + (om w + off - z 0) * (1 / (z 0 - p)) * 1 ≠ 0 := by
      rw [mul_one, hden]; exact div_ne_zero (sub_ne_zero.mpr hw) hz0
    beta_reduce
    simp only [List.cons_append, List.nil_append, eval, evalLoop, if_neg hB, evalLoop_zeros]
    rw [mul_one, hden, mul_zero, add_zero, div_div_div_cancel_right₀ hz0]

/-- **C161, few points.** With one point the result is the value at the lowest frequency at all real frequencies, and so it is
with any number of points when this value is small. -/
theorem C161_constant (z u : ℕ → F) (small : F → Bool) (last n : ℤ) (hn : 1 ≤ n) (hl : n ≤ last + 1)
    (h : n = 1 ∨ small (u 0) = true) (ws : List W) (om : W → F) (off : F) (gr : W → Option F) :
    ∃ res, padeScalar small z u last n ws om off gr = .ok res ∧ ∀ w, res w = some (u 0) := by
  have hc : (construct z u small n.toNat 0).1 = some (u 0 :: List.replicate (n.toNat - 1) 0) := by
    unfold construct
    rw [if_neg (by omega)]
    rcases h with rfl | h
    · simp [coefLoop]
    · obtain ⟨k, hk⟩ : ∃ k, n.toNat - 1 = k := ⟨_, rfl⟩
      rw [hk]
      rcases k with _ | k
      · simp [coefLoop]
      · simp [coefLoop, h]
  refine ⟨fun w => eval z (u 0 :: List.replicate (n.toNat - 1) 0) (om w + off), ?_, ?_⟩
  · unfold padeScalar
    rw [if_neg (by omega), hc]
    simp
  · intro w
    simp only [eval, evalLoop_zeros]

/-! ### Scaling -/

theorem rowStep_smul (z : ℕ → F) (N p : ℕ) (u : ℕ → F) (c : F) (hc : c ≠ 0) :
    rowStep z N p (fun i => c * u i) = rowStep z N p u := by
  unfold rowStep
  have e : ∀ j, (c * u j ≠ 0) = (u j ≠ 0) := by intro j; simp [hc]
  simp only [e]
  congr 2
  funext j
  rw [mul_div_mul_left _ _ hc]

theorem evalLoop_smul (z : ℕ → F) (x c : F) (as : List F) : ∀ (i : ℕ) (A1 A2 B1 : F),
    evalLoop z x i as (c * A1) (c * A2) B1 = (evalLoop z x i as A1 A2 B1).map (c * ·) := by
  induction as with
  | nil => intro i A1 A2 B1; rfl
  | cons a as ih =>
    intro i A1 A2 B1
    rw [evalLoop, evalLoop]
    split
    · rfl
    · rw [← ih]
      congr 1 <;> ring

/-- **C161, scaling.** A factor which does not change whether the value at the lowest frequency counts as small goes through
the continuation: the call ends in the same way and all values carry the factor. -/
theorem C161_scaling (z u : ℕ → F) (small : F → Bool) (last n : ℤ) (c : F) (hc : c ≠ 0) (hs : small (c * u 0) = small (u 0))
    (ws : List W) (om : W → F) (off : F) (gr : W → Option F) :
    padeScalar small z (fun i => c * u i) last n ws om off gr =
      match padeScalar small z u last n ws om off gr with
      | .ok r => .ok (fun w => (r w).map (c * ·))
      | .thrown r => .thrown r
      | .undef => .undef := by
  unfold padeScalar
  by_cases h : n < 0 ∨ n > last + 1
  · simp only [if_pos h]
  · simp only [if_neg h]
    have hcon : (construct z (fun i => c * u i) small n.toNat 0).1 = (construct z u small n.toNat 0).1.map
        (fun a => match a with | [] => [] | b :: t => c * b :: t) := by
      unfold construct
      by_cases hN : n.toNat = 0
      · simp [hN]
      · simp only [if_neg hN]
        obtain ⟨k, hk⟩ : ∃ k, n.toNat - 1 = k := ⟨_, rfl⟩
        rw [hk]
        rcases k with _ | k
        · simp [coefLoop]
        · simp only [coefLoop, hs, rowStep_smul z _ _ u c hc]
          by_cases h1 : small (u 0) = true
          · simp [h1]
          · simp only [h1]
            cases hr : rowStep z n.toNat (0 + 1) u with
            | none => simp
            | some r =>
              cases hl : coefLoop z small n.toNat k (0 + 1) r with
              | none => simp [hl]
              | some l => simp [hl]
    rw [hcon]
    cases hcc : (construct z u small n.toNat 0).1 with
    | none => simp
    | some a =>
      rcases a with _ | ⟨b, t⟩
      · by_cases hw : ws = []
        · simp [hw, eval]
        · simp [hw]
      · simp only [Option.map_some, reduceCtorEq, false_and, if_false]
        congr 1
        funext w
        simp only [eval]
        have := evalLoop_smul z (om w + off) c t 0 0 b 1
        rwa [mul_zero] at this

/-! ### Arguments and the target space -/

/-- **C161, number of points.** A negative number and one larger than the number of non-negative frequencies are refused
before anything is written. -/
theorem C161_refused (small : F → Bool) (z : ℕ → F) (gw : T → ℕ → F) (last n : ℤ) (h : n < 0 ∨ n > last + 1) (ws : List W)
    (om : W → F) (off : F) (t : T) (ts : List T) (gr : T → W → Option F) :
    padeTensor small z gw last n ws om off (t :: ts) gr = .thrown gr := by
  simp [padeTensor, padeScalar, h]

/-- **C161, empty output.** With an empty mesh of real frequencies nothing is evaluated and the call ends normally or with the exception of the
construction, also for zero points. -/
theorem C161_no_frequencies (small : F → Bool) (z u : ℕ → F) (last n : ℤ) (om : W → F) (off : F) (gr : W → Option F) :
    padeScalar small z u last n [] om off gr ≠ .undef ∧ (0 ≤ last + 1 → ∃ r, padeScalar small z u last 0 [] om off gr = .ok r) := by
  constructor
  · unfold padeScalar
    split
    · simp
    · split <;> simp
  · intro h
    unfold padeScalar
    rw [if_neg (by omega)]
    simp [construct]

/-- **C161 fails for zero points**: the number 0, which the message of the exception excludes, is accepted and the evaluation
reads outside of the coefficients, for any data. -/
theorem C161_zero_points (small : F → Bool) (z : ℕ → F) (gw : T → ℕ → F) (last : ℤ) (hl : -1 ≤ last) (ws : List W) (hw : ws ≠ [])
    (om : W → F) (off : F) (t : T) (ts : List T) (gr : T → W → Option F) :
    padeTensor small z gw last 0 ws om off (t :: ts) gr = .undef := by
  have h : ¬ ((0 : ℤ) < 0 ∨ (0 : ℤ) > last + 1) := by omega
  simp only [padeTensor, padeScalar, if_neg h]
  simp [construct, hw]

/-- **C161, elements.** A call that ends normally has set each element of the target space to the continuation of the same
element of the data, computed from that element alone, and left anything else as it was. -/
theorem C161_elements (small : F → Bool) (z : ℕ → F) (gw : T → ℕ → F) (last n : ℤ) (ws : List W) (om : W → F) (off : F)
    (ts : List T) : ∀ (gr res : T → W → Option F), ts.Nodup → padeTensor small z gw last n ws om off ts gr = .ok res →
    (∀ t ∈ ts, padeScalar small z (gw t) last n ws om off (gr t) = .ok (res t)) ∧ ∀ t, t ∉ ts → res t = gr t := by
  induction ts with
  | nil =>
    intro gr res _ h
    rw [padeTensor] at h
    cases h
    exact ⟨by simp, fun _ _ => rfl⟩
  | cons t ts ih =>
    intro gr res hnd h
    rw [List.nodup_cons] at hnd
    rw [padeTensor] at h
    cases hp : padeScalar small z (gw t) last n ws om off (gr t) with
    | undef => rw [hp] at h; cases h
    | thrown r => rw [hp] at h; cases h
    | ok r =>
      rw [hp] at h
      obtain ⟨h1, h2⟩ := ih _ _ hnd.2 h
      have hrt : res t = r := by rw [h2 t hnd.1, Function.update_self]
      constructor
      · intro s hs
        rcases List.mem_cons.mp hs with rfl | hs'
        · rw [hrt, hp]
        · have hst : s ≠ t := by rintro rfl; exact hnd.1 hs'
          have := h1 s hs'
          rwa [Function.update_of_ne hst] at this
      · intro s hs
        rw [List.mem_cons, not_or] at hs
        rw [h2 s hs.2, Function.update_of_ne hs.1]

/-- **C161 fails after an exception**: of three elements the second has a value 0 at the second frequency. The exception leaves
the first element continued, the second zero, and the third as it was before the call. -/
theorem C161_half_written : (match padeTensor (T := Fin 3) (fun x => x == 0) (fun i => (i : ℚ))
      (fun t i => if t = 1 ∧ i = 1 then 0 else 1 / (1 + i)) 9 2 [()] (fun _ => (4 : ℚ)) 0 [0, 1, 2] (fun _ _ => some 7) with
    | .thrown res => some (res 0 (), res 1 (), res 2 ())
    | _ => none) = some (some (1 / 5), some 0, some 7) := by decide +kernel

/-! ### Matsubara frequencies -/

/-- the test of pade_approximants.hpp:90 -/
noncomputable def smallC (x : ℂ) : Bool := decide (Complex.normSq x < 1e-20)

/-- `z_in`, pade.cpp:46 -/
noncomputable def nodes (beta : ℝ) (st : Stat) (i : ℕ) : ℂ := (Freq.mk i beta st).value

theorem nodes_inj (beta : ℝ) (hb : 0 < beta) (st : Stat) (i j : ℕ) (h : i < j) : nodes beta st i ≠ nodes beta st j := by
  intro he
  have := congrArg Complex.im he
  simp only [nodes, Freq.value] at this
  rw [div_left_inj' hb.ne', mul_right_inj' Real.pi_ne_zero] at this
  have h2 : (i : ℝ) = j := by push_cast at this; linarith
  exact absurd (Nat.cast_injective h2) (by omega)

/-- **C161, one level.** For an electron with one level `eps` and weight `r` (fermionic data): with two or more points the
continuation is `r / (omega + i eta - eps)` at all real frequencies and offsets except at the pole itself, provided the value
at the lowest frequency does not count as small. -/
theorem C161_level (beta eps eta : ℝ) (hb : 0 < beta) (r : ℂ) (u : ℕ → ℂ) (last n : ℤ) (hn : 2 ≤ n) (hl : n ≤ last + 1)
    (hu : ∀ j : ℕ, (j : ℤ) < n → u j = r / (nodes beta .fermion j - eps)) (hs : 1e-20 ≤ Complex.normSq (u 0))
    (ws : List ℝ) (gr : ℝ → Option ℂ) :
    ∃ res, padeScalar smallC (nodes beta .fermion) u last n ws (fun w : ℝ => (w : ℂ)) (Complex.I * eta) gr = .ok res ∧
      ∀ w : ℝ, (w ≠ eps ∨ eta ≠ 0) → res w = some (r / (w + Complex.I * eta - eps)) := by
  have hnode : ∀ j : ℕ, nodes beta .fermion j ≠ (eps : ℂ) := by
    intro j he
    have := congrArg Complex.im he
    simp only [nodes, Freq.value, Complex.ofReal_im] at this
    have hpos : 0 < Real.pi * (2 * (j : ℝ) + 1) / beta := by positivity
    rw [div_eq_zero_iff] at this
    rcases this with h | h
    · simp [Stat.toInt] at h
      have : (0 : ℝ) ≤ (j : ℝ) := Nat.cast_nonneg j
      linarith
    · exact hb.ne' h
  obtain ⟨res, h1, h2⟩ := C161_pole (nodes beta .fermion) u smallC (by simp [smallC]; norm_num) last n r (eps : ℂ) hn hl
    (fun i j hij _ => nodes_inj beta hb _ i j hij) (fun j _ => hnode j) hu (by simpa [smallC] using hs) ws
    (fun w : ℝ => (w : ℂ)) (Complex.I * eta) gr
  refine ⟨res, h1, fun w hw => h2 w ?_⟩
  intro he
  have hre := congrArg Complex.re he
  have him := congrArg Complex.im he
  simp at hre him
  rcases hw with hw | hw
  · exact hw hre
  · exact hw him

/-! ### Examples -/

/-- two poles: `1/(z-10) + 1/(z+10)` from five points; the continuation at 20 is exact -/
example : (construct (F := ℚ) (fun i => i + 1) (fun i => 1 / ((i : ℚ) + 1 - 10) + 1 / ((i : ℚ) + 1 + 10)) (fun x => x == 0) 5 0).1.isSome = true ∧
    ((construct (F := ℚ) (fun i => i + 1) (fun i => 1 / ((i : ℚ) + 1 - 10) + 1 / ((i : ℚ) + 1 + 10)) (fun x => x == 0) 5 0).1.bind
      fun a => eval (fun i => (i : ℚ) + 1) a 20) = some (1 / 10 + 1 / 30) := by decide +kernel

/-- a fraction with three coefficients, recovered from five points, and its value -/
example : cf (F := ℚ) (fun i => i) 5 0 [2, 3, 1] = 1 / 2 ∧
    (construct (F := ℚ) (fun i => i) (fun j => cf (fun i => (i : ℚ)) j 0 [2, 3, 1]) (fun x => x == 0) 5 0).1 = some [2, 3, 1, 0, 0] ∧
    eval (F := ℚ) (fun i => i) [2, 3, 1, 0, 0] 5 = some (1 / 2) := by decide +kernel

/-- one level of weight 1 at 0, `beta = pi`: the lowest frequency is `i`, and the continuation at 2 without offset is 1/2 -/
example : ∃ res, padeScalar smallC (nodes Real.pi .fermion) (fun j => 1 / (nodes Real.pi .fermion j - (0 : ℝ))) 9 4 [2]
    (fun w : ℝ => (w : ℂ)) (Complex.I * (0 : ℝ)) (fun _ => none) = .ok res ∧ res 2 = some (1 / 2) := by
  have hn : nodes Real.pi .fermion 0 = Complex.I := by
    apply Complex.ext <;> simp [nodes, Freq.value, Stat.toInt]
  obtain ⟨res, h1, h2⟩ := C161_level Real.pi 0 0 Real.pi_pos 1 (fun j => 1 / (nodes Real.pi .fermion j - (0 : ℝ))) 9 4
    (by norm_num) (by norm_num) (fun _ _ => rfl) (by rw [hn]; simp; norm_num) [2] (fun _ => none)
  exact ⟨res, h1, by rw [h2 2 (Or.inl (by norm_num))]; simp⟩

end Verif.PadeGf
