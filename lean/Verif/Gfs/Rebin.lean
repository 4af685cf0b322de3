import Verif.Mesh.Linear
import Mathlib.Data.Complex.Basic
import Mathlib.Analysis.Complex.Norm
import Mathlib.Analysis.Complex.Basic
import Mathlib.Tactic.FieldSimp
import Mathlib.Tactic.Positivity
import Mathlib.Tactic.NormNum.BigOperators
import Mathlib.Tactic.IntervalCases

/-!
# Property C112: rebinning of functions of imaginary time

Source: `/repo/c++/triqs/gfs/functions/imtime.cpp`.

Simplifications: exact real and complex numbers, one element of the target (the loop acts on all of them in the same way).
-/

namespace Verif.Rebin

/-! ## Model -/

/-- `new_gf`, `prev_index` and `norm`, imtime.cpp:34-38 -/
structure St where
  gf : ℤ → ℂ
  prev : ℤ
  norm : ℤ

/-- `std::round`: to the nearest integer, ties away from zero -/
noncomputable def stdRound (x : ℝ) : ℤ := if 0 ≤ x then ⌊x + 1 / 2⌋ else ⌈x - 1 / 2⌉

/-- body of the loop, imtime.cpp:40-48, at the point `k` of the old mesh; `none` when `new_gf` is accessed out of bounds or a division
by zero or by the vanishing step of a mesh of one point yields no number -/
noncomputable def step (old new : Linear.Mesh ℝ) (g : ℤ → ℂ) (s : Option St) (k : ℕ) : Option St :=
  s.bind fun s => (Linear.toValue old k).bind fun tau =>
    if new.delta = 0 then none
    else
      let index := stdRound (tau / new.delta);
      if Linear.validIndex new index = false then none
      else if index = s.prev then
        some ⟨Function.update s.gf index (s.gf index + g k), s.prev, s.norm + 1⟩
      else if Linear.validIndex new (index - 1) = false ∨ s.norm = 0 then none
      else
        let gf := Function.update s.gf (index - 1) (s.gf (index - 1) / (s.norm : ℂ));
        some ⟨Function.update gf index (gf index + g k), index, 1⟩

/-- imtime.cpp:50-51 -/
noncomputable def last (new : Linear.Mesh ℝ) (s : St) : Option (ℤ → ℂ) :=
  if s.norm ≠ 1 then
    (if s.norm = 0 ∨ Linear.validIndex new (new.L - 1) = false then none
     else some (Function.update s.gf (new.L - 1) (s.gf (new.L - 1) / (s.norm : ℂ))))
  else some s.gf

/-- `rebinning_tau`, imtime.cpp:31-53, for a function on `n` points of `[0, beta]` -/
noncomputable def rebin (beta : ℝ) (n n' : ℕ) (g : ℤ → ℂ) : Option (ℤ → ℂ) :=
  (Linear.mk' 0 beta n).bind fun old => (Linear.mk' 0 beta n').bind fun new =>
    ((List.range n).foldl (step old new g) (some ⟨fun _ => 0, 0, 0⟩)).bind (last new)

/-! ## Specification -/

/-- points of the old mesh whose nearest point of the new mesh is `b` (of two nearest points the later one) -/
noncomputable def bin (beta : ℝ) (n n' : ℕ) (b : ℕ) : Finset ℕ :=
  (Finset.range n).filter fun k =>
    (b - 1 / 2) * (beta / (n' - 1)) ≤ k * (beta / (n - 1)) ∧ k * (beta / (n - 1)) < (b + 1 / 2) * (beta / (n' - 1))

/-! ## Proofs -/

/-- the index computed at the point `k`, as a natural number -/
noncomputable def idx (n n' k : ℕ) : ℕ := ⌊(k : ℝ) * ((n' : ℝ) - 1) / ((n : ℝ) - 1) + 1 / 2⌋₊

section idx
variable {n n' : ℕ} (hn : 2 ≤ n) (hn' : 2 ≤ n')
include hn hn'

theorem pos : (0 : ℝ) < (n : ℝ) - 1 ∧ (0 : ℝ) < (n' : ℝ) - 1 := by
  have h1 : (2 : ℝ) ≤ n := by exact_mod_cast hn
  have h2 : (2 : ℝ) ≤ n' := by exact_mod_cast hn'
  constructor <;> linarith

theorem arg_nonneg (k : ℕ) : 0 ≤ (k : ℝ) * ((n' : ℝ) - 1) / ((n : ℝ) - 1) :=
  div_nonneg (mul_nonneg (Nat.cast_nonneg _) (pos hn hn').2.le) (pos hn hn').1.le

theorem idx_iff (k b : ℕ) : idx n n' k = b ↔ ((b : ℝ) - 1 / 2) ≤ (k : ℝ) * ((n' : ℝ) - 1) / ((n : ℝ) - 1) ∧
    (k : ℝ) * ((n' : ℝ) - 1) / ((n : ℝ) - 1) < (b : ℝ) + 1 / 2 := by
  have h := arg_nonneg hn hn' k
  rw [idx, Nat.floor_eq_iff (by linarith)]
  constructor
  · rintro ⟨h1, h2⟩
    constructor <;> linarith
  · rintro ⟨h1, h2⟩
    constructor <;> linarith

theorem idx_zero : idx n n' 0 = 0 := by
  rw [idx_iff hn hn']
  norm_num

theorem idx_mono (k : ℕ) : idx n n' k ≤ idx n n' (k + 1) := by
  apply Nat.floor_mono
  have := pos hn hn'
  gcongr
  · exact this.1.le
  · exact this.2.le
  · omega

theorem idx_last : idx n n' (n - 1) = n' - 1 := by
  have := pos hn hn'
  rw [idx_iff hn hn', Nat.cast_sub (by omega), Nat.cast_sub (by omega), Nat.cast_one, mul_comm, mul_div_assoc, div_self this.1.ne']
  constructor <;> linarith

theorem idx_lt (k : ℕ) (hk : k < n) : idx n n' k < n' := by
  have : idx n n' k ≤ idx n n' (n - 1) := monotone_nat_of_le_succ (idx_mono hn hn') (by omega)
  rw [idx_last hn hn'] at this
  omega

theorem arg_succ (k : ℕ) : ((k + 1 : ℕ) : ℝ) * ((n' : ℝ) - 1) / ((n : ℝ) - 1) = (k : ℝ) * ((n' : ℝ) - 1) / ((n : ℝ) - 1) + ((n' : ℝ) - 1) / ((n : ℝ) - 1) := by
  push_cast
  ring

theorem idx_step_le (h : n' ≤ n) (k : ℕ) : idx n n' (k + 1) ≤ idx n n' k + 1 := by
  have hp := pos hn hn'
  have hr : ((n' : ℝ) - 1) / ((n : ℝ) - 1) ≤ 1 := by
    rw [div_le_one hp.1]
    have : (n' : ℝ) ≤ n := by exact_mod_cast h
    linarith
  have h1 := (idx_iff hn hn' k _).mp rfl
  have h2 := (idx_iff hn hn' (k + 1) _).mp rfl
  rw [arg_succ hn hn'] at h2
  have : (idx n n' (k + 1) : ℝ) < idx n n' k + 2 := by linarith
  have : idx n n' (k + 1) < idx n n' k + 2 := by exact_mod_cast this
  omega

theorem idx_step_lt (h : n ≤ n') (k : ℕ) : idx n n' k < idx n n' (k + 1) := by
  have hp := pos hn hn'
  have hr : 1 ≤ ((n' : ℝ) - 1) / ((n : ℝ) - 1) := by
    rw [one_le_div hp.1]
    have : (n : ℝ) ≤ n' := by exact_mod_cast h
    linarith
  have h1 := (idx_iff hn hn' k _).mp rfl
  have h2 := (idx_iff hn hn' (k + 1) _).mp rfl
  rw [arg_succ hn hn'] at h2
  have : (idx n n' k : ℝ) < idx n n' (k + 1) := by linarith
  exact_mod_cast this

end idx

/-- state after the first `m + 1` points -/
def Inv (n n' : ℕ) (g : ℤ → ℂ) (m : ℕ) (s : St) : Prop :=
  s.prev = idx n n' m ∧ s.norm = ((Finset.range (m + 1)).filter fun k => idx n n' k = idx n n' m).card ∧
  (∀ b : ℕ, b < idx n n' m → s.gf b = (∑ k ∈ (Finset.range (m + 1)).filter fun k => idx n n' k = b, g k) /
    ((Finset.range (m + 1)).filter fun k => idx n n' k = b).card) ∧
  s.gf (idx n n' m) = ∑ k ∈ (Finset.range (m + 1)).filter (fun k => idx n n' k = idx n n' m), g k ∧
  ∀ b : ℕ, idx n n' m < b → s.gf b = 0

section loop
variable {beta : ℝ} (hb : 0 < beta) {n n' : ℕ} (hn : 2 ≤ n) (hn' : 2 ≤ n')
include hb hn hn'

theorem mk_eq (n : ℕ) (hn : 2 ≤ n) : ∃ m : Linear.Mesh ℝ, Linear.mk' 0 beta n = some m ∧ m.L = n ∧ m.xmin = 0 ∧ m.xmax = beta ∧ m.delta = beta / ((n : ℝ) - 1) := by
  refine ⟨_, if_pos hb.le, rfl, rfl, rfl, ?_⟩
  show (if (n : ℤ) = 1 then (0 : ℝ) else _) = _
  rw [if_neg (by omega)]
  push_cast
  rw [sub_zero]

theorem stdRound_eq (k : ℕ) : stdRound ((0 * (1 - (k : ℝ) / ((n : ℝ) - 1)) + beta * ((k : ℝ) / ((n : ℝ) - 1))) / (beta / ((n' : ℝ) - 1))) = idx n n' k := by
  have hp := pos hn hn'
  have e : (0 * (1 - (k : ℝ) / ((n : ℝ) - 1)) + beta * ((k : ℝ) / ((n : ℝ) - 1))) / (beta / ((n' : ℝ) - 1)) = (k : ℝ) * ((n' : ℝ) - 1) / ((n : ℝ) - 1) := by
    have := hp.1.ne'
    have := hp.2.ne'
    have := hb.ne'
    field_simp
    ring
  have h0 := arg_nonneg hn hn' k
  rw [e, stdRound, if_pos h0, idx, Int.natCast_floor_eq_floor (by linarith)]

/-- one step of the loop in terms of the index -/
theorem step_eq (old new : Linear.Mesh ℝ) (ho : old.L = n ∧ old.xmin = 0 ∧ old.xmax = beta) (hw : new.L = n' ∧ new.delta = beta / ((n' : ℝ) - 1))
    (g : ℤ → ℂ) (s : St) (k : ℕ) (hk : k < n) :
    step old new g (some s) k =
      if (idx n n' k : ℤ) = s.prev then some ⟨Function.update s.gf (idx n n' k) (s.gf (idx n n' k) + g k), s.prev, s.norm + 1⟩
      else if Linear.validIndex new ((idx n n' k : ℤ) - 1) = false ∨ s.norm = 0 then none
      else
        let gf := Function.update s.gf ((idx n n' k : ℤ) - 1) (s.gf ((idx n n' k : ℤ) - 1) / (s.norm : ℂ));
        some ⟨Function.update gf (idx n n' k) (gf (idx n n' k) + g k), idx n n' k, 1⟩ := by
  have hp := pos hn hn'
  have hd : new.delta ≠ 0 := by rw [hw.2]; exact (div_pos hb hp.2).ne'
  have hv : Linear.toValue old k = some (0 * (1 - (k : ℝ) / ((n : ℝ) - 1)) + beta * ((k : ℝ) / ((n : ℝ) - 1))) := by
    unfold Linear.toValue
    rw [if_pos (by unfold Linear.validIndex; simp only [Bool.and_eq_true, decide_eq_true_eq]; rw [ho.1]; omega), if_neg (by rw [ho.1]; omega), ho.1, ho.2.1, ho.2.2]
    push_cast
    rfl
  have hvi : Linear.validIndex new (idx n n' k) = true := by
    unfold Linear.validIndex
    simp only [Bool.and_eq_true, decide_eq_true_eq]
    have := idx_lt hn hn' k hk
    rw [hw.1]
    omega
  unfold step
  rw [Option.bind_some, hv, Option.bind_some, if_neg hd, hw.2]
  simp only [stdRound_eq hb hn hn' k]
  rw [if_neg (by rw [hvi]; simp)]

theorem inv_zero (old new : Linear.Mesh ℝ) (ho : old.L = n ∧ old.xmin = 0 ∧ old.xmax = beta) (hw : new.L = n' ∧ new.delta = beta / ((n' : ℝ) - 1))
    (g : ℤ → ℂ) : ∃ s, step old new g (some ⟨fun _ => 0, 0, 0⟩) 0 = some s ∧ Inv n n' g 0 s := by
  rw [step_eq hb hn hn' old new ho hw g _ 0 (by omega), idx_zero hn hn']
  rw [if_pos (by rfl)]
  refine ⟨_, rfl, ?_⟩
  refine ⟨?_, ?_, ?_, ?_, ?_⟩
  · simp [idx_zero hn hn']
  · simp [Finset.range_one, Finset.filter_singleton]
  · intro b hbl
    rw [idx_zero hn hn'] at hbl
    omega
  · simp [Finset.range_one, Finset.filter_singleton, idx_zero hn hn']
  · intro b hbl
    rw [idx_zero hn hn'] at hbl
    simp only
    rw [Function.update_of_ne (by simp; omega)]

theorem inv_succ (old new : Linear.Mesh ℝ) (ho : old.L = n ∧ old.xmin = 0 ∧ old.xmax = beta) (hw : new.L = n' ∧ new.delta = beta / ((n' : ℝ) - 1))
    (g : ℤ → ℂ) (m : ℕ) (hm : m + 1 < n) (s : St) (hs : Inv n n' g m s) :
    ∃ s', step old new g (some s) (m + 1) = some s' ∧ Inv n n' g (m + 1) s' := by
  obtain ⟨h1, h2, h3, h4, h5⟩ := hs
  have hmono := monotone_nat_of_le_succ (idx_mono hn hn')
  rw [step_eq hb hn hn' old new ho hw g s (m + 1) hm]
  -- the points of a bin among the first m + 2 points
  have hfil : ∀ b : ℕ, (Finset.range (m + 1 + 1)).filter (fun k => idx n n' k = b) =
      if idx n n' (m + 1) = b then insert (m + 1) ((Finset.range (m + 1)).filter fun k => idx n n' k = b) else (Finset.range (m + 1)).filter fun k => idx n n' k = b := by
    intro b
    rw [Finset.range_add_one (n := m + 1), Finset.filter_insert]
  have hnot : ∀ b : ℕ, m + 1 ∉ (Finset.range (m + 1)).filter fun k => idx n n' k = b := by
    intro b h
    rw [Finset.mem_filter, Finset.mem_range] at h
    omega
  have hcard : 0 < ((Finset.range (m + 1)).filter fun k => idx n n' k = idx n n' m).card :=
    Finset.card_pos.mpr ⟨m, by simp⟩
  have hempty : ∀ b : ℕ, idx n n' m < b → (Finset.range (m + 1)).filter (fun k => idx n n' k = b) = ∅ := by
    intro b hbl
    rw [Finset.filter_eq_empty_iff]
    intro k hk h
    rw [Finset.mem_range] at hk
    have := hmono (show k ≤ m by omega)
    omega
  by_cases he : (idx n n' (m + 1) : ℤ) = s.prev
  · rw [if_pos he]
    have he' : idx n n' (m + 1) = idx n n' m := by rw [h1] at he; exact_mod_cast he
    refine ⟨_, rfl, ?_, ?_, ?_, ?_, ?_⟩
    · rw [he', h1]
    · simp only [he'] at hfil ⊢
      rw [hfil, if_pos rfl, Finset.card_insert_of_notMem (hnot _), h2]
      push_cast
      ring
    · intro b hbl
      simp only
      rw [Function.update_of_ne (by simp; omega), hfil, if_neg (by omega)]
      exact h3 b (by omega)
    · simp only [he'] at hfil ⊢
      rw [Function.update_self, hfil, if_pos rfl, Finset.sum_insert (hnot _), h4, add_comm]
    · intro b hbl
      simp only
      rw [Function.update_of_ne (by simp; omega)]
      exact h5 b (by omega)
  · rw [if_neg he]
    have hlt : idx n n' m < idx n n' (m + 1) := by
      have := idx_mono hn hn' m
      rw [h1] at he
      omega
    have hrange := idx_lt hn hn' (m + 1) hm
    have hvi : Linear.validIndex new ((idx n n' (m + 1) : ℤ) - 1) = true := by
      unfold Linear.validIndex
      simp only [Bool.and_eq_true, decide_eq_true_eq]
      rw [hw.1]
      omega
    rw [if_neg (by rw [hvi, h2]; simp; exact ⟨m, by omega, rfl⟩)]
    -- the division acts on the previous bin, or divides by one
    have hdiv : ∀ b : ℕ, b < idx n n' (m + 1) → Function.update s.gf ((idx n n' (m + 1) : ℤ) - 1) (s.gf ((idx n n' (m + 1) : ℤ) - 1) / (s.norm : ℂ)) b =
        (∑ k ∈ (Finset.range (m + 1)).filter fun k => idx n n' k = b, g k) / ((Finset.range (m + 1)).filter fun k => idx n n' k = b).card := by
      intro b hbl
      rcases Nat.le_total n' n with hle | hle
      · have hs := idx_step_le hn hn' hle m
        have hp : (idx n n' (m + 1) : ℤ) - 1 = idx n n' m := by omega
        rw [hp]
        by_cases hbe : b = idx n n' m
        · rw [hbe, Function.update_self, h4, h2]
          simp
        · rw [Function.update_of_ne (by simp; omega)]
          exact h3 b (by omega)
      · have hone : ((Finset.range (m + 1)).filter fun k => idx n n' k = idx n n' m) = {m} := by
          ext k
          simp only [Finset.mem_filter, Finset.mem_range, Finset.mem_singleton]
          constructor
          · rintro ⟨hk, hke⟩
            by_contra hne
            have := (strictMono_nat_of_lt_succ (idx_step_lt hn hn' hle)).injective hke
            exact hne this
          · rintro rfl
            exact ⟨by omega, rfl⟩
        have hnorm : s.norm = 1 := by rw [h2, hone]; simp
        rw [hnorm, Int.cast_one, div_one, Function.update_eq_self]
        rcases lt_trichotomy b (idx n n' m) with h | h | h
        · exact h3 b h
        · rw [h, h4, hone]
          simp
        · rw [h5 b h, hempty b h]
          simp
    refine ⟨_, rfl, rfl, ?_, ?_, ?_, ?_⟩
    · simp only
      rw [hfil, if_pos rfl, hempty _ hlt]
      simp
    · intro b hbl
      simp only
      rw [Function.update_of_ne (by simp; omega), hdiv b hbl, hfil, if_neg (by omega)]
    · simp only
      rw [Function.update_self, Function.update_of_ne (by omega), h5 _ hlt, hfil, if_pos rfl, hempty _ hlt]
      simp
    · intro b hbl
      simp only
      rw [Function.update_of_ne (by simp; omega), Function.update_of_ne (by omega)]
      exact h5 b (by omega)

theorem loop_inv (old new : Linear.Mesh ℝ) (ho : old.L = n ∧ old.xmin = 0 ∧ old.xmax = beta) (hw : new.L = n' ∧ new.delta = beta / ((n' : ℝ) - 1))
    (g : ℤ → ℂ) (m : ℕ) (hm : m < n) : ∃ s, (List.range (m + 1)).foldl (step old new g) (some ⟨fun _ => 0, 0, 0⟩) = some s ∧ Inv n n' g m s := by
  induction m with
  | zero => simpa using inv_zero hb hn hn' old new ho hw g
  | succ m ih =>
    obtain ⟨s, h1, h2⟩ := ih (by omega)
    obtain ⟨s', h3, h4⟩ := inv_succ hb hn hn' old new ho hw g m hm s h2
    exact ⟨s', by rw [List.range_succ, List.foldl_append, h1]; exact h3, h4⟩

theorem bin_eq (b : ℕ) : bin beta n n' b = (Finset.range n).filter fun k => idx n n' k = b := by
  have hp := pos hn hn'
  unfold bin
  apply Finset.filter_congr
  intro k _
  rw [idx_iff hn hn', ← mul_div_assoc, ← mul_div_assoc, ← mul_div_assoc, div_le_div_iff₀ hp.2 hp.1, div_lt_div_iff₀ hp.1 hp.2, le_div_iff₀ hp.1, div_lt_iff₀ hp.1]
  constructor
  · rintro ⟨h1, h2⟩
    constructor
    · by_contra h
      push Not at h
      nlinarith [mul_lt_mul_of_pos_left h hb]
    · by_contra h
      push Not at h
      nlinarith [mul_le_mul_of_nonneg_left h hb.le]
  · rintro ⟨h1, h2⟩
    constructor
    · nlinarith [mul_le_mul_of_nonneg_left h1 hb.le]
    · nlinarith [mul_lt_mul_of_pos_left h2 hb]

end loop

/-- **C112.** For at least two old and two new points every bin is the average of the old values at the points nearest to it, and zero if
there is none. -/
theorem C112_average {beta : ℝ} (hb : 0 < beta) {n n' : ℕ} (hn : 2 ≤ n) (hn' : 2 ≤ n') (g : ℤ → ℂ) :
    ∃ r, rebin beta n n' g = some r ∧ ∀ b < n', ((bin beta n n' b).Nonempty → r b = (∑ k ∈ bin beta n n' b, g k) / (bin beta n n' b).card) ∧
      (bin beta n n' b = ∅ → r b = 0) := by
  obtain ⟨old, e1, o1, o2, o3, -⟩ := mk_eq hb hn hn' n hn
  obtain ⟨new, e2, w1, -, -, w2⟩ := mk_eq hb hn hn' n' hn'
  obtain ⟨s, e3, h1, h2, h3, h4, h5⟩ := loop_inv hb hn hn' old new ⟨o1, o2, o3⟩ ⟨w1, w2⟩ g (n - 1) (by omega)
  rw [show n - 1 + 1 = n by omega] at e3 h2 h3 h4
  rw [idx_last hn hn'] at h1 h2 h3 h4
  have hcard : 0 < ((Finset.range n).filter fun k => idx n n' k = n' - 1).card :=
    Finset.card_pos.mpr ⟨n - 1, by simp [idx_last hn hn']; omega⟩
  have key : ∃ r, rebin beta n n' g = some r ∧ ∀ b < n', r b = (∑ k ∈ bin beta n n' b, g k) / (bin beta n n' b).card := by
    unfold rebin
    rw [e1, Option.bind_some, e2, Option.bind_some, e3, Option.bind_some]
    unfold last
    have hL : new.L - 1 = ((n' - 1 : ℕ) : ℤ) := by rw [w1]; omega
    by_cases h : s.norm = 1
    · rw [if_neg (not_not_intro h)]
      refine ⟨_, rfl, fun b hbl => ?_⟩
      rw [bin_eq hb hn hn']
      by_cases hbe : b = n' - 1
      · rw [hbe, h4]
        rw [h] at h2
        have : ((Finset.range n).filter fun k => idx n n' k = n' - 1).card = 1 := by exact_mod_cast h2.symm
        rw [this]
        simp
      · exact h3 b (by omega)
    · rw [if_pos h, if_neg (by
        rw [h2, hL]
        unfold Linear.validIndex
        rw [w1]
        simp only [Bool.and_eq_false_iff, decide_eq_false_iff_not]
        omega)]
      refine ⟨_, rfl, fun b hbl => ?_⟩
      rw [bin_eq hb hn hn', hL]
      by_cases hbe : b = n' - 1
      · rw [hbe, Function.update_self, h4, h2]
        simp
      · rw [Function.update_of_ne (by simp; omega)]
        exact h3 b (by omega)
  obtain ⟨r, k1, k2⟩ := key
  refine ⟨r, k1, fun b hbl => ⟨fun _ => k2 b hbl, fun he => ?_⟩⟩
  rw [k2 b hbl, he]
  simp

/-- **C112, coarser meshes.** If the new mesh has at most as many points as the old one, every bin contains a point. -/
theorem C112_nonempty {beta : ℝ} (hb : 0 < beta) {n n' : ℕ} (hn : 2 ≤ n) (hn' : 2 ≤ n') (hle : n' ≤ n) (b : ℕ) (hbl : b < n') : (bin beta n n' b).Nonempty := by
  rw [bin_eq hb hn hn']
  have hall : ∀ m, ∀ b, b ≤ idx n n' m → ∃ k ≤ m, idx n n' k = b := by
    intro m
    induction m with
    | zero => intro b h; rw [idx_zero hn hn'] at h; exact ⟨0, le_rfl, by rw [idx_zero hn hn']; omega⟩
    | succ m ih =>
      intro b h
      by_cases hb' : b ≤ idx n n' m
      · obtain ⟨k, hk, e⟩ := ih b hb'
        exact ⟨k, by omega, e⟩
      · have := idx_step_le hn hn' hle m
        exact ⟨m + 1, le_rfl, by omega⟩
  obtain ⟨k, hk, e⟩ := hall (n - 1) b (by rw [idx_last hn hn']; omega)
  exact ⟨k, by rw [Finset.mem_filter, Finset.mem_range]; exact ⟨by omega, e⟩⟩

/-- **C112, error.** A function that changes by at most `L` per unit of time is reproduced on a coarser mesh up to `L` times half of the
new step; in particular constants are reproduced. -/
theorem C112_error {beta : ℝ} (hb : 0 < beta) {n n' : ℕ} (hn : 2 ≤ n) (hn' : 2 ≤ n') (hle : n' ≤ n) (f : ℝ → ℂ) (L : ℝ) (hL : 0 ≤ L) (hf : ∀ s t, ‖f s - f t‖ ≤ L * |s - t|) :
    ∃ r, rebin beta n n' (fun k => f (k * (beta / (n - 1)))) = some r ∧
      ∀ b < n', ‖r b - f (b * (beta / (n' - 1)))‖ ≤ L * (beta / (n' - 1) / 2) := by
  obtain ⟨r, h1, h2⟩ := C112_average hb hn hn' (fun k => f (k * (beta / (n - 1))))
  refine ⟨r, h1, fun b hbl => ?_⟩
  have hne := C112_nonempty hb hn hn' hle b hbl
  have hc : (0 : ℝ) < (bin beta n n' b).card := by exact_mod_cast Finset.card_pos.mpr hne
  have hcc : ((bin beta n n' b).card : ℂ) ≠ 0 := by exact_mod_cast hc.ne'
  rw [(h2 b hbl).1 hne]
  have e : (∑ k ∈ bin beta n n' b, f (((k : ℕ) : ℤ) * (beta / (n - 1)))) / ((bin beta n n' b).card : ℂ) - f (b * (beta / (n' - 1))) =
      (∑ k ∈ bin beta n n' b, (f (((k : ℕ) : ℤ) * (beta / (n - 1))) - f (b * (beta / (n' - 1))))) / ((bin beta n n' b).card : ℂ) := by
    rw [Finset.sum_sub_distrib, Finset.sum_const, nsmul_eq_mul, sub_div, mul_div_cancel_left₀ _ hcc]
  rw [e, norm_div, Complex.norm_natCast, div_le_iff₀ hc]
  refine (norm_sum_le _ _).trans ?_
  have hk : ∀ k ∈ bin beta n n' b, ‖f (((k : ℕ) : ℤ) * (beta / (n - 1))) - f (b * (beta / (n' - 1)))‖ ≤ L * (beta / (n' - 1) / 2) := by
    intro k hk
    refine (hf _ _).trans (mul_le_mul_of_nonneg_left ?_ hL)
    rw [bin, Finset.mem_filter] at hk
    rw [abs_le, Int.cast_natCast]
    constructor <;> linarith [hk.2.1, hk.2.2]
  refine (Finset.sum_le_sum hk).trans ?_
  rw [Finset.sum_const, nsmul_eq_mul, mul_comm]

/-- five points of a linear function on three points: half of the new step is one quarter of `beta` -/
example : ∃ r, rebin 1 5 3 (fun k => ((k * (1 / ((5 : ℕ) - 1)) : ℝ) : ℂ)) = some r ∧ ∀ b : ℕ, b < 3 → ‖r b - ((b * (1 / ((3 : ℕ) - 1)) : ℝ) : ℂ)‖ ≤ 1 * (1 / ((3 : ℕ) - 1) / 2) :=
  C112_error one_pos (n := 5) (n' := 3) (by norm_num) (by norm_num) (by norm_num) (fun t => (t : ℂ)) 1 zero_le_one fun s t => by
    rw [← Complex.ofReal_sub, Complex.norm_real, one_mul, Real.norm_eq_abs]

/-- **C112 fails for finer meshes**: the constant one on two points becomes `1, 0, 1` on three points. -/
theorem C112_finer : ∃ r, rebin 1 2 3 (fun _ => 1) = some r ∧ r 0 = 1 ∧ r 1 = 0 ∧ r 2 = 1 := by
  obtain ⟨r, h1, h2⟩ := C112_average one_pos (le_refl 2) (show 2 ≤ 3 by norm_num) fun _ => 1
  have hi : idx 2 3 0 = 0 ∧ idx 2 3 1 = 2 := by
    constructor <;> rw [idx_iff (by norm_num) (by norm_num)] <;> norm_num
  have hr : Finset.range 2 = {0, 1} := by decide
  refine ⟨r, h1, ?_, ?_, ?_⟩
  · have hs : bin 1 2 3 0 = {0} := by
      rw [bin_eq one_pos (by norm_num) (by norm_num), hr, Finset.filter_insert, Finset.filter_singleton, hi.1, hi.2]
      simp
    have := (h2 0 (by norm_num)).1 (by rw [hs]; simp)
    rw [hs] at this
    simpa using this
  · have hs : bin 1 2 3 1 = ∅ := by
      rw [bin_eq one_pos (by norm_num) (by norm_num), hr, Finset.filter_insert, Finset.filter_singleton, hi.1, hi.2]
      simp
    exact_mod_cast (h2 1 (by norm_num)).2 hs
  · have hs : bin 1 2 3 2 = {1} := by
      rw [bin_eq one_pos (by norm_num) (by norm_num), hr, Finset.filter_insert, Finset.filter_singleton, hi.1, hi.2]
      simp
    have := (h2 2 (by norm_num)).1 (by rw [hs]; simp)
    rw [hs] at this
    simpa using this

/-- **C112, no reflection symmetry**: a function that is symmetric under `tau -> beta - tau` need not stay so, since a point in the middle
of two bins goes to the later one. -/
theorem C112_reflection : ∃ (g : ℤ → ℂ) (r : ℤ → ℂ), (∀ k ∈ Finset.range 3, g k = g (2 - k : ℕ)) ∧ rebin 1 3 2 g = some r ∧ r 0 ≠ r 1 := by
  obtain ⟨r, h1, h2⟩ := C112_average one_pos (show 2 ≤ 3 by norm_num) (le_refl 2) fun k => if k = 1 then 0 else 1
  have hi : idx 3 2 0 = 0 ∧ idx 3 2 1 = 1 ∧ idx 3 2 2 = 1 := by
    refine ⟨?_, ?_, ?_⟩ <;> rw [idx_iff (by norm_num) (by norm_num)] <;> norm_num
  have hr : Finset.range 3 = {0, 1, 2} := by decide
  refine ⟨_, r, ?_, h1, ?_⟩
  · intro k hk
    rw [Finset.mem_range] at hk
    interval_cases k <;> norm_num
  · have hs0 : bin 1 3 2 0 = {0} := by
      rw [bin_eq one_pos (by norm_num) (by norm_num), hr, Finset.filter_insert, Finset.filter_insert, Finset.filter_singleton, hi.1, hi.2.1, hi.2.2]
      simp
    have hs1 : bin 1 3 2 1 = {1, 2} := by
      rw [bin_eq one_pos (by norm_num) (by norm_num), hr, Finset.filter_insert, Finset.filter_insert, Finset.filter_singleton, hi.1, hi.2.1, hi.2.2]
      simp
    have e0 := (h2 0 (by norm_num)).1 (by rw [hs0]; simp)
    have e1 := (h2 1 (by norm_num)).1 (by rw [hs1]; simp)
    rw [hs0] at e0
    rw [hs1] at e1
    norm_num at e0 e1
    rw [e0, e1]
    norm_num

/-- **C112, one new point.** The step of a mesh of one point is zero and the result is undefined. -/
theorem C112_one_point (beta : ℝ) (n : ℕ) (hn : 0 < n) (g : ℤ → ℂ) : rebin beta n 1 g = none := by
  unfold rebin
  by_cases hb : (0 : ℝ) ≤ beta
  · have hm : ∀ n : ℤ, Linear.mk' 0 beta n = some ⟨n, 0, beta, _, _⟩ := fun n => if_pos hb
    rw [hm, Option.bind_some, hm, Option.bind_some]
    have hnone : ∀ (s : Option St) (k : ℕ) (old : Linear.Mesh ℝ) (x : Option ℝ), step old ⟨(1 : ℕ), 0, beta, 0, x⟩ g s k = none := by
      intro s k old x
      unfold step
      cases s with
      | none => rfl
      | some s => simp
    obtain ⟨m, rfl⟩ : ∃ m, n = m + 1 := ⟨n - 1, by omega⟩
    rw [List.range_succ, List.foldl_append, List.foldl_cons, List.foldl_nil]
    simp only [Nat.cast_one, if_true] at hnone ⊢
    rw [hnone]
    rfl
  · have hm : ∀ n : ℤ, Linear.mk' 0 beta n = none := fun n => if_neg hb
    rw [hm]
    rfl

end Verif.Rebin
