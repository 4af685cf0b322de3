import Verif.Float.LinearMesh
import Mathlib.Analysis.Real.Pi.Bounds
import Mathlib.Tactic.Ring
import Mathlib.Tactic.FieldSimp

/-!
# Matsubara frequencies in double precision

The values of Matsubara frequencies, and the number of frequencies of a mesh that is made from an energy window, with the rounding of the machine.

Source: `/repo/c++/triqs/mesh/domains/matsubara.hpp` (55), `/repo/c++/triqs/mesh/imfreq.hpp` (77-91). Simplification: the product `2 * n` of `long` numbers does not overflow.
-/

namespace Verif.MatsubaraDouble

open Binary64 LinearDouble

/-! ## Model -/

/-- `std::numbers::pi` and `M_PI`: the double next to pi -/
def piD : ℚ := 884279719003555 / 2 ^ 48

/-- `std::numbers::pi * (2 * n + statistic) / beta`, matsubara.hpp:55, for `m = 2 n + statistic`; `none` if it is not finite -/
def freq (β : ℚ) (m : ℤ) : Option ℚ :=
  match fin (piD * rnd m) with
  | none => none
  | some a => fin (a / β)

/-- `long(((omega_max.value * beta / M_PI) - 1) / 2)`, imfreq.hpp:91: the number `n_iw`; `none` if an operation overflows -/
def windowCount (W β : ℚ) : Option ℤ :=
  match fin (W * β) with
  | none => none
  | some a => match fin (a / piD) with
    | none => none
    | some b => match fin (b - 1) with
      | none => none
      | some c => match fin (c / 2) with
        | none => none
        | some d => toLong d

/-! ## Specification -/

/-- inverse temperatures and energies far from overflow and underflow -/
def Usual (x : ℚ) : Prop := IsDouble x ∧ 2 ^ (-400 : ℤ) ≤ x ∧ x ≤ 2 ^ (400 : ℤ)

/-! ## Proofs -/

theorem piD_bounds : (3 : ℚ) < piD ∧ piD < 4 := by unfold piD; constructor <;> norm_num

theorem rnd_int {m : ℤ} (h : |m| ≤ 2 ^ 53) : rnd (m : ℚ) = m := rnd_rep (rep_int h)

theorem Usual.pos {x : ℚ} (h : Usual x) : 0 < x := lt_of_lt_of_le (two_zpow_pos _) h.2.1

/-- the value for positive numbers -/
theorem freq_pos {β : ℚ} (hβ : Usual β) {m : ℤ} (h0 : 0 < m) (h : m ≤ 2 ^ 53) : ∃ w, freq β m = some w ∧ Rel 2 (piD * m / β) w ∧ 0 < w := by
  have hm1 : (1 : ℚ) ≤ m := by exact_mod_cast h0
  have hm2 : (m : ℚ) ≤ 9007199254740992 := by exact_mod_cast (by omega : m ≤ 9007199254740992)
  have hpi := piD_bounds
  have hβ0 := hβ.pos
  have hx0 : 0 < piD * m := by nlinarith
  have hx1 : (1 : ℚ) ≤ piD * m := by nlinarith
  have hx2 : piD * m ≤ 2 ^ (56 : ℤ) := by
    calc piD * m ≤ 4 * 9007199254740992 := mul_le_mul hpi.2.le hm2 (by linarith) (by norm_num)
      _ ≤ 2 ^ (56 : ℤ) := by norm_num
  have f1 : fin (piD * m) = some (rnd (piD * m)) := fin_of_le (e := 56) (by rw [abs_of_pos hx0]; exact hx2) (by norm_num) (by norm_num)
  have t1 : (2 : ℚ) ^ (-1022 : ℤ) ≤ 1 := by
    calc (2 : ℚ) ^ (-1022 : ℤ) ≤ 2 ^ (0 : ℤ) := two_zpow_le (by norm_num)
      _ = 1 := by norm_num
  have r1 : Rel 1 (piD * m) (rnd (piD * m)) := rel_rnd (le_trans t1 hx1)
  have ha1 : 1 ≤ rnd (piD * m) := le_rnd rep_one hx1
  have ha2 : rnd (piD * m) ≤ 2 ^ (56 : ℤ) := rnd_le (rep_zpow (by norm_num)) hx2
  generalize rnd (piD * m) = a at *
  have hq1 : (2 : ℚ) ^ (-400 : ℤ) ≤ a / β := by
    rw [le_div_iff₀ hβ0]
    calc (2 : ℚ) ^ (-400 : ℤ) * β ≤ 2 ^ (-400 : ℤ) * 2 ^ (400 : ℤ) := mul_le_mul_of_nonneg_left hβ.2.2 (two_zpow_pos _).le
      _ = 1 := by rw [← two_zpow_add]; norm_num
      _ ≤ a := ha1
  have hq2 : a / β ≤ 2 ^ (456 : ℤ) := by
    rw [div_le_iff₀ hβ0]
    calc a ≤ 2 ^ (56 : ℤ) := ha2
      _ = 2 ^ (456 : ℤ) * 2 ^ (-400 : ℤ) := by rw [← two_zpow_add]; norm_num
      _ ≤ 2 ^ (456 : ℤ) * β := mul_le_mul_of_nonneg_left hβ.2.1 (two_zpow_pos _).le
  have hq0 : 0 < a / β := div_pos (by linarith) hβ0
  have f2 : fin (a / β) = some (rnd (a / β)) := fin_of_le (e := 456) (by rw [abs_of_pos hq0]; exact hq2) (by norm_num) (by norm_num)
  have r2 : Rel 1 (a / β) (rnd (a / β)) := rel_rnd (le_trans (two_zpow_le (by norm_num)) hq1)
  refine ⟨rnd (a / β), ?_, ?_, r2.pos hq0⟩
  · unfold freq
    rw [rnd_int (by rw [abs_of_pos h0]; exact h), f1]
    exact f2
  · exact (r1.div (Rel.refl β) hx0.le hβ0).trans r2

/-- **C180, symmetry**: the value of the negative frequency is exactly the negative value, for all numbers and inverse temperatures. -/
theorem C180_symmetry (β : ℚ) (m : ℤ) : freq β (-m) = (freq β m).map fun w => -w := by
  have hfin : ∀ x : ℚ, fin (-x) = (fin x).map fun w => -w := by
    intro x
    unfold fin
    rw [rnd_neg, abs_neg]
    split <;> rfl
  unfold freq
  push_cast
  rw [rnd_neg, mul_neg, hfin]
  cases fin (piD * rnd m) with
  | none => rfl
  | some a =>
    simp only [Option.map_some]
    rw [neg_div, hfin]

theorem freq_zero (β : ℚ) : freq β 0 = some 0 := by
  have h0 : fin 0 = some 0 := by decide +kernel
  unfold freq
  push_cast
  rw [rnd_zero, mul_zero, h0]
  simp only
  rw [zero_div, h0]

/-- every frequency is a finite double with the sign of its number -/
theorem freq_some {β : ℚ} (hβ : Usual β) {m : ℤ} (h : |m| ≤ 2 ^ 53) : ∃ w, freq β m = some w ∧ (0 < m → 0 < w) ∧ (m < 0 → w < 0) ∧ (m = 0 → w = 0) := by
  rcases lt_trichotomy m 0 with hm | rfl | hm
  · obtain ⟨w, h1, _, h3⟩ := freq_pos hβ (m := -m) (by omega) (by have := abs_le.1 h; omega)
    have := C180_symmetry β (-m)
    rw [neg_neg, h1] at this
    exact ⟨-w, this, by omega, fun _ => by linarith, by omega⟩
  · exact ⟨0, freq_zero β, by omega, by omega, fun _ => rfl⟩
  · obtain ⟨w, h1, _, h3⟩ := freq_pos hβ hm (by have := abs_le.1 h; omega)
    exact ⟨w, h1, fun _ => h3, by omega, by omega⟩

/-- **C180, zero**: a frequency vanishes only if it is the bosonic frequency of number zero; the fermionic ones never vanish. -/
theorem C180_zero (β : ℚ) (hβ : Usual β) (m : ℤ) (h : |m| ≤ 2 ^ 53) : freq β m = some 0 ↔ m = 0 := by
  obtain ⟨w, h1, h2, h3, h4⟩ := freq_some hβ h
  constructor
  · intro h5
    rw [h1] at h5
    cases h5
    rcases lt_trichotomy m 0 with hm | hm | hm
    · exact absurd (h3 hm) (lt_irrefl _)
    · exact hm
    · exact absurd (h2 hm) (lt_irrefl _)
  · intro h5
    rw [h1, h4 h5]

theorem freq_lt_pos {β : ℚ} (hβ : Usual β) {m m' : ℤ} (h0 : 0 < m) (hlt : m < m') (h : m' ≤ 2 ^ 50) {w w' : ℚ} (hw : freq β m = some w) (hw' : freq β m' = some w') : w < w' := by
  obtain ⟨v, e1, r1, p1⟩ := freq_pos hβ h0 (by omega)
  obtain ⟨v', e2, r2, p2⟩ := freq_pos hβ (m := m') (by omega) (by omega)
  rw [hw] at e1
  rw [hw'] at e2
  cases e1
  cases e2
  have hβ0 := hβ.pos
  have hq : 0 < piD / β := div_pos (by linarith [piD_bounds.1]) hβ0
  have hm : (m : ℚ) < m' * c53 ^ 4 := by
    have h1 : (m : ℚ) + 1 ≤ m' := by exact_mod_cast hlt
    have h2 : (m' : ℚ) ≤ 1125899906842624 := by exact_mod_cast (by omega : m' ≤ 1125899906842624)
    have h3 : 1 - 5 / 9007199254740992 ≤ c53 ^ 4 := by norm_num [c53]
    have h4 : (0 : ℚ) ≤ m' := by exact_mod_cast (by omega : 0 ≤ m')
    have h5 := mul_le_mul_of_nonneg_left h3 h4
    linarith
  have h1 : w * c53 ^ 2 < w' * c53 ^ 2 := by
    calc w * c53 ^ 2 ≤ piD * m / β := r1.2
      _ = m * (piD / β) := by ring
      _ < m' * c53 ^ 4 * (piD / β) := mul_lt_mul_of_pos_right hm hq
      _ = piD * m' / β * c53 ^ 2 * c53 ^ 2 := by ring
      _ ≤ w' * c53 ^ 2 := mul_le_mul_of_nonneg_right r2.1 (c53_pow_pos 2).le
  exact lt_of_mul_lt_mul_right h1 (c53_pow_pos 2).le

/-- **C180, order**: frequencies with different numbers have different values, in the order of the numbers, up to `|2 n + statistic| = 2^50`. -/
theorem C180_order (β : ℚ) (hβ : Usual β) (m m' : ℤ) (hlt : m < m') (h : |m| ≤ 2 ^ 50) (h' : |m'| ≤ 2 ^ 50) (w w' : ℚ) (hw : freq β m = some w) (hw' : freq β m' = some w') : w < w' := by
  have b1 := abs_le.1 h
  have b2 := abs_le.1 h'
  rcases lt_or_ge 0 m with hm | hm
  · exact freq_lt_pos hβ hm hlt b2.2 hw hw'
  · rcases lt_or_ge m' 0 with hm' | hm'
    · have e1 := C180_symmetry β m
      have e2 := C180_symmetry β m'
      rw [hw] at e1
      rw [hw'] at e2
      have := freq_lt_pos hβ (m := -m') (m' := -m) (by omega) (by omega) (by omega) e2 e1
      linarith
    · obtain ⟨v, e1, _, n1, z1⟩ := freq_some hβ (m := m) (by rw [abs_le]; omega)
      obtain ⟨v', e2, p2, _, z2⟩ := freq_some hβ (m := m') (by rw [abs_le]; omega)
      rw [hw] at e1
      rw [hw'] at e2
      cases e1
      cases e2
      rcases lt_or_eq_of_le hm with hm | hm
      · have hv := n1 hm
        rcases lt_or_eq_of_le hm' with h3 | h3
        · linarith [p2 h3]
        · rw [z2 h3.symm]; exact hv
      · rw [z1 hm]
        exact p2 (by omega)

theorem pi_err : |(piD : ℝ) - Real.pi| ≤ Real.pi * (1 / 18014398509481984) := by
  have h1 := Real.pi_gt_d20
  have h2 := Real.pi_lt_d20
  unfold piD
  push_cast
  rw [abs_le]
  constructor <;> nlinarith

/-- **C180, accuracy**: the value is `pi (2 n + statistic) / beta` with the number pi, up to a relative error of `5 2^-53`. -/
theorem C180_accuracy (β : ℚ) (hβ : Usual β) (m : ℤ) (h : |m| ≤ 2 ^ 53) : ∃ w, freq β m = some w ∧ |(w : ℝ) - Real.pi * m / β| ≤ Real.pi * |(m : ℝ)| / β * (5 * 2 ^ (-53 : ℤ)) := by
  have hβ0 := hβ.pos
  have hβR : (0 : ℝ) < β := by exact_mod_cast hβ0
  rw [show (2 : ℝ) ^ (-53 : ℤ) = 1 / 9007199254740992 by norm_num]
  have key : ∀ n : ℤ, 0 < n → n ≤ 2 ^ 53 → ∃ w, freq β n = some w ∧ |(w : ℝ) - Real.pi * n / β| ≤ Real.pi * n / β * (5 * (1 / 9007199254740992)) := by
    intro n h0 h1
    obtain ⟨w, e, r, _⟩ := freq_pos hβ h0 h1
    refine ⟨w, e, ?_⟩
    have hn : (0 : ℚ) < n := by exact_mod_cast h0
    have hx : 0 < piD * n / β := div_pos (mul_pos (by linarith [piD_bounds.1]) hn) hβ0
    have e1 := r.err (by norm_num) hx.le
    have e1' : |(w : ℝ) - piD * n / β| ≤ piD * n / β * (2 * 2 / 9007199254740992) := by
      have h := (Rat.cast_le (K := ℝ)).2 e1
      push_cast at h
      exact h
    have hnR : (0 : ℝ) < n := by exact_mod_cast h0
    have hq : (0 : ℝ) < n / β := div_pos hnR hβR
    have e2 := mul_le_mul_of_nonneg_right pi_err hq.le
    have hpi := Real.pi_pos
    have e3 := (abs_le.1 pi_err).2
    rw [← abs_of_pos hq, ← abs_mul, abs_of_pos hq] at e2
    have e4 : ((piD : ℝ) - Real.pi) * (n / β) ≤ Real.pi * (1 / 18014398509481984) * (n / β) := mul_le_mul_of_nonneg_right e3 hq.le
    rw [show (piD : ℝ) * n / β = piD * (n / β) by ring] at e1'
    rw [show Real.pi * (n : ℝ) / β = Real.pi * (n / β) by ring]
    generalize (n : ℝ) / β = q at *
    have hpq : 0 < Real.pi * q := mul_pos hpi hq
    rw [abs_le] at e1' e2 ⊢
    constructor <;> nlinarith [e1'.1, e1'.2, e2.1, e2.2]
  rcases lt_trichotomy m 0 with hm | rfl | hm
  · obtain ⟨w, e, h1⟩ := key (-m) (by omega) (by have := abs_le.1 h; omega)
    have h2 := C180_symmetry β (-m)
    rw [neg_neg, e] at h2
    refine ⟨-w, h2, ?_⟩
    have hmR : (m : ℝ) < 0 := by exact_mod_cast hm
    rw [abs_of_neg hmR]
    push_cast at h1 ⊢
    rw [show -(w : ℝ) - Real.pi * m / β = -((w : ℝ) - Real.pi * -m / β) by ring, abs_neg]
    exact h1
  · exact ⟨0, freq_zero β, by simp⟩
  · obtain ⟨w, e, h1⟩ := key m hm (by have := abs_le.1 h; omega)
    refine ⟨w, e, ?_⟩
    have hmR : (0 : ℝ) < m := by exact_mod_cast hm
    rw [abs_of_pos hmR]
    exact h1

/-- the steps of the constructor -/
theorem window_steps {W β : ℚ} {n : ℤ} (h : windowCount W β = some n) :
    toLong (rnd (rnd (rnd (rnd (W * β) / piD) - 1) / 2)) = some n := by
  unfold windowCount at h
  split at h
  · cases h
  · rename_i a ha
    split at h
    · cases h
    · rename_i b hb
      split at h
      · cases h
      · rename_i c hc
        split at h
        · cases h
        · rename_i d hd
          rw [← (fin_some ha).1, ← (fin_some hb).1, ← (fin_some hc).1, ← (fin_some hd).1]
          exact h

/-- the number of the constructor compared with the window -/
theorem window_err {W β : ℚ} (hW : Usual W) (hβ : Usual β) {n : ℤ} (hn : 1 ≤ n) (h : windowCount W β = some n) :
    (2 * n + 1 : ℚ) ≤ W * β / piD * (1 + 12 / 9007199254740992) ∧ W * β / piD * (1 - 12 / 9007199254740992) < 2 * n + 3 := by
  have hstep := window_steps h
  have hpi := piD_bounds
  have hx0 : 0 < W * β := mul_pos hW.pos hβ.pos
  have hxl : (2 : ℚ) ^ (-800 : ℤ) ≤ W * β := by
    calc (2 : ℚ) ^ (-800 : ℤ) = 2 ^ (-400 : ℤ) * 2 ^ (-400 : ℤ) := by rw [← two_zpow_add]; norm_num
      _ ≤ W * β := mul_le_mul hW.2.1 hβ.2.1 (two_zpow_pos _).le hW.pos.le
  have r1 : Rel 1 (W * β) (rnd (W * β)) := rel_rnd (le_trans (two_zpow_le (by norm_num)) hxl)
  have ha : (2 : ℚ) ^ (-800 : ℤ) ≤ rnd (W * β) := le_rnd (rep_zpow (by norm_num)) hxl
  have ha0 : 0 < rnd (W * β) := lt_of_lt_of_le (two_zpow_pos _) ha
  have hb : (2 : ℚ) ^ (-1022 : ℤ) ≤ rnd (W * β) / piD := by
    rw [le_div_iff₀ (by linarith)]
    calc (2 : ℚ) ^ (-1022 : ℤ) * piD ≤ 2 ^ (-1022 : ℤ) * 2 ^ (2 : ℤ) := mul_le_mul_of_nonneg_left (by norm_num; linarith) (two_zpow_pos _).le
      _ = 2 ^ (-1020 : ℤ) := by rw [← two_zpow_add]; norm_num
      _ ≤ 2 ^ (-800 : ℤ) := two_zpow_le (by norm_num)
      _ ≤ _ := ha
  have r2 : Rel 2 (W * β / piD) (rnd (rnd (W * β) / piD)) := (r1.div (Rel.refl piD) hx0.le (by linarith)).trans (rel_rnd hb)
  have hX0 : 0 < W * β / piD := div_pos hx0 (by linarith)
  have e2 := r2.err (by norm_num) hX0.le
  have hB : Rep (rnd (rnd (W * β) / piD)) := rep_rnd _
  generalize W * β / piD = X at *
  generalize rnd (rnd (W * β) / piD) = b at *
  have e3 := rnd_err_abs (b - 1)
  have e4 := rnd_err_abs (rnd (b - 1) / 2)
  have hpos : 0 ≤ rnd (rnd (b - 1) / 2) := by
    by_contra hc
    rw [not_le] at hc
    unfold toLong at hstep
    split at hstep
    · rw [if_neg (not_le.2 hc)] at hstep
      have h1 := Option.some.inj hstep
      have h2 : ⌈rnd (rnd (b - 1) / 2)⌉ ≤ 0 := Int.ceil_le.2 (by exact_mod_cast hc.le)
      omega
    · cases hstep
  have hfl : (n : ℚ) ≤ rnd (rnd (b - 1) / 2) ∧ rnd (rnd (b - 1) / 2) < n + 1 := by
    unfold toLong at hstep
    split at hstep
    · have h1 := Option.some.inj hstep
      rw [← h1]
      exact ⟨Int.floor_le _, Int.lt_floor_add_one _⟩
    · cases hstep
  have hn1 : (1 : ℚ) ≤ n := by exact_mod_cast hn
  have hc0 : 0 ≤ rnd (b - 1) := by
    by_contra hc
    rw [not_le] at hc
    have := rnd_le rep_zero (x := rnd (b - 1) / 2) (by linarith)
    linarith [hfl.1]
  have hb1 : 1 ≤ b := by
    by_contra hc
    rw [not_le] at hc
    have h1 := rnd_le rep_zero (x := b - 1) (by linarith)
    have h2 : rnd (b - 1) = 0 := le_antisymm h1 hc0
    have h3 := hfl.1
    rw [h2, zero_div, rnd_zero] at h3
    linarith
  rw [abs_of_nonneg (a := b - 1) (by linarith)] at e3
  rw [abs_of_nonneg (a := rnd (b - 1) / 2) (by linarith)] at e4
  have ht : (2 : ℚ) ^ (-1074 : ℤ) ≤ 1 / 9007199254740992 / 16 := by
    calc (2 : ℚ) ^ (-1074 : ℤ) ≤ 2 ^ (-57 : ℤ) := two_zpow_le (by norm_num)
      _ = _ := by norm_num
  push_cast at e2
  generalize (2 : ℚ) ^ (-1074 : ℤ) = t at *
  generalize rnd (rnd (b - 1) / 2) = d at *
  generalize rnd (b - 1) = c at *
  clear hstep h hB
  rw [abs_le] at e2 e3 e4
  constructor <;> linarith [e2.1, e2.2, e3.1, e3.2, e4.1, e4.2, hfl.1, hfl.2]

/-- **C180, energy window, inside**: all frequencies of a fermionic mesh made from an energy window are in the window, as doubles, up to `2^48` frequencies. -/
theorem C180_window_inside (W β : ℚ) (hW : Usual W) (hβ : Usual β) (n : ℤ) (hn : 1 ≤ n) (hn2 : n ≤ 2 ^ 48) (h : windowCount W β = some n) (k : ℤ) (h0 : 0 ≤ k) (hk : k < n) :
    ∃ w, freq β (2 * k + 1) = some w ∧ 0 < w ∧ w < W := by
  obtain ⟨w, e, r, hw⟩ := freq_pos hβ (m := 2 * k + 1) (by omega) (by omega)
  refine ⟨w, e, hw, ?_⟩
  have he := (window_err hW hβ hn h).1
  have hpi := piD_bounds
  have hβ0 := hβ.pos
  have hkq : (k : ℚ) + 1 ≤ n := by exact_mod_cast hk
  have hk0 : (0 : ℚ) ≤ k := by exact_mod_cast h0
  have hnq : (n : ℚ) ≤ 281474976710656 := by exact_mod_cast (by omega : n ≤ 281474976710656)
  have hX : 0 < piD * ((2 * k + 1 : ℤ) : ℚ) / β := by
    push_cast
    exact div_pos (mul_pos (by linarith) (by linarith)) hβ0
  have e1 := (abs_le.1 (r.err (by norm_num) hX.le)).2
  push_cast at e1
  have e2 : piD / β * (2 * n + 1) ≤ W * (1 + 12 / 9007199254740992) := by
    have h1 := mul_le_mul_of_nonneg_left he (div_pos (by linarith : 0 < piD) hβ0).le
    have h2 : piD / β * (W * β / piD * (1 + 12 / 9007199254740992)) = W * (1 + 12 / 9007199254740992) := by
      have hne : piD ≠ 0 := by linarith
      field_simp
    linarith
  rw [show piD * (2 * (k : ℚ) + 1) / β = piD / β * (2 * k + 1) by ring] at e1
  have hq : 0 < piD / β := div_pos (by linarith) hβ0
  generalize piD / β = q at *
  have h3 : (2 * (k : ℚ) + 1) * (1 + 4 / 9007199254740992) * (1 + 12 / 9007199254740992) < 2 * n + 1 := by linarith
  have h4 := mul_lt_mul_of_pos_left h3 hq
  have h5 : w ≤ q * ((2 * (k : ℚ) + 1) * (1 + 4 / 9007199254740992)) := by linarith
  have h6 := mul_le_mul_of_nonneg_right h5 (by norm_num : (0 : ℚ) ≤ 1 + 12 / 9007199254740992)
  have h7 : w * (1 + 12 / 9007199254740992) < W * (1 + 12 / 9007199254740992) := by linarith
  exact lt_of_mul_lt_mul_right h7 (by norm_num)

/-- **C180, energy window, one is missing**: the next frequency, of number `n_iw`, which is not in the mesh, is also below the end of the window up to rounding, and the one after it is
not: the mesh has one frequency less than there are in the window. -/
theorem C180_window_missing (W β : ℚ) (hW : Usual W) (hβ : Usual β) (n : ℤ) (hn : 1 ≤ n) (h : windowCount W β = some n) :
    Real.pi * (2 * n + 1) / β ≤ W * (1 + 2 ^ (-49 : ℤ)) ∧ W * (1 - 2 ^ (-49 : ℤ)) < Real.pi * (2 * n + 3) / β := by
  obtain ⟨e1, e2⟩ := window_err hW hβ hn h
  have e1' := (Rat.cast_le (K := ℝ)).2 e1
  have e2' := (Rat.cast_lt (K := ℝ)).2 e2
  push_cast at e1' e2'
  have hβR : (0 : ℝ) < β := by exact_mod_cast hβ.pos
  have hWR : (0 : ℝ) < W := by exact_mod_cast hW.pos
  have hp := abs_le.1 pi_err
  have hpi := Real.pi_pos
  have hpD : (0 : ℝ) < piD := by exact_mod_cast (lt_trans (by norm_num) piD_bounds.1 : (0 : ℚ) < piD)
  rw [show (2 : ℝ) ^ (-49 : ℤ) = 16 / 9007199254740992 by norm_num]
  have hnR : (1 : ℝ) ≤ n := by exact_mod_cast hn
  have hWβ : (0 : ℝ) < W * β := mul_pos hWR hβR
  constructor
  · rw [div_le_iff₀ hβR]
    rw [show (W : ℝ) * β / piD * (1 + 12 / 9007199254740992) = W * β * (1 + 12 / 9007199254740992) / piD by ring, le_div_iff₀ hpD] at e1'
    have h1 : Real.pi * (2 * n + 1) ≤ (2 * n + 1) * piD * (1 + 2 / 9007199254740992) := by
      have : Real.pi ≤ piD * (1 + 2 / 9007199254740992) := by nlinarith [hp.1]
      nlinarith
    nlinarith
  · rw [lt_div_iff₀ hβR]
    rw [show (W : ℝ) * β / piD * (1 - 12 / 9007199254740992) = W * β * (1 - 12 / 9007199254740992) / piD by ring, div_lt_iff₀ hpD] at e2'
    have h1 : (2 * n + 3) * (piD : ℝ) ≤ Real.pi * (2 * n + 3) * (1 + 1 / 9007199254740992) := by
      have : (piD : ℝ) ≤ Real.pi * (1 + 1 / 9007199254740992) := by nlinarith [hp.2]
      nlinarith
    have h2 : (W : ℝ) * β * (1 - 12 / 9007199254740992) < Real.pi * (2 * n + 3) * (1 + 1 / 9007199254740992) := lt_of_lt_of_le e2' h1
    nlinarith

/-- **C180, a window of 10 at the inverse temperature 10**: the mesh has fifteen positive frequencies, and the sixteenth, `31 pi / 10`, is below 10 as well. -/
theorem C180_window_witness : windowCount 10 10 = some 15 ∧ ∃ w, freq 10 31 = some w ∧ w < 10 := by
  refine ⟨by decide +kernel, rnd (rnd (piD * 31) / 10), by decide +kernel, by decide +kernel⟩

/-- **C180, narrow windows**: at the inverse temperature 1 the window 4 contains the first frequency, pi, but the mesh has none; a window that is a bit wider than the third frequency has two. -/
theorem C180_window_empty : windowCount 4 1 = some 0 ∧ freq 1 1 = some piD ∧ piD < 4 ∧ windowCount 16 1 = some 2 ∧ freq 1 5 = some (rnd (5 * piD)) ∧ rnd (5 * piD) < 16 := by
  refine ⟨?_, ?_, ?_, ?_, ?_, ?_⟩ <;> decide +kernel

/-! ### Examples -/

example : freq 1 1 = some piD ∧ freq 1 (-1) = some (-piD) ∧ freq 1 0 = some 0 := by decide +kernel
example : freq 10 3 = some (rnd (rnd (piD * 3) / 10)) := by decide +kernel
/-- beyond `2^53` two successive fermionic frequencies have the same value -/
example : freq 1 (2 ^ 54 + 1) = freq 1 (2 ^ 54 - 1) := by decide +kernel

end Verif.MatsubaraDouble
