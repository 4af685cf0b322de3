import Verif.Float.LinearMesh
import Mathlib.Tactic.Ring
import Mathlib.Tactic.FieldSimp
import Mathlib.Algebra.Order.BigOperators.Group.List

/-!
# Rebinning of functions of imaginary time, in double precision

Source: `/repo/c++/triqs/gfs/functions/imtime.cpp` (31-52); in exact arithmetic this is C112.

* C193: the index of the bin of a point, the loop, and the values of the bins.

Simplifications: one part of one element of the target (the loop acts on all of them in the same way); the sums of the data do not overflow; the counter `norm` is converted
to a double at imtime.cpp:50 as at imtime.cpp:44.
-/

namespace Verif.RebinDouble
open Verif.Binary64 Verif.LinearDouble

/-! ## Model -/

/-- `std::round`: to the nearest integer, ties away from zero -/
def stdRound (x : ℚ) : ℤ := if 0 ≤ x then ⌊x + 1 / 2⌋ else ⌈x - 1 / 2⌉

/-- `index`, imtime.cpp:40, at the point `k` of the old mesh; `none` if it is not a number -/
def index (beta : ℚ) (n n' : ℤ) (k : ℕ) : Option ℤ :=
  match toValue 0 beta n k, delta 0 beta n' with
  | some t, some d => if d = 0 then none else (fin (t / d)).map stdRound
  | _, _ => none

/-- `new_gf`, `prev_index` and `norm`, imtime.cpp:34-38 -/
structure St where
  gf : ℤ → ℚ
  prev : ℤ
  norm : ℕ

/-- body of the loop, imtime.cpp:40-48; `none` when `new_gf` is accessed out of bounds or a division by zero yields no number -/
def step (n' : ℤ) (ix : ℕ → Option ℤ) (g : ℕ → ℚ) (s : Option St) (k : ℕ) : Option St :=
  s.bind fun s => (ix k).bind fun i =>
    if ¬(0 ≤ i ∧ i < n') then none
    else if i = s.prev then some ⟨Function.update s.gf i (rnd (s.gf i + g k)), s.prev, s.norm + 1⟩
    else if ¬(0 ≤ i - 1) ∨ s.norm = 0 then none
    else
      let gf := Function.update s.gf (i - 1) (rnd (s.gf (i - 1) / rnd (s.norm : ℚ)));
      some ⟨Function.update gf i (rnd (gf i + g k)), i, 1⟩

/-- imtime.cpp:50-51 -/
def last (n' : ℤ) (s : St) : Option (ℤ → ℚ) :=
  if s.norm ≠ 1 then
    (if s.norm = 0 ∨ ¬(0 ≤ n' - 1) then none else some (Function.update s.gf (n' - 1) (rnd (s.gf (n' - 1) / rnd (s.norm : ℚ)))))
  else some s.gf

/-- `rebinning_tau`, imtime.cpp:31-52, of a function on `n` points of `[0, beta]` -/
def rebin (beta : ℚ) (n : ℕ) (n' : ℤ) (g : ℕ → ℚ) : Option (ℤ → ℚ) :=
  ((List.range n).foldl (step n' (index beta n n') g) (some ⟨fun _ => 0, 0, 0⟩)).bind (last n')

/-! ## Specification -/

/-- the position of the point `k` of `n` points in units of the distance of `n'` points -/
def place (n n' : ℤ) (k : ℕ) : ℚ := k * ((n' : ℚ) - 1) / ((n : ℚ) - 1)

/-- the points of the bin `b`, in their order -/
def bin (ix : ℕ → Option ℤ) (n : ℕ) (b : ℤ) : List ℕ := (List.range n).filter fun k => ix k = some b

/-- a sum from left to right -/
def total (g : ℕ → ℚ) (l : List ℕ) : ℚ := l.foldl (fun s k => rnd (s + g k)) 0

/-! ## Proofs -/

theorem stdRound_mono {x y : ℚ} (hx : 0 ≤ x) (h : x ≤ y) : stdRound x ≤ stdRound y := by
  unfold stdRound
  rw [if_pos hx, if_pos (hx.trans h)]
  exact Int.floor_le_floor (by linarith)

theorem stdRound_iff {x : ℚ} (hx : 0 ≤ x) (b : ℤ) : stdRound x = b ↔ (b : ℚ) - 1 / 2 ≤ x ∧ x < b + 1 / 2 := by
  unfold stdRound
  rw [if_pos hx, Int.floor_eq_iff]
  constructor
  · rintro ⟨h1, h2⟩
    constructor <;> linarith
  · rintro ⟨h1, h2⟩
    constructor <;> linarith

section index
variable {beta : ℚ} {n n' : ℤ} (h : Scale 0 beta n) (h' : Scale 0 beta n')
include h h'

theorem place_nonneg (k : ℕ) : 0 ≤ place n n' k := by
  have a := many_cast h
  have a' := many_cast h'
  exact div_nonneg (mul_nonneg (Nat.cast_nonneg k) (by linarith)) (by linarith)

theorem place_le (k : ℕ) (hk : (k : ℤ) < n) : place n n' k ≤ n' - 1 := by
  have a := many_cast h
  have a' := many_cast h'
  have hk' : (k : ℚ) ≤ n - 1 := by
    have : ((k : ℤ) : ℚ) ≤ ((n - 1 : ℤ) : ℚ) := by exact_mod_cast (by omega : (k : ℤ) ≤ n - 1)
    push_cast at this
    exact this
  unfold place
  rw [div_le_iff₀ (by linarith), mul_comm]
  exact mul_le_mul_of_nonneg_left hk' (by linarith)

theorem delta_eq : ∃ d, delta 0 beta n' = some d ∧ Rel 1 (beta / (n' - 1)) d ∧ 0 < d := by
  have a' := many_cast h'
  have hl := h'.len
  have hb0 : 0 < beta := by have := h'.lt; linarith
  rw [sub_zero] at hl
  have hn : rnd ((n' - 1 : ℤ) : ℚ) = (n' : ℚ) - 1 := by rw [rnd_rep (rep_count (by have := h'.two; omega) h'.many)]; push_cast; ring
  have hlo : (2 : ℚ) ^ (-945 : ℤ) ≤ beta / (n' - 1) := by
    rw [le_div_iff₀ (by linarith)]
    calc (2 : ℚ) ^ (-945 : ℤ) * (n' - 1) ≤ 2 ^ (-945 : ℤ) * 2 ^ (45 : ℤ) := mul_le_mul_of_nonneg_left (a'.2.trans (by norm_num)) (two_zpow_pos _).le
      _ = 2 ^ (-900 : ℤ) := by rw [← two_zpow_add]; norm_num
      _ ≤ beta := hl
  refine ⟨rnd (beta / (n' - 1)), ?_, rel_rnd ((two_zpow_le (by norm_num)).trans hlo), lt_of_lt_of_le (two_zpow_pos (-945)) (le_rnd (rep_zpow (by norm_num)) hlo)⟩
  unfold delta
  rw [if_neg (by have := h'.two; omega), sub_zero, fin_eq (by rw [rnd_rep h'.db.1]; exact h'.db), rnd_rep h'.db.1]
  simp only
  rw [hn]
  refine fin_eq (isDouble_rnd h'.db ?_)
  rw [abs_of_pos (div_pos hb0 (by linarith)), abs_of_pos hb0]
  exact div_le_self hb0.le a'.1

theorem tau_eq (k : ℕ) (hk : (k : ℤ) < n) : ∃ t, toValue 0 beta n k = some t ∧ Rel 2 (beta * (k / (n - 1))) t := by
  have a := many_cast h
  have hb0 : 0 < beta := by have := h.lt; linarith
  have hl := h.len
  rw [sub_zero] at hl
  obtain ⟨v, w, e1, -, d1, -, -, -⟩ := C176_order 0 beta n h.da h.db le_rfl hb0.le h.two k k (by omega) le_rfl hk
  refine ⟨v, e1, ?_⟩
  rw [toValue_eq h.two (by omega) hk] at e1
  unfold combine at e1
  rw [zero_mul, rnd_zero, zero_add] at e1
  have hv := (fin_some e1).1
  rw [rnd_rnd] at hv
  subst hv
  have hn : rnd ((n - 1 : ℤ) : ℚ) = (n : ℚ) - 1 := by rw [rnd_rep (rep_count (by have := h.two; omega) h.many)]; push_cast; ring
  have hkr : rnd (((k : ℕ) : ℤ) : ℚ) = k := by
    rw [rnd_rep (rep_count (by omega) (by have := h.many; omega))]
    push_cast; rfl
  unfold weight
  rw [hn, hkr]
  rcases Nat.eq_zero_or_pos k with rfl | hk0
  · rw [Nat.cast_zero, zero_div, rnd_zero, mul_zero, rnd_zero]
    simp [Rel]
  · have hk1 : (1 : ℚ) ≤ k := by exact_mod_cast hk0
    have hw : (2 : ℚ) ^ (-45 : ℤ) ≤ k / (n - 1) := by
      rw [le_div_iff₀ (by linarith)]
      calc (2 : ℚ) ^ (-45 : ℤ) * (n - 1) ≤ 2 ^ (-45 : ℤ) * 2 ^ (45 : ℤ) := mul_le_mul_of_nonneg_left (a.2.trans (by norm_num)) (two_zpow_pos _).le
        _ = 1 := by rw [← two_zpow_add]; norm_num
        _ ≤ k := hk1
    have hw' : (2 : ℚ) ^ (-45 : ℤ) ≤ rnd (k / (n - 1)) := le_rnd (rep_zpow (by norm_num)) hw
    have r1 : Rel 1 ((k : ℚ) / (n - 1)) (rnd (k / (n - 1))) := rel_rnd ((two_zpow_le (by norm_num)).trans hw)
    have hp : (2 : ℚ) ^ (-1022 : ℤ) ≤ beta * rnd (k / (n - 1)) := by
      calc (2 : ℚ) ^ (-1022 : ℤ) ≤ 2 ^ (-900 : ℤ) * 2 ^ (-45 : ℤ) := by rw [← two_zpow_add]; exact two_zpow_le (by norm_num)
        _ ≤ beta * rnd (k / (n - 1)) := mul_le_mul hl hw' (two_zpow_pos _).le hb0.le
    have r2 := (Rel.refl beta).mul r1 hb0.le ((two_zpow_pos _).le.trans hw)
    exact r2.trans (rel_rnd hp)

/-- the index is the rounded position, up to four roundings -/
theorem index_eq (k : ℕ) (hk : (k : ℤ) < n) : ∃ q, index beta n n' k = some (stdRound q) ∧ 0 ≤ q ∧ |q - place n n' k| ≤ place n n' k * (8 / 9007199254740992) := by
  have a := many_cast h
  have a' := many_cast h'
  have hb0 : 0 < beta := by have := h.lt; linarith
  obtain ⟨d, e1, r1, d0⟩ := delta_eq h h'
  obtain ⟨t, e2, r2⟩ := tau_eq h h' k hk
  have ht0 : 0 ≤ beta * ((k : ℚ) / (n - 1)) := mul_nonneg hb0.le (div_nonneg (Nat.cast_nonneg k) (by linarith))
  have r3 := r2.div r1 ht0 (div_pos hb0 (by linarith))
  have hpl : beta * ((k : ℚ) / (n - 1)) / (beta / (n' - 1)) = place n n' k := by
    unfold place
    have : (n : ℚ) - 1 ≠ 0 := by linarith
    have : (n' : ℚ) - 1 ≠ 0 := by linarith
    field_simp
  rw [hpl] at r3
  have p0 := place_nonneg h h' k
  have p1 := place_le h h' k hk
  have q0 : 0 ≤ t / d := r3.nonneg p0
  have er := r3.err (by norm_num) p0
  have qhi : t / d ≤ 2 ^ (46 : ℤ) := by
    have := (abs_le.1 er).2
    norm_num at this ⊢
    linarith
  have hf : fin (t / d) = some (rnd (t / d)) := fin_of_le (e := 46) (by rw [abs_of_nonneg q0]; exact qhi) (by norm_num) (by norm_num)
  refine ⟨rnd (t / d), ?_, rnd_nonneg q0, ?_⟩
  · unfold index
    rw [e2, e1]
    simp only
    rw [if_neg d0.ne', hf]
    rfl
  · rcases Nat.eq_zero_or_pos k with rfl | hk0
    · have : place n n' 0 = 0 := by simp [place]
      rw [this] at r3 ⊢
      have hq : t / d = 0 := by
        have := r3.2
        refine le_antisymm ?_ q0
        exact le_of_mul_le_mul_right (by rw [zero_mul]; exact this) (c53_pow_pos (2 + 1))
      rw [hq, rnd_zero]
      norm_num
    · have hk1 : (1 : ℚ) ≤ k := by exact_mod_cast hk0
      have hw : (2 : ℚ) ^ (-45 : ℤ) ≤ place n n' k := by
        unfold place
        rw [le_div_iff₀ (by linarith)]
        calc (2 : ℚ) ^ (-45 : ℤ) * (n - 1) ≤ 2 ^ (-45 : ℤ) * 2 ^ (45 : ℤ) := mul_le_mul_of_nonneg_left (a.2.trans (by norm_num)) (two_zpow_pos _).le
          _ = 1 := by rw [← two_zpow_add]; norm_num
          _ ≤ k * (n' - 1) := by nlinarith
      have hlo : (2 : ℚ) ^ (-1022 : ℤ) ≤ t / d := by
        have h1 : place n n' k * (1 / 2) ≤ t / d := by
          have := (abs_le.1 er).1
          norm_num at this ⊢
          linarith
        calc (2 : ℚ) ^ (-1022 : ℤ) ≤ 2 ^ (-46 : ℤ) := two_zpow_le (by norm_num)
          _ = 2 ^ (-45 : ℤ) * (1 / 2) := by norm_num
          _ ≤ _ := (mul_le_mul_of_nonneg_right hw (by norm_num)).trans h1
      have := (r3.trans (rel_rnd hlo)).err (by norm_num) p0
      norm_num at this ⊢
      exact this

/-- **C193, the nearest bin.**  A point goes to a bin whose distance is at most half of the distance of two bins, up to rounding. -/
theorem C193_nearest (k : ℕ) (hk : (k : ℤ) < n) :
    ∃ b, index beta n n' k = some b ∧ 0 ≤ b ∧ b < n' ∧ |place n n' k - b| ≤ 1 / 2 + place n n' k * (8 / 9007199254740992) := by
  obtain ⟨q, e, q0, er⟩ := index_eq h h' k hk
  have s := (stdRound_iff q0 _).1 rfl
  refine ⟨_, e, ?_, ?_, ?_⟩
  · have := stdRound_mono le_rfl q0
    have z : stdRound 0 = 0 := by decide +kernel
    omega
  · have p1 := place_le h h' k hk
    have p0 := place_nonneg h h' k
    have a' := many_cast h'
    have := (abs_le.1 er).2
    have : ((stdRound q : ℤ) : ℚ) < n' := by linarith [s.1]
    exact_mod_cast this
  · rw [abs_le] at er ⊢
    constructor <;> linarith [er.1, er.2, s.1, s.2]

/-- **C193, away from ties**: the bin is the one of exact arithmetic. -/
theorem C193_exact (k : ℕ) (hk : (k : ℤ) < n) (b : ℤ) (hb : |place n n' k - b| < 1 / 2 - place n n' k * (8 / 9007199254740992)) :
    index beta n n' k = some b := by
  obtain ⟨q, e, q0, er⟩ := index_eq h h' k hk
  rw [e, Option.some.injEq, stdRound_iff q0]
  rw [abs_le] at er
  rw [abs_lt] at hb
  constructor <;> linarith [er.1, er.2, hb.1, hb.2]

/-- **C193, the ends**: the first point goes to the first bin, the last point to the last bin. -/
theorem C193_ends : index beta n n' 0 = some 0 ∧ index beta n n' (n.toNat - 1) = some (n' - 1) := by
  have a := many_cast h
  have a' := many_cast h'
  have hn := h.two
  constructor
  · refine C193_exact h h' 0 (by omega) 0 ?_
    simp [place]
  · refine C193_exact h h' _ (by omega) _ ?_
    have hc : ((n.toNat - 1 : ℕ) : ℚ) = n - 1 := by
      have : ((n.toNat - 1 : ℕ) : ℤ) = n - 1 := by omega
      have h2 : (((n.toNat - 1 : ℕ) : ℤ) : ℚ) = ((n - 1 : ℤ) : ℚ) := by rw [this]
      push_cast at h2
      exact h2
    have : place n n' (n.toNat - 1) = n' - 1 := by
      unfold place
      rw [hc, mul_comm]
      exact mul_div_cancel_right₀ _ (by linarith)
    rw [this]
    push_cast
    rw [sub_self, abs_zero]
    linarith

/-- **C193, order.** -/
theorem C193_order (k l : ℕ) (hkl : k ≤ l) (hl : (l : ℤ) < n) : ∃ b c, index beta n n' k = some b ∧ index beta n n' l = some c ∧ b ≤ c := by
  have hb0 : 0 < beta := by have := h.lt; linarith
  obtain ⟨d, e1, -, d0⟩ := delta_eq h h'
  obtain ⟨v, w, f1, f2, dv, v0, vw, -⟩ := C176_order 0 beta n h.da h.db le_rfl hb0.le h.two k l (by omega) (by omega) hl
  obtain ⟨b, i1, -⟩ := C193_nearest h h' k (by omega)
  obtain ⟨c, i2, -⟩ := C193_nearest h h' l hl
  refine ⟨b, c, i1, i2, ?_⟩
  unfold index at i1 i2
  rw [f1, e1] at i1
  rw [f2, e1] at i2
  simp only [if_neg d0.ne'] at i1 i2
  obtain ⟨x, x1, rfl⟩ := Option.map_eq_some_iff.1 i1
  obtain ⟨y, y1, rfl⟩ := Option.map_eq_some_iff.1 i2
  rw [(fin_some x1).1, (fin_some y1).1]
  exact stdRound_mono (rnd_nonneg (div_nonneg v0 d0.le)) (rnd_mono (div_le_div_of_nonneg_right vw d0.le))

/-- numbers of points whose product is at most `2^48`: neighbours go to the same or to neighbouring bins if there are not more bins than points, and to different bins
if there are not less -/
theorem neighbours (hm : n * n' ≤ 2 ^ 48) (k : ℕ) (hk : (k : ℤ) + 1 < n) (b c : ℤ) (hb : index beta n n' k = some b) (hc : index beta n n' (k + 1) = some c) :
    (n' ≤ n → c ≤ b + 1) ∧ (n ≤ n' → b < c) := by
  have a := many_cast h
  have a' := many_cast h'
  by_cases he : n = n'
  · -- the points themselves
    have key : ∀ j : ℕ, (j : ℤ) < n → index beta n n' j = some (j : ℤ) := by
      intro j hj
      refine C193_exact h h' j hj j ?_
      have : place n n' j = j := by
        unfold place
        rw [← he]
        exact mul_div_cancel_right₀ _ (by linarith)
      have p1 := place_le h h' j hj
      rw [this] at p1 ⊢
      simp only [Int.cast_natCast, sub_self, abs_zero]
      linarith
    have e1 := key k (by omega)
    have e2 := key (k + 1) (by push_cast; omega)
    rw [e1, Option.some.injEq] at hb
    rw [e2, Option.some.injEq] at hc
    push_cast at hc
    constructor <;> intro _ <;> omega
  · obtain ⟨q, e1, q0, er⟩ := index_eq h h' k (by omega)
    obtain ⟨r, e2, r0, fr⟩ := index_eq h h' (k + 1) (by push_cast; omega)
    rw [e1, Option.some.injEq] at hb
    rw [e2, Option.some.injEq] at hc
    have s := (stdRound_iff q0 b).1 hb
    have s' := (stdRound_iff r0 c).1 hc
    have p1 := place_le h h' k (by omega)
    have p2 := place_le h h' (k + 1) (by push_cast; omega)
    have p0 := place_nonneg h h' k
    -- the distance of two points
    have hd : place n n' (k + 1) - place n n' k = ((n' : ℚ) - 1) / (n - 1) := by
      unfold place
      push_cast
      ring
    -- the rounding errors are small compared with the distance to one
    have hmq : ((n : ℚ) - 1) * ((n' : ℚ) - 1) ≤ 281474976710656 := by
      have : ((n : ℚ)) * (n' : ℚ) ≤ 281474976710656 := by exact_mod_cast hm
      nlinarith
    have hsmall : ((n' : ℚ) - 1) * (16 / 9007199254740992) ≤ 1 / (n - 1) * (1 / 2) := by
      rw [div_mul_eq_mul_div, le_div_iff₀ (by linarith)]
      linarith
    have hinv : 0 < 1 / ((n : ℚ) - 1) := by apply div_pos <;> linarith
    rw [abs_le] at er fr
    constructor
    · intro hle
      have hlt : ((n' : ℚ) - 1) / (n - 1) ≤ 1 - 1 / (n - 1) := by
        rw [← sub_nonneg]
        have : 1 - 1 / ((n : ℚ) - 1) - (n' - 1) / (n - 1) = (n - 1 - n') / (n - 1) := by
          have : (n : ℚ) - 1 ≠ 0 := by linarith
          field_simp
          ring
        rw [this]
        have : (n' : ℚ) ≤ ((n - 1 : ℤ) : ℚ) := by exact_mod_cast (by omega : n' ≤ n - 1)
        push_cast at this
        exact div_nonneg (by linarith) (by linarith)
      have : (c : ℚ) < ((b + 2 : ℤ) : ℚ) := by
        push_cast
        linarith [er.1, fr.2, s.2, s'.1]
      have : c < b + 2 := by exact_mod_cast this
      omega
    · intro hle
      have hlt : 1 + 1 / (n - 1) ≤ ((n' : ℚ) - 1) / (n - 1) := by
        rw [← sub_nonneg]
        have : ((n' : ℚ) - 1) / (n - 1) - (1 + 1 / ((n : ℚ) - 1)) = (n' - 1 - n) / (n - 1) := by
          have : (n : ℚ) - 1 ≠ 0 := by linarith
          field_simp
          ring
        rw [this]
        have : (n : ℚ) ≤ ((n' - 1 : ℤ) : ℚ) := by exact_mod_cast (by omega : n ≤ n' - 1)
        push_cast at this
        exact div_nonneg (by linarith) (by linarith)
      have : (b : ℚ) < c := by linarith [er.2, fr.1, s.1, s'.2]
      exact_mod_cast this

end index

/-- what the loop needs to know of the indices -/
structure Good (n n' : ℕ) (ix : ℕ → ℕ) : Prop where
  first : ix 0 = 0
  last : ix (n - 1) = n' - 1
  mono : ∀ k, k + 1 < n → ix k ≤ ix (k + 1)
  near : (∀ k, k + 1 < n → ix (k + 1) ≤ ix k + 1) ∨ (∀ k, k + 1 < n → ix k < ix (k + 1))

/-- the points of the bin `b` among the first `m` points -/
def part (ix : ℕ → ℕ) (m b : ℕ) : List ℕ := (List.range m).filter fun k => ix k = b

/-- the value of a bin -/
def value (g : ℕ → ℚ) (l : List ℕ) : ℚ := rnd (total g l / rnd (l.length : ℚ))

theorem total_snoc (g : ℕ → ℚ) (l : List ℕ) (k : ℕ) : total g (l ++ [k]) = rnd (total g l + g k) := by
  unfold total
  rw [List.foldl_append]
  rfl

theorem total_rep (g : ℕ → ℚ) (l : List ℕ) : Rep (total g l) := by
  rcases List.eq_nil_or_concat l with rfl | ⟨l', k, rfl⟩
  · exact rep_zero
  · rw [List.concat_eq_append, total_snoc]; exact rep_rnd _

theorem part_succ (ix : ℕ → ℕ) (m b : ℕ) : part ix (m + 1) b = if ix m = b then part ix m b ++ [m] else part ix m b := by
  unfold part
  rw [List.range_succ, List.filter_append]
  by_cases h : ix m = b <;> simp [h]

section loop
variable {n n' : ℕ} {ix : ℕ → ℕ} (hg : Good n n' ix) (hn : 2 ≤ n)
include hg hn

theorem mono_le {k l : ℕ} (hkl : k ≤ l) (hl : l < n) : ix k ≤ ix l := by
  induction l with
  | zero => rw [Nat.le_zero.1 hkl]
  | succ l ih =>
    rcases Nat.lt_or_ge l k with h | h
    · rw [show k = l + 1 by omega]
    · exact (ih h (by omega)).trans (hg.mono l hl)

theorem part_empty {m b : ℕ} (hm : m < n) (hb : ix m < b) : part ix (m + 1) b = [] := by
  unfold part
  rw [List.filter_eq_nil_iff]
  intro k hk e
  rw [List.mem_range] at hk
  have := mono_le hg hn (show k ≤ m by omega) hm
  simp only [decide_eq_true_eq] at e
  omega

theorem part_mem (m : ℕ) : m ∈ part ix (m + 1) (ix m) := by
  unfold part
  rw [List.mem_filter]
  simp

/-- state after the first `m + 1` points -/
def Inv (ix : ℕ → ℕ) (g : ℕ → ℚ) (m : ℕ) (s : St) : Prop :=
  s.prev = ix m ∧ s.norm = (part ix (m + 1) (ix m)).length ∧ (∀ b : ℕ, b < ix m → s.gf b = value g (part ix (m + 1) b)) ∧
  s.gf (ix m) = total g (part ix (m + 1) (ix m)) ∧ ∀ b : ℕ, ix m < b → s.gf b = 0

theorem value_nil (g : ℕ → ℚ) : value g [] = 0 := by
  unfold value total
  rw [List.foldl_nil, zero_div, rnd_zero]

theorem inv_zero (hn' : 2 ≤ n') (jx : ℕ → Option ℤ) (hj : ∀ k < n, jx k = some (ix k : ℤ)) (g : ℕ → ℚ) :
    ∃ s, step n' jx g (some ⟨fun _ => 0, 0, 0⟩) 0 = some s ∧ Inv ix g 0 s := by
  unfold step
  rw [Option.bind_some, hj 0 (by omega), Option.bind_some, hg.first, if_neg (by simp; omega)]
  simp only [Nat.cast_zero, if_true]
  refine ⟨_, rfl, ?_⟩
  have hp : part ix (0 + 1) 0 = [0] := by rw [part_succ, if_pos hg.first]; rfl
  refine ⟨?_, ?_, ?_, ?_, ?_⟩
  · simp [hg.first]
  · rw [hg.first, hp]; rfl
  · intro b hb
    rw [hg.first] at hb
    omega
  · rw [hg.first, hp]
    simp [total]
  · intro b hb
    simp only
    rw [Function.update_of_ne (by rw [hg.first] at hb; omega)]

theorem inv_succ (hn' : 2 ≤ n') (jx : ℕ → Option ℤ) (hj : ∀ k < n, jx k = some (ix k : ℤ)) (g : ℕ → ℚ) (m : ℕ) (hm : m + 1 < n) (s : St) (hs : Inv ix g m s) :
    ∃ s', step n' jx g (some s) (m + 1) = some s' ∧ Inv ix g (m + 1) s' := by
  obtain ⟨h1, h2, h3, h4, h5⟩ := hs
  have hle := hg.mono m hm
  have hhi : ix (m + 1) ≤ n' - 1 := by rw [← hg.last]; exact mono_le hg hn (by omega) (by omega)
  have hnorm : s.norm ≠ 0 := by
    rw [h2]
    exact (List.length_pos_of_mem (part_mem hg hn m)).ne'
  by_cases he : ix (m + 1) = ix m
  · unfold step
    rw [Option.bind_some, hj _ hm, Option.bind_some]
    rw [if_neg (by simp; omega), if_pos (by rw [h1, he])]
    refine ⟨_, rfl, ?_, ?_, ?_, ?_, ?_⟩
    · rw [he, h1]
    · simp only [he]
      rw [part_succ, he, if_pos rfl, List.length_append, h2]
      rfl
    · intro b hb
      simp only
      rw [Function.update_of_ne (by simp; omega), part_succ, if_neg (by omega)]
      exact h3 b (by omega)
    · simp only [he]
      rw [Function.update_self, part_succ, he, if_pos rfl, total_snoc, h4]
    · intro b hb
      simp only
      rw [Function.update_of_ne (by simp; omega)]
      exact h5 b (by omega)
  · have hlt : ix m < ix (m + 1) := by omega
    unfold step
    rw [Option.bind_some, hj _ hm, Option.bind_some, if_neg (by simp; omega), if_neg (by rw [h1]; omega), if_neg (by simp; omega)]
    simp only
    -- the division acts on the previous bin, or divides by one
    have hdiv : ∀ b : ℕ, b < ix (m + 1) → Function.update s.gf ((ix (m + 1) : ℤ) - 1) (rnd (s.gf ((ix (m + 1) : ℤ) - 1) / rnd (s.norm : ℚ))) b =
        value g (part ix (m + 1) b) := by
      intro b hb
      rcases hg.near with hnear | hnear
      · have hs := hnear m hm
        have hp : (ix (m + 1) : ℤ) - 1 = ix m := by omega
        rw [hp]
        by_cases hbe : b = ix m
        · rw [hbe, Function.update_self, h4, h2]
          rfl
        · rw [Function.update_of_ne (by simp; omega)]
          exact h3 b (by omega)
      · -- every bin has at most one point
        have hinj : ∀ k l, k < l → l < n → ix k < ix l := by
          intro k l hkl hl
          induction l with
          | zero => omega
          | succ l ih =>
            rcases Nat.lt_or_ge k l with h | h
            · exact (ih h (by omega)).trans (hnear l hl)
            · rw [show k = l by omega]; exact hnear l hl
        have hone : part ix (m + 1) (ix m) = [m] := by
          rw [part_succ, if_pos rfl]
          have : part ix m (ix m) = [] := by
            unfold part
            rw [List.filter_eq_nil_iff]
            intro k hk e
            rw [List.mem_range] at hk
            have := hinj k m hk (by omega)
            simp only [decide_eq_true_eq] at e
            omega
          rw [this]
          rfl
        have hv : ∀ x : ℚ, Rep x → rnd (x / rnd (s.norm : ℚ)) = x := by
          intro x hx
          rw [h2, hone]
          simp only [List.length_singleton, Nat.cast_one]
          rw [rnd_rep rep_one, div_one, rnd_rep hx]
        have hrep : ∀ b : ℕ, Rep (s.gf b) := by
          intro b
          rcases lt_trichotomy b (ix m) with h | h | h
          · rw [h3 b h]; exact rep_rnd _
          · rw [h, h4]; exact total_rep _ _
          · rw [h5 b h]; exact rep_zero
        have hcast : (ix (m + 1) : ℤ) - 1 = ((ix (m + 1) - 1 : ℕ) : ℤ) := by omega
        rw [hcast, hv _ (hrep _), Function.update_eq_self]
        rcases lt_trichotomy b (ix m) with h | h | h
        · exact h3 b h
        · rw [h, h4, hone]
          unfold value
          simp only [List.length_singleton, Nat.cast_one]
          rw [rnd_rep rep_one, div_one, rnd_rep (total_rep _ _)]
        · rw [h5 b h, part_empty hg hn (by omega) h, value_nil hg hn]
    refine ⟨_, rfl, rfl, ?_, ?_, ?_, ?_⟩
    · simp only
      rw [part_succ, if_pos rfl, part_empty hg hn (by omega) hlt]
      rfl
    · intro b hb
      simp only
      rw [Function.update_of_ne (by simp; omega), hdiv b hb, part_succ ix (m + 1), if_neg (by omega)]
    · simp only
      rw [Function.update_self, Function.update_of_ne (by omega), h5 _ hlt, part_succ ix (m + 1), if_pos rfl, part_empty hg hn (by omega) hlt]
      simp [total]
    · intro b hb
      simp only
      rw [Function.update_of_ne (by simp; omega), Function.update_of_ne (by omega)]
      exact h5 b (by omega)

theorem loop_inv (hn' : 2 ≤ n') (jx : ℕ → Option ℤ) (hj : ∀ k < n, jx k = some (ix k : ℤ)) (g : ℕ → ℚ) (m : ℕ) (hm : m < n) :
    ∃ s, (List.range (m + 1)).foldl (step n' jx g) (some ⟨fun _ => 0, 0, 0⟩) = some s ∧ Inv ix g m s := by
  induction m with
  | zero => simpa using inv_zero hg hn hn' jx hj g
  | succ m ih =>
    obtain ⟨s, h1, h2⟩ := ih (by omega)
    obtain ⟨s', h3, h4⟩ := inv_succ hg hn hn' jx hj g m hm s h2
    exact ⟨s', by rw [List.range_succ, List.foldl_append, h1]; exact h3, h4⟩

theorem loop_value (hn' : 2 ≤ n') (jx : ℕ → Option ℤ) (hj : ∀ k < n, jx k = some (ix k : ℤ)) (g : ℕ → ℚ) :
    ∃ r, ((List.range n).foldl (step n' jx g) (some ⟨fun _ => 0, 0, 0⟩)).bind (last n') = some r ∧ ∀ b < n', r (b : ℤ) = value g (part ix n b) := by
  obtain ⟨s, e3, h1, h2, h3, h4, h5⟩ := loop_inv hg hn hn' jx hj g (n - 1) (by omega)
  have hpos := List.length_pos_of_mem (part_mem hg hn (n - 1))
  rw [show n - 1 + 1 = n by omega] at e3 h2 h3 h4 hpos
  rw [hg.last] at h1 h2 h3 h4 hpos
  have hL : (n' : ℤ) - 1 = ((n' - 1 : ℕ) : ℤ) := by omega
  rw [e3, Option.bind_some]
  unfold last
  by_cases h : s.norm = 1
  · rw [if_neg (not_not_intro h)]
    refine ⟨_, rfl, fun b hb => ?_⟩
    by_cases hbe : b = n' - 1
    · rw [hbe, h4]
      unfold value
      rw [← h2, h, Nat.cast_one, rnd_rep rep_one, div_one, rnd_rep (total_rep _ _)]
    · exact h3 b (by omega)
  · rw [if_pos h, if_neg (by rw [h2]; omega)]
    refine ⟨_, rfl, fun b hb => ?_⟩
    rw [hL]
    by_cases hbe : b = n' - 1
    · rw [hbe, Function.update_self, h4, h2]
      rfl
    · rw [Function.update_of_ne (by simp; omega)]
      exact h3 b (by omega)

end loop

/-- the index as a natural number -/
def natIndex (beta : ℚ) (n n' : ℤ) (k : ℕ) : ℕ := ((index beta n n' k).getD 0).toNat

theorem index_nat {beta : ℚ} {n n' : ℤ} (h : Scale 0 beta n) (h' : Scale 0 beta n') (k : ℕ) (hk : (k : ℤ) < n) :
    index beta n n' k = some (natIndex beta n n' k : ℤ) := by
  obtain ⟨b, e, b0, -⟩ := C193_nearest h h' k hk
  unfold natIndex
  rw [e, Option.getD_some, Option.some.injEq]
  omega

theorem good {beta : ℚ} {n n' : ℕ} (h : Scale 0 beta n) (h' : Scale 0 beta n') (hm : n * n' ≤ 2 ^ 48) : Good n n' (natIndex beta n n') where
  first := by
    unfold natIndex
    rw [(C193_ends h h').1]
    rfl
  last := by
    unfold natIndex
    have := (C193_ends h h').2
    rw [Int.toNat_natCast] at this
    rw [this, Option.getD_some]
    omega
  mono := by
    intro k hk
    obtain ⟨b, c, e1, e2, hbc⟩ := C193_order h h' k (k + 1) (by omega) (by omega)
    unfold natIndex
    rw [e1, e2, Option.getD_some, Option.getD_some]
    omega
  near := by
    have hm' : (n : ℤ) * n' ≤ 2 ^ 48 := by exact_mod_cast hm
    rcases Nat.le_total n' n with hle | hle
    · left
      intro k hk
      have := (neighbours h h' hm' k (by omega) _ _ (index_nat h h' k (by omega)) (index_nat h h' (k + 1) (by omega))).1 (by omega)
      omega
    · right
      intro k hk
      have := (neighbours h h' hm' k (by omega) _ _ (index_nat h h' k (by omega)) (index_nat h h' (k + 1) (by omega))).2 (by omega)
      omega

/-- **C193, values.**  Every bin has the rounded average of the values at its points, added in their order, and zero if there is none. -/
theorem C193_values (beta : ℚ) (n n' : ℕ) (h : Scale 0 beta n) (h' : Scale 0 beta n') (hm : n * n' ≤ 2 ^ 48) (g : ℕ → ℚ) :
    ∃ r, rebin beta n n' g = some r ∧ ∀ b < n', ∀ l, l = bin (index beta n n') n b →
      (l.isEmpty = false → r (b : ℤ) = rnd (total g l / rnd (l.length : ℚ))) ∧ (l.isEmpty = true → r (b : ℤ) = 0) := by
  have hn := h.two
  have hn' := h'.two
  have hgood := good h h' hm
  obtain ⟨r, e, hr⟩ := loop_value hgood (by omega) (by omega) (index beta n n') (fun k hk => index_nat h h' k (by omega)) g
  refine ⟨r, e, fun b hb l hl => ?_⟩
  have hp : part (natIndex beta n n') n b = l := by
    rw [hl]
    unfold part bin
    apply List.filter_congr
    intro k hk
    rw [List.mem_range] at hk
    rw [index_nat h h' k (by omega)]
    simp
  have := hr b hb
  rw [hp] at this
  refine ⟨fun _ => this, fun he => ?_⟩
  rw [this, List.isEmpty_iff.1 he, value_nil hgood (by omega)]

/-- **C193, coarser meshes**: every bin contains a point. -/
theorem C193_nonempty (beta : ℚ) (n n' : ℕ) (h : Scale 0 beta n) (h' : Scale 0 beta n') (hm : n * n' ≤ 2 ^ 48) (hle : n' ≤ n) (b : ℕ) (hb : b < n') :
    (bin (index beta n n') n b).isEmpty = false := by
  have hn := h.two
  have hn' := h'.two
  have hgood := good h h' hm
  have hm' : (n : ℤ) * n' ≤ 2 ^ 48 := by exact_mod_cast hm
  have hall : ∀ m < n, ∀ b, b ≤ natIndex beta n n' m → ∃ k ≤ m, natIndex beta n n' k = b := by
    intro m hmn
    induction m with
    | zero => intro b h; rw [hgood.first] at h; exact ⟨0, le_rfl, by rw [hgood.first]; omega⟩
    | succ m ih =>
      intro b hbm
      by_cases hb' : b ≤ natIndex beta n n' m
      · obtain ⟨k, hk, e⟩ := ih (by omega) b hb'
        exact ⟨k, by omega, e⟩
      · have := (neighbours h h' hm' m (by omega) _ _ (index_nat h h' m (by omega)) (index_nat h h' (m + 1) (by omega))).1 (by omega)
        exact ⟨m + 1, le_rfl, by omega⟩
  obtain ⟨k, hk, e⟩ := hall (n - 1) (by omega) b (by rw [hgood.last]; omega)
  have : k ∈ bin (index beta n n') n b := by
    unfold bin
    rw [List.mem_filter, List.mem_range, index_nat h h' k (by omega), e]
    simp
    omega
  rw [Bool.eq_false_iff]
  intro hemp
  rw [List.isEmpty_iff.1 hemp] at this
  exact absurd this List.not_mem_nil

theorem total_err (g : ℕ → ℚ) (A : ℚ) (l : List ℕ) (hA : ∀ k ∈ l, |g k| ≤ A) (hlen : l.length ≤ 2 ^ 48) :
    |total g l - (l.map g).sum| ≤ (l.length : ℚ) ^ 2 * (A / 9007199254740992) + 2 * l.length * 2 ^ (-1074 : ℤ) ∧ |(l.map g).sum| ≤ l.length * A := by
  induction l using List.reverseRecOn with
  | nil => simp [total]
  | append_singleton l k ih =>
    rw [List.length_append, List.length_singleton] at hlen
    obtain ⟨i1, i2⟩ := ih (fun j hj => hA j (List.mem_append.2 (Or.inl hj))) (by omega)
    have hk := hA k (List.mem_append.2 (Or.inr (List.mem_singleton.2 rfl)))
    have A0 : 0 ≤ A := (abs_nonneg _).trans hk
    rw [total_snoc, List.map_append, List.sum_append, List.map_singleton, List.sum_singleton, List.length_append, List.length_singleton]
    have er := rnd_err_abs (total g l + g k)
    have hm0 : (0 : ℚ) ≤ l.length := Nat.cast_nonneg _
    have hm1 : (l.length : ℚ) ≤ 281474976710656 := by exact_mod_cast (by omega : l.length ≤ 2 ^ 48)
    push_cast
    have h2 : |(l.map g).sum + g k| ≤ (l.length + 1) * A := by
      have := abs_add_le (l.map g).sum (g k)
      linarith
    refine ⟨?_, h2⟩
    have hη : (0 : ℚ) < 2 ^ (-1074 : ℤ) := two_zpow_pos _
    have h3 : |total g l + g k| ≤ (l.length + 1) * A + ((l.length : ℚ) ^ 2 * (A / 9007199254740992) + 2 * l.length * 2 ^ (-1074 : ℤ)) := by
      have : total g l + g k = ((l.map g).sum + g k) + (total g l - (l.map g).sum) := by ring
      rw [this]
      exact (abs_add_le _ _).trans (add_le_add h2 i1)
    generalize (2 : ℚ) ^ (-1074 : ℤ) = η at *
    generalize (l.length : ℚ) = m at *
    generalize total g l = t at *
    generalize (l.map g).sum = x at *
    generalize g k = y at *
    have hmη : m * η ≤ 281474976710656 * η := mul_le_mul_of_nonneg_right hm1 hη.le
    have hmA : m ^ 2 * A ≤ 281474976710656 * (m * A) := by nlinarith [mul_nonneg hm0 A0]
    have hmA0 : 0 ≤ m * A := mul_nonneg hm0 A0
    have : |rnd (t + y) - (x + y)| ≤ |rnd (t + y) - (t + y)| + |t - x| := by
      have : rnd (t + y) - (x + y) = (rnd (t + y) - (t + y)) + (t - x) := by ring
      rw [this]; exact abs_add_le _ _
    generalize |rnd (t + y) - (t + y)| = e1 at *
    generalize |t - x| = e2 at *
    generalize |t + y| = e3 at *
    nlinarith

/-- **C193, accuracy.**  The value of a bin with `m` points differs from the exact average by at most `m + 2` roundings of the largest value. -/
theorem C193_accuracy (g : ℕ → ℚ) (A : ℚ) (l : List ℕ) (hA : ∀ k ∈ l, |g k| ≤ A) (h0 : l.isEmpty = false) (hlen : l.length ≤ 2 ^ 48) :
    |rnd (total g l / rnd (l.length : ℚ)) - (l.map g).sum / l.length| ≤ (l.length + 2) * (A / 9007199254740992) + 4 * 2 ^ (-1074 : ℤ) := by
  obtain ⟨e, hs⟩ := total_err g A l hA hlen
  have hm : 1 ≤ l.length := by
    cases l with
    | nil => simp at h0
    | cons a l => simp
  have hm1 : (1 : ℚ) ≤ l.length := by exact_mod_cast hm
  have hm2 : (l.length : ℚ) ≤ 281474976710656 := by exact_mod_cast hlen
  have hr : rnd (l.length : ℚ) = l.length := by
    have : Rep ((l.length : ℤ) : ℚ) := rep_int (by rw [abs_le]; omega)
    rw [Int.cast_natCast] at this
    exact rnd_rep this
  rw [hr]
  have er := rnd_err_abs (total g l / l.length)
  have hη : (0 : ℚ) < 2 ^ (-1074 : ℤ) := two_zpow_pos _
  have hA0 : 0 ≤ A := by
    by_contra hc
    have : (l.length : ℚ) * A < 0 := mul_neg_of_pos_of_neg (by linarith) (not_le.1 hc)
    linarith [abs_nonneg (l.map g).sum]
  generalize (2 : ℚ) ^ (-1074 : ℤ) = η at *
  generalize (l.length : ℚ) = m at *
  generalize total g l = t at *
  generalize (l.map g).sum = x at *
  have hm0 : 0 < m := by linarith
  have d1 : |t / m - x / m| ≤ m * (A / 9007199254740992) + 2 * η := by
    rw [← sub_div, abs_div, abs_of_pos hm0, div_le_iff₀ hm0]
    calc |t - x| ≤ _ := e
      _ = _ := by ring
  have d2 : |x / m| ≤ A := by
    rw [abs_div, abs_of_pos hm0, div_le_iff₀ hm0, mul_comm]
    exact hs
  have d3 : |t / m| ≤ |x / m| + |t / m - x / m| := by
    have : t / m = x / m + (t / m - x / m) := by ring
    calc |t / m| = |x / m + (t / m - x / m)| := by rw [← this]
      _ ≤ _ := abs_add_le _ _
  have d4 : |rnd (t / m) - x / m| ≤ |rnd (t / m) - t / m| + |t / m - x / m| := by
    have : rnd (t / m) - x / m = (rnd (t / m) - t / m) + (t / m - x / m) := by ring
    rw [this]; exact abs_add_le _ _
  have hmA : m * A ≤ 281474976710656 * A := mul_le_mul_of_nonneg_right hm2 hA0
  generalize |rnd (t / m) - t / m| = e1 at *
  generalize |t / m - x / m| = e2 at *
  generalize |t / m| = e3 at *
  generalize |x / m| = e4 at *
  have : m * (A / 9007199254740992) = m * A / 9007199254740992 := by ring
  rw [add_mul, this]
  rw [this] at d1
  clear this
  generalize m * A = mA at *
  linarith

/-- **C193, ties.**  A point half way between two bins may go to the first one, although another point half way goes to the second one: with 11 points and 6 bins the bins
contain 1, 3, 1, 3, 1 and 2 points. -/
theorem C193_ties : place 11 6 1 = 1 / 2 ∧ index 1 11 6 1 = some 1 ∧ place 11 6 3 = 3 / 2 ∧ index 1 11 6 3 = some 1 := by
  refine ⟨by norm_num [place], by decide +kernel, by norm_num [place], by decide +kernel⟩

/-! ### Examples -/

/-- the hypotheses are fulfilled -/
theorem exScale1 (n : ℕ) (h2 : 2 ≤ n) (hn : n ≤ 1000) : Scale 0 1 n where
  da := isDouble_small rep_zero (by norm_num)
  db := isDouble_small rep_one (by norm_num)
  len := by
    calc (2 : ℚ) ^ (-900 : ℤ) ≤ 2 ^ (0 : ℤ) := two_zpow_le (by norm_num)
      _ = 1 - 0 := by norm_num
  la := by rw [abs_zero]; exact (two_zpow_pos _).le
  lb := by
    rw [abs_one]
    calc (1 : ℚ) = 2 ^ (0 : ℤ) := by norm_num
      _ ≤ 2 ^ (1000 : ℤ) := two_zpow_le (by norm_num)
  two := by omega
  many := by omega

example : ∃ r, rebin 1 11 6 (fun k => k) = some r ∧ r 0 = 0 := by
  obtain ⟨r, e, hr⟩ := C193_values 1 11 6 (exScale1 11 (by norm_num) (by norm_num)) (exScale1 6 (by norm_num) (by norm_num)) (by norm_num) (fun k => k)
  refine ⟨r, e, ?_⟩
  have := ((hr 0 (by norm_num)) _ rfl).1 (by decide +kernel)
  rw [show ((0 : ℕ) : ℤ) = 0 from rfl] at this
  rw [this]
  decide +kernel

/-- the bins of 11 points -/
example : (List.range 6).map (fun b => bin (index 1 11 6) 11 b) = [[0], [1, 2, 3], [4], [5, 6, 7], [8], [9, 10]] := by decide +kernel

example : (rebin 1 11 6 (fun k => k)).map (fun r => (List.range 6).map fun b => r b) = some [0, 2, 4, 6, 8, 19 / 2] := by decide +kernel

/-- a finer mesh: the new points next to no old point are zero -/
example : (rebin 1 3 5 (fun k => k + 1)).map (fun r => (List.range 5).map fun b => r b) = some [1, 0, 2, 0, 3] := by decide +kernel

end Verif.RebinDouble
