import Mathlib.Algebra.Order.Field.Basic
import Mathlib.Algebra.Order.Floor.Ring
import Mathlib.Data.Rat.Floor
import Mathlib.Algebra.BigOperators.Group.Finset.Basic
import Mathlib.Tactic.Ring
import Mathlib.Tactic.FieldSimp
import Mathlib.Tactic.LinearCombination
import Mathlib.Tactic.Linarith
import Mathlib.Tactic.IntervalCases

/-!
# Property C63: the grid generator

Source: `/repo/c++/triqs/lattice/grid_generator.hpp`.

Simplifications: `double` is an ordered field, `int` is unbounded (`C63_size_overflow` gives the first
size outside the range of `int`). Division by zero in `init` (no points) gives the value 0 of the field
where the code has infinity; the theorems about the points need at least one point per direction.
-/

namespace Verif.Grid

/-! ## Model -/

/-- members of `grid_generator`, grid_generator.hpp:34-37 -/
structure Gen (K : Type) where
  dim : ℤ
  nkpts : ℤ
  nx : ℤ
  ny : ℤ
  nz : ℤ
  NX : ℤ
  NY : ℤ
  NZ : ℤ
  index : ℤ
  stepx : K
  stepy : K
  stepz : K
  atEnd : Bool
  pt : K × K × K

variable {K : Type} [Field K]

/-- constructor and `init`, grid_generator.hpp:38-53, 85 -/
def Gen.mk' (dim nkpts : ℤ) : Gen K :=
  let NX := nkpts
  let NY := if dim > 1 then nkpts else 1
  let NZ := if dim > 2 then nkpts else 1
  let sx : K := 1 / (NX : K)
  let sy : K := 1 / (NY : K)
  let sz : K := 1 / (NZ : K)
  ⟨dim, nkpts, 0, 0, 0, NX, NY, NZ, 0, sx, sy, sz, false, (sx / 2, sy / 2, sz / 2)⟩

/-- `increment`, grid_generator.hpp:55-79 -/
def Gen.increment (g : Gen K) : Gen K :=
  if g.nx < g.NX - 1 then
    { g with nx := g.nx + 1, pt := (g.pt.1 + g.stepx, g.pt.2.1, g.pt.2.2), index := g.index + 1 }
  else
    let g := { g with pt := (g.stepx / 2, g.pt.2.1, g.pt.2.2), nx := 0 }
    if g.ny < g.NY - 1 then
      { g with ny := g.ny + 1, pt := (g.pt.1, g.pt.2.1 + g.stepy, g.pt.2.2), index := g.index + 1 }
    else
      let g := { g with pt := (g.pt.1, g.stepy / 2, g.pt.2.2), ny := 0 }
      if g.nz < g.NZ - 1 then
        { g with nz := g.nz + 1, pt := (g.pt.1, g.pt.2.1, g.pt.2.2 + g.stepz), index := g.index + 1 }
      else { g with atEnd := true }

/-- `size`, grid_generator.hpp:88 -/
def Gen.size (g : Gen K) : ℤ := g.NX * g.NY * g.NZ

/-- `operator==`, grid_generator.hpp:87 -/
def Gen.eq (g o : Gen K) : Bool := o.dim == g.dim && o.index == g.index && o.nkpts == g.nkpts

/-- `for (; grid; ++grid) body(grid.index(), *grid)`: the arguments of the body; `none`: the loop is still
running after `fuel` tests of its condition -/
def Gen.visits : ℕ → Gen K → Option (List (ℤ × (K × K × K)))
  | 0, _ => none
  | fuel + 1, g => if g.atEnd then some [] else (Gen.visits fuel g.increment).map (fun l => (g.index, g.pt) :: l)

/-! ## Specification -/

/-- centre of a cell of the grid of `a × b × c` cells -/
def centre (a b c : ℕ) (i j k : ℕ) : K × K × K := ((i + 1 / 2) / a, (j + 1 / 2) / b, (k + 1 / 2) / c)

/-- extents of the grid of dimension `dim` -/
def extents (dim n : ℕ) : ℕ × ℕ × ℕ := (n, if 1 < dim then n else 1, if 2 < dim then n else 1)

/-! ## Proofs -/

theorem extents_size (dim n : ℕ) (h1 : 1 ≤ dim) (h3 : dim ≤ 3) :
    (extents dim n).1 * (extents dim n).2.1 * (extents dim n).2.2 = n ^ dim := by
  interval_cases dim <;> simp [extents] <;> ring

/-- state after `t` increments, while not at the end -/
structure At (a b c : ℕ) (t : ℕ) (g : Gen K) : Prop where
  hNX : g.NX = a
  hNY : g.NY = b
  hNZ : g.NZ = c
  hsx : g.stepx = 1 / (a : K)
  hsy : g.stepy = 1 / (b : K)
  hsz : g.stepz = 1 / (c : K)
  hnx : g.nx = (t % a : ℕ)
  hny : g.ny = (t / a % b : ℕ)
  hnz : g.nz = (t / a / b : ℕ)
  hidx : g.index = t
  hend : g.atEnd = false
  hpt : g.pt = centre a b c (t % a) (t / a % b) (t / a / b)

theorem at_init (dim n : ℕ) : At (extents dim n).1 (extents dim n).2.1 (extents dim n).2.2 0 (Gen.mk' (K := K) dim n) := by
  have hy : (if (dim : ℤ) > 1 then (n : ℤ) else 1) = ((if 1 < dim then n else 1 : ℕ) : ℤ) := by
    by_cases h : 1 < dim <;> simp [h]
  have hz : (if (dim : ℤ) > 2 then (n : ℤ) else 1) = ((if 2 < dim then n else 1 : ℕ) : ℤ) := by
    by_cases h : 2 < dim
    · have : (dim : ℤ) > 2 := by exact_mod_cast h
      simp [h, this]
    · have : ¬ (dim : ℤ) > 2 := by push Not; exact_mod_cast not_lt.mp h
      simp [h, this]
  constructor <;> simp only [Gen.mk', extents, hy, hz] <;> simp [centre]
  refine ⟨?_, ?_, ?_⟩ <;> rw [div_eq_mul_inv, mul_comm, div_eq_mul_inv]

theorem at_step {a b c t : ℕ} (hb : 0 < b) (hc : 0 < c) (h2 : t + 1 < a * b * c) {g : Gen K} (h : At a b c t g) :
    At a b c (t + 1) g.increment := by
  have ha : 0 < a := by
    rcases Nat.eq_zero_or_pos a with h0 | h0
    · simp [h0] at h2
    · exact h0
  have hx := h.hnx; have hy := h.hny; have hz := h.hnz; have hp := h.hpt
  unfold Gen.increment
  by_cases c1 : t % a + 1 < a
  · have e1 : (t + 1) % a = t % a + 1 := by
      rw [Nat.add_mod]
      rcases Nat.lt_or_ge 1 a with h1 | h1
      · rw [Nat.mod_eq_of_lt h1, Nat.mod_eq_of_lt c1]
      · omega
    have e2 : (t + 1) / a = t / a := by
      have := Nat.div_add_mod t a
      have h3 := Nat.div_add_mod (t + 1) a
      rw [e1] at h3
      have : a * ((t + 1) / a) = a * (t / a) := by omega
      exact Nat.eq_of_mul_eq_mul_left ha this
    rw [if_pos (by rw [hx, h.hNX]; omega)]
    constructor <;> simp only [e1, e2, h.hNX, h.hNY, h.hNZ, h.hsx, h.hsy, h.hsz, hx, hy, hz, h.hidx, h.hend, hp, centre]
    · push_cast; rfl
    · push_cast; rfl
    · push_cast; simp only [Prod.mk.injEq, and_true]; ring
  · have e0 : t % a + 1 = a := by have := Nat.mod_lt t ha; omega
    have e2 : (t + 1) / a = t / a + 1 := by
      have := Nat.div_add_mod t a
      have : t + 1 = a * (t / a + 1) := by rw [mul_add]; omega
      rw [this, Nat.mul_div_cancel_left _ ha]
    have e1 : (t + 1) % a = 0 := by
      have := Nat.div_add_mod t a
      have : t + 1 = a * (t / a + 1) := by rw [mul_add]; omega
      rw [this, Nat.mul_mod_right]
    rw [if_neg (by rw [hx, h.hNX]; omega)]
    simp only
    set u := t / a with hu
    by_cases c2 : u % b + 1 < b
    · have f1 : (u + 1) % b = u % b + 1 := by
        rw [Nat.add_mod]
        rcases Nat.lt_or_ge 1 b with h1 | h1
        · rw [Nat.mod_eq_of_lt h1, Nat.mod_eq_of_lt c2]
        · omega
      have f2 : (u + 1) / b = u / b := by
        have := Nat.div_add_mod u b
        have h3 := Nat.div_add_mod (u + 1) b
        rw [f1] at h3
        have : b * ((u + 1) / b) = b * (u / b) := by omega
        exact Nat.eq_of_mul_eq_mul_left hb this
      rw [if_pos (by rw [hy, h.hNY]; omega)]
      constructor <;> simp only [e1, e2, f1, f2, h.hNX, h.hNY, h.hNZ, h.hsx, h.hsy, h.hsz, hx, hy, hz, h.hidx, h.hend, hp, centre]
      · simp
      · push_cast; rfl
      · push_cast; rfl
      · push_cast; simp only [Prod.mk.injEq, and_true]; exact ⟨by ring, by ring⟩
    · have f0 : u % b + 1 = b := by have := Nat.mod_lt u hb; omega
      have f3 : u + 1 = b * (u / b + 1) := by
        have := Nat.div_add_mod u b
        rw [mul_add]; omega
      have f2 : (u + 1) / b = u / b + 1 := by rw [f3, Nat.mul_div_cancel_left _ hb]
      have f1 : (u + 1) % b = 0 := by rw [f3, Nat.mul_mod_right]
      rw [if_neg (by rw [hy, h.hNY]; omega)]
      have hlt : u / b + 1 < c := by
        have hta : t + 1 = a * (u + 1) := by
          have := Nat.div_add_mod t a
          rw [← hu] at this
          rw [mul_add]; omega
        rw [hta, f3, ← mul_assoc] at h2
        exact lt_of_mul_lt_mul_left h2 (Nat.zero_le _)
      rw [if_pos (by rw [hz, h.hNZ]; omega)]
      constructor <;> simp only [e1, e2, f1, f2, h.hNX, h.hNY, h.hNZ, h.hsx, h.hsy, h.hsz, hx, hy, hz, h.hidx, h.hend, hp, centre]
      · simp
      · simp
      · push_cast; rfl
      · push_cast; rfl
      · push_cast; simp only [Prod.mk.injEq]; refine ⟨?_, ?_, ?_⟩ <;> ring

theorem at_last {a b c t : ℕ} (hb : 0 < b) (ht : t + 1 = a * b * c) {g : Gen K} (h : At a b c t g) :
    g.increment.atEnd = true ∧ g.increment.index = t := by
  have ha : 0 < a := by
    rcases Nat.eq_zero_or_pos a with h0 | h0
    · simp [h0] at ht
    · exact h0
  have e0 : t % a + 1 = a := by
    have h1 : (t + 1) % a = 0 := by rw [ht, mul_assoc, Nat.mul_mod_right]
    have h2 := Nat.mod_lt t ha
    by_contra hne
    have : (t + 1) % a = t % a + 1 := by
      rw [Nat.add_mod]
      rcases Nat.lt_or_ge 1 a with h3 | h3
      · rw [Nat.mod_eq_of_lt h3, Nat.mod_eq_of_lt (by omega)]
      · omega
    omega
  have hu : t / a + 1 = b * c := by
    have := Nat.div_add_mod t a
    have h1 : a * (t / a + 1) = a * (b * c) := by rw [mul_add, ← mul_assoc]; omega
    exact Nat.eq_of_mul_eq_mul_left ha h1
  have f0 : t / a % b + 1 = b := by
    have h1 : (t / a + 1) % b = 0 := by rw [hu, Nat.mul_mod_right]
    have h2 := Nat.mod_lt (t / a) hb
    by_contra hne
    have : (t / a + 1) % b = t / a % b + 1 := by
      rw [Nat.add_mod]
      rcases Nat.lt_or_ge 1 b with h3 | h3
      · rw [Nat.mod_eq_of_lt h3, Nat.mod_eq_of_lt (by omega)]
      · omega
    omega
  have g0 : t / a / b + 1 = c := by
    have := Nat.div_add_mod (t / a) b
    have h1 : b * (t / a / b + 1) = b * c := by rw [mul_add]; omega
    exact Nat.eq_of_mul_eq_mul_left hb h1
  have hx := h.hnx; have hy := h.hny; have hz := h.hnz
  unfold Gen.increment
  rw [if_neg (by rw [hx, h.hNX]; omega)]
  simp only
  rw [if_neg (by rw [hy, h.hNY]; omega), if_neg (by rw [hz, h.hNZ]; omega)]
  exact ⟨rfl, h.hidx⟩

theorem visits_from {a b c : ℕ} (hb : 0 < b) (hc : 0 < c) : ∀ (m t fuel : ℕ), t + m + 1 = a * b * c → m + 1 < fuel →
    ∀ g : Gen K, At a b c t g → g.visits fuel = some ((List.range' t (m + 1)).map
      (fun t : ℕ => ((t : ℤ), centre a b c (t % a) (t / a % b) (t / a / b)))) := by
  intro m
  induction m with
  | zero =>
    intro t fuel ht hf g hg
    obtain ⟨f, rfl⟩ : ∃ f, fuel = f + 2 := ⟨fuel - 2, by omega⟩
    have hl := at_last hb (by omega) hg
    simp [Gen.visits, hg.hend, hl.1, hg.hidx, hg.hpt]
  | succ m ih =>
    intro t fuel ht hf g hg
    obtain ⟨f, rfl⟩ : ∃ f, fuel = f + 1 := ⟨fuel - 1, by omega⟩
    have := ih (t + 1) f (by omega) (by omega) _ (at_step hb hc (by omega) hg)
    have hr : List.range' t (m + 1 + 1) = t :: List.range' (t + 1) (m + 1) := List.range'_succ
    rw [Gen.visits, hg.hend, this, hr, hg.hidx, hg.hpt]
    simp only [Bool.false_eq_true, if_false, Option.map_some, List.map_cons]

/-- the body of the loop over a grid is executed for `t = 0 .. n^dim - 1` in this order, at the centre of
the cell `(t % a, t / a % b, t / a / b)` -/
theorem visits_eq (dim n : ℕ) (hn : 1 ≤ n) (h1 : 1 ≤ dim) (h3 : dim ≤ 3) (fuel : ℕ) (hf : n ^ dim < fuel) :
    (Gen.mk' (K := K) dim n).visits fuel = some ((List.range (n ^ dim)).map (fun t : ℕ => ((t : ℤ),
      let e := extents dim n; centre e.1 e.2.1 e.2.2 (t % e.1) (t / e.1 % e.2.1) (t / e.1 / e.2.1)))) := by
  have hs := extents_size dim n h1 h3
  have hpos : 0 < n ^ dim := Nat.pow_pos hn
  have hb : 0 < (extents dim n).2.1 := by simp only [extents]; split <;> omega
  have hc : 0 < (extents dim n).2.2 := by simp only [extents]; split <;> omega
  have := visits_from (K := K) hb hc (n ^ dim - 1) 0 fuel (by rw [hs]; omega) (by omega) _ (at_init dim n)
  rw [show n ^ dim - 1 + 1 = n ^ dim by omega, ← List.range_eq_range'] at this
  exact this

/-- **C63.** Iterating a grid of dimension 1, 2 or 3 with at least one point per direction ends, with indices
`0 .. n^dim - 1` in order, and every cell centre is met once and only once. -/
theorem C63_grid [LinearOrder K] [IsStrictOrderedRing K] (dim n : ℕ) (hn : 1 ≤ n) (h1 : 1 ≤ dim) (h3 : dim ≤ 3) :
    ∃ l : List (ℤ × (K × K × K)), (∀ fuel, n ^ dim < fuel → (Gen.mk' (K := K) dim n).visits fuel = some l) ∧
      l.length = n ^ dim ∧ (Gen.mk' (K := K) dim n).size = l.length ∧
      l.map Prod.fst = (List.range (n ^ dim)).map (fun t : ℕ => (t : ℤ)) ∧ (l.map Prod.snd).Nodup ∧
      ∀ p, p ∈ l.map Prod.snd ↔ ∃ i j k, i < (extents dim n).1 ∧ j < (extents dim n).2.1 ∧ k < (extents dim n).2.2 ∧
        p = centre (extents dim n).1 (extents dim n).2.1 (extents dim n).2.2 i j k := by
  refine ⟨_, fun fuel hf => visits_eq dim n hn h1 h3 fuel hf, by simp, ?_, ?_, ?_, ?_⟩
  · have hg := at_init (K := K) dim n
    rw [List.length_map, List.length_range, Gen.size, hg.hNX, hg.hNY, hg.hNZ, ← extents_size dim n h1 h3]
    push_cast
    ring
  · rw [List.map_map]
    rfl
  all_goals
    dsimp only
    have hs := extents_size dim n h1 h3
    have ha : 0 < (extents dim n).1 := hn
    have hb : 0 < (extents dim n).2.1 := by simp only [extents]; split <;> omega
    have hc : 0 < (extents dim n).2.2 := by simp only [extents]; split <;> omega
    generalize (extents dim n).1 = a at *
    generalize (extents dim n).2.1 = b at *
    generalize (extents dim n).2.2 = c at *
    rw [List.map_map]
  · rw [List.nodup_map_iff_inj_on List.nodup_range]
    intro t ht s hs' he
    simp only [List.mem_range] at ht hs'
    simp only [Function.comp_apply, centre, Prod.mk.injEq] at he
    obtain ⟨e1, e2, e3⟩ := he
    have ca : (a : K) ≠ 0 := by exact_mod_cast ha.ne'
    have cb : (b : K) ≠ 0 := by exact_mod_cast hb.ne'
    have cc : (c : K) ≠ 0 := by exact_mod_cast hc.ne'
    rw [div_left_inj' ca] at e1
    rw [div_left_inj' cb] at e2
    rw [div_left_inj' cc] at e3
    have e1' : t % a = s % a := by exact_mod_cast add_right_cancel e1
    have e2' : t / a % b = s / a % b := by exact_mod_cast add_right_cancel e2
    have e3' : t / a / b = s / a / b := by exact_mod_cast add_right_cancel e3
    rw [← Nat.div_add_mod t a, ← Nat.div_add_mod s a, e1', ← Nat.div_add_mod (t / a) b, ← Nat.div_add_mod (s / a) b, e2', e3']
  · intro p
    simp only [List.mem_map, List.mem_range, Function.comp_apply]
    constructor
    · rintro ⟨t, ht, rfl⟩
      refine ⟨_, _, _, Nat.mod_lt _ ha, Nat.mod_lt _ hb, ?_, rfl⟩
      rw [Nat.div_div_eq_div_mul]
      apply Nat.div_lt_of_lt_mul
      rw [hs]
      exact ht
    · rintro ⟨i, j, k, hi, hj, hk, rfl⟩
      refine ⟨i + a * (j + b * k), ?_, ?_⟩
      · rw [← hs]
        have h1 : i + a * (j + b * k) < a * (j + b * k + 1) := by rw [mul_add a (j + b * k) 1]; omega
        have h2 : j + b * k + 1 ≤ b * c := by
          have : b * (k + 1) ≤ b * c := Nat.mul_le_mul_left _ hk
          rw [mul_add] at this
          omega
        calc _ < a * (j + b * k + 1) := h1
          _ ≤ a * (b * c) := Nat.mul_le_mul_left _ h2
          _ = a * b * c := by ring
      · have e1 : (i + a * (j + b * k)) % a = i := by rw [Nat.add_mul_mod_self_left, Nat.mod_eq_of_lt hi]
        have e2 : (i + a * (j + b * k)) / a = j + b * k := by rw [Nat.add_mul_div_left _ _ ha, Nat.div_eq_of_lt hi, zero_add]
        have e3 : (j + b * k) % b = j := by rw [Nat.add_mul_mod_self_left, Nat.mod_eq_of_lt hj]
        have e4 : (j + b * k) / b = k := by rw [Nat.add_mul_div_left _ _ hb, Nat.div_eq_of_lt hj, zero_add]
        simp only [e1, e2, e3, e4]

/-- after the last increment the generator is at its end but still compares equal to the last point
(`operator==` does not compare `at_end`) -/
theorem C63_end_equals_last_point (dim n : ℕ) (hn : 1 ≤ n) (h1 : 1 ≤ dim) (h3 : dim ≤ 3) :
    let last := (Gen.increment^[n ^ dim - 1]) (Gen.mk' (K := K) dim n);
    last.atEnd = false ∧ last.increment.atEnd = true ∧ last.eq last.increment = true := by
  have hs := extents_size dim n h1 h3
  have hb : 0 < (extents dim n).2.1 := by simp only [extents]; split <;> omega
  have hc : 0 < (extents dim n).2.2 := by simp only [extents]; split <;> omega
  have hpos : 0 < n ^ dim := Nat.pow_pos hn
  have hat : ∀ t, t < n ^ dim → At (extents dim n).1 (extents dim n).2.1 (extents dim n).2.2 t (Gen.increment^[t] (Gen.mk' (K := K) dim n)) := by
    intro t
    induction t with
    | zero => intro _; exact at_init dim n
    | succ t ih =>
      intro ht
      rw [Function.iterate_succ_apply']
      exact at_step hb hc (by rw [hs]; exact ht) (ih (by omega))
  have h := hat (n ^ dim - 1) (by omega)
  have hl := at_last hb (by rw [hs]; omega) h
  refine ⟨h.hend, hl.1, ?_⟩
  have hd : ∀ g : Gen K, g.increment.dim = g.dim ∧ g.increment.nkpts = g.nkpts := by
    intro g
    unfold Gen.increment
    simp only
    split_ifs <;> simp
  simp [Gen.eq, hd, hl.2, h.hidx]

/-- without points (`nkpts = 0`, as in the default constructor) the loop body is nevertheless executed once,
with index 0, while `size()` is 0: `eval(0, 0)` of `dos` is then out of bounds -/
theorem C63_no_points (dim : ℕ) (h1 : 1 ≤ dim) (h3 : dim ≤ 3) :
    (Gen.mk' (K := K) dim 0).size = 0 ∧ ∀ fuel, 2 ≤ fuel → ∃ p, (Gen.mk' (K := K) dim 0).visits fuel = some [(0, p)] := by
  constructor
  · simp [Gen.size, Gen.mk']
  · intro fuel hf
    obtain ⟨f, rfl⟩ : ∃ f, fuel = f + 2 := ⟨fuel - 2, by omega⟩
    interval_cases dim <;> simp [Gen.visits, Gen.mk', Gen.increment]

/-- the number of points of a three-dimensional grid is outside the range of `int` from 1291 points per
direction on -/
theorem C63_size_overflow (n : ℕ) (hn : 1291 ≤ n) : (Gen.mk' (K := K) 3 n).size > 2 ^ 31 - 1 := by
  have : (1291 : ℤ) ≤ n := by exact_mod_cast hn
  simp only [Gen.size, Gen.mk']
  norm_num
  have h2 : (1291 : ℤ) * 1291 ≤ n * n := mul_le_mul this this (by norm_num) (by omega)
  have h3 : (1291 : ℤ) * 1291 * 1291 ≤ n * n * n := mul_le_mul h2 this (by norm_num) (by positivity)
  linarith

example : (Gen.mk' (K := ℚ) 2 2).visits 100 = some [(0, 1/4, 1/4, 1/2), (1, 3/4, 1/4, 1/2), (2, 1/4, 3/4, 1/2), (3, 3/4, 3/4, 1/2)] := by
  decide +kernel

example : ((Gen.mk' (K := ℚ) 3 3).visits 100).map List.length = some 27 := by decide +kernel

end Verif.Grid
