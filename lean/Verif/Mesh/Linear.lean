import Mathlib.Algebra.Order.Floor.Ring
import Mathlib.Algebra.Order.Field.Basic
import Mathlib.Algebra.Module.Basic
import Mathlib.Data.Rat.Floor
import Mathlib.Tactic.FieldSimp
import Mathlib.Tactic.Linarith
import Mathlib.Tactic.Ring
import Mathlib.Tactic.Module

/-!
# Model of linear meshes

Source: `/repo/c++/triqs/mesh/bases/linear.hpp` (base of `imtime`, `retime`, `refreq`).
Simplifications: `double` is an exact linearly ordered field with floor, `long` an unbounded integer.
-/

namespace Verif.Linear

variable {K : Type} [Field K] [LinearOrder K] [IsStrictOrderedRing K] [FloorRing K]

/-! ## Model -/

/-- members, linear.hpp:40-42; `deltaInv = none` stands for the infinity of linear.hpp:52. -/
structure Mesh (K : Type) where
  L : Int
  xmin : K
  xmax : K
  delta : K
  deltaInv : Option K

/-- constructor, linear.hpp:47-56; `none` when the `EXPECTS` fails. -/
def mk' (a b : K) (n : Int) : Option (Mesh K) :=
  let d : K := if n = 1 then 0 else (b - a) / (n - 1 : Int)
  if a ≤ b then some ⟨n, a, b, d, if d = 0 then none else some (1 / d)⟩ else none

/-- conversion `double → long` (truncation towards zero) -/
def trunc (x : K) : Int := if 0 ≤ x then ⌊x⌋ else ⌈x⌉

/-- linear.hpp:112 -/
def validIndex (m : Mesh K) (i : Int) : Bool := decide (0 ≤ i) && decide (i < m.L)
/-- linear.hpp:115 -/
def validValue (m : Mesh K) (x : K) : Bool := decide (m.xmin ≤ x) && decide (x ≤ m.xmax)

/-- `to_index(closest_mesh_point_t)`, linear.hpp:136-139. `none` when the `EXPECTS` fails, or when the
step is zero: the product `0 * infinity` (or infinity) converted to `long` is undefined. -/
def toIndex (m : Mesh K) (x : K) : Option Int :=
  if validValue m x then m.deltaInv.map (fun di => trunc ((x - m.xmin) * di + 1 / 2)) else none

/-- `to_value`, linear.hpp:154-160. -/
def toValue (m : Mesh K) (i : Int) : Option K :=
  if validIndex m i then
    some (if m.L = 1 then m.xmin else
      let wr : K := (i : K) / ((m.L - 1 : Int) : K)
      m.xmin * (1 - wr) + m.xmax * wr)
  else none

variable {V : Type} [AddCommGroup V] [Module K V]

/-- left node and weight of `evaluate`, linear.hpp:221-226. -/
def bracket (m : Mesh K) (x : K) : Option (Int × K) :=
  if validValue m x && decide (1 < m.L) then
    m.deltaInv.map (fun di =>
      let a := (max x m.xmin - m.xmin) * di
      let i := min (trunc a) (m.L - 2)
      (i, min (a - i) 1))
  else none

/-- `evaluate`, linear.hpp:221-228. -/
def evaluate (m : Mesh K) (f : Int → V) (x : K) : Option V :=
  (bracket m x).map (fun p => (1 - p.2) • f p.1 + p.2 • f (p.1 + 1))

/-- stored fields, linear.hpp:198-204, and `h5_read_impl` 207-215. -/
def write (m : Mesh K) : K × K × Int := (m.xmin, m.xmax, m.L)
def read (a : K × K × Int) : Option (Mesh K) := mk' a.1 a.2.1 a.2.2

/-! ## Specification -/

/-- the mesh of `L` equally spaced points on `[a,b]` -/
def point (a b : K) (L i : Int) : K := a + i * ((b - a) / (L - 1))

/-! ## Proofs -/

variable {a b : K} {L : Int}

theorem step_pos (hab : a < b) (hL : 2 ≤ L) : 0 < (b - a) / ((L : K) - 1) := by
  have : (2 : K) ≤ L := by exact_mod_cast hL
  exact div_pos (by linarith) (by linarith)

theorem mk'_eq (hab : a < b) (hL : 2 ≤ L) :
    mk' a b L = some ⟨L, a, b, (b - a) / ((L : K) - 1), some (1 / ((b - a) / ((L : K) - 1)))⟩ := by
  have h := (step_pos hab hL).ne'
  have h1 : L ≠ 1 := by omega
  unfold mk'
  simp [hab.le, h1, h]

theorem toValue_eq (hab : a < b) (hL : 2 ≤ L) {m : Mesh K} (hm : mk' a b L = some m) (i : Int)
    (h0 : 0 ≤ i) (h1 : i < L) : toValue m i = some (point a b L i) := by
  rw [mk'_eq hab hL] at hm
  cases hm
  have hL1 : L ≠ 1 := by omega
  have : (2 : K) ≤ L := by exact_mod_cast hL
  have hne : (L : K) - 1 ≠ 0 := by intro h; linarith
  simp only [toValue, validIndex, h0, h1, hL1, decide_true, Bool.and_self, if_true, if_false, point]
  congr 1
  push_cast
  field_simp
  ring

theorem trunc_nonneg {x : K} (h : 0 ≤ x) : trunc x = ⌊x⌋ := by simp [trunc, h]

/-- the scaled coordinate of a point of the interval -/
theorem coord (hab : a < b) (hL : 2 ≤ L) (x : K) (h0 : a ≤ x) (h1 : x ≤ b) :
    0 ≤ (x - a) * (1 / ((b - a) / ((L : K) - 1))) ∧ (x - a) * (1 / ((b - a) / ((L : K) - 1))) ≤ (L : K) - 1 ∧
    x = a + (x - a) * (1 / ((b - a) / ((L : K) - 1))) * ((b - a) / ((L : K) - 1)) := by
  have hs := step_pos hab hL
  have h2 : (2 : K) ≤ L := by exact_mod_cast hL
  have hba : 0 < b - a := by linarith
  refine ⟨mul_nonneg (by linarith) (by positivity), ?_, ?_⟩
  · rw [mul_one_div, div_le_iff₀ hs, mul_div_assoc']
    rw [le_div_iff₀ (by linarith)]
    nlinarith
  · rw [mul_one_div, div_mul_cancel₀ _ hs.ne']
    ring

/-- **C42, nearest point.** For every interval, size `≥ 2` and argument inside: the points are equally
spaced, the nearest-point index is valid, its point is within half a step, and it is exact on points. -/
theorem C42_values_and_nearest (hab : a < b) (hL : 2 ≤ L) :
    ∃ m, mk' a b L = some m ∧ m.delta = (b - a) / (L - 1) ∧
      (∀ i, 0 ≤ i → i < L → toValue m i = some (point a b L i)) ∧
      (∀ i, ¬ (0 ≤ i ∧ i < L) → toValue m i = none) ∧
      (∀ x, a ≤ x → x ≤ b → ∃ i, toIndex m x = some i ∧ 0 ≤ i ∧ i < L ∧
        |x - point a b L i| ≤ (b - a) / (L - 1) / 2) ∧
      (∀ i, 0 ≤ i → i < L → toIndex m (point a b L i) = some i) := by
  have hs := step_pos hab hL
  have h2 : (2 : K) ≤ L := by exact_mod_cast hL
  have key : ∀ x, a ≤ x → x ≤ b → toIndex ⟨L, a, b, (b - a) / ((L : K) - 1), some (1 / ((b - a) / ((L : K) - 1)))⟩ x
      = some ⌊(x - a) * (1 / ((b - a) / ((L : K) - 1))) + 1 / 2⌋ := by
    intro x hx0 hx1
    obtain ⟨c0, _, _⟩ := coord hab hL x hx0 hx1
    have hpos : 0 ≤ (x - a) * (1 / ((b - a) / ((L : K) - 1))) + 1 / 2 := by positivity
    simp only [toIndex, validValue, hx0, hx1, decide_true, Bool.and_self, if_true, Option.map_some]
    rw [trunc_nonneg hpos]
  refine ⟨_, mk'_eq hab hL, rfl, ?_, ?_, ?_, ?_⟩
  · intro i h0 h1; exact toValue_eq hab hL (mk'_eq hab hL) i h0 h1
  · intro i hi
    have : validIndex (⟨L, a, b, (b - a) / ((L : K) - 1), some (1 / ((b - a) / ((L : K) - 1)))⟩ : Mesh K) i = false := by
      simp only [validIndex, Bool.and_eq_false_iff, decide_eq_false_iff_not]; omega
    unfold toValue; rw [this]; rfl
  · intro x hx0 hx1
    obtain ⟨c0, c1, cx⟩ := coord hab hL x hx0 hx1
    refine ⟨_, key x hx0 hx1, ?_, ?_, ?_⟩
    · exact Int.floor_nonneg.mpr (by positivity)
    · rw [Int.floor_lt]; linarith
    · generalize hq : (x - a) * (1 / ((b - a) / ((L : K) - 1))) = q at *
      have f1 := Int.floor_le (q + 1 / 2)
      have f2 := Int.lt_floor_add_one (q + 1 / 2)
      generalize ⌊q + 1 / 2⌋ = n at *
      have hd : x - point a b L n = (q - n) * ((b - a) / ((L : K) - 1)) := by
        rw [cx, point]; ring
      have hn : |q - n| ≤ 1 / 2 := by rw [abs_le]; constructor <;> linarith
      rw [hd, abs_mul, abs_of_pos hs]
      nlinarith
  · intro i h0 h1
    have hi0 : (0 : K) ≤ i := by exact_mod_cast h0
    have hi1 : (i : K) ≤ L - 1 := by
      have : i ≤ L - 1 := by omega
      exact_mod_cast this
    have p0 : a ≤ point a b L i := by unfold point; nlinarith
    have p1 : point a b L i ≤ b := by
      unfold point
      have : (i : K) * ((b - a) / (L - 1)) ≤ (L - 1) * ((b - a) / (L - 1)) := mul_le_mul_of_nonneg_right hi1 hs.le
      rw [mul_div_cancel₀ _ (by linarith : (L : K) - 1 ≠ 0)] at this
      linarith
    rw [key _ p0 p1]
    have : (point a b L i - a) * (1 / ((b - a) / ((L : K) - 1))) = i := by
      unfold point; rw [add_sub_cancel_left, mul_one_div, mul_div_assoc, div_self hs.ne', mul_one]
    rw [this]
    congr 1
    rw [Int.floor_eq_iff]
    constructor <;> linarith

example : ∃ m, mk' (1 : ℚ) 3 5 = some m ∧ toIndex m (9 / 5) = some 2 ∧ toValue m 2 = some 2 := ⟨_, rfl, by decide +kernel, by decide +kernel⟩

theorem bracket_spec (hab : a < b) (hL : 2 ≤ L) {m : Mesh K} (hm : mk' a b L = some m) (x : K) (hx0 : a ≤ x) (hx1 : x ≤ b) :
    ∃ i w, bracket m x = some (i, w) ∧ 0 ≤ i ∧ i + 1 < L ∧ 0 ≤ w ∧ w ≤ 1 ∧
      x = (1 - w) * point a b L i + w * point a b L (i + 1) := by
  rw [mk'_eq hab hL] at hm
  cases hm
  obtain ⟨c0, c1, cx⟩ := coord hab hL x hx0 hx1
  have hL' : (1 : Int) < L := by omega
  have hb : bracket (⟨L, a, b, (b - a) / ((L : K) - 1), some (1 / ((b - a) / ((L : K) - 1)))⟩ : Mesh K) x
      = some (min ⌊(x - a) * (1 / ((b - a) / ((L : K) - 1)))⌋ (L - 2),
          min ((x - a) * (1 / ((b - a) / ((L : K) - 1))) - (min ⌊(x - a) * (1 / ((b - a) / ((L : K) - 1)))⌋ (L - 2) : Int)) 1) := by
    simp only [bracket, validValue, hx0, hx1, hL', decide_true, Bool.and_self, if_true, Option.map_some, max_eq_left hx0]
    rw [trunc_nonneg c0]
  generalize hq : (x - a) * (1 / ((b - a) / ((L : K) - 1))) = q at *
  have f1 := Int.floor_le q
  have f2 := Int.lt_floor_add_one q
  have f0 := Int.floor_nonneg.mpr c0
  have hw : 0 ≤ q - (min ⌊q⌋ (L - 2) : Int) ∧ q - (min ⌊q⌋ (L - 2) : Int) ≤ 1 := by
    rcases le_total ⌊q⌋ (L - 2) with h | h
    · rw [min_eq_left h]; constructor <;> linarith
    · rw [min_eq_right h]
      have : ((L - 2 : Int) : K) ≤ ⌊q⌋ := by exact_mod_cast h
      push_cast at this ⊢
      constructor <;> linarith
  refine ⟨_, _, hb, ?_, ?_, ?_, min_le_right _ _, ?_⟩
  · exact le_min f0 (by omega)
  · have := min_le_right ⌊q⌋ (L - 2); omega
  · exact le_min hw.1 zero_le_one
  · rw [min_eq_left hw.2, cx]
    unfold point
    push_cast
    ring

/-- **C42, interpolation.** Inside the interval, interpolation is a convex combination of the data at
two neighbouring valid indices, is exact for affine data, and returns the stored data on mesh points. -/
theorem C42_interpolation (hab : a < b) (hL : 2 ≤ L) (f : Int → V) :
    ∃ m, mk' a b L = some m ∧
      (∀ x, a ≤ x → x ≤ b → ∃ i w, 0 ≤ i ∧ i + 1 < L ∧ 0 ≤ w ∧ w ≤ 1 ∧
        x = (1 - w) * point a b L i + w * point a b L (i + 1) ∧
        evaluate m f x = some ((1 - w) • f i + w • f (i + 1))) ∧
      (∀ (p q : V), (∀ i, 0 ≤ i → i < L → f i = p + point a b L i • q) →
        ∀ x, a ≤ x → x ≤ b → evaluate m f x = some (p + x • q)) ∧
      (∀ i, 0 ≤ i → i < L → evaluate m f (point a b L i) = some (f i)) := by
  have hs := step_pos hab hL
  have h2 : (2 : K) ≤ L := by exact_mod_cast hL
  have hm := mk'_eq hab hL
  refine ⟨_, hm, ?_, ?_, ?_⟩
  · intro x hx0 hx1
    obtain ⟨i, w, hb, i0, i1, w0, w1, hx⟩ := bracket_spec hab hL hm x hx0 hx1
    exact ⟨i, w, i0, i1, w0, w1, hx, by simp only [evaluate, hb, Option.map_some]⟩
  · intro p q hf x hx0 hx1
    obtain ⟨i, w, hb, i0, i1, w0, w1, hx⟩ := bracket_spec hab hL hm x hx0 hx1
    simp only [evaluate, hb, Option.map_some]
    rw [hf i i0 (by omega), hf (i + 1) (by omega) i1]
    congr 1
    conv_rhs => rw [hx]
    module
  · intro i h0 h1
    have hi0 : (0 : K) ≤ i := by exact_mod_cast h0
    have hi1 : (i : K) ≤ L - 1 := by
      have : i ≤ L - 1 := by omega
      exact_mod_cast this
    have p0 : a ≤ point a b L i := by unfold point; nlinarith
    have p1 : point a b L i ≤ b := by
      unfold point
      have : (i : K) * ((b - a) / (L - 1)) ≤ (L - 1) * ((b - a) / (L - 1)) := mul_le_mul_of_nonneg_right hi1 hs.le
      rw [mul_div_cancel₀ _ (by linarith : (L : K) - 1 ≠ 0)] at this
      linarith
    obtain ⟨j, w, hb, j0, j1, w0, w1, hx⟩ := bracket_spec hab hL hm _ p0 p1
    simp only [evaluate, hb, Option.map_some]
    have he : (i : K) = j + w := by
      unfold point at hx
      have : ((i : K) - (j + w)) * ((b - a) / (L - 1)) = 0 := by push_cast at hx; linarith
      rcases mul_eq_zero.mp this with h | h
      · linarith
      · exact absurd h hs.ne'
    have hij : i = j ∨ i = j + 1 := by
      have l1 : (j : K) ≤ i := by linarith
      have l2 : (i : K) ≤ (j + 1 : Int) := by push_cast; linarith
      have l1' : j ≤ i := by exact_mod_cast l1
      have l2' : i ≤ j + 1 := by exact_mod_cast l2
      omega
    rcases hij with h | h
    · have : w = 0 := by rw [h] at he; linarith
      simp [this, h]
    · have : w = 1 := by rw [h] at he; push_cast at he; linarith
      simp [this, h]

example : ∃ m, mk' (1 : ℚ) 3 5 = some m ∧ evaluate m (fun i => (i * i : ℚ)) (9 / 5) = some (14 / 5) ∧
    evaluate m (fun i => (i * i : ℚ)) 3 = some 16 := ⟨_, rfl, by decide +kernel, by decide +kernel⟩

/-- the archive determines the mesh -/
theorem C42_archive (n : Int) (m : Mesh K) (h : mk' a b n = some m) : read (write m) = some m := by
  have h' := h
  unfold mk' at h
  simp only at h
  split at h
  · simp only [Option.some.injEq] at h
    have : write m = (a, b, n) := by rw [← h]; rfl
    rw [read, this, h']
  · cases h

/-- The nearest point is undefined on a mesh with a single point (or with `a = b`). -/
theorem C42_single_point_undefined (n : Int) (x : K) (m : Mesh K) (h : mk' a b n = some m) (hn : n = 1 ∨ a = b) :
    toIndex m x = none := by
  unfold mk' at h
  simp only at h
  split at h
  · simp only [Option.some.injEq] at h
    subst h
    rcases hn with hn | hn <;> simp [toIndex, hn]
  · cases h

end Verif.Linear
