import Verif.Float.ClosestPoint

/-!
# Interpolation in the Brillouin zone in double precision

`evaluate` of `/repo/c++/triqs/mesh/brzone.hpp` with the rounding of the machine; in exact arithmetic this is C47.

* C196: the computed value is the interpolation at the computed coordinates up to a few roundings; the interpolation is
  continuous across the faces of cells and of the zone, so a mesh point and its translations by reciprocal lattice vectors
  give the value of the data up to rounding.

Simplifications: real and imaginary part of one element of the target at a time; no overflow and no NaN; the product of
the inverse and the momentum is any function with the properties `Accurate` of C195; coordinates are below 2^53, so that the
conversion of the floor is exact.
-/

namespace Verif.InterpolationDouble
open Verif.Binary64 Verif.ClosestDouble
open Verif.Lattice (Idx indexModulo InRange positiveModulo positiveModulo_eq)

/-! ## Model -/

/-- `evaluate(brzone1d, f, vi)`, brzone.hpp:355-359 -/
def eval1 (dim : ℤ) (f : ℤ → ℚ) (vi : ℚ) : ℚ :=
  let i := ⌊vi⌋
  let w := rnd (vi - (i : ℚ))
  rnd (rnd (rnd (1 - w) * f (positiveModulo i dim)) + rnd (w * f (if dim = 1 then 0 else positiveModulo (i + 1) dim)))

/-- `evaluate` on three one-dimensional meshes, evaluate.hpp:97-110: the first variable is innermost -/
def eval3 (dims : Idx) (g : ℤ → ℤ → ℤ → ℚ) (x : Vec) : ℚ :=
  eval1 (dims 2) (fun c => eval1 (dims 1) (fun b => eval1 (dims 0) (fun a => g a b c) (x 0)) (x 1)) (x 2)

/-- `evaluate(m, f, v)`, brzone.hpp:361-373 -/
def evaluate (mv : Mat → Vec → Vec) (M : Mesh) (f : Idx → ℚ) (k : Vec) : ℚ :=
  eval3 M.dims (fun a b c => f ![a, b, c]) (mv M.inv k)

/-! ## Specification -/

/-- linear interpolation of a function of the integers -/
def linear (f : ℤ → ℚ) (x : ℚ) : ℚ := (1 - (x - (⌊x⌋ : ℚ))) * f ⌊x⌋ + (x - (⌊x⌋ : ℚ)) * f (⌊x⌋ + 1)

/-- trilinear interpolation of the data continued periodically -/
def trilinear (dims : Idx) (f : Idx → ℚ) (x : Vec) : ℚ :=
  linear (fun c => linear (fun b => linear (fun a => f (indexModulo dims ![a, b, c])) (x 0)) (x 1)) (x 2)

/-! ## Proofs -/

theorem frac_bounds (x : ℚ) : 0 ≤ x - (⌊x⌋ : ℚ) ∧ x - (⌊x⌋ : ℚ) < 1 := floor_frac x

theorem rnd_unit {x : ℚ} (h0 : 0 ≤ x) (h1 : x ≤ 1) : 0 ≤ rnd x ∧ rnd x ≤ 1 := ⟨rnd_nonneg h0, rnd_le rep_one h1⟩

/-- one direction: the computed values at the two ends have the error `E` -/
theorem eval1_err {dim : ℤ} (hd : 1 ≤ dim) {f g : ℤ → ℚ} {B E : ℚ} (hB : ∀ n, |g n| ≤ B) (hE : ∀ n, |f n - g n| ≤ E) (x : ℚ) :
    |eval1 dim f x - linear (fun n => g (n % dim)) x| ≤ E + 6 / 9007199254740992 * (B + E) + 4 * 2 ^ (-1074 : ℤ) := by
  have e0 : eval1 dim f x = rnd (rnd (rnd (1 - rnd (x - (⌊x⌋ : ℚ))) * f (⌊x⌋ % dim)) + rnd (rnd (x - (⌊x⌋ : ℚ)) * f ((⌊x⌋ + 1) % dim))) := by
    unfold eval1
    simp only [positiveModulo_eq _ _ hd]
    have : (if dim = 1 then 0 else (⌊x⌋ + 1) % dim) = (⌊x⌋ + 1) % dim := by
      split
      · next h => rw [h]; simp
      · rfl
    rw [this]
  rw [e0]
  unfold linear
  beta_reduce
  obtain ⟨h0, h1⟩ := frac_bounds x
  have hw := rnd_unit h0 h1.le
  have ew := rnd_err_abs (x - (⌊x⌋ : ℚ))
  rw [abs_of_nonneg h0] at ew
  generalize x - (⌊x⌋ : ℚ) = w0 at *
  generalize rnd w0 = w at *
  have hv := rnd_unit (x := 1 - w) (by linarith) (by linarith)
  have ev := rnd_err_abs (1 - w)
  rw [abs_of_nonneg (by linarith : 0 ≤ 1 - w)] at ev
  generalize rnd (1 - w) = v at *
  have a0 := hE (⌊x⌋ % dim)
  have a1 := hE ((⌊x⌋ + 1) % dim)
  have b0 := hB (⌊x⌋ % dim)
  have b1 := hB ((⌊x⌋ + 1) % dim)
  generalize f (⌊x⌋ % dim) = f0 at *
  generalize f ((⌊x⌋ + 1) % dim) = f1 at *
  generalize g (⌊x⌋ % dim) = g0 at *
  generalize g ((⌊x⌋ + 1) % dim) = g1 at *
  have hE0 : 0 ≤ E := le_trans (abs_nonneg _) a0
  have hB0 : 0 ≤ B := le_trans (abs_nonneg _) b0
  have hf0 : |f0| ≤ B + E := by
    have := abs_add_le (f0 - g0) g0
    rw [sub_add_cancel] at this
    linarith
  have hf1 : |f1| ≤ B + E := by
    have := abs_add_le (f1 - g1) g1
    rw [sub_add_cancel] at this
    linarith
  have t0 := tiny_pos
  have t1 : (2 : ℚ) ^ (-1074 : ℤ) ≤ 1 / 90071992547409920 := by
    have := two_zpow_le (a := -1074) (b := -60) (by norm_num)
    have e : (2 : ℚ) ^ (-60 : ℤ) ≤ 1 / 90071992547409920 := by norm_num
    exact le_trans this e
  have ep := rnd_err_abs (v * f0)
  have eq := rnd_err_abs (w * f1)
  have er := rnd_err_abs (rnd (v * f0) + rnd (w * f1))
  rw [abs_mul, abs_of_nonneg hv.1] at ep
  rw [abs_mul, abs_of_nonneg hw.1] at eq
  have sp : |rnd (v * f0)| ≤ |rnd (v * f0) - v * f0| + v * |f0| := by
    have := abs_add_le (rnd (v * f0) - v * f0) (v * f0)
    rw [sub_add_cancel, abs_mul v f0, abs_of_nonneg hv.1] at this
    exact this
  have sq : |rnd (w * f1)| ≤ |rnd (w * f1) - w * f1| + w * |f1| := by
    have := abs_add_le (rnd (w * f1) - w * f1) (w * f1)
    rw [sub_add_cancel, abs_mul w f1, abs_of_nonneg hw.1] at this
    exact this
  have sr := abs_add_le (rnd (v * f0)) (rnd (w * f1))
  have mv : v * |f0| ≤ v * (B + E) := mul_le_mul_of_nonneg_left hf0 hv.1
  have mw : w * |f1| ≤ w * (B + E) := mul_le_mul_of_nonneg_left hf1 hw.1
  -- the combination of the ends
  have c1 : |(v - (1 - w)) * f0| ≤ ((1 - w) * (1 / 9007199254740992) + 2 ^ (-1074 : ℤ)) * (B + E) := by
    rw [abs_mul]
    exact mul_le_mul ev hf0 (abs_nonneg _) (le_trans (abs_nonneg _) ev)
  have c2 : |(w - w0) * (f1 - f0)| ≤ (w0 * (1 / 9007199254740992) + 2 ^ (-1074 : ℤ)) * (2 * (B + E)) := by
    rw [abs_mul]
    have : |f1 - f0| ≤ 2 * (B + E) := by
      have := abs_sub f1 f0
      linarith
    exact mul_le_mul ew this (abs_nonneg _) (le_trans (abs_nonneg _) ew)
  have c3 : |(1 - w0) * (f0 - g0)| ≤ (1 - w0) * E := by
    rw [abs_mul, abs_of_nonneg (by linarith : 0 ≤ 1 - w0)]
    exact mul_le_mul_of_nonneg_left a0 (by linarith)
  have c4 : |w0 * (f1 - g1)| ≤ w0 * E := by
    rw [abs_mul, abs_of_nonneg h0]
    exact mul_le_mul_of_nonneg_left a1 h0
  have split : rnd (rnd (v * f0) + rnd (w * f1)) - ((1 - w0) * g0 + w0 * g1) =
      (rnd (rnd (v * f0) + rnd (w * f1)) - (rnd (v * f0) + rnd (w * f1))) + (rnd (v * f0) - v * f0) + (rnd (w * f1) - w * f1) +
      (v - (1 - w)) * f0 + (w - w0) * (f1 - f0) + (1 - w0) * (f0 - g0) + w0 * (f1 - g1) := by ring
  rw [split]
  generalize rnd (rnd (v * f0) + rnd (w * f1)) - (rnd (v * f0) + rnd (w * f1)) = d1 at *
  generalize rnd (v * f0) - v * f0 = d2 at *
  generalize rnd (w * f1) - w * f1 = d3 at *
  generalize (v - (1 - w)) * f0 = d4 at *
  generalize (w - w0) * (f1 - f0) = d5 at *
  generalize (1 - w0) * (f0 - g0) = d6 at *
  generalize w0 * (f1 - g1) = d7 at *
  generalize |rnd (v * f0) + rnd (w * f1)| = S at *
  generalize |rnd (v * f0)| = P at *
  generalize |rnd (w * f1)| = Q at *
  have vw : v + w ≤ 1 + 2 / 9007199254740992 := by
    have := (abs_le.1 ev).2
    generalize (2 : ℚ) ^ (-1074 : ℤ) = t at *
    linarith
  have hA : 0 ≤ B + E := by linarith
  have vwA := mul_le_mul_of_nonneg_right vw hA
  have total : |d1 + d2 + d3 + d4 + d5 + d6 + d7| ≤ |d1| + |d2| + |d3| + |d4| + |d5| + |d6| + |d7| := by
    have q1 := abs_add_le (d1 + d2 + d3 + d4 + d5 + d6) d7
    have q2 := abs_add_le (d1 + d2 + d3 + d4 + d5) d6
    have q3 := abs_add_le (d1 + d2 + d3 + d4) d5
    have q4 := abs_add_le (d1 + d2 + d3) d4
    have q5 := abs_add_le (d1 + d2) d3
    have q6 := abs_add_le d1 d2
    linarith
  refine le_trans total ?_
  have tA : 2 ^ (-1074 : ℤ) * (B + E) ≤ 1 / 90071992547409920 * (B + E) := mul_le_mul_of_nonneg_right t1 hA
  have wA : (1 - w) * (B + E) ≤ B + E := by nlinarith [hw.1]
  have w0A : w0 * (B + E) ≤ B + E := by nlinarith
  generalize (2 : ℚ) ^ (-1074 : ℤ) = t at *
  generalize B + E = A at *
  generalize |d1| = y1 at *
  generalize |d2| = y2 at *
  generalize |d3| = y3 at *
  generalize |d4| = y4 at *
  generalize |d5| = y5 at *
  generalize |d6| = y6 at *
  generalize |d7| = y7 at *
  generalize v * |f0| = p1 at *
  generalize w * |f1| = p2 at *
  have r1 : p1 + p2 ≤ A * (1 + 2 / 9007199254740992) := by linarith
  have r2 : S ≤ (p1 + p2) * (1 + 1 / 9007199254740992) + 2 * t := by linarith
  have r45 : y4 + y5 ≤ 3 / 9007199254740992 * A + 3 * (t * A) := by linarith
  have r67 : y6 + y7 ≤ E := by linarith
  have r23 : y2 + y3 ≤ (p1 + p2) * (1 / 9007199254740992) + 2 * t := by linarith
  have r1' : y1 ≤ S * (1 / 9007199254740992) + t := by linarith
  linarith

/-- one direction of the interpolation does not increase differences of the data -/
theorem linear_diff {f g : ℤ → ℚ} {E : ℚ} (h : ∀ n, |f n - g n| ≤ E) (x : ℚ) : |linear f x - linear g x| ≤ E := by
  unfold linear
  obtain ⟨h0, h1⟩ := frac_bounds x
  generalize x - (⌊x⌋ : ℚ) = w at *
  have a := abs_le.1 (h ⌊x⌋)
  have b := abs_le.1 (h (⌊x⌋ + 1))
  generalize f ⌊x⌋ = f0 at *
  generalize g ⌊x⌋ = g0 at *
  generalize f (⌊x⌋ + 1) = f1 at *
  generalize g (⌊x⌋ + 1) = g1 at *
  rw [abs_le]
  constructor <;> nlinarith

theorem linear_bound {f : ℤ → ℚ} {B : ℚ} (h : ∀ n, |f n| ≤ B) (x : ℚ) : |linear f x| ≤ B := by
  have := linear_diff (g := fun _ => 0) (E := B) (f := f) (fun n => by simpa using h n) x
  simpa [linear] using this

theorem linear_int (f : ℤ → ℚ) (n : ℤ) : linear f n = f n := by
  unfold linear
  simp

theorem lip_le {f : ℤ → ℚ} {B : ℚ} (h : ∀ n, |f n| ≤ B) {x y : ℚ} (hxy : x ≤ y) : |linear f y - linear f x| ≤ 2 * B * (y - x) := by
  have hB : 0 ≤ B := le_trans (abs_nonneg _) (h 0)
  have d : ∀ m n, |f m - f n| ≤ 2 * B := by
    intro m n
    have := abs_sub (f m) (f n)
    have := h m
    have := h n
    linarith
  obtain ⟨x0, x1⟩ := frac_bounds x
  obtain ⟨y0, y1⟩ := frac_bounds y
  have hm : ⌊x⌋ ≤ ⌊y⌋ := Int.floor_le_floor hxy
  rcases hm.eq_or_lt with he | hl
  · have e : linear f y - linear f x = (y - x) * (f (⌊y⌋ + 1) - f ⌊y⌋) := by
      unfold linear
      rw [he]
      ring
    rw [e, abs_mul, abs_of_nonneg (by linarith)]
    have := d (⌊y⌋ + 1) ⌊y⌋
    nlinarith
  · have e : linear f y - linear f x = (y - (⌊y⌋ : ℚ)) * (f (⌊y⌋ + 1) - f ⌊y⌋) + (f ⌊y⌋ - f (⌊x⌋ + 1)) + (1 - (x - (⌊x⌋ : ℚ))) * (f (⌊x⌋ + 1) - f ⌊x⌋) := by
      unfold linear
      ring
    have d1 := d (⌊y⌋ + 1) ⌊y⌋
    have d3 := d (⌊x⌋ + 1) ⌊x⌋
    have d2 : |f ⌊y⌋ - f (⌊x⌋ + 1)| ≤ 2 * B * ((⌊y⌋ : ℚ) - ((⌊x⌋ : ℚ) + 1)) := by
      rcases (show ⌊x⌋ + 1 ≤ ⌊y⌋ by omega).eq_or_lt with h' | h'
      · rw [← h']
        push_cast
        simp
      · have h2 : ((⌊x⌋ : ℚ) + 1) + 1 ≤ (⌊y⌋ : ℚ) := by exact_mod_cast h'
        have := d ⌊y⌋ (⌊x⌋ + 1)
        nlinarith
    have p1 : |(y - (⌊y⌋ : ℚ)) * (f (⌊y⌋ + 1) - f ⌊y⌋)| ≤ (y - (⌊y⌋ : ℚ)) * (2 * B) := by
      rw [abs_mul, abs_of_nonneg y0]
      exact mul_le_mul_of_nonneg_left d1 y0
    have p3 : |(1 - (x - (⌊x⌋ : ℚ))) * (f (⌊x⌋ + 1) - f ⌊x⌋)| ≤ (1 - (x - (⌊x⌋ : ℚ))) * (2 * B) := by
      rw [abs_mul, abs_of_nonneg (by linarith : 0 ≤ 1 - (x - (⌊x⌋ : ℚ)))]
      exact mul_le_mul_of_nonneg_left d3 (by linarith)
    rw [e]
    have q1 := abs_add_le ((y - (⌊y⌋ : ℚ)) * (f (⌊y⌋ + 1) - f ⌊y⌋) + (f ⌊y⌋ - f (⌊x⌋ + 1))) ((1 - (x - (⌊x⌋ : ℚ))) * (f (⌊x⌋ + 1) - f ⌊x⌋))
    have q2 := abs_add_le ((y - (⌊y⌋ : ℚ)) * (f (⌊y⌋ + 1) - f ⌊y⌋)) (f ⌊y⌋ - f (⌊x⌋ + 1))
    have fin : (y - (⌊y⌋ : ℚ)) * (2 * B) + 2 * B * ((⌊y⌋ : ℚ) - ((⌊x⌋ : ℚ) + 1)) + (1 - (x - (⌊x⌋ : ℚ))) * (2 * B) = 2 * B * (y - x) := by ring
    linarith

theorem linear_lip {f : ℤ → ℚ} {B : ℚ} (h : ∀ n, |f n| ≤ B) (x y : ℚ) : |linear f y - linear f x| ≤ 2 * B * |y - x| := by
  rcases le_total x y with hxy | hxy
  · rw [abs_of_nonneg (by linarith : 0 ≤ y - x)]
    exact lip_le h hxy
  · rw [abs_sub_comm, abs_of_nonpos (by linarith : y - x ≤ 0), neg_sub]
    exact lip_le h hxy

theorem linear_add_period {f : ℤ → ℚ} {d : ℤ} (h : ∀ n, f (n + d) = f n) (x : ℚ) : linear f (x + d) = linear f x := by
  unfold linear
  rw [Int.floor_add_intCast, h, show ⌊x⌋ + d + 1 = ⌊x⌋ + 1 + d by ring, h]
  push_cast
  ring

/-- **C196, continuity.** The interpolation changes by at most twice the largest datum times the sum of the changes of the coordinates, also across faces of cells and of
the zone. -/
theorem C196_continuous (dims : Idx) (f : Idx → ℚ) {B : ℚ} (hB : ∀ i, |f i| ≤ B) (x y : Vec) :
    |trilinear dims f y - trilinear dims f x| ≤ 2 * B * (|y 0 - x 0| + |y 1 - x 1| + |y 2 - x 2|) := by
  unfold trilinear
  have b0 : ∀ (z : ℚ) (b c : ℤ), |linear (fun a => f (indexModulo dims ![a, b, c])) z| ≤ B := fun z b c => linear_bound (fun _ => hB _) z
  have b1 : ∀ (z z' : ℚ) (c : ℤ), |linear (fun b => linear (fun a => f (indexModulo dims ![a, b, c])) z) z'| ≤ B := fun z z' c => linear_bound (fun _ => b0 _ _ _) z'
  have l2 := linear_lip (f := fun c => linear (fun b => linear (fun a => f (indexModulo dims ![a, b, c])) (y 0)) (y 1)) (fun c => b1 _ _ c) (x 2) (y 2)
  have l1 : |linear (fun c => linear (fun b => linear (fun a => f (indexModulo dims ![a, b, c])) (y 0)) (y 1)) (x 2) -
      linear (fun c => linear (fun b => linear (fun a => f (indexModulo dims ![a, b, c])) (y 0)) (x 1)) (x 2)| ≤ 2 * B * |y 1 - x 1| :=
    linear_diff (fun c => linear_lip (fun b => b0 _ b c) (x 1) (y 1)) (x 2)
  have l0 : |linear (fun c => linear (fun b => linear (fun a => f (indexModulo dims ![a, b, c])) (y 0)) (x 1)) (x 2) -
      linear (fun c => linear (fun b => linear (fun a => f (indexModulo dims ![a, b, c])) (x 0)) (x 1)) (x 2)| ≤ 2 * B * |y 0 - x 0| :=
    linear_diff (fun c => linear_diff (fun b => linear_lip (fun _ => hB _) (x 0) (y 0)) (x 1)) (x 2)
  rw [abs_le] at *
  constructor <;> linarith [l0.1, l0.2, l1.1, l1.2, l2.1, l2.2]

/-- **C196, periodicity** of the interpolation and its values at integers. -/
theorem C196_periodic (dims : Idx) (hd : ∀ i, 1 ≤ dims i) (f : Idx → ℚ) (x : Vec) (g m : Idx) :
    trilinear dims f (fun i => x i + ((dims i * g i : ℤ) : ℚ)) = trilinear dims f x ∧ trilinear dims f (fun i => (m i : ℚ)) = f (indexModulo dims m) := by
  have per : ∀ i (a b : Idx), (∀ j, j ≠ i → a j = b j) → a i % dims i = b i % dims i → indexModulo dims a = indexModulo dims b := by
    intro i a b h h'
    funext j
    rw [Verif.Lattice.indexModulo_apply dims a hd, Verif.Lattice.indexModulo_apply dims b hd]
    by_cases hj : j = i
    · rw [hj, h']
    · rw [h j hj]
  constructor
  · unfold trilinear
    have p0 : ∀ b c n : ℤ, f (indexModulo dims ![n + dims 0 * g 0, b, c]) = f (indexModulo dims ![n, b, c]) := by
      intro b c n
      rw [per 0 ![n + dims 0 * g 0, b, c] ![n, b, c] (by intro j hj; fin_cases j; exact absurd rfl hj; rfl; rfl) (Int.add_mul_emod_self_left n (dims 0) (g 0))]
    have p1 : ∀ a c n : ℤ, f (indexModulo dims ![a, n + dims 1 * g 1, c]) = f (indexModulo dims ![a, n, c]) := by
      intro a c n
      rw [per 1 ![a, n + dims 1 * g 1, c] ![a, n, c] (by intro j hj; fin_cases j; rfl; exact absurd rfl hj; rfl) (Int.add_mul_emod_self_left n (dims 1) (g 1))]
    have p2 : ∀ a b n : ℤ, f (indexModulo dims ![a, b, n + dims 2 * g 2]) = f (indexModulo dims ![a, b, n]) := by
      intro a b n
      rw [per 2 ![a, b, n + dims 2 * g 2] ![a, b, n] (by intro j hj; fin_cases j; rfl; rfl; exact absurd rfl hj) (Int.add_mul_emod_self_left n (dims 2) (g 2))]
    have s0 : ∀ b c : ℤ, linear (fun a => f (indexModulo dims ![a, b, c])) (x 0 + ((dims 0 * g 0 : ℤ) : ℚ)) = linear (fun a => f (indexModulo dims ![a, b, c])) (x 0) :=
      fun b c => linear_add_period (fun n => p0 b c n) (x 0)
    simp only [s0]
    have s1 : ∀ c : ℤ, linear (fun b => linear (fun a => f (indexModulo dims ![a, b, c])) (x 0)) (x 1 + ((dims 1 * g 1 : ℤ) : ℚ)) =
        linear (fun b => linear (fun a => f (indexModulo dims ![a, b, c])) (x 0)) (x 1) :=
      fun c => linear_add_period (fun n => by simp only [p1]) (x 1)
    simp only [s1]
    exact linear_add_period (fun n => by simp only [p2]) (x 2)
  · unfold trilinear
    simp only [linear_int]
    congr 2
    funext i
    fin_cases i <;> rfl

/-- **C196, rounding.** The computed value is the interpolation at the computed coordinates up to twenty roundings of the largest datum. -/
theorem C196_rounding (mv : Mat → Vec → Vec) (M : Mesh) (hd : ∀ i, 1 ≤ M.dims i) (f : Idx → ℚ) {B : ℚ} (hB : ∀ i, |f i| ≤ B) (k : Vec) :
    |evaluate mv M f k - trilinear M.dims f (mv M.inv k)| ≤ 20 / 9007199254740992 * B + 16 * 2 ^ (-1074 : ℤ) := by
  unfold evaluate eval3 trilinear
  set x := mv M.inv k
  have hB0 : 0 ≤ B := le_trans (abs_nonneg _) (hB 0)
  have t0 := tiny_pos
  -- the modulus at the beginning instead of the end
  have hmod : ∀ a b c : ℤ, indexModulo M.dims ![a, b, c] = ![a % M.dims 0, b % M.dims 1, c % M.dims 2] := by
    intro a b c
    funext i
    rw [Verif.Lattice.indexModulo_apply M.dims _ hd]
    fin_cases i <;> rfl
  simp only [hmod]
  have e0 : ∀ b c : ℤ, |eval1 (M.dims 0) (fun a => f ![a, b, c]) (x 0) - linear (fun a => f ![a % M.dims 0, b, c]) (x 0)| ≤
      6 / 9007199254740992 * B + 4 * 2 ^ (-1074 : ℤ) := by
    intro b c
    have := eval1_err (hd 0) (f := fun a => f ![a, b, c]) (g := fun a => f ![a, b, c]) (B := B) (E := 0) (fun _ => hB _) (fun n => by simp) (x 0)
    simpa using this
  have e1 : ∀ c : ℤ, |eval1 (M.dims 1) (fun b => eval1 (M.dims 0) (fun a => f ![a, b, c]) (x 0)) (x 1) -
      linear (fun b => linear (fun a => f ![a % M.dims 0, b % M.dims 1, c]) (x 0)) (x 1)| ≤ 13 / 9007199254740992 * B + 9 * 2 ^ (-1074 : ℤ) := by
    intro c
    refine le_trans (eval1_err (hd 1) (g := fun b => linear (fun a => f ![a % M.dims 0, b, c]) (x 0)) (B := B)
      (E := 6 / 9007199254740992 * B + 4 * 2 ^ (-1074 : ℤ)) (fun n => linear_bound (fun _ => hB _) _) (fun b => e0 b c) (x 1)) ?_
    generalize (2 : ℚ) ^ (-1074 : ℤ) = t at *
    linarith
  refine le_trans (eval1_err (hd 2) (g := fun c => linear (fun b => linear (fun a => f ![a % M.dims 0, b % M.dims 1, c]) (x 0)) (x 1)) (B := B)
    (E := 13 / 9007199254740992 * B + 9 * 2 ^ (-1074 : ℤ)) (fun n => linear_bound (fun _ => linear_bound (fun _ => hB _) _) _) (fun c => e1 c) (x 2)) ?_
  generalize (2 : ℚ) ^ (-1074 : ℤ) = t at *
  linarith

/-- **C196, mesh points.** At the value of a mesh point, or at any momentum whose coordinates are within `ε` of integers, the result is the datum of this point in the first zone
up to `6 ε` and twenty roundings of the largest datum. -/
theorem C196_near (mv : Mat → Vec → Vec) (M : Mesh) (hd : ∀ i, 1 ≤ M.dims i) (f : Idx → ℚ) {B ε : ℚ} (hB : ∀ i, |f i| ≤ B) (k : Vec) (m : Idx)
    (hk : ∀ i, |mv M.inv k i - (m i : ℚ)| ≤ ε) :
    |evaluate mv M f k - f (indexModulo M.dims m)| ≤ (6 * ε + 20 / 9007199254740992) * B + 16 * 2 ^ (-1074 : ℤ) := by
  have hB0 : 0 ≤ B := le_trans (abs_nonneg _) (hB 0)
  have h1 := C196_rounding mv M hd f hB k
  have h2 := C196_continuous M.dims f hB (fun i => (m i : ℚ)) (mv M.inv k)
  rw [(C196_periodic M.dims hd f (fun _ => 0) 0 m).2] at h2
  have h3 : 2 * B * (|mv M.inv k 0 - (m 0 : ℚ)| + |mv M.inv k 1 - (m 1 : ℚ)| + |mv M.inv k 2 - (m 2 : ℚ)|) ≤ 2 * B * (3 * ε) :=
    mul_le_mul_of_nonneg_left (by linarith [hk 0, hk 1, hk 2]) (by linarith)
  have h4 := abs_add_le (evaluate mv M f k - trilinear M.dims f (mv M.inv k)) (trilinear M.dims f (mv M.inv k) - f (indexModulo M.dims m))
  rw [sub_add_sub_cancel] at h4
  linarith

theorem C196_own {mv : Mat → Vec → Vec} (hm : Accurate mv) (M : Mesh) (hd : ∀ i, 1 ≤ M.dims i) (f : Idx → ℚ) {B ε : ℚ} (hB : ∀ i, |f i| ≤ B) (m : Idx) (hr : InRange M.dims m)
    (hs : ∀ i, slack M m i ≤ ε) : |evaluate mv M f (toValue mv M m) - f m| ≤ (6 * ε + 20 / 9007199254740992) * B + 16 * 2 ^ (-1074 : ℤ) := by
  have := C196_near mv M hd f hB (toValue mv M m) m fun i => le_trans (C195_coordinates hm M m i) (hs i)
  rwa [Verif.Lattice.indexModulo_unique M.dims m m hd hr fun _ => rfl] at this

/-- **C196, translations.** Two momenta whose coordinates differ by periods up to `ε` have the same value up to `6 ε` and forty roundings of the largest datum. -/
theorem C196_translation (mv : Mat → Vec → Vec) (M : Mesh) (hd : ∀ i, 1 ≤ M.dims i) (f : Idx → ℚ) {B ε : ℚ} (hB : ∀ i, |f i| ≤ B) (k k' : Vec) (g : Idx)
    (hk : ∀ i, |mv M.inv k' i - (mv M.inv k i + ((M.dims i * g i : ℤ) : ℚ))| ≤ ε) :
    |evaluate mv M f k' - evaluate mv M f k| ≤ (6 * ε + 40 / 9007199254740992) * B + 32 * 2 ^ (-1074 : ℤ) := by
  have hB0 : 0 ≤ B := le_trans (abs_nonneg _) (hB 0)
  have h1 := C196_rounding mv M hd f hB k
  have h1' := C196_rounding mv M hd f hB k'
  have h2 := C196_continuous M.dims f hB (fun i => mv M.inv k i + ((M.dims i * g i : ℤ) : ℚ)) (mv M.inv k')
  rw [(C196_periodic M.dims hd f (mv M.inv k) g 0).1] at h2
  have h3 := mul_le_mul_of_nonneg_left (add_le_add (add_le_add (hk 0) (hk 1)) (hk 2)) (by linarith : 0 ≤ 2 * B)
  rw [abs_le] at h1 h1' h2 ⊢
  generalize (2 : ℚ) ^ (-1074 : ℤ) = t at *
  constructor <;> linarith [h1.1, h1.2, h1'.1, h1'.2, h2.1, h2.2]

/-! ### Examples -/

/-- at the mesh point `(3, 4, 0)`, where `closest_index` finds `(4, 5, 0)`, the interpolation is right, since the neighbour has the weight 2^-53 -/
example : |evaluate mul exBcc (fun i => if i = ![3, 4, 0] then 5 else 1) (toValue mul exBcc ![3, 4, 0]) - 5| ≤ 1 / 1000000000000 := by decide +kernel

/-- half way between two points -/
example : evaluate mul ⟨![4, 2, 1], fun i j => if i = j then 1 else 0, fun i j => if i = j then 1 else 0⟩ (fun i => (i 0 : ℚ) + 10 * (i 1 : ℚ)) ![7 / 2, 0, 0] = 3 / 2 := by
  decide +kernel

/-- the interpolation of a constant need not be this constant -/
theorem C196_constant : ∃ k : Vec, evaluate mul ⟨![4, 1, 1], fun i j => if i = j then 1 else 0, fun i j => if i = j then 1 else 0⟩ (fun _ => rnd (1 / 10)) k ≠ rnd (1 / 10) := by
  refine ⟨![rnd (2 / 10), 0, 0], ?_⟩
  decide +kernel

end Verif.InterpolationDouble
