import Verif.Mesh.Lattice
import Verif.Float.LatticePoints
import Mathlib.Tactic.Linarith
import Mathlib.Algebra.Order.BigOperators.Group.Finset
import Mathlib.Algebra.BigOperators.Field

/-!
# The closest point of a mesh of the Brillouin zone in double precision

`closest_index` and `to_value` of `/repo/c++/triqs/mesh/brzone.hpp` with the rounding of the machine; in exact arithmetic
this is C48.

* C195: the closest point to the value of a mesh point is that mesh point, for every basis that is far enough from
  singular and extents of at least two; with an extent of one it may be another point.

Simplifications: no overflow and no NaN; the product of a matrix and a vector belongs to the array library and is any
function with the properties `Accurate`, the norm any function with the properties `Norm`; coordinates are below 2^52,
so that `n + iv` is exact.
-/

namespace Verif.ClosestDouble
open Verif.Binary64
open Verif.Lattice (Idx corners indexModulo InRange mem_corners indexModulo_inRange indexModulo_unique Congr)

/-! ## Model -/

abbrev Vec := Fin 3 → ℚ

/-- rows first -/
abbrev Mat := Fin 3 → Fin 3 → ℚ

/-- the product of a transposed matrix and a vector in the order of the indices, one of the functions with the
properties `Accurate` -/
def mul (m : Mat) (v : Vec) : Vec := fun j => rnd (rnd (rnd (0 + rnd (m 0 j * v 0)) + rnd (m 1 j * v 1)) + rnd (m 2 j * v 2))

/-- `dims_`, `units_`, `units_inv_`, brzone.hpp:44-48 -/
structure Mesh where
  dims : Idx
  units : Mat
  inv : Mat

/-- `to_value`, brzone.hpp:285-288, for three dimensions; with fewer the other indices are zero -/
def toValue (mv : Mat → Vec → Vec) (M : Mesh) (m : Idx) : Vec := mv M.units fun i => (m i : ℚ)

/-- the body of the loop, brzone.hpp:245-252; the state is `none` while `dst` is infinite -/
def closestStep (mv : Mat → Vec → Vec) (nrm : Vec → ℚ) (units : Mat) (n : Idx) (w : Vec) (s : Option (ℚ × Idx)) (iv : Idx) : Option (ℚ × Idx) :=
  let dstp := nrm (mv units fun i => rnd (w i - (iv i : ℚ)))
  match s with
  | none => some (dstp, n + iv)
  | some (dst, res) => if dstp < dst then some (dstp, n + iv) else some (dst, res)

/-- `closest_index`, brzone.hpp:226-256; the corners are those of C48 -/
def closestIndex (mv : Mat → Vec → Vec) (nrm : Vec → ℚ) (M : Mesh) (k : Vec) : Option Idx :=
  let x := mv M.inv k
  let n : Idx := fun i => ⌊x i⌋
  let w : Vec := fun i => rnd (x i - (n i : ℚ))
  ((corners M.dims).foldl (closestStep mv nrm M.units n w) none).map fun s => indexModulo M.dims s.2

/-! ## Specification -/

/-- products of a transposed matrix and a vector with the error of four roundings -/
structure Accurate (mv : Mat → Vec → Vec) : Prop where
  near : ∀ m v j, |mv m v j - ∑ i, m i j * v i| ≤ 4 / 9007199254740992 * ∑ i, |m i j * v i| + 8 * 2 ^ (-1074 : ℤ)
  zero : ∀ m v j, (∀ i, m i j * v i = 0) → mv m v j = 0

/-- a norm with a small relative error -/
structure Norm (nrm : Vec → ℚ) : Prop where
  nonneg : ∀ v, 0 ≤ nrm v
  lower : ∀ v : Vec, (∑ j, v j ^ 2) * (1 - 1 / 1099511627776) - 2 ^ (-1000 : ℤ) ≤ nrm v ^ 2
  upper : ∀ v : Vec, nrm v ^ 2 ≤ (∑ j, v j ^ 2) * (1 + 1 / 1099511627776) + 2 ^ (-1000 : ℤ)

/-- how far the product of the two matrices is from the identity -/
def residual (M : Mesh) (l i : Fin 3) : ℚ := |∑ j, M.units l j * M.inv j i - if l = i then 1 else 0|

/-- the size of the terms that cancel in a coordinate -/
def size (M : Mesh) (m : Idx) (i : Fin 3) : ℚ := ∑ j, |M.inv j i| * ∑ l, |M.units l j| * |(m l : ℚ)|

/-- the error of a coordinate of a mesh point -/
def slack (M : Mesh) (m : Idx) (i : Fin 3) : ℚ :=
  (∑ l, |(m l : ℚ)| * residual M l i) + 9 / 9007199254740992 * size M m i + 16 * 2 ^ (-1074 : ℤ) * (1 + ∑ j, |M.inv j i|)

/-- the error of a component of a vector between two neighbouring points -/
def blur (M : Mesh) (ε : ℚ) (j : Fin 3) : ℚ := (ε + 13 / 9007199254740992) * (∑ i, |M.units i j|) + 8 * 2 ^ (-1074 : ℤ)

/-- the eight corners of all cells are farther from each other than the errors -/
def Separated (M : Mesh) (ε : ℚ) : Prop := ∀ e : Idx, (∀ i, |e i| ≤ 1) → e ≠ 0 →
  10 * (∑ j, blur M ε j ^ 2) + 8 * 2 ^ (-1000 : ℤ) < ∑ j, (∑ i, M.units i j * (e i : ℚ)) ^ 2

/-! ## Proofs -/

theorem tiny_pos : (0 : ℚ) < 2 ^ (-1074 : ℤ) := two_zpow_pos _

theorem tiny_le : (2 : ℚ) ^ (-1074 : ℤ) ≤ 1 / 9007199254740992 := by
  have := two_zpow_le (a := -1074) (b := -53) (by norm_num)
  have e : (2 : ℚ) ^ (-53 : ℤ) = 1 / 9007199254740992 := by norm_num
  rwa [e] at this

theorem mul_accurate : Accurate mul := by
  refine ⟨fun m v j => ?_, fun m v j h => ?_⟩
  · rw [Fin.sum_univ_three, Fin.sum_univ_three]
    exact Verif.LatticePointDouble.three _ _ _
  · unfold mul
    rw [h 0, h 1, h 2]
    simp [rnd_zero]

/-- **C195, in range.** Whatever the momentum, the index is valid. -/
theorem C195_valid (mv : Mat → Vec → Vec) (nrm : Vec → ℚ) (M : Mesh) (hd : ∀ i, 1 ≤ M.dims i) (k : Vec) :
    ∃ r, closestIndex mv nrm M k = some r ∧ InRange M.dims r := by
  have key : ∀ (n : Idx) (w : Vec) (l : List Idx) (s : Option (ℚ × Idx)), (s ≠ none ∨ l ≠ []) → l.foldl (closestStep mv nrm M.units n w) s ≠ none := by
    intro n w l
    induction l with
    | nil => intro s h; simpa using h
    | cons iv l ih =>
      intro s _
      rw [List.foldl_cons]
      refine ih _ (Or.inl ?_)
      unfold closestStep
      cases s with
      | none => simp
      | some p => simp only; split <;> simp
  have hc : corners M.dims ≠ [] := by
    have : (0 : Idx) ∈ corners M.dims := by
      rw [mem_corners]
      intro i
      have := hd i
      simp only [Pi.zero_apply]
      omega
    intro h
    rw [h] at this
    cases this
  unfold closestIndex
  simp only
  have := key (fun i => ⌊mv M.inv k i⌋) (fun i => rnd (mv M.inv k i - ((⌊mv M.inv k i⌋ : ℤ) : ℚ))) (corners M.dims) none (Or.inr hc)
  obtain ⟨p, hp⟩ := Option.ne_none_iff_exists'.1 this
  rw [hp]
  exact ⟨_, rfl, indexModulo_inRange _ _ hd⟩

theorem fold_best (mv : Mat → Vec → Vec) (nrm : Vec → ℚ) (units : Mat) (n : Idx) (w : Vec) (b : Idx) (l : List Idx) :
    ∀ s : Option (ℚ × Idx),
      (∀ iv ∈ l, iv ≠ b → nrm (mv units fun i => rnd (w i - (b i : ℚ))) < nrm (mv units fun i => rnd (w i - (iv i : ℚ)))) →
      (s = some (nrm (mv units fun i => rnd (w i - (b i : ℚ))), n + b) ∨
        (b ∈ l ∧ ∀ d r, s = some (d, r) → nrm (mv units fun i => rnd (w i - (b i : ℚ))) < d)) →
      l.foldl (closestStep mv nrm units n w) s = some (nrm (mv units fun i => rnd (w i - (b i : ℚ))), n + b) := by
  induction l with
  | nil =>
    intro s _ h
    rcases h with h | ⟨h, -⟩
    · exact h
    · cases h
  | cons iv l ih =>
    intro s hl hs
    rw [List.foldl_cons]
    refine ih _ (fun iv' h' => hl iv' (List.mem_cons_of_mem _ h')) ?_
    by_cases hb : iv = b
    · left
      subst hb
      unfold closestStep
      cases s with
      | none => rfl
      | some p =>
        obtain ⟨d, r⟩ := p
        simp only
        rcases hs with h | ⟨-, h⟩
        · have h1 := Option.some.inj h
          rw [Prod.mk.injEq] at h1
          rw [← h1.1, if_neg (lt_irrefl _), h1.2]
        · rw [if_pos (h d r rfl)]
    · have hlt := hl iv (by simp) hb
      rcases hs with h | ⟨hm, h⟩
      · left
        rw [h]
        unfold closestStep
        simp only
        rw [if_neg (not_lt.2 hlt.le)]
      · right
        refine ⟨(List.mem_cons.1 hm).resolve_left fun hh => hb hh.symm, ?_⟩
        intro d r hd
        unfold closestStep at hd
        cases s with
        | none =>
          simp only at hd
          have := Option.some.inj hd
          rw [Prod.mk.injEq] at this
          rw [← this.1]
          exact hlt
        | some p =>
          obtain ⟨d', r'⟩ := p
          simp only at hd
          split at hd
          · have := Option.some.inj hd
            rw [Prod.mk.injEq] at this
            rw [← this.1]
            exact hlt
          · have := Option.some.inj hd
            rw [Prod.mk.injEq] at this
            rw [← this.1]
            exact h d' r' rfl

/-- the position within the cell -/
theorem cell {x ε : ℚ} {m : ℤ} (hε : ε ≤ 1 / 4) (h : |x - m| ≤ ε) : (m - ⌊x⌋ = 0 ∨ m - ⌊x⌋ = 1) ∧ ((m : ℚ) ≤ x → m - ⌊x⌋ = 0) ∧
    |rnd (x - ((⌊x⌋ : ℤ) : ℚ)) - ((m - ⌊x⌋ : ℤ) : ℚ)| ≤ ε + 2 / 9007199254740992 := by
  have h1 := Int.floor_le x
  have h2 := Int.lt_floor_add_one x
  have habs := abs_le.1 h
  have lo : ⌊x⌋ ≤ m := by
    have : ((⌊x⌋ : ℤ) : ℚ) < m + 1 := by linarith
    have : ⌊x⌋ < m + 1 := by exact_mod_cast this
    omega
  have hi : m ≤ ⌊x⌋ + 1 := by
    have : (m : ℚ) < ((⌊x⌋ : ℤ) : ℚ) + 2 := by linarith
    have : m < ⌊x⌋ + 2 := by exact_mod_cast this
    omega
  refine ⟨by omega, fun hm => ?_, ?_⟩
  · have := Int.le_floor.2 hm
    omega
  · have e1 := rnd_err_abs (x - ((⌊x⌋ : ℤ) : ℚ))
    rw [abs_of_nonneg (a := x - ((⌊x⌋ : ℤ) : ℚ)) (by linarith)] at e1
    have e2 := tiny_le
    push_cast
    rw [abs_le] at e1 ⊢
    generalize (2 : ℚ) ^ (-1074 : ℤ) = t at *
    constructor <;> linarith [habs.1, habs.2, e1.1, e1.2]

/-- the second subtraction -/
theorem corner {w ε : ℚ} {b v : ℤ} (hε : ε ≤ 1 / 4) (h : |w - b| ≤ ε + 2 / 9007199254740992) (hbv : |b - v| ≤ 1) :
    |rnd (w - v) - ((b - v : ℤ) : ℚ)| ≤ ε + 5 / 9007199254740992 := by
  have e1 := rnd_err_abs (w - v)
  have hq : |(b : ℚ) - v| ≤ 1 := by exact_mod_cast hbv
  have h3 : |w - v| ≤ |w - b| + |(b : ℚ) - v| := by
    have := abs_add_le (w - b) ((b : ℚ) - v)
    have e : w - b + ((b : ℚ) - v) = w - v := by ring
    rwa [e] at this
  have h4 : |w - v| ≤ 2 := by linarith
  have e2 := tiny_le
  have h5 : |rnd (w - v) - (w - v)| ≤ 3 / 9007199254740992 := by
    generalize (2 : ℚ) ^ (-1074 : ℤ) = t at *
    linarith
  push_cast
  rw [abs_le] at h h5 ⊢
  constructor <;> linarith [h.1, h.2, h5.1, h5.2]

/-- the vector between two points -/
theorem vector {mv : Mat → Vec → Vec} (hm : Accurate mv) (M : Mesh) {ε : ℚ} (h0 : 0 ≤ ε) (hε : ε ≤ 1 / 4) (a : Vec) (e : Idx) (he : ∀ i, |e i| ≤ 1)
    (ha : ∀ i, |a i - (e i : ℚ)| ≤ ε + 5 / 9007199254740992) (j : Fin 3) :
    |mv M.units a j - ∑ i, M.units i j * (e i : ℚ)| ≤ blur M ε j := by
  have h1 := hm.near M.units a j
  have h2 : |(∑ i, M.units i j * a i) - ∑ i, M.units i j * (e i : ℚ)| ≤ (ε + 5 / 9007199254740992) * ∑ i, |M.units i j| := by
    rw [← Finset.sum_sub_distrib, Finset.mul_sum]
    refine le_trans (Finset.abs_sum_le_sum_abs _ _) (Finset.sum_le_sum fun i _ => ?_)
    rw [← mul_sub, abs_mul, mul_comm]
    exact mul_le_mul_of_nonneg_right (ha i) (abs_nonneg _)
  have h3 : ∑ i, |M.units i j * a i| ≤ 2 * ∑ i, |M.units i j| := by
    rw [Finset.mul_sum]
    refine Finset.sum_le_sum fun i _ => ?_
    rw [abs_mul, mul_comm]
    refine mul_le_mul_of_nonneg_right ?_ (abs_nonneg _)
    have hq : |(e i : ℚ)| ≤ 1 := by exact_mod_cast he i
    have := abs_add_le (a i - (e i : ℚ)) (e i : ℚ)
    rw [sub_add_cancel] at this
    have := ha i
    linarith
  have h4 := abs_add_le (mv M.units a j - ∑ i, M.units i j * a i) ((∑ i, M.units i j * a i) - ∑ i, M.units i j * (e i : ℚ))
  rw [sub_add_sub_cancel] at h4
  have h5 : blur M ε j = (ε + 5 / 9007199254740992) * (∑ i, |M.units i j|) + 4 / 9007199254740992 * (2 * ∑ i, |M.units i j|) + 8 * 2 ^ (-1074 : ℤ) := by
    unfold blur
    ring
  rw [h5]
  have h6 := mul_le_mul_of_nonneg_left h3 (by norm_num : (0 : ℚ) ≤ 4 / 9007199254740992)
  linarith

theorem blur_nonneg (M : Mesh) {ε : ℚ} (h0 : 0 ≤ ε) (j : Fin 3) : 0 ≤ blur M ε j := by
  unfold blur
  have : 0 ≤ ∑ i, |M.units i j| := Finset.sum_nonneg fun i _ => abs_nonneg _
  have := mul_nonneg (by linarith : 0 ≤ ε + 13 / 9007199254740992) this
  have := tiny_pos
  linarith

theorem sq_upper {v z : ℚ} (h : |v| ≤ z) : v ^ 2 ≤ z ^ 2 := by
  rw [← sq_abs v]
  exact pow_le_pow_left₀ (abs_nonneg _) h 2

theorem sq_lower {v p z : ℚ} (h : |v - p| ≤ z) : p ^ 2 / 2 - z ^ 2 ≤ v ^ 2 := by
  have h1 := sq_upper h
  have h2 := sq_nonneg (v + (v - p))
  nlinarith [sq_nonneg (v + (v - p))]

/-- **C195, near a mesh point.** If the computed coordinates of a momentum are closer to integers than the separation of the corners allows, then the
closest point is the one with these integers, up to a vector of the reciprocal lattice. In directions with extent one the coordinate must not be below the integer. -/
theorem C195_near {mv : Mat → Vec → Vec} (hm : Accurate mv) {nrm : Vec → ℚ} (hn : Norm nrm) (M : Mesh) (hd : ∀ i, 1 ≤ M.dims i) (k : Vec) (m : Idx) {ε : ℚ}
    (hε : ε ≤ 1 / 4) (hk : ∀ i, |mv M.inv k i - (m i : ℚ)| ≤ ε) (hflat : ∀ i, 2 ≤ M.dims i ∨ (m i : ℚ) ≤ mv M.inv k i) (hsep : Separated M ε) :
    closestIndex mv nrm M k = some (indexModulo M.dims m) := by
  have h0 : 0 ≤ ε := le_trans (abs_nonneg _) (hk 0)
  set x := mv M.inv k with hx
  set n : Idx := fun i => ⌊x i⌋ with hnd
  set w : Vec := fun i => rnd (x i - (n i : ℚ)) with hw
  set b : Idx := fun i => m i - n i with hb
  have hcell := fun i => cell hε (hk i)
  have hb01 : ∀ i, b i = 0 ∨ b i = 1 := fun i => (hcell i).1
  have hbm : b ∈ corners M.dims := by
    rw [mem_corners]
    intro i
    rcases hflat i with h | h
    · rcases hb01 i with h' | h' <;> rw [h'] <;> omega
    · have h' : b i = 0 := (hcell i).2.1 h
      have := hd i
      rw [h']
      omega
  have hwb : ∀ i, |w i - (b i : ℚ)| ≤ ε + 2 / 9007199254740992 := fun i => (hcell i).2.2
  have dist : ∀ iv ∈ corners M.dims, ∀ j, |mv M.units (fun i => rnd (w i - (iv i : ℚ))) j - ∑ i, M.units i j * (((b i - iv i : ℤ)) : ℚ)| ≤ blur M ε j := by
    intro iv hiv j
    rw [mem_corners] at hiv
    have hbv : ∀ i, |b i - iv i| ≤ 1 := by
      intro i
      have := hiv i
      rw [abs_le]
      rcases hb01 i with h' | h' <;> rw [h'] <;> omega
    exact vector hm M h0 hε _ (fun i => b i - iv i) hbv (fun i => corner hε (hwb i) (hbv i)) j
  have best : ∀ iv ∈ corners M.dims, iv ≠ b → nrm (mv M.units fun i => rnd (w i - (b i : ℚ))) < nrm (mv M.units fun i => rnd (w i - (iv i : ℚ))) := by
    intro iv hiv hne
    have d1 := dist b hbm
    have d2 := dist iv hiv
    have he : (fun i => b i - iv i : Idx) ≠ 0 := by
      intro h
      apply hne
      funext i
      have : b i - iv i = 0 := congrFun h i
      omega
    have hbv : ∀ i, |(fun i => b i - iv i : Idx) i| ≤ 1 := by
      intro i
      have := (mem_corners _ _).1 hiv i
      simp only
      rw [abs_le]
      rcases hb01 i with h' | h' <;> rw [h'] <;> omega
    have hs := hsep _ hbv he
    have u1 := hn.upper (mv M.units fun i => rnd (w i - (b i : ℚ)))
    have l1 := hn.lower (mv M.units fun i => rnd (w i - (iv i : ℚ)))
    set A := ∑ j, mv M.units (fun i => rnd (w i - (b i : ℚ))) j ^ 2 with hA
    set B := ∑ j, mv M.units (fun i => rnd (w i - (iv i : ℚ))) j ^ 2 with hB
    set Z := ∑ j, blur M ε j ^ 2 with hZ
    set P := ∑ j, (∑ i, M.units i j * ((((fun i => b i - iv i : Idx) i : ℤ)) : ℚ)) ^ 2 with hP
    have hAZ : A ≤ Z := by
      refine Finset.sum_le_sum fun j _ => sq_upper ?_
      have := d1 j
      simpa using this
    have hBP : P / 2 - Z ≤ B := by
      have : P / 2 - Z = ∑ j, ((∑ i, M.units i j * ((((fun i => b i - iv i : Idx) i : ℤ)) : ℚ)) ^ 2 / 2 - blur M ε j ^ 2) := by
        rw [Finset.sum_sub_distrib, ← Finset.sum_div]
      rw [this]
      exact Finset.sum_le_sum fun j _ => sq_lower (d2 j)
    have hA0 : 0 ≤ A := Finset.sum_nonneg fun j _ => sq_nonneg _
    have hZ0 : 0 ≤ Z := Finset.sum_nonneg fun j _ => sq_nonneg _
    have hs0 : (0 : ℚ) < 2 ^ (-1000 : ℤ) := two_zpow_pos _
    refine lt_of_pow_lt_pow_left₀ 2 (hn.nonneg _) ?_
    generalize (2 : ℚ) ^ (-1000 : ℤ) = s at *
    have hB0 : 0 < B := by linarith
    nlinarith
  have hf := fold_best mv nrm M.units n w b (corners M.dims) none best (Or.inr ⟨hbm, fun d r h => by cases h⟩)
  unfold closestIndex
  simp only
  show Option.map _ ((corners M.dims).foldl (closestStep mv nrm M.units n w) none) = _
  rw [hf]
  show some (indexModulo M.dims (n + b)) = _
  congr 2
  funext i
  simp only [hb, Pi.add_apply]
  omega

/-- **C195, coordinates** of a mesh point are close to its indices. -/
theorem C195_coordinates {mv : Mat → Vec → Vec} (hm : Accurate mv) (M : Mesh) (m : Idx) (i : Fin 3) :
    |mv M.inv (toValue mv M m) i - (m i : ℚ)| ≤ slack M m i := by
  have h1 := hm.near M.inv (toValue mv M m) i
  have hk : ∀ j, |toValue mv M m j - ∑ l, M.units l j * (m l : ℚ)| ≤ 4 / 9007199254740992 * (∑ l, |M.units l j| * |(m l : ℚ)|) + 8 * 2 ^ (-1074 : ℤ) := by
    intro j
    have := hm.near M.units (fun l => (m l : ℚ)) j
    simp only [abs_mul] at this
    exact this
  have hk' : ∀ j, |toValue mv M m j| ≤ (1 + 4 / 9007199254740992) * (∑ l, |M.units l j| * |(m l : ℚ)|) + 8 * 2 ^ (-1074 : ℤ) := by
    intro j
    have a1 := abs_add_le (toValue mv M m j - ∑ l, M.units l j * (m l : ℚ)) (∑ l, M.units l j * (m l : ℚ))
    rw [sub_add_cancel] at a1
    have a2 : |∑ l, M.units l j * (m l : ℚ)| ≤ ∑ l, |M.units l j| * |(m l : ℚ)| := by
      refine le_trans (Finset.abs_sum_le_sum_abs _ _) (le_of_eq ?_)
      exact Finset.sum_congr rfl fun l _ => abs_mul _ _
    have := hk j
    linarith
  -- the product in exact arithmetic
  have e1 : |(∑ j, M.inv j i * toValue mv M m j) - ∑ j, M.inv j i * ∑ l, M.units l j * (m l : ℚ)| ≤
      4 / 9007199254740992 * size M m i + 8 * 2 ^ (-1074 : ℤ) * ∑ j, |M.inv j i| := by
    rw [← Finset.sum_sub_distrib]
    refine le_trans (Finset.abs_sum_le_sum_abs _ _) ?_
    unfold size
    rw [Finset.mul_sum, Finset.mul_sum, ← Finset.sum_add_distrib]
    refine Finset.sum_le_sum fun j _ => ?_
    rw [← mul_sub, abs_mul]
    have := mul_le_mul_of_nonneg_left (hk j) (abs_nonneg (M.inv j i))
    linarith
  have e2 : (∑ j, |M.inv j i * toValue mv M m j|) ≤ (1 + 4 / 9007199254740992) * size M m i + 8 * 2 ^ (-1074 : ℤ) * ∑ j, |M.inv j i| := by
    unfold size
    rw [Finset.mul_sum, Finset.mul_sum, ← Finset.sum_add_distrib]
    refine Finset.sum_le_sum fun j _ => ?_
    rw [abs_mul]
    have := mul_le_mul_of_nonneg_left (hk' j) (abs_nonneg (M.inv j i))
    linarith
  have e3 : |(∑ j, M.inv j i * ∑ l, M.units l j * (m l : ℚ)) - (m i : ℚ)| ≤ ∑ l, |(m l : ℚ)| * residual M l i := by
    have : (∑ j, M.inv j i * ∑ l, M.units l j * (m l : ℚ)) - (m i : ℚ) = ∑ l, (m l : ℚ) * (∑ j, M.units l j * M.inv j i - if l = i then 1 else 0) := by
      have h : (m i : ℚ) = ∑ l, (m l : ℚ) * (if l = i then 1 else 0) := by simp
      conv_lhs => rw [h]
      simp only [mul_sub, Finset.sum_sub_distrib]
      congr 1
      simp only [Fin.sum_univ_three]
      ring
    rw [this]
    refine le_trans (Finset.abs_sum_le_sum_abs _ _) (le_of_eq (Finset.sum_congr rfl fun l _ => ?_))
    rw [abs_mul]
    rfl
  have hS : 0 ≤ size M m i := Finset.sum_nonneg fun j _ => mul_nonneg (abs_nonneg _) (Finset.sum_nonneg fun l _ => mul_nonneg (abs_nonneg _) (abs_nonneg _))
  have hI : 0 ≤ ∑ j, |M.inv j i| := Finset.sum_nonneg fun j _ => abs_nonneg _
  have a1 := abs_add_le (mv M.inv (toValue mv M m) i - ∑ j, M.inv j i * toValue mv M m j)
    ((∑ j, M.inv j i * toValue mv M m j) - (m i : ℚ))
  rw [sub_add_sub_cancel] at a1
  have a2 := abs_add_le ((∑ j, M.inv j i * toValue mv M m j) - ∑ j, M.inv j i * ∑ l, M.units l j * (m l : ℚ))
    ((∑ j, M.inv j i * ∑ l, M.units l j * (m l : ℚ)) - (m i : ℚ))
  rw [sub_add_sub_cancel] at a2
  have t0 := tiny_pos
  have e4 := mul_le_mul_of_nonneg_left e2 (by norm_num : (0 : ℚ) ≤ 4 / 9007199254740992)
  unfold slack
  generalize (2 : ℚ) ^ (-1074 : ℤ) = t at *
  generalize (∑ j, |M.inv j i|) = I at *
  generalize size M m i = S at *
  have hIt : 0 ≤ t * I := mul_nonneg t0.le hI
  nlinarith

/-- **C195, mesh points.** The closest point to the value of a mesh point is this point, if all extents are at least two. -/
theorem C195_own {mv : Mat → Vec → Vec} (hm : Accurate mv) {nrm : Vec → ℚ} (hn : Norm nrm) (M : Mesh) (hd : ∀ i, 2 ≤ M.dims i) (m : Idx) (hr : InRange M.dims m) {ε : ℚ}
    (hε : ε ≤ 1 / 4) (hs : ∀ i, slack M m i ≤ ε) (hsep : Separated M ε) : closestIndex mv nrm M (toValue mv M m) = some m := by
  have hd1 : ∀ i, 1 ≤ M.dims i := fun i => le_trans (by norm_num) (hd i)
  rw [C195_near hm hn M hd1 (toValue mv M m) m hε (fun i => le_trans (C195_coordinates hm M m i) (hs i)) (fun i => Or.inl (hd i)) hsep,
    indexModulo_unique M.dims m m hd1 hr fun _ => rfl]

/-- the third vector is orthogonal to the plane of the others -/
def Planar (a : Mat) : Prop := a 0 2 = 0 ∧ a 1 2 = 0 ∧ a 2 0 = 0 ∧ a 2 1 = 0

/-- **C195, planes.** The same for lattices in two dimensions: the third direction has extent one and is orthogonal to the plane. -/
theorem C195_plane {mv : Mat → Vec → Vec} (hm : Accurate mv) {nrm : Vec → ℚ} (hn : Norm nrm) (M : Mesh) (h0 : 2 ≤ M.dims 0) (h1 : 2 ≤ M.dims 1) (h2 : M.dims 2 = 1)
    (hu : Planar M.units) (hi : Planar M.inv) (m : Idx) (hr : InRange M.dims m) {ε : ℚ} (hε : ε ≤ 1 / 4) (hs : ∀ i, slack M m i ≤ ε) (hsep : Separated M ε) :
    closestIndex mv nrm M (toValue mv M m) = some m := by
  have hd1 : ∀ i, 1 ≤ M.dims i := by
    intro i
    fin_cases i
    · exact le_trans (by norm_num) h0
    · exact le_trans (by norm_num) h1
    · exact h2.ge
  have hm2 : m 2 = 0 := by
    have := hr 2
    omega
  have hk2 : toValue mv M m 2 = 0 := by
    refine hm.zero _ _ _ fun l => ?_
    fin_cases l
    · simp [hu.1]
    · simp [hu.2.1]
    · simp [hm2]
  have hx2 : mv M.inv (toValue mv M m) 2 = 0 := by
    refine hm.zero _ _ _ fun l => ?_
    fin_cases l
    · simp [hi.1]
    · simp [hi.2.1]
    · simp [hk2]
  have hflat : ∀ i, 2 ≤ M.dims i ∨ (m i : ℚ) ≤ mv M.inv (toValue mv M m) i := by
    intro i
    fin_cases i
    · exact Or.inl h0
    · exact Or.inl h1
    · right
      show (m 2 : ℚ) ≤ mv M.inv (toValue mv M m) 2
      rw [hx2, hm2]
      simp
  rw [C195_near hm hn M hd1 (toValue mv M m) m hε (fun i => le_trans (C195_coordinates hm M m i) (hs i)) hflat hsep,
    indexModulo_unique M.dims m m hd1 hr fun _ => rfl]

/-! ### Examples -/

/-- `2π/6` and `2π` -/
def exC : ℚ := 4716158501352293 / 4503599627370496
def exP : ℚ := 884279719003555 / 140737488355328

/-- the mesh of a body-centred cubic lattice with six points in two of the directions and one in the third -/
def exBcc : Mesh where
  dims := ![6, 6, 1]
  units := ![![0, exC, exC], ![exC, 0, exC], ![exP, exP, 0]]
  inv := ![![-4300620854416995 / 9007199254740992, 4300620854416995 / 9007199254740992, 5734161139222659 / 72057594037927936],
    ![8601241708833989 / 18014398509481984, -8601241708833989 / 18014398509481984, 5734161139222659 / 72057594037927936],
    ![8601241708833989 / 18014398509481984, 8601241708833989 / 18014398509481984, -5734161139222659 / 72057594037927936]]

/-- the same lattice with six points in all directions -/
def exBcc3 : Mesh where
  dims := ![6, 6, 6]
  units := ![![0, exC, exC], ![exC, 0, exC], ![exC, exC, 0]]
  inv := ![![-8601241708833989 / 18014398509481984, 8601241708833989 / 18014398509481984, 8601241708833989 / 18014398509481984],
    ![8601241708833989 / 18014398509481984, -8601241708833989 / 18014398509481984, 8601241708833989 / 18014398509481984],
    ![8601241708833989 / 18014398509481984, 8601241708833989 / 18014398509481984, -8601241708833989 / 18014398509481984]]

theorem separated_of (M : Mesh) (ε : ℚ) (h : ∀ a ∈ [-1, 0, (1 : ℤ)], ∀ b ∈ [-1, 0, (1 : ℤ)], ∀ c ∈ [-1, 0, (1 : ℤ)], a = 0 ∧ b = 0 ∧ c = 0 ∨
    10 * (∑ j, blur M ε j ^ 2) + 8 * 2 ^ (-1000 : ℤ) < ∑ j, (M.units 0 j * a + M.units 1 j * b + M.units 2 j * c) ^ 2) : Separated M ε := by
  intro e he hne
  have mem : ∀ i, e i ∈ [-1, 0, (1 : ℤ)] := by
    intro i
    have := abs_le.1 (he i)
    simp only [List.mem_cons, List.not_mem_nil, or_false]
    omega
  rcases h _ (mem 0) _ (mem 1) _ (mem 2) with ⟨h0, h1, h2⟩ | h
  · exfalso
    apply hne
    funext i
    fin_cases i
    · exact h0
    · exact h1
    · exact h2
  · simp only [Fin.sum_univ_three (fun i => M.units i _ * (e i : ℚ))]
    exact h

example : Separated exBcc3 (1 / 1000000) := separated_of _ _ (by decide +kernel)

example : ∀ i, slack exBcc3 ![3, 5, 4] i ≤ 1 / 1000000 := by decide +kernel

/-- the computed coordinates of the point `(3, 4, 0)`: the last one is below zero -/
example : mul exBcc.inv (toValue mul exBcc ![3, 4, 0]) = ![3, 4, -1 / 9007199254740992] := by decide +kernel

/-- **C195, an extent of one.** In a direction with a single point the rounding of a coordinate below zero matters: on this mesh, with products in the order of the
indices, the closest point to the value of the mesh point `(3, 4, 0)` is `(4, 5, 0)`, whatever the norm. -/
theorem C195_flat {nrm : Vec → ℚ} (hn : Norm nrm) : closestIndex mul nrm exBcc (toValue mul exBcc ![3, 4, 0]) = some ![4, 5, 0] := by
  have hx : mul exBcc.inv (toValue mul exBcc ![3, 4, 0]) = ![3, 4, -1 / 9007199254740992] := by decide +kernel
  have hnn : (fun i => ⌊(![3, 4, -1 / 9007199254740992] : Vec) i⌋ : Idx) = ![3, 4, -1] := by decide +kernel
  have hw : (fun i => rnd ((![3, 4, -1 / 9007199254740992] : Vec) i - ((![3, 4, -1] : Idx) i : ℚ)) : Vec) = ![0, 0, 1 - 1 / 9007199254740992] := by decide +kernel
  have table : ∀ iv ∈ corners exBcc.dims, iv ≠ ![1, 1, 0] →
      (∑ j, mul exBcc.units (fun i => rnd ((![0, 0, 1 - 1 / 9007199254740992] : Vec) i - ((![1, 1, 0] : Idx) i : ℚ))) j ^ 2) * (1 + 1 / 1099511627776) + 2 ^ (-1000 : ℤ) <
      (∑ j, mul exBcc.units (fun i => rnd ((![0, 0, 1 - 1 / 9007199254740992] : Vec) i - (iv i : ℚ))) j ^ 2) * (1 - 1 / 1099511627776) - 2 ^ (-1000 : ℤ) := by decide +kernel
  have hf := fold_best mul nrm exBcc.units ![3, 4, -1] ![0, 0, 1 - 1 / 9007199254740992] ![1, 1, 0] (corners exBcc.dims) none
    (fun iv hiv hne => lt_of_pow_lt_pow_left₀ 2 (hn.nonneg _) (lt_of_le_of_lt (hn.upper _) (lt_of_lt_of_le (table iv hiv hne) (hn.lower _))))
    (Or.inr ⟨by decide +kernel, fun d r h => by cases h⟩)
  unfold closestIndex
  simp only
  rw [hx]
  have e : (fun i => rnd ((![3, 4, -1 / 9007199254740992] : Vec) i - ((⌊(![3, 4, -1 / 9007199254740992] : Vec) i⌋ : ℤ) : ℚ)) : Vec) = ![0, 0, 1 - 1 / 9007199254740992] := by
    rw [← hw]
    funext i
    rw [← congrFun hnn i]
  rw [e, hnn, hf]
  show some (indexModulo exBcc.dims (![3, 4, -1] + ![1, 1, 0])) = _
  have : indexModulo exBcc.dims (![3, 4, -1] + ![1, 1, 0]) = ![4, 5, 0] := by decide +kernel
  rw [this]

end Verif.ClosestDouble
