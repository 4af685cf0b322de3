import Verif.Operators.CubicBasis
import Verif.Operators.ThreeJ
import Verif.Operators.Parts

/-!
# Properties C121 and C124: the interaction matrix of a shell

Source: `/repo/python/triqs/operators/util/U_matrix.py:29-112, 439-548`.

Simplifications: exact arithmetic; `l` is a natural number; arrays are total functions of natural indices.
-/

namespace Verif.Ham
open Verif.Operators Verif.Fock Verif.ThreeJ Complex
open Verif.TwoBody renaming comm → br
open Verif.TwoBody

/-! ## Model -/

/-- `angular_matrix_element`, U_matrix.py:544-548. -/
noncomputable def angular (l k m1 m2 m3 m4 : ℤ) : ℝ :=
  ((pyRange (-k) (k + 1)).foldl (fun s q =>
    s + threeJ l (-m1) k q l m3 * threeJ l (-m2) k (-q) l m4 * sign (m1 + q + m2)) 0) * ((2 * l + 1 : ℤ) ^ 2 * threeJ l 0 k 0 l 0 ^ 2)

/-- the loop over the radial integrals, U_matrix.py:98-104, for the element at natural indices. -/
noncomputable def uSpherical (l : ℕ) (F : List ℝ) (a b p q : ℕ) : ℝ :=
  F.zipIdx.foldl (fun s x => s + x.1 * angular l (2 * x.2 : ℕ) ((a : ℤ) - l) ((b : ℤ) - l) ((p : ℤ) - l) ((q : ℤ) - l)) 0

/-- `U_J_to_radial_integrals`, U_matrix.py:459-474; `none` is a `ValueError`. -/
noncomputable def radialOfUJ (l : ℕ) (U J : ℝ) : Option (List ℝ) :=
  match l with
  | 1 => some [U, 5 * J]
  | 2 => some [U, J * 14 / (1 + 0.63), 0.630 * (J * 14 / (1 + 0.63))]
  | 3 =>
    let F1 := 6435 * J / (286 + 195 * 451 / 675 + 250 * 1001 / 2025);
    some [U, F1, 451 * F1 / 675, 1001 * F1 / 2025]
  | _ => none

/-- `radial_integrals_to_U_J`, U_matrix.py:495-506; `none` is a `ValueError` or an `IndexError`. -/
noncomputable def ujOfRadial (l : ℕ) (F : List ℝ) : Option (ℝ × ℝ) := do
  if l = 1 then
    let F0 ← F[0]?
    let F1 ← F[1]?
    pure (F0, F1 / 5)
  else if l = 2 then
    let F0 ← F[0]?
    let F1 ← F[1]?
    pure (F0, F1 * (1 + 0.63) / 14)
  else if l = 3 then
    let F0 ← F[0]?
    let F1 ← F[1]?
    pure (F0, F1 * (286 + 195 * 451 / 675 + 250 * 1001 / 2025) / 6435)
  else none

/-- values of the argument `basis` -/
inductive BasisArg | spherical | cubic | other
  deriving DecidableEq

/-- the way a call can end -/
inductive Res (α : Type) | ok (a : α) | valueError | typeError

/-- the radial integrals used by `U_matrix_slater`, U_matrix.py:85-93 and 101 (`enumerate(None)` is a `TypeError`). -/
noncomputable def radialArg (l : ℕ) (F : Option (List ℝ)) (U J : Option ℝ) : Res (List ℝ) :=
  match F, U, J with
  | none, none, none => .valueError
  | none, some U, some J =>
    match radialOfUJ l U J with
    | some F => .ok F
    | none => .valueError
  | none, _, _ => .typeError
  | some F, some U, some J =>
    if (F.length : ℤ) - 1 ≠ l then .valueError
    else match radialOfUJ l U J with
      | some _ => .ok F
      | none => .valueError
  | some F, _, _ => .ok F

/-- the matrix of the change of basis, U_matrix.py:107-110; `none` as result is a `ValueError`. -/
noncomputable def basisArg (l : ℕ) (b : BasisArg) (T : Option (ℕ → ℕ → ℂ)) : Option (Option (ℕ → ℕ → ℂ)) :=
  match b with
  | .cubic => (sphericalToCubic .triqs l).map some
  | .other => if T.isNone then none else some T
  | .spherical => some T

/-- the matrix after the optional change of basis, U_matrix.py:110. -/
noncomputable def uBasis (l : ℕ) (T : Option (ℕ → ℕ → ℂ)) (F : List ℝ) : ℕ → ℕ → ℕ → ℕ → ℂ :=
  match T with
  | none => fun a b p q => (uSpherical l F a b p q : ℂ)
  | some T => transformU (2 * l + 1) T fun a b p q => (uSpherical l F a b p q : ℂ)

/-- `U_matrix_slater`, U_matrix.py:85-112. -/
noncomputable def uMatrixSlater (l : ℕ) (F : Option (List ℝ)) (U J : Option ℝ) (b : BasisArg) (T : Option (ℕ → ℕ → ℂ)) :
    Res (ℕ → ℕ → ℕ → ℕ → ℂ) :=
  match radialArg l F U J with
  | .ok F =>
    match basisArg l b T with
    | some T => .ok (uBasis l T F)
    | none => .valueError
  | .valueError => .valueError
  | .typeError => .typeError

/-! ## Specification -/

/-- average of the interaction of two orbitals -/
noncomputable def averageU (n : ℕ) (U : ℕ → ℕ → ℕ → ℕ → ℂ) : ℂ := (∑ a : Fin n, ∑ b : Fin n, U a b a b) / (n : ℂ) ^ 2

/-- average of the interaction of electrons with equal spins in two different orbitals -/
noncomputable def averageParallel (n : ℕ) (U : ℕ → ℕ → ℕ → ℕ → ℂ) : ℂ :=
  (∑ a : Fin n, ∑ b : Fin n, if a = b then 0 else U a b a b - U a b b a) / ((n : ℂ) * ((n : ℂ) - 1))

/-! ## Proofs -/

open Finset

/-- sum over `range(-k, k+1)` -/
theorem foldl_pyRange (k : ℤ) (f : ℤ → ℝ) : (pyRange (-k) (k + 1)).foldl (fun s q => s + f q) 0 = ∑ q ∈ Icc (-k) k, f q := by
  have h1 : ∀ (l : List ℤ) (s : ℝ), l.foldl (fun s q => s + f q) s = s + (l.map f).sum := by
    intro l
    induction l with
    | nil => simp
    | cons x l ih => intro s; rw [List.foldl_cons, ih, List.map_cons, List.sum_cons, add_assoc]
  rw [h1, zero_add, pyRange, List.map_map]
  change ∑ i ∈ range (k + 1 - -k).toNat, f (-k + i) = _
  have : Icc (-k) k = (range (k + 1 - -k).toNat).image fun i : ℕ => -k + (i : ℤ) := by
    ext x
    simp only [Finset.mem_Icc, Finset.mem_image, Finset.mem_range]
    constructor
    · intro h
      exact ⟨(x + k).toNat, by omega, by omega⟩
    · rintro ⟨i, hi, rfl⟩
      omega
  rw [this, Finset.sum_image (by intro x _ y _ h; simpa using h)]

theorem angular_sum (l k m1 m2 m3 m4 : ℤ) : angular l k m1 m2 m3 m4 =
    (∑ q ∈ Icc (-k) k, threeJ l (-m1) k q l m3 * threeJ l (-m2) k (-q) l m4 * sign (m1 + q + m2)) *
      ((2 * l + 1 : ℤ) ^ 2 * threeJ l 0 k 0 l 0 ^ 2) := by
  unfold angular
  rw [foldl_pyRange k (fun q => threeJ l (-m1) k q l m3 * threeJ l (-m2) k (-q) l m4 * sign (m1 + q + m2))]

theorem uSpherical_sum (l : ℕ) (F : List ℝ) (a b p q : ℕ) : uSpherical l F a b p q =
    (F.zipIdx.map fun x => x.1 * angular l (2 * x.2 : ℕ) ((a : ℤ) - l) ((b : ℤ) - l) ((p : ℤ) - l) ((q : ℤ) - l)).sum := by
  unfold uSpherical
  have h1 : ∀ (L : List (ℝ × ℕ)) (f : ℝ × ℕ → ℝ) (s : ℝ), L.foldl (fun s x => s + f x) s = s + (L.map f).sum := by
    intro L f
    induction L with
    | nil => simp
    | cons x L ih => intro s; rw [List.foldl_cons, ih, List.map_cons, List.sum_cons, add_assoc]
  rw [h1 F.zipIdx (fun x => x.1 * angular l (2 * x.2 : ℕ) ((a : ℤ) - l) ((b : ℤ) - l) ((p : ℤ) - l) ((q : ℤ) - l)), zero_add]

/-- reflection of a sum over magnetic numbers -/
theorem sum_neg (k : ℤ) (f : ℤ → ℝ) : ∑ q ∈ Icc (-k) k, f (-q) = ∑ q ∈ Icc (-k) k, f q := by
  apply Finset.sum_nbij' (fun q => -q) (fun q => -q)
  · intro q hq; rw [Finset.mem_Icc] at *; omega
  · intro q hq; rw [Finset.mem_Icc] at *; omega
  · intro q _; simp
  · intro q _; simp
  · intro q _; rfl

theorem angular_conserves (l k m1 m2 m3 m4 : ℤ) (h : m1 + m2 ≠ m3 + m4) : angular l k m1 m2 m3 m4 = 0 := by
  rw [angular_sum]
  convert zero_mul _
  apply Finset.sum_eq_zero
  intro q _
  by_cases e : -m1 + q + m3 = 0
  · rw [threeJ_zero (m1 := -m2) (by omega)]
    ring
  · rw [threeJ_zero (m1 := -m1) (by omega)]
    ring

theorem angular_swap (l k m1 m2 m3 m4 : ℤ) : angular l k m2 m1 m4 m3 = angular l k m1 m2 m3 m4 := by
  rw [angular_sum, angular_sum]
  congr 1
  rw [← sum_neg]
  apply Finset.sum_congr rfl
  intro q _
  rw [neg_neg, sign_congr (m := m2 + -q + m1) (n := m1 + q + m2) (by omega)]
  ring

/-- exchange of the outer columns together with a reflection -/
theorem threeJ_outer (l k m1 q m3 : ℤ) : threeJ l (-m3) k (-q) l m1 = threeJ l (-m1) k q l m3 := by
  by_cases h : -m1 + q + m3 = 0 ∧ Mag l (-m1) ∧ Mag k q ∧ Mag l m3 ∧ Tri l k l
  swap
  · rw [threeJ_zero h, threeJ_zero]
    rintro ⟨h0, h1, h2, h3, ht⟩
    apply h
    refine ⟨by omega, h3.neg, by simpa using h2.neg, by simpa using h1.neg, ht⟩
  obtain ⟨h0, h1, h2, h3, ht⟩ := h
  have hta := abs_le.mp ht.2
  have htb := ht.1
  rw [threeJ_eq h0 h1 h2 h3 ht, threeJ_eq (by omega) h3.neg h2.neg (by simpa using h1.neg) ht, q_neg, q_neg, q_neg]
  have hr : racah (l - k + -m3) (l - l - -q) (l + k - l) (l - -m3) (k + -q) = sign q * racah (l - k + -m1) (l - l - q) (l + k - l) (l - -m1) (k + q) := by
    unfold racah
    unfold Mag at h2
    -- both sums run over the integers t with 0 ≤ t ≤ k, shifted by q
    have ext : ∀ f : ℤ → ℝ, (∀ t, (t < 0 ∨ k < t) → f t = 0) → ∑ t ∈ Finset.range (l + k - l + 1).toNat, f t = ∑ t ∈ Icc (-k) (2 * k), f t := by
      intro f hf
      rw [← Finset.sum_subset (s₁ := (Finset.range (l + k - l + 1).toNat).image fun t : ℕ => (t : ℤ)) (s₂ := Icc (-k) (2 * k))]
      · rw [Finset.sum_image (by intro x _ y _ h; simpa using h)]
      · intro x hx
        rw [Finset.mem_image] at hx
        obtain ⟨t, ht, rfl⟩ := hx
        rw [Finset.mem_range] at ht
        rw [Finset.mem_Icc]
        omega
      · intro x _ hx'
        apply hf
        by_contra hc
        apply hx'
        rw [Finset.mem_image]
        exact ⟨x.toNat, by rw [Finset.mem_range]; omega, by omega⟩
    have z : ∀ a b d e t : ℤ, (t < 0 ∨ k < t) → rterm a b (l + k - l) d e t = 0 := by
      intro a b d e t ht
      unfold rterm
      rcases ht with ht | ht
      · rw [rf_neg ht]; ring
      · rw [rf_neg (n := l + k - l - t) (by omega)]; ring
    rw [ext _ (z _ _ _ _), ext _ (z _ _ _ _), Finset.mul_sum]
    have key : ∀ t, rterm (l - k + -m3) (l - l - -q) (l + k - l) (l - -m3) (k + -q) (t - q) =
        sign q * rterm (l - k + -m1) (l - l - q) (l + k - l) (l - -m1) (k + q) t := by
      intro t
      unfold rterm
      rw [show l - k + -m3 + (t - q) = l - k + -m1 + t by omega, show l - l - -q + (t - q) = t by omega,
        show l + k - l - (t - q) = k + q - t by omega, show l - -m3 - (t - q) = l - -m1 - t by omega, show k + -q - (t - q) = l + k - l - t by omega,
        show t - q = l - l - q + t by omega, show l - l - q + t = t + -q by ring, sign_add, sign_neg]
      ring
    -- the support of the shifted sum lies in the same interval
    have hs : ∑ t ∈ Icc (-k) (2 * k), rterm (l - k + -m3) (l - l - -q) (l + k - l) (l - -m3) (k + -q) t =
        ∑ t ∈ Icc (-k + q) (2 * k + q), rterm (l - k + -m3) (l - l - -q) (l + k - l) (l - -m3) (k + -q) (t - q) := by
      rw [← Finset.map_add_right_Icc, Finset.sum_map]
      simp
    rw [hs]
    simp only [key]
    have zz : ∀ t, (t < 0 ∨ k < t ∨ t < q ∨ k + q < t) → rterm (l - k + -m1) (l - l - q) (l + k - l) (l - -m1) (k + q) t = 0 := by
      intro t ht
      unfold rterm
      rcases ht with ht | ht | ht | ht
      · rw [rf_neg ht]; ring
      · rw [rf_neg (n := l + k - l - t) (by omega)]; ring
      · rw [rf_neg (n := l - l - q + t) (by omega)]; ring
      · rw [rf_neg (n := k + q - t) (by omega)]; ring
    rw [← Finset.sum_subset (s₁ := Icc (-k + q) (2 * k + q) ∩ Icc (-k) (2 * k)) Finset.inter_subset_left,
      ← Finset.sum_subset (s₁ := Icc (-k + q) (2 * k + q) ∩ Icc (-k) (2 * k)) (s₂ := Icc (-k) (2 * k)) Finset.inter_subset_right]
    · intro x hx hx'
      rw [Finset.mem_inter, Finset.mem_Icc, Finset.mem_Icc] at *
      rw [zz x (by omega), mul_zero]
    · intro x hx hx'
      rw [Finset.mem_inter, Finset.mem_Icc, Finset.mem_Icc] at *
      rw [zz x (by omega), mul_zero]
  have hsg : sign (l - k - m1) = sign (l - k - m3) * sign q := by
    rw [← sign_add]
    apply sign_congr
    omega
  rw [hr, hsg]
  have := sign_sq q
  linear_combination (sign (l - k - m3) * tri l k l * (ThreeJ.q l m1 * ThreeJ.q k q * ThreeJ.q l m3) * racah (l - k + -m1) (l - l - q) (l + k - l) (l - -m1) (k + q)) * this

theorem angular_transpose (l k m1 m2 m3 m4 : ℤ) : angular l k m3 m4 m1 m2 = angular l k m1 m2 m3 m4 := by
  by_cases hc : m1 + m2 = m3 + m4
  swap
  · rw [angular_conserves _ _ _ _ _ _ hc, angular_conserves _ _ _ _ _ _ (fun e => hc e.symm)]
  rw [angular_sum, angular_sum]
  congr 1
  rw [← sum_neg]
  apply Finset.sum_congr rfl
  intro q _
  rw [threeJ_outer, threeJ_outer l k m2 (-q) m4, sign_congr (m := m3 + -q + m4) (n := m1 + q + m2) (by omega)]

theorem angular_reflect (l k m1 m2 m3 m4 : ℤ) (hk : Even k) : angular l k (-m1) (-m2) (-m3) (-m4) = angular l k m1 m2 m3 m4 := by
  rw [angular_sum, angular_sum]
  congr 1
  rw [← sum_neg]
  apply Finset.sum_congr rfl
  intro q _
  have h1 := C122_reflect l (-m1) k q l m3
  have h2 := C122_reflect l (-m2) k (-q) l m4
  have e : ((-1 : ℝ) ^ (l + k + l)) = 1 := by
    apply Even.neg_one_zpow
    obtain ⟨r, rfl⟩ := hk
    exact ⟨l + r, by ring⟩
  rw [e, one_mul] at h1 h2
  rw [h1, h2, sign_congr (m := -m1 + -q + -m2) (n := m1 + q + m2) (by omega)]

/-- real orbitals: the first and the third index may be exchanged -/
theorem angular_real (l k m1 m2 m3 m4 : ℤ) (hk : Even k) : angular l k (-m3) m2 (-m1) m4 = sign (m1 + m3) * angular l k m1 m2 m3 m4 := by
  rw [angular_sum, angular_sum, ← mul_assoc (sign (m1 + m3)), Finset.mul_sum]
  congr 1
  apply Finset.sum_congr rfl
  intro q _
  have e : ((-1 : ℝ) ^ (l + k + l)) = 1 := by
    apply Even.neg_one_zpow
    obtain ⟨r, rfl⟩ := hk
    exact ⟨l + r, by ring⟩
  have h1 := C122_reflect l (-m3) k (-q) l m1
  rw [e, one_mul, neg_neg, threeJ_outer] at h1
  have : threeJ l (- -m3) k q l (-m1) = threeJ l (-m1) k q l m3 := by simpa only [neg_neg] using h1
  rw [this, show -m3 + q + m2 = (m1 + q + m2) + (-(m1 + m3)) by ring, sign_add (m1 + q + m2), ThreeJ.sign_neg]
  ring

/-- invariance under the raising operator -/
theorem angular_raise (l k m1 m2 m3 m4 : ℤ) (h1 : Mag l m1) (h2 : Mag l m2) (h3 : Mag l m3) (h4 : Mag l m4) :
    up l (m1 - 1) * angular l k (m1 - 1) m2 m3 m4 + up l (m2 - 1) * angular l k m1 (m2 - 1) m3 m4 -
      up l m3 * angular l k m1 m2 (m3 + 1) m4 - up l m4 * angular l k m1 m2 m3 (m4 + 1) = 0 := by
  simp only [angular_sum]
  have u : ∀ j m : ℤ, up j (m - 1) = up j (-m) := fun j m => by rw [← up_reflect j (m - 1)]; congr 1; ring
  have s1 : ∀ n, sign (n - 1) = -sign n := by
    intro n
    rw [sub_eq_add_neg, sign_add, sign_neg, sign_one]
    ring
  -- first pair of terms
  have e1 : ∀ q ∈ Icc (-k) k,
      up l (m1 - 1) * (threeJ l (-(m1 - 1)) k q l m3 * threeJ l (-m2) k (-q) l m4 * sign (m1 - 1 + q + m2)) -
        up l m3 * (threeJ l (-m1) k q l (m3 + 1) * threeJ l (-m2) k (-q) l m4 * sign (m1 + q + m2)) =
      sign (m1 + q + m2) * threeJ l (-m2) k (-q) l m4 * (up k q * threeJ l (-m1) k (q + 1) l m3) := by
    intro q hq
    have := C122_raise l (-m1) k q l m3 h1.neg (Finset.mem_Icc.mp hq) h3
    rw [show -(m1 - 1) = -m1 + 1 by ring, u, show m1 - 1 + q + m2 = m1 + q + m2 - 1 by ring, s1]
    linear_combination (-(threeJ l (-m2) k (-q) l m4 * sign (m1 + q + m2))) * this
  have e2 : ∀ q ∈ Icc (-k) k,
      up l (m2 - 1) * (threeJ l (-m1) k q l m3 * threeJ l (-(m2 - 1)) k (-q) l m4 * sign (m1 + q + (m2 - 1))) -
        up l m4 * (threeJ l (-m1) k q l m3 * threeJ l (-m2) k (-q) l (m4 + 1) * sign (m1 + q + m2)) =
      -(up k (q - 1) * (sign (m1 + (q - 1) + m2) * threeJ l (-m2) k (-(q - 1)) l m4) * threeJ l (-m1) k q l m3) := by
    intro q hq
    have hq' : Mag k q := Finset.mem_Icc.mp hq
    have := C122_raise l (-m2) k (-q) l m4 h2.neg hq'.neg h4
    rw [show -(m2 - 1) = -m2 + 1 by ring, u l, show m1 + q + (m2 - 1) = m1 + q + m2 - 1 by ring, s1, u k,
      show m1 + (q - 1) + m2 = m1 + q + m2 - 1 by ring, s1, show -(q - 1) = -q + 1 by ring]
    linear_combination (-(threeJ l (-m1) k q l m3 * sign (m1 + q + m2))) * this
  have hsh := sum_shift k (fun q => sign (m1 + q + m2) * threeJ l (-m2) k (-q) l m4) (fun q => threeJ l (-m1) k q l m3)
  beta_reduce at hsh
  rw [← Finset.sum_congr rfl e1] at hsh
  have hneg := Finset.sum_congr rfl e2
  rw [Finset.sum_neg_distrib, ← hsh] at hneg
  simp only [Finset.sum_sub_distrib, ← Finset.mul_sum] at hneg
  linear_combination ((2 * l + 1 : ℤ) ^ 2 * threeJ l 0 k 0 l 0 ^ 2 : ℝ) * hneg

/-- the matrix at integer magnetic numbers -/
noncomputable def uZ (l : ℕ) (F : List ℝ) (m1 m2 m3 m4 : ℤ) : ℝ := (F.zipIdx.map fun x => x.1 * angular l (2 * x.2 : ℕ) m1 m2 m3 m4).sum

theorem uSpherical_uZ (l : ℕ) (F : List ℝ) (a b p q : ℕ) :
    uSpherical l F a b p q = uZ l F ((a : ℤ) - l) ((b : ℤ) - l) ((p : ℤ) - l) ((q : ℤ) - l) := uSpherical_sum l F a b p q

theorem uZ_congr {l : ℕ} {F : List ℝ} {m1 m2 m3 m4 n1 n2 n3 n4 : ℤ} {c : ℝ}
    (h : ∀ k : ℤ, Even k → angular l k n1 n2 n3 n4 = c * angular l k m1 m2 m3 m4) : uZ l F n1 n2 n3 n4 = c * uZ l F m1 m2 m3 m4 := by
  unfold uZ
  rw [← List.sum_map_mul_left]
  congr 1
  apply List.map_congr_left
  intro x _
  rw [h _ ⟨(x.2 : ℤ), by push_cast; ring⟩]
  ring

theorem uZ_conserves (l : ℕ) (F : List ℝ) (m1 m2 m3 m4 : ℤ) (h : m1 + m2 ≠ m3 + m4) : uZ l F m1 m2 m3 m4 = 0 := by
  unfold uZ
  apply List.sum_eq_zero
  intro y hy
  obtain ⟨x, _, rfl⟩ := List.mem_map.mp hy
  rw [angular_conserves _ _ _ _ _ _ h, mul_zero]

theorem uZ_raise (l : ℕ) (F : List ℝ) (m1 m2 m3 m4 : ℤ) (h1 : Mag l m1) (h2 : Mag l m2) (h3 : Mag l m3) (h4 : Mag l m4) :
    up l (m1 - 1) * uZ l F (m1 - 1) m2 m3 m4 + up l (m2 - 1) * uZ l F m1 (m2 - 1) m3 m4 -
      up l m3 * uZ l F m1 m2 (m3 + 1) m4 - up l m4 * uZ l F m1 m2 m3 (m4 + 1) = 0 := by
  unfold uZ
  induction F.zipIdx with
  | nil => simp
  | cons x L ih =>
    simp only [List.map_cons, List.sum_cons]
    have := angular_raise l (2 * x.2 : ℕ) m1 m2 m3 m4 h1 h2 h3 h4
    linear_combination ih + x.1 * this

/-- **C121.** The matrix conserves the magnetic number and is symmetric: exchange of the two electrons, of initial and final states,
and reversal of all magnetic numbers. -/
theorem C121_symmetries (l : ℕ) (F : List ℝ) (a b p q : ℕ) :
    (a + b ≠ p + q → uSpherical l F a b p q = 0) ∧ uSpherical l F b a q p = uSpherical l F a b p q ∧
    uSpherical l F p q a b = uSpherical l F a b p q ∧
    (a ≤ 2 * l → b ≤ 2 * l → p ≤ 2 * l → q ≤ 2 * l →
      uSpherical l F (2 * l - a) (2 * l - b) (2 * l - p) (2 * l - q) = uSpherical l F a b p q) := by
  simp only [uSpherical_uZ]
  refine ⟨fun h => uZ_conserves _ _ _ _ _ _ (by omega), ?_, ?_, ?_⟩
  · exact (uZ_congr (c := 1) (fun k _ => by rw [one_mul, angular_swap])).trans (one_mul _)
  · exact (uZ_congr (c := 1) (fun k _ => by rw [one_mul, angular_transpose])).trans (one_mul _)
  · intro ha hb hp hq
    have e : ∀ x : ℕ, x ≤ 2 * l → (((2 * l - x : ℕ) : ℤ) - l) = -((x : ℤ) - l) := by intro x hx; omega
    rw [e a ha, e b hb, e p hp, e q hq]
    exact (uZ_congr (c := 1) (fun k hk => by rw [one_mul, angular_reflect _ _ _ _ _ _ hk])).trans (one_mul _)

theorem ell_odd (l : ℕ) : ell (2 * l + 1) = l := by
  unfold ell
  push_cast
  ring

theorem lUp_up (l : ℕ) (o1 o2 : ℕ) : lUp (2 * l + 1) o1 o2 = if o1 = o2 + 1 then ((up l ((o2 : ℤ) - l) : ℝ) : ℂ) else 0 := by
  unfold lUp up
  rw [ell_odd]
  split_ifs
  · congr 2
    push_cast
    ring
  · rfl

/-- the condition of `comm_orbital`: the tensor is invariant under the one-body matrix -/
def Invariant (n : ℕ) (L : ℕ → ℕ → ℂ) (U : ℕ → ℕ → ℕ → ℕ → ℂ) : Prop :=
  ∀ a b p q : Fin n, ∑ x : Fin n, (L a x * U x b p q + L b x * U a x p q - U a b x q * L x p - U a b p x * L x q) = 0

theorem mag_fin {l : ℕ} (a : Fin (2 * l + 1)) : Mag l ((a : ℤ) - l) := by
  have := a.2
  unfold Mag
  omega

theorem sum_up_left (l : ℕ) (a : Fin (2 * l + 1)) (f : ℤ → ℝ) :
    ∑ x : Fin (2 * l + 1), lUp (2 * l + 1) a x * ((f ((x : ℤ) - l) : ℝ) : ℂ) = ((up l ((a : ℤ) - l - 1) * f ((a : ℤ) - l - 1) : ℝ) : ℂ) := by
  simp only [lUp_up]
  by_cases h : a.1 = 0
  · rw [Finset.sum_eq_zero]
    · rw [h, show ((0 : ℕ) : ℤ) - l - 1 = -(l : ℤ) - 1 by push_cast; ring, up_bottom]
      simp
    · intro x _
      rw [if_neg (by omega), zero_mul]
  · rw [Finset.sum_eq_single ⟨a.1 - 1, by omega⟩]
    · rw [if_pos (by simp only; omega), show (((a.1 - 1 : ℕ) : ℤ)) - l = (a : ℤ) - l - 1 by omega]
      push_cast
      ring
    · intro x _ hx
      rw [if_neg, zero_mul]
      intro e
      apply hx
      ext
      simp only
      omega
    · simp

theorem sum_up_right (l : ℕ) (p : Fin (2 * l + 1)) (f : ℤ → ℝ) :
    ∑ x : Fin (2 * l + 1), ((f ((x : ℤ) - l) : ℝ) : ℂ) * lUp (2 * l + 1) x p = ((up l ((p : ℤ) - l) * f ((p : ℤ) - l + 1) : ℝ) : ℂ) := by
  simp only [lUp_up]
  by_cases h : p.1 = 2 * l
  · rw [Finset.sum_eq_zero]
    · rw [h, show ((2 * l : ℕ) : ℤ) - l = l by push_cast; ring, up_top]
      simp
    · intro x _
      rw [if_neg (by have := x.2; omega), mul_zero]
  · rw [Finset.sum_eq_single ⟨p.1 + 1, by have := p.2; omega⟩]
    · rw [if_pos rfl, show (((p.1 + 1 : ℕ) : ℤ)) - l = (p : ℤ) - l + 1 by push_cast; ring]
      push_cast
      ring
    · intro x _ hx
      rw [if_neg, mul_zero]
      intro e
      exact hx (Fin.ext e)
    · simp

theorem invariant_p (l : ℕ) (F : List ℝ) : Invariant (2 * l + 1) (lMelem (2 * l + 1) .p) fun a b p q => (uSpherical l F a b p q : ℂ) := by
  intro a b p q
  simp only [lMelem, uSpherical_uZ, Finset.sum_add_distrib, Finset.sum_sub_distrib]
  rw [sum_up_left l a (fun m => uZ l F m _ _ _), sum_up_left l b (fun m => uZ l F _ m _ _),
    sum_up_right l p (fun m => uZ l F _ _ m _), sum_up_right l q (fun m => uZ l F _ _ _ m)]
  have := uZ_raise l F ((a : ℤ) - l) ((b : ℤ) - l) ((p : ℤ) - l) ((q : ℤ) - l) (mag_fin a) (mag_fin b) (mag_fin p) (mag_fin q)
  exact_mod_cast this

theorem lDown_lUp (n o1 o2 : ℕ) : lDown n o1 o2 = lUp n o2 o1 := by
  unfold lDown lUp
  by_cases h : o1 + 1 = o2
  · rw [if_pos h, if_pos h.symm]
    subst h
    congr 2
    push_cast
    ring
  · rw [if_neg h, if_neg (fun e => h e.symm)]

theorem invariant_m (l : ℕ) (F : List ℝ) : Invariant (2 * l + 1) (lMelem (2 * l + 1) .m) fun a b p q => (uSpherical l F a b p q : ℂ) := by
  intro a b p q
  have h := invariant_p l F p q a b
  simp only [lMelem, lDown_lUp] at *
  rw [← neg_eq_zero, ← Finset.sum_neg_distrib, ← h]
  apply Finset.sum_congr rfl
  intro x _
  rw [(C121_symmetries l F x q a b).2.2.1.symm, (C121_symmetries l F p x a b).2.2.1.symm, (C121_symmetries l F x b p q).2.2.1.symm,
    (C121_symmetries l F a x p q).2.2.1.symm]
  ring

theorem invariant_z (l : ℕ) (F : List ℝ) : Invariant (2 * l + 1) (lMelem (2 * l + 1) .z) fun a b p q => (uSpherical l F a b p q : ℂ) := by
  intro a b p q
  simp only [Finset.sum_add_distrib, Finset.sum_sub_distrib, lMelem, ite_mul, mul_ite, zero_mul, mul_zero, Fin.val_inj]
  simp only [Finset.sum_ite_eq, Finset.sum_ite_eq', Finset.mem_univ, if_true]
  by_cases h : (a : ℕ) + b = p + q
  · have h' : ((a : ℕ) : ℂ) + (b : ℕ) = (p : ℕ) + (q : ℕ) := by exact_mod_cast h
    push_cast
    linear_combination (uSpherical l F a b p q : ℂ) * h'
  · rw [(C121_symmetries l F a b p q).1 h]
    simp

theorem Invariant.lin {n : ℕ} {L N : ℕ → ℕ → ℂ} {U : ℕ → ℕ → ℕ → ℕ → ℂ} (h : Invariant n L U) (h' : Invariant n N U) (r s : ℂ) :
    Invariant n (fun i j => r * L i j + s * N i j) U := by
  intro a b p q
  have h1 := h a b p q
  have h2 := h' a b p q
  calc _ = r * ∑ x : Fin n, (L a x * U x b p q + L b x * U a x p q - U a b x q * L x p - U a b p x * L x q) +
        s * ∑ x : Fin n, (N a x * U x b p q + N b x * U a x p q - U a b x q * N x p - U a b p x * N x q) := by
        rw [Finset.mul_sum, Finset.mul_sum, ← Finset.sum_add_distrib]
        apply Finset.sum_congr rfl
        intro x _
        ring
    _ = 0 := by rw [h1, h2]; ring

theorem invariant_all (l : ℕ) (F : List ℝ) (k : Cmp) :
    Invariant (2 * l + 1) (lMelem (2 * l + 1) k) fun a b p q => (uSpherical l F a b p q : ℂ) := by
  cases k with
  | z => exact invariant_z l F
  | p => exact invariant_p l F
  | m => exact invariant_m l F
  | x =>
    have := (invariant_p l F).lin (invariant_m l F) (1 / 2) (1 / 2)
    convert this using 1
    funext i j
    simp only [lMelem]
    ring
  | y =>
    have := (invariant_p l F).lin (invariant_m l F) (-(1 / 2) * I) (1 / 2 * I)
    convert this using 1
    funext i j
    simp only [lMelem]
    ring

section
variable {σ : Type} [DecidableEq σ] {ι : Type} [LinearOrder ι]

omit [DecidableEq σ] [LinearOrder ι] in
theorem sum4 {X B : Type} [Fintype X] [AddCommMonoid B] (f : X → X → X → X → B) :
    ∑ x, ∑ y, ∑ a, ∑ b, f x y a b = ∑ a, ∑ b, ∑ x, ∑ y, f x y a b := by
  have := Finset.sum_comm (s := (univ : Finset (X × X))) (t := (univ : Finset (X × X))) (f := fun u v => f u.1 u.2 v.1 v.2)
  simpa only [Fintype.sum_prod_type] using this

/-- the orbital momentum in the original basis -/
theorem lOp_substitution (k : Cmp) (mk : σ → ℕ → ι) (sp : List σ) (n : ℕ) (t : ℕ → ℕ → ℂ) :
    action (lOp k mk sp n (some t)) = one (X := Fin sp.length × Fin n)
      (fun x => (∑ o : Fin n, star (t o x.2) • create (mk sp[x.1] o) : Module.End ℂ (Space ι ℂ)))
      (fun x => (∑ o : Fin n, t o x.2 • annihilate (mk sp[x.1] o) : Module.End ℂ (Space ι ℂ)))
      (fun x y => if x.1 = y.1 then lMelem n k x.2 y.2 else 0) := by
  unfold lOp
  rw [orbitalOp_action]
  unfold one
  simp only [Fintype.sum_prod_type]
  apply Finset.sum_congr rfl
  intro i _
  rw [Finset.sum_comm, Finset.sum_comm (s := (univ : Finset (Fin n)))]
  apply Finset.sum_congr rfl
  intro j _
  by_cases h : i = j
  · subst h
    simp only [if_true]
    simp only [lMatrix_tr, tr, Finset.sum_mul_sum, Finset.sum_smul, Finset.smul_sum, smul_mul_smul_comm, smul_smul]
    calc _ = ∑ x : Fin n, ∑ y : Fin n, ∑ a : Fin n, ∑ b : Fin n, (star (t x a) * lMelem n k a b * t y b) •
          ((create (mk sp[i] x) : Module.End ℂ (Space ι ℂ)) * annihilate (mk sp[i] y)) := rfl
      _ = ∑ a : Fin n, ∑ b : Fin n, ∑ x : Fin n, ∑ y : Fin n, (star (t x a) * lMelem n k a b * t y b) •
          ((create (mk sp[i] x) : Module.End ℂ (Space ι ℂ)) * annihilate (mk sp[i] y)) := by
        exact sum4 _
      _ = _ := by
        apply Finset.sum_congr rfl; intro a _; apply Finset.sum_congr rfl; intro b _
        apply Finset.sum_congr rfl; intro x _; apply Finset.sum_congr rfl; intro y _
        congr 1
        ring
  · simp [h]

/-- the Slater Hamiltonian in the original basis -/
theorem slater_substitution (mk : σ → ℕ → ι) (sp : List σ) (n : ℕ) (t : ℕ → ℕ → ℂ) (U : ℕ → ℕ → ℕ → ℕ → ℂ) :
    action (slater mk sp n (transformU n t U)) = (1 / 2 : ℂ) • two (X := Fin sp.length × Fin n)
      (fun x => (∑ o : Fin n, star (t o x.2) • create (mk sp[x.1] o) : Module.End ℂ (Space ι ℂ)))
      (fun x => (∑ o : Fin n, t o x.2 • annihilate (mk sp[x.1] o) : Module.End ℂ (Space ι ℂ)))
      (spinTensor sp.length n U) := by
  have h := C117_substitution mk sp n n t U
  simp only at h
  rw [h, two_spinTensor]
  simp only [Finset.smul_sum, smul_smul]

/-- a change of basis of the tensor, or none -/
noncomputable def trU (n : ℕ) (T : Option (ℕ → ℕ → ℂ)) (U : ℕ → ℕ → ℕ → ℕ → ℂ) : ℕ → ℕ → ℕ → ℕ → ℂ :=
  match T with
  | none => U
  | some T => transformU n T U

theorem invariant_commutes (k : Cmp) (mk : σ → ℕ → ι) (sp : List σ) (n : ℕ) (T : Option (ℕ → ℕ → ℂ)) (U : ℕ → ℕ → ℕ → ℕ → ℂ)
    (hsp : sp.Nodup) (hinj : Inj mk sp n) (hT : Basis n T) (hU : Invariant n (lMelem n k) U) :
    br (action (lOp k mk sp n T)) (action (slater mk sp n (trU n T U))) = 0 := by
  cases T with
  | none =>
    have h1 := comm_orbital sp.length n U (fun x => create (lab mk sp n x)) (fun x => annihilate (lab mk sp n x))
      (car_of_injective (R := ℂ) _ (lab_injective hsp hinj)) (lMelem n k) hU
    have h2 : action (lOp k mk sp n none) = _ := orbitalOp_action mk sp n (lMelem n k)
    have h3 : action (slater mk sp n (trU n none U)) = _ := slater_two mk sp n U
    rw [h2, h3, comm_smul, h1, smul_zero]
  | some t =>
    have h1 := comm_orbital sp.length n U _ _ (C117_car mk sp n n t hsp hinj (hT t rfl)) _ hU
    have h3 : action (slater mk sp n (trU n (some t) U)) = _ := slater_substitution mk sp n t U
    rw [lOp_substitution, h3, comm_smul, h1, smul_zero]

/-- The Slater Hamiltonian of a shell is invariant under rotations of the orbitals: in the spherical basis, and in every basis
given by an orthonormal matrix, it commutes with the three components of the orbital momentum of the same basis. -/
theorem rotation (k : Cmp) (mk : σ → ℕ → ι) (sp : List σ) (l : ℕ) (T : Option (ℕ → ℕ → ℂ)) (F : List ℝ) (hsp : sp.Nodup)
    (hinj : Inj mk sp (2 * l + 1)) (hT : Basis (2 * l + 1) T) :
    eqOp (mul (lOp k mk sp (2 * l + 1) T) (slater mk sp (2 * l + 1) (uBasis l T F)))
      (mul (slater mk sp (2 * l + 1) (uBasis l T F)) (lOp k mk sp (2 * l + 1) T)) = true := by
  have e : uBasis l T F = trU (2 * l + 1) T fun a b p q => (uSpherical l F a b p q : ℂ) := by cases T <;> rfl
  rw [e]
  exact eqOp_comm (orbitalOp_canonical mk sp (2 * l + 1) (lMatrix (2 * l + 1) T k)) (slater_canonical _ _ _ _)
    (invariant_commutes k mk sp (2 * l + 1) T _ hsp hinj hT (invariant_all l F k))

end

theorem transformU_sum (n : ℕ) (T : ℕ → ℕ → ℂ) (U : ℕ → ℕ → ℕ → ℕ → ℂ) (a b p q : ℕ) : transformU n T U a b p q =
    ∑ x : Fin n, ∑ y : Fin n, ∑ z : Fin n, ∑ w : Fin n, star (T a x) * star (T b y) * U x y z w * T p z * T q w := sum_quads n _

/-- In every basis the matrix is Hermitian and symmetric under exchange of the two electrons. -/
theorem basis_symmetries (l : ℕ) (T : Option (ℕ → ℕ → ℂ)) (F : List ℝ) (a b p q : ℕ) :
    star (uBasis l T F a b p q) = uBasis l T F p q a b ∧ uBasis l T F b a q p = uBasis l T F a b p q := by
  cases T with
  | none =>
    obtain ⟨_, h1, h2, _⟩ := C121_symmetries l F a b p q
    simp only [uBasis, h1, h2, and_true]
    exact Complex.conj_ofReal _
  | some t =>
    simp only [uBasis, transformU_sum]
    constructor
    · rw [sum4]
      simp only [star_sum]
      apply Finset.sum_congr rfl; intro x _; apply Finset.sum_congr rfl; intro y _
      apply Finset.sum_congr rfl; intro z _; apply Finset.sum_congr rfl; intro w _
      rw [(C121_symmetries l F x y z w).2.2.1]
      simp only [star_mul', star_star]
      rw [show star ((uSpherical l F x y z w : ℝ) : ℂ) = ((uSpherical l F x y z w : ℝ) : ℂ) from Complex.conj_ofReal _]
      ring
    · rw [Finset.sum_comm]
      apply Finset.sum_congr rfl; intro x _; apply Finset.sum_congr rfl; intro y _
      rw [Finset.sum_comm]
      apply Finset.sum_congr rfl; intro z _; apply Finset.sum_congr rfl; intro w _
      rw [(C121_symmetries l F x y z w).2.1]
      ring

theorem rev_sum (l : ℕ) (f : ℕ → ℂ) : ∑ x : Fin (2 * l + 1), f (2 * l - x) = ∑ x : Fin (2 * l + 1), f x := by
  rw [← Equiv.sum_comp Fin.revPerm fun x : Fin (2 * l + 1) => f x]
  apply Finset.sum_congr rfl
  intro x _
  rw [Fin.revPerm_apply, Fin.val_rev]
  congr 1
  omega

theorem neg_one_sq_pow (n : ℕ) : ((-1 : ℂ) ^ n) * (-1) ^ n = 1 := by rw [← mul_pow]; simp

theorem real_star {l : ℕ} {T : ℕ → ℕ → ℂ} {a : ℕ} (h : RealRow l T a) (x : Fin (2 * l + 1)) :
    star (T a x) = (-1) ^ (x + l : ℕ) * T a (2 * l - x) := by
  rw [h x (by omega), ← mul_assoc, neg_one_sq_pow, one_mul]

/-- In a basis of real orbitals the matrix is real, and the orbitals of each electron may be exchanged. -/
theorem real_basis (l : ℕ) (T : ℕ → ℕ → ℂ) (F : List ℝ) (a b p q : ℕ) (ha : RealRow l T a) (hb : RealRow l T b) (hp : RealRow l T p)
    (hq : RealRow l T q) : (uBasis l (some T) F a b p q).im = 0 ∧ uBasis l (some T) F p b a q = uBasis l (some T) F a b p q := by
  constructor
  · apply Complex.conj_eq_iff_im.mp
    change star (uBasis l (some T) F a b p q) = _
    simp only [uBasis, transformU_sum]
    conv_rhs => rw [← rev_sum l (fun x => ∑ y : Fin (2 * l + 1), ∑ z : Fin (2 * l + 1), ∑ w : Fin (2 * l + 1),
      star (T a x) * star (T b y) * (uSpherical l F x y z w : ℂ) * T p z * T q w)]
    simp only [star_sum]
    apply Finset.sum_congr rfl; intro x _
    rw [← rev_sum l (fun y => ∑ z : Fin (2 * l + 1), ∑ w : Fin (2 * l + 1),
      star (T a (2 * l - x)) * star (T b y) * (uSpherical l F (2 * l - x) y z w : ℂ) * T p z * T q w)]
    apply Finset.sum_congr rfl; intro y _
    rw [← rev_sum l (fun z => ∑ w : Fin (2 * l + 1),
      star (T a (2 * l - x)) * star (T b (2 * l - y)) * (uSpherical l F (2 * l - x) (2 * l - y) z w : ℂ) * T p z * T q w)]
    apply Finset.sum_congr rfl; intro z _
    rw [← rev_sum l (fun w => star (T a (2 * l - x)) * star (T b (2 * l - y)) *
      (uSpherical l F (2 * l - x) (2 * l - y) (2 * l - z) w : ℂ) * T p (2 * l - z) * T q w)]
    apply Finset.sum_congr rfl; intro w _
    have hx := x.2
    have hy := y.2
    have hz := z.2
    have hw := w.2
    obtain ⟨h0, _, _, h3⟩ := C121_symmetries l F x y z w
    rw [h3 (by omega) (by omega) (by omega) (by omega), ha x (by omega), hb y (by omega), hp z (by omega), hq w (by omega)]
    by_cases h : (x : ℕ) + y = z + w
    · simp only [star_mul', star_star, star_pow, star_neg, star_one]
      rw [show star ((uSpherical l F x y z w : ℝ) : ℂ) = ((uSpherical l F x y z w : ℝ) : ℂ) from Complex.conj_ofReal _]
      have e : ((-1 : ℂ) ^ ((x : ℕ) + l)) * (-1) ^ ((y : ℕ) + l) * ((-1) ^ ((z : ℕ) + l) * (-1) ^ ((w : ℕ) + l)) = 1 := by
        rw [← pow_add, ← pow_add, show (x : ℕ) + l + (y + l) = z + l + (w + l) by omega]
        exact neg_one_sq_pow _
      linear_combination -(T a x * T b y * (uSpherical l F x y z w : ℂ) * star (T p z) * star (T q w)) * e
    · rw [h0 h]
      simp
  · simp only [uBasis, transformU_sum]
    have e : ∀ f : Fin (2 * l + 1) → Fin (2 * l + 1) → Fin (2 * l + 1) → Fin (2 * l + 1) → ℂ,
        ∑ x, ∑ y, ∑ a, ∑ b, f x y a b = ∑ a, ∑ y, ∑ x, ∑ b, f x y a b := by
      intro f
      rw [Finset.sum_comm]
      rw [Finset.sum_comm (s := (univ : Finset (Fin (2 * l + 1)))) (f := fun a y => ∑ x, ∑ b, f x y a b)]
      apply Finset.sum_congr rfl
      intro y _
      exact Finset.sum_comm
    rw [e]
    rw [← rev_sum l (fun x => ∑ y : Fin (2 * l + 1), ∑ z : Fin (2 * l + 1), ∑ w : Fin (2 * l + 1),
      star (T a x) * star (T b y) * (uSpherical l F x y z w : ℂ) * T p z * T q w)]
    apply Finset.sum_congr rfl; intro x _
    apply Finset.sum_congr rfl; intro y _
    rw [← rev_sum l (fun z => ∑ w : Fin (2 * l + 1),
      star (T a (2 * l - x)) * star (T b y) * (uSpherical l F (2 * l - x) y z w : ℂ) * T p z * T q w)]
    apply Finset.sum_congr rfl; intro z _
    apply Finset.sum_congr rfl; intro w _
    have hx := x.2
    have hz := z.2
    rw [ha x (by omega), hp z (by omega)]
    have hu : uSpherical l F (2 * l - x) y (2 * l - z) w = sign ((x : ℤ) + z) * uSpherical l F z y x w := by
      simp only [uSpherical_uZ]
      rw [show (((2 * l - x : ℕ) : ℤ) - l) = -((x : ℤ) - l) by omega, show (((2 * l - z : ℕ) : ℤ) - l) = -((z : ℤ) - l) by omega,
        uZ_congr (fun k hk => angular_real l k _ _ _ _ hk), sign_congr (m := ((z : ℤ) - l) + (x - l)) (n := (x : ℤ) + z) (by omega)]
    have e2 : ((sign ((x : ℤ) + z) : ℝ) : ℂ) * ((-1) ^ ((x : ℕ) + l) * (-1) ^ ((z : ℕ) + l)) = 1 := by
      have h1 : ((sign ((x : ℤ) + z) : ℝ) : ℂ) = (-1) ^ ((x : ℕ) + z) := by
        rw [sign_zpow]
        push_cast
        rw [← zpow_natCast]
        push_cast
        rfl
      rw [h1, ← pow_add, ← pow_add, show (x : ℕ) + z + (x + l + (z + l)) = (x + z + l) + (x + z + l) by ring, pow_add]
      exact neg_one_sq_pow _
    rw [hu]
    push_cast
    simp only [star_mul', star_star, star_pow, star_neg, star_one]
    linear_combination -(T a x * star (T b y) * (uSpherical l F z y x w : ℂ) * star (T p z) * T q w) * e2

theorem fin_Icc (l : ℕ) (f : ℤ → ℝ) : ∑ x : Fin (2 * l + 1), f ((x : ℤ) - l) = ∑ m ∈ Icc (-(l : ℤ)) l, f m := by
  have : Icc (-(l : ℤ)) l = (range (2 * l + 1)).image fun i : ℕ => (i : ℤ) - l := by
    ext x
    simp only [Finset.mem_Icc, Finset.mem_image, Finset.mem_range]
    constructor
    · intro h
      exact ⟨(x + l).toNat, by omega, by omega⟩
    · rintro ⟨i, hi, rfl⟩
      omega
  rw [this, Finset.sum_image (by intro x _ y _ h; simpa using h), Finset.sum_range]

/-- the interaction of a closed shell with an electron has no part of order `k > 0` -/
theorem trace_zero (l k : ℤ) (hk : 0 < k) : ∑ m ∈ Icc (-l) l, sign m * threeJ l (-m) k 0 l m = 0 := by
  have h1 : ∀ m ∈ Icc (-l) l, up k (-1) * (sign m * threeJ l (-m) k 0 l m) =
      -(sign m * (up l (m - 1) * threeJ l (-(m - 1)) k (-1) l m)) - sign m * (up l m * threeJ l (-(m + 1 - 1)) k (-1) l (m + 1)) := by
    intro m hm
    rw [Finset.mem_Icc] at hm
    have h := C122_raise l (-m) k (-1) l m (by unfold Mag; omega) (by unfold Mag; omega) (by unfold Mag; omega)
    rw [show up l (-m) = up l (m - 1) from by rw [← up_reflect l (m - 1)]; congr 1; ring, show -m + 1 = -(m - 1) by ring,
      show (-1 : ℤ) + 1 = 0 by norm_num] at h
    rw [show m + 1 - 1 = m by ring]
    linear_combination sign m * h
  have h2 := sum_shift l sign (fun m => threeJ l (-(m - 1)) k (-1) l m)
  have h3 : up k (-1) * ∑ m ∈ Icc (-l) l, sign m * threeJ l (-m) k 0 l m = 0 := by
    rw [Finset.mul_sum, Finset.sum_congr rfl h1, Finset.sum_sub_distrib, h2, ← Finset.sum_sub_distrib]
    apply Finset.sum_eq_zero
    intro m _
    rw [show sign (m - 1) = -sign m by rw [sub_eq_add_neg, sign_add, ThreeJ.sign_neg, sign_one]; ring]
    ring
  exact (mul_eq_zero.mp h3).resolve_left (up_ne (by omega) (by omega))

theorem trace_one (l : ℤ) (hl : 0 ≤ l) : (∑ m ∈ Icc (-l) l, sign m * threeJ l (-m) 0 0 l m) ^ 2 = ((2 * l + 1 : ℤ) : ℝ) := by
  have h1 : ∀ m ∈ Icc (-l) l, sign m * threeJ l (-m) 0 0 l m = sign l / Real.sqrt ((2 * l + 1 : ℤ) : ℝ) := by
    intro m hm
    rw [Finset.mem_Icc] at hm
    have h := threeJ_scalar l (-m) (by unfold Mag; omega)
    rw [neg_neg] at h
    rw [h, sign_add, ThreeJ.sign_neg]
    linear_combination sign l / Real.sqrt ((2 * l + 1 : ℤ) : ℝ) * sign_sq m
  rw [Finset.sum_congr rfl h1, Finset.sum_const, Int.card_Icc, nsmul_eq_mul]
  have hp : (0 : ℝ) < ((2 * l + 1 : ℤ) : ℝ) := by exact_mod_cast (by omega)
  have hs := Real.mul_self_sqrt hp.le
  have hs' := (Real.sqrt_pos.mpr hp).ne'
  have hc : (((l + 1 - -l).toNat : ℕ) : ℝ) = ((2 * l + 1 : ℤ) : ℝ) := by
    rw [← Int.cast_natCast, Int.toNat_of_nonneg (by omega)]
    congr 1
    ring
  rw [hc]
  set r := Real.sqrt ((2 * l + 1 : ℤ) : ℝ)
  rw [← hs]
  field_simp
  linear_combination sign_sq l

theorem zero_sq (l : ℤ) (hl : 0 ≤ l) : threeJ l 0 0 0 l 0 ^ 2 = 1 / ((2 * l + 1 : ℤ) : ℝ) := by
  rw [threeJ_zero_zero l hl, div_pow, Real.sq_sqrt (by exact_mod_cast (by omega)), sq, sign_sq]

/-- sum of the direct terms -/
theorem direct_sum (l k : ℤ) (hl : 0 ≤ l) (hk : 0 ≤ k) :
    ∑ m1 ∈ Icc (-l) l, ∑ m2 ∈ Icc (-l) l, angular l k m1 m2 m1 m2 = if k = 0 then ((2 * l + 1 : ℤ) : ℝ) ^ 2 else 0 := by
  have h1 : ∀ m1 m2, angular l k m1 m2 m1 m2 = (sign m1 * threeJ l (-m1) k 0 l m1) * (sign m2 * threeJ l (-m2) k 0 l m2) *
      (((2 * l + 1 : ℤ) : ℝ) ^ 2 * threeJ l 0 k 0 l 0 ^ 2) := by
    intro m1 m2
    rw [angular_sum]
    congr 1
    rw [Finset.sum_eq_single 0]
    · rw [neg_zero, show m1 + 0 + m2 = m1 + m2 by ring, sign_add]
      ring
    · intro q _ hq
      rw [threeJ_zero (by omega)]
      ring
    · intro h
      exfalso
      apply h
      rw [Finset.mem_Icc]
      omega
  simp only [h1, ← Finset.sum_mul, ← Finset.mul_sum]
  split_ifs with h
  · subst h
    rw [zero_sq l hl, ← sq, trace_one l hl]
    have hp : ((2 * l + 1 : ℤ) : ℝ) ≠ 0 := by exact_mod_cast (by omega)
    field_simp
  · rw [trace_zero l k (by omega)]
    ring

/-- sum of the exchange terms -/
theorem exchange_sum (l k : ℤ) (hl : 0 ≤ l) :
    ∑ m1 ∈ Icc (-l) l, ∑ m2 ∈ Icc (-l) l, angular l k m1 m2 m2 m1 = ((2 * l + 1 : ℤ) : ℝ) ^ 2 * threeJ l 0 k 0 l 0 ^ 2 := by
  by_cases h0 : threeJ l 0 k 0 l 0 = 0
  · simp only [angular_sum, h0]
    simp
  obtain ⟨_, _, _, _, ht1, ht2⟩ := C122_selection _ _ _ _ _ _ h0
  have h1 : ∀ m1 m2, angular l k m1 m2 m2 m1 = (∑ q ∈ Icc (-k) k, threeJ l (-m1) k q l m2 * threeJ l (-m1) k q l m2) *
      (((2 * l + 1 : ℤ) : ℝ) ^ 2 * threeJ l 0 k 0 l 0 ^ 2) := by
    intro m1 m2
    rw [angular_sum]
    congr 1
    apply Finset.sum_congr rfl
    intro q _
    by_cases hs : -m1 + q + m2 = 0
    · rw [sign_congr (n := 0) (by omega), threeJ_outer]
      simp [sign]
    · rw [threeJ_zero (m1 := -m1) (by omega)]
      ring
  simp only [h1, ← Finset.sum_mul]
  rw [Finset.sum_comm]
  have h2 : ∀ m2 ∈ Icc (-l) l, ∑ m1 ∈ Icc (-l) l, ∑ q ∈ Icc (-k) k, threeJ l (-m1) k q l m2 * threeJ l (-m1) k q l m2 = 1 / (2 * (l : ℝ) + 1) := by
    intro m2 hm
    rw [sum_neg l (fun m1 => ∑ q ∈ Icc (-k) k, threeJ l m1 k q l m2 * threeJ l m1 k q l m2)]
    rw [Finset.mem_Icc] at hm
    rw [C122_orthogonal l k l m2 l m2 ⟨ht1, ht2⟩ (abs_le.mpr hm) (abs_le.mpr hm), if_pos ⟨rfl, rfl⟩]
  rw [Finset.sum_congr rfl h2, Finset.sum_const, Int.card_Icc, nsmul_eq_mul]
  have hc : (((l + 1 - -l).toNat : ℕ) : ℝ) = 2 * (l : ℝ) + 1 := by
    rw [← Int.cast_natCast, Int.toNat_of_nonneg (by omega)]
    push_cast
    ring
  rw [hc]
  have hp : (2 * (l : ℝ) + 1) ≠ 0 := by exact_mod_cast (by omega : 2 * l + 1 ≠ 0)
  field_simp

/-- the squares of the symbols that enter the matrices of the p, d and f shells -/
theorem square_values : threeJ 1 0 2 0 1 0 ^ 2 = 2 / 15 ∧ threeJ 2 0 2 0 2 0 ^ 2 = 2 / 35 ∧ threeJ 2 0 4 0 2 0 ^ 2 = 2 / 35 ∧
    threeJ 3 0 2 0 3 0 ^ 2 = 4 / 105 ∧ threeJ 3 0 4 0 3 0 ^ 2 = 2 / 77 ∧ threeJ 3 0 6 0 3 0 ^ 2 = 100 / 3003 := by
  have h : ∀ j2 j : ℤ, ¬ vanishes j 0 j2 0 j 0 → threeJ j 0 j2 0 j 0 ^ 2 =
      (fact (j + j2 - j) * fact (j - j2 + j) * fact (-j + j2 + j) / fact (j + j2 + j + 1)) *
      (fact (j - 0) * fact (j + 0) * fact (j2 - 0) * fact (j2 + 0) * fact (j - 0) * fact (j + 0)) *
      ((pyRange (tMin j 0 j2 0 j) (tMax j 0 j2 0 j + 1)).foldl (fun s t => s + tTerm j 0 j2 0 j t) 0) ^ 2 := by
    intro j2 j h
    have hp : ∀ n, 0 ≤ fact n := fun n => (fact_pos n).le
    unfold threeJ
    rw [if_neg h, mul_pow, mul_pow, mul_pow, Real.sq_sqrt, Real.sq_sqrt]
    · rw [show sign (j - j2 - 0) ^ 2 = 1 by rw [sq, sign_sq]]
      ring
    · exact mul_nonneg (mul_nonneg (mul_nonneg (mul_nonneg (mul_nonneg (hp _) (hp _)) (hp _)) (hp _)) (hp _)) (hp _)
    · exact div_nonneg (mul_nonneg (mul_nonneg (hp _) (hp _)) (hp _)) (hp _)
  have f0 : fact 0 = 1 := by have := fact_nat 0; norm_num [Nat.factorial] at this; exact this
  have f1 : fact 1 = 1 := by have := fact_nat 1; norm_num [Nat.factorial] at this; exact this
  have f2 : fact 2 = 2 := by have := fact_nat 2; norm_num [Nat.factorial] at this; exact this
  have f3 : fact 3 = 6 := by have := fact_nat 3; norm_num [Nat.factorial] at this; exact this
  have f4 : fact 4 = 24 := by have := fact_nat 4; norm_num [Nat.factorial] at this; exact this
  have f5 : fact 5 = 120 := by have := fact_nat 5; norm_num [Nat.factorial] at this; exact this
  have f6 : fact 6 = 720 := by have := fact_nat 6; norm_num [Nat.factorial] at this; exact this
  have f7 : fact 7 = 5040 := by have := fact_nat 7; norm_num [Nat.factorial] at this; exact this
  have f8 : fact 8 = 40320 := by have := fact_nat 8; norm_num [Nat.factorial] at this; exact this
  have f9 : fact 9 = 362880 := by have := fact_nat 9; norm_num [Nat.factorial] at this; exact this
  have f11 : fact 11 = 39916800 := by have := fact_nat 11; norm_num [Nat.factorial] at this; exact this
  have f13 : fact 13 = 6227020800 := by have := fact_nat 13; norm_num [Nat.factorial] at this; exact this
  refine ⟨?_, ?_, ?_, ?_, ?_, ?_⟩
  · rw [h _ _ (by decide), show pyRange (tMin 1 0 2 0 1) (tMax 1 0 2 0 1 + 1) = [1] by decide]
    norm_num [tTerm, sign, f0, f1, f2, f3, f4, f5, f6, f7, f8, f9, f11, f13]
  · rw [h _ _ (by decide), show pyRange (tMin 2 0 2 0 2) (tMax 2 0 2 0 2 + 1) = [0, 1, 2] by decide]
    norm_num [tTerm, sign, f0, f1, f2, f3, f4, f5, f6, f7, f8, f9, f11, f13]
  · rw [h _ _ (by decide), show pyRange (tMin 2 0 4 0 2) (tMax 2 0 4 0 2 + 1) = [2] by decide]
    norm_num [tTerm, sign, f0, f1, f2, f3, f4, f5, f6, f7, f8, f9, f11, f13]
  · rw [h _ _ (by decide), show pyRange (tMin 3 0 2 0 3) (tMax 3 0 2 0 3 + 1) = [0, 1, 2] by decide]
    norm_num [tTerm, sign, f0, f1, f2, f3, f4, f5, f6, f7, f8, f9, f11, f13]
  · rw [h _ _ (by decide), show pyRange (tMin 3 0 4 0 3) (tMax 3 0 4 0 3 + 1) = [1, 2, 3] by decide]
    norm_num [tTerm, sign, f0, f1, f2, f3, f4, f5, f6, f7, f8, f9, f11, f13]
  · rw [h _ _ (by decide), show pyRange (tMin 3 0 6 0 3) (tMax 3 0 6 0 3 + 1) = [3] by decide]
    norm_num [tTerm, sign, f0, f1, f2, f3, f4, f5, f6, f7, f8, f9, f11, f13]

theorem list_sum_comm (L : List (ℝ × ℕ)) (n : ℕ) (f : ℝ × ℕ → Fin n → Fin n → ℝ) :
    ∑ a : Fin n, ∑ b : Fin n, (L.map fun x => f x a b).sum = (L.map fun x => ∑ a : Fin n, ∑ b : Fin n, f x a b).sum := by
  induction L with
  | nil => simp
  | cons x L ih => simp only [List.map_cons, List.sum_cons, Finset.sum_add_distrib, ih]

/-- sum of the direct terms of the matrix -/
theorem direct_total (l : ℕ) (F : List ℝ) : ∑ a : Fin (2 * l + 1), ∑ b : Fin (2 * l + 1), uSpherical l F a b a b = F.headD 0 * (2 * l + 1) ^ 2 := by
  simp only [uSpherical_sum]
  rw [list_sum_comm F.zipIdx (2 * l + 1) fun x a b => x.1 * angular l (2 * x.2 : ℕ) ((a : ℤ) - l) ((b : ℤ) - l) ((a : ℤ) - l) ((b : ℤ) - l)]
  have h : ∀ x : ℝ × ℕ, ∑ a : Fin (2 * l + 1), ∑ b : Fin (2 * l + 1),
      x.1 * angular l (2 * x.2 : ℕ) ((a : ℤ) - l) ((b : ℤ) - l) ((a : ℤ) - l) ((b : ℤ) - l) = if x.2 = 0 then x.1 * (2 * l + 1) ^ 2 else 0 := by
    intro x
    simp only [← Finset.mul_sum]
    rw [fin_Icc l fun m => ∑ b : Fin (2 * l + 1), angular l (2 * x.2 : ℕ) m ((b : ℤ) - l) m ((b : ℤ) - l)]
    rw [Finset.sum_congr rfl fun m _ => fin_Icc l fun m' => angular l (2 * x.2 : ℕ) m m' m m', direct_sum _ _ (by omega) (by omega)]
    split_ifs with h1 h2 h2
    · push_cast; ring
    · omega
    · omega
    · ring
  simp only [h]
  cases F with
  | nil => simp
  | cons f F =>
    rw [List.zipIdx_cons, List.map_cons, List.sum_cons, List.headD_cons]
    have : ((F.zipIdx (0 + 1)).map fun x : ℝ × ℕ => if x.2 = 0 then x.1 * (2 * (l : ℝ) + 1) ^ 2 else 0).sum = 0 := by
      apply List.sum_eq_zero
      intro y hy
      obtain ⟨x, hx, rfl⟩ := List.mem_map.mp hy
      have := List.le_snd_of_mem_zipIdx hx
      rw [if_neg (by omega)]
    rw [this]
    simp

/-- weight of a radial integral in the exchange terms -/
noncomputable def weight (l n : ℕ) : ℝ := threeJ l 0 (2 * n : ℕ) 0 l 0 ^ 2

/-- sum of the exchange terms of the matrix -/
theorem exchange_total (l : ℕ) (F : List ℝ) : ∑ a : Fin (2 * l + 1), ∑ b : Fin (2 * l + 1), uSpherical l F a b b a =
    (F.zipIdx.map fun x => x.1 * weight l x.2).sum * (2 * l + 1) ^ 2 := by
  simp only [uSpherical_sum]
  rw [list_sum_comm F.zipIdx (2 * l + 1) fun x a b => x.1 * angular l (2 * x.2 : ℕ) ((a : ℤ) - l) ((b : ℤ) - l) ((b : ℤ) - l) ((a : ℤ) - l)]
  rw [← List.sum_map_mul_right]
  congr 1
  apply List.map_congr_left
  intro x _
  simp only [← Finset.mul_sum]
  rw [fin_Icc l fun m => ∑ b : Fin (2 * l + 1), angular l (2 * x.2 : ℕ) m ((b : ℤ) - l) ((b : ℤ) - l) m]
  rw [Finset.sum_congr rfl fun m _ => fin_Icc l fun m' => angular l (2 * x.2 : ℕ) m m' m' m, exchange_sum _ _ (by omega)]
  unfold weight
  push_cast
  ring

/-- the two sums do not depend on the orthonormal basis -/
theorem trace_basis (n : ℕ) (T : ℕ → ℕ → ℂ) (U : ℕ → ℕ → ℕ → ℕ → ℂ) (hT : Orthonormal n T) :
    ∑ a : Fin n, ∑ b : Fin n, transformU n T U a b a b = ∑ a : Fin n, ∑ b : Fin n, U a b a b ∧
    ∑ a : Fin n, ∑ b : Fin n, transformU n T U a b b a = ∑ a : Fin n, ∑ b : Fin n, U a b b a := by
  have ho : ∀ x z : Fin n, ∑ a : Fin n, star (T a x) * T a z = if x = z then 1 else 0 := by
    intro x z
    rw [hT x x.2 z z.2]
    simp only [Fin.ext_iff]
  have hpull : ∀ f : Fin n → Fin n → Fin n → Fin n → Fin n → Fin n → ℂ,
      ∑ a, ∑ b, ∑ x, ∑ y, ∑ z, ∑ w, f a b x y z w = ∑ x, ∑ y, ∑ z, ∑ w, ∑ a, ∑ b, f a b x y z w := by
    intro f
    have := Finset.sum_comm (s := (univ : Finset (Fin n × Fin n))) (t := (univ : Finset (Fin n × Fin n × Fin n × Fin n)))
      (f := fun u v => f u.1 u.2 v.1 v.2.1 v.2.2.1 v.2.2.2)
    simpa only [Fintype.sum_prod_type] using this
  simp only [transformU_sum]
  constructor
  · rw [hpull]
    apply Finset.sum_congr rfl; intro x _; apply Finset.sum_congr rfl; intro y _
    have e : ∀ z w : Fin n, ∑ a : Fin n, ∑ b : Fin n, star (T a x) * star (T b y) * U x y z w * T a z * T b w =
        (if x = z then 1 else 0) * (if y = w then 1 else 0) * U x y z w := by
      intro z w
      rw [← ho, ← ho, Finset.sum_mul_sum, Finset.sum_mul]
      apply Finset.sum_congr rfl; intro a _
      rw [Finset.sum_mul]
      apply Finset.sum_congr rfl; intro b _
      ring
    simp only [e]
    simp
  · rw [hpull]
    apply Finset.sum_congr rfl; intro x _; apply Finset.sum_congr rfl; intro y _
    have e : ∀ z w : Fin n, ∑ a : Fin n, ∑ b : Fin n, star (T a x) * star (T b y) * U x y z w * T b z * T a w =
        (if x = w then 1 else 0) * (if y = z then 1 else 0) * U x y z w := by
      intro z w
      rw [← ho, ← ho, Finset.sum_mul_sum, Finset.sum_mul]
      apply Finset.sum_congr rfl; intro a _
      rw [Finset.sum_mul]
      apply Finset.sum_congr rfl; intro b _
      ring
    simp only [e]
    simp

theorem totals (l : ℕ) (T : Option (ℕ → ℕ → ℂ)) (F : List ℝ) (hT : Basis (2 * l + 1) T) :
    ∑ a : Fin (2 * l + 1), ∑ b : Fin (2 * l + 1), uBasis l T F a b a b = ((F.headD 0 * (2 * l + 1) ^ 2 : ℝ) : ℂ) ∧
    ∑ a : Fin (2 * l + 1), ∑ b : Fin (2 * l + 1), uBasis l T F a b b a =
      (((F.zipIdx.map fun x => x.1 * weight l x.2).sum * (2 * l + 1) ^ 2 : ℝ) : ℂ) := by
  have h1 := congrArg (fun r : ℝ => (r : ℂ)) (direct_total l F)
  have h2 := congrArg (fun r : ℝ => (r : ℂ)) (exchange_total l F)
  simp only [Complex.ofReal_sum] at h1 h2
  cases T with
  | none => exact ⟨h1, h2⟩
  | some t =>
    obtain ⟨t1, t2⟩ := trace_basis (2 * l + 1) t (fun a b p q => (uSpherical l F a b p q : ℂ)) (hT t rfl)
    exact ⟨t1.trans h1, t2.trans h2⟩

/-- **C124.** In every orthonormal basis the average interaction is the first radial integral, and the average interaction of equal spins
is reduced by the documented combination of the other ones. -/
theorem C124_averages (l : ℕ) (T : Option (ℕ → ℕ → ℂ)) (F0 : ℝ) (F : List ℝ) (hT : Basis (2 * l + 1) T) :
    averageU (2 * l + 1) (uBasis l T (F0 :: F)) = F0 ∧
    (l ≠ 0 → averageParallel (2 * l + 1) (uBasis l T (F0 :: F)) =
      ((F0 - (2 * l + 1) / (2 * l) * (F.zipIdx.map fun x => x.1 * threeJ l 0 (2 * (x.2 + 1) : ℕ) 0 l 0 ^ 2).sum : ℝ) : ℂ)) := by
  obtain ⟨h1, h2⟩ := totals l T (F0 :: F) hT
  have hn : ((2 * l + 1 : ℕ) : ℂ) ≠ 0 := by exact_mod_cast (by omega : 2 * l + 1 ≠ 0)
  constructor
  · unfold averageU
    rw [h1, List.headD_cons, div_eq_iff (pow_ne_zero 2 hn)]
    push_cast
    ring
  · intro hl
    unfold averageParallel
    have e : ∀ a b : Fin (2 * l + 1), (if a = b then 0 else uBasis l T (F0 :: F) a b a b - uBasis l T (F0 :: F) a b b a) =
        uBasis l T (F0 :: F) a b a b - uBasis l T (F0 :: F) a b b a := by
      intro a b
      split_ifs with h
      · rw [h, sub_self]
      · rfl
    simp only [e, Finset.sum_sub_distrib]
    rw [h1, h2, List.headD_cons, List.zipIdx_cons', List.map_cons, List.sum_cons, List.map_map]
    have hw : weight l 0 = 1 / (2 * l + 1) := by
      have := zero_sq l (by omega)
      push_cast at this
      exact this
    have hs : (F.zipIdx.map ((fun x : ℝ × ℕ => x.1 * weight l x.2) ∘ Prod.map id (· + 1))) =
        F.zipIdx.map fun x => x.1 * threeJ l 0 (2 * (x.2 + 1) : ℕ) 0 l 0 ^ 2 := rfl
    rw [hs]
    set S := (F.zipIdx.map fun x : ℝ × ℕ => x.1 * threeJ l 0 (2 * (x.2 + 1) : ℕ) 0 l 0 ^ 2).sum
    simp only [hw]
    have hl' : (l : ℂ) ≠ 0 := by exact_mod_cast hl
    have hn' : (2 * (l : ℂ) + 1) ≠ 0 := by exact_mod_cast hn
    push_cast
    rw [add_sub_cancel_right]
    field_simp
    ring

/-- **C124.** `U_J_to_radial_integrals` gives radial integrals for which, in every orthonormal basis, `U_int` is the average interaction
and `U_int - J_hund` the average interaction of equal spins in different orbitals; `radial_integrals_to_U_J` inverts it. -/
theorem C124_convert (l : ℕ) (U J : ℝ) (F : List ℝ) (h : radialOfUJ l U J = some F) :
    (∀ T, Basis (2 * l + 1) T → averageU (2 * l + 1) (uBasis l T F) = U ∧ averageParallel (2 * l + 1) (uBasis l T F) = ((U - J : ℝ) : ℂ)) ∧
    F.length = l + 1 ∧ ujOfRadial l F = some (U, J) := by
  obtain ⟨v1, v2, v3, v4, v5, v6⟩ := square_values
  match l with
  | 0 => cases h
  | 1 =>
    obtain rfl := Option.some.inj h
    refine ⟨fun T hT => ?_, rfl, ?_⟩
    · obtain ⟨a1, a2⟩ := C124_averages 1 T _ _ hT
      refine ⟨a1, (a2 (by omega)).trans ?_⟩
      norm_num [v1]
      ring
    · simp [ujOfRadial]
  | 2 =>
    obtain rfl := Option.some.inj h
    refine ⟨fun T hT => ?_, rfl, ?_⟩
    · obtain ⟨a1, a2⟩ := C124_averages 2 T _ _ hT
      refine ⟨a1, (a2 (by omega)).trans ?_⟩
      norm_num [v2, v3]
      ring
    · simp [ujOfRadial]
      ring
  | 3 =>
    obtain rfl := Option.some.inj h
    refine ⟨fun T hT => ?_, rfl, ?_⟩
    · obtain ⟨a1, a2⟩ := C124_averages 3 T _ _ hT
      refine ⟨a1, (a2 (by omega)).trans ?_⟩
      norm_num [v4, v5, v6]
      ring
    · simp [ujOfRadial]
      ring
  | l + 4 => cases h

/-- **C124.** `radial_integrals_to_U_J` looks at the first two integrals only. Its `U_int` is the average interaction, its `J_hund`
belongs to the interaction only if the other integrals have the ratios that `U_J_to_radial_integrals` assumes. -/
theorem C124_inverse (l : ℕ) (F : List ℝ) (U J : ℝ) (hF : F.length = l + 1) (h : ujOfRadial l F = some (U, J))
    (T : Option (ℕ → ℕ → ℂ)) (hT : Basis (2 * l + 1) T) :
    averageU (2 * l + 1) (uBasis l T F) = U ∧
    (averageParallel (2 * l + 1) (uBasis l T F) = ((U - J : ℝ) : ℂ) ↔
      match F with
      | [_, _] => True
      | [_, F2, F4] => F4 = 0.63 * F2
      | [_, F2, F4, F6] => 195 * (F4 - 451 / 675 * F2) + 250 * (F6 - 1001 / 2025 * F2) = 0
      | _ => False) := by
  obtain ⟨v1, v2, v3, v4, v5, v6⟩ := square_values
  match l, F with
  | 1, [F0, F2] =>
    simp [ujOfRadial] at h
    obtain ⟨rfl, rfl⟩ := h
    obtain ⟨a1, a2⟩ := C124_averages 1 T _ _ hT
    refine ⟨a1, ?_⟩
    rw [a2 (by omega), Complex.ofReal_inj]
    norm_num [v1]
    ring
  | 2, [F0, F2, F4] =>
    simp [ujOfRadial] at h
    obtain ⟨rfl, rfl⟩ := h
    obtain ⟨a1, a2⟩ := C124_averages 2 T _ _ hT
    refine ⟨a1, ?_⟩
    rw [a2 (by omega), Complex.ofReal_inj]
    norm_num [v2, v3]
    constructor <;> intro h <;> linarith
  | 3, [F0, F2, F4, F6] =>
    simp [ujOfRadial] at h
    obtain ⟨rfl, rfl⟩ := h
    obtain ⟨a1, a2⟩ := C124_averages 3 T _ _ hT
    refine ⟨a1, ?_⟩
    rw [a2 (by omega), Complex.ofReal_inj]
    norm_num [v4, v5, v6]
    constructor <;> intro h <;> linarith
  | 0, F => simp [ujOfRadial] at h
  | l + 4, F => simp [ujOfRadial] at h

theorem radialArg_ends (l : ℕ) (F : Option (List ℝ)) (U J : Option ℝ) :
    (radialArg l F U J = .typeError ↔ F = none ∧ (U.isSome ≠ J.isSome)) ∧
    ∀ F', radialArg l F U J = .ok F' → F = some F' ∨ (F = none ∧ ∃ u j, U = some u ∧ J = some j ∧ radialOfUJ l u j = some F') := by
  unfold radialArg
  rcases F with _ | F <;> rcases U with _ | U <;> rcases J with _ | J <;> simp
  · cases h : radialOfUJ l U J <;> simp
  · cases h : radialOfUJ l U J <;> simp
    split_ifs <;> simp

/-- **C121.** How a call of `U_matrix_slater` ends: the missing radial integrals are reported only if both `U_int` and `J_hund` are
missing too, with exactly one of them the loop over `None` raises a `TypeError`. -/
theorem C121_outcome (l : ℕ) (F : Option (List ℝ)) (U J : Option ℝ) (b : BasisArg) (T : Option (ℕ → ℕ → ℂ)) :
    (uMatrixSlater l F U J b T = .typeError ↔ F = none ∧ (U.isSome ≠ J.isSome)) ∧
    (∀ V, uMatrixSlater l F U J b T = .ok V →
      ∃ F' T', basisArg l b T = some T' ∧ V = uBasis l T' F' ∧
        (F = some F' ∨ (F = none ∧ ∃ u j, U = some u ∧ J = some j ∧ radialOfUJ l u j = some F'))) ∧
    (∀ F', F = some F' → U = none ∨ J = none → (uMatrixSlater l F U J b T = .valueError ↔ (b = .cubic ∧ 3 < l) ∨ (b = .other ∧ T = none))) := by
  have hb : basisArg l b T = none ↔ (b = .cubic ∧ 3 < l) ∨ (b = .other ∧ T = none) := by
    have := C120_domain .triqs l
    cases b <;> simp [basisArg, this]
  obtain ⟨r1, r2⟩ := radialArg_ends l F U J
  refine ⟨?_, ?_, ?_⟩
  · rw [← r1]
    unfold uMatrixSlater
    cases radialArg l F U J <;> cases basisArg l b T <;> simp
  · intro V hV
    unfold uMatrixSlater at hV
    cases hF : radialArg l F U J with
    | ok F' =>
      rw [hF] at hV
      cases hT : basisArg l b T with
      | none => rw [hT] at hV; cases hV
      | some T' =>
        rw [hT] at hV
        cases hV
        exact ⟨F', T', rfl, rfl, r2 F' hF⟩
    | valueError => rw [hF] at hV; cases hV
    | typeError => rw [hF] at hV; cases hV
  · rintro F' rfl h
    rw [← hb]
    unfold uMatrixSlater radialArg
    cases hT : basisArg l b T <;> rcases U with _ | U <;> rcases J with _ | J <;> simp_all

/-- **C121.** Every matrix returned by `U_matrix_slater` for a shell gives a Hermitian Slater Hamiltonian that is invariant under
rotations: it commutes with the orbital momentum of the basis that was used. -/
theorem C121_invariant {σ ι : Type} [DecidableEq σ] [LinearOrder ι] (mk : σ → ℕ → ι) (sp : List σ) (l : ℕ) (F : Option (List ℝ))
    (U J : Option ℝ) (b : BasisArg) (T T' : Option (ℕ → ℕ → ℂ)) (V : ℕ → ℕ → ℕ → ℕ → ℂ) (hsp : sp.Nodup) (hinj : Inj mk sp (2 * l + 1))
    (hT : Basis (2 * l + 1) T) (hl : b = .cubic → l ≠ 0) (hb : basisArg l b T = some T') (h : uMatrixSlater l F U J b T = .ok V) :
    isHermitian (slater mk sp (2 * l + 1) V) = true ∧
    (∀ x y p q, V y x q p = V x y p q) ∧
    ∀ k, eqOp (mul (lOp k mk sp (2 * l + 1) T') (slater mk sp (2 * l + 1) V)) (mul (slater mk sp (2 * l + 1) V) (lOp k mk sp (2 * l + 1) T')) = true := by
  obtain ⟨F', T'', hb', rfl, _⟩ := (C121_outcome l F U J b T).2.1 V h
  rw [hb] at hb'
  obtain rfl := Option.some.inj hb'
  have hT' : Basis (2 * l + 1) T' := by
    cases b with
    | spherical => exact Option.some.inj hb ▸ hT
    | other =>
      simp only [basisArg] at hb
      split_ifs at hb
      exact Option.some.inj hb ▸ hT
    | cubic =>
      simp only [basisArg, Option.map_eq_some_iff] at hb
      obtain ⟨t, ht, rfl⟩ := hb
      intro t' e
      obtain rfl := Option.some.inj e
      exact (C120_unitary .triqs l (hl rfl) _ ht).1
  refine ⟨?_, fun x y p q => (basis_symmetries l T' F' x y p q).2, fun k => rotation k mk sp l T' F' hsp hinj hT'⟩
  apply C114_hermitian
  intro x _ y _ p _ q _
  exact (basis_symmetries l T' F' x y p q).1

/-- **C121.** In the cubic basis, and in every basis of real orbitals, the matrix is real, so that `h_int_slater` accepts it for real
operators, and the two orbitals of each electron may be exchanged. -/
theorem C121_real {σ ι : Type} [DecidableEq σ] [LinearOrder ι] (mk : σ → ℕ → ι) (sp : List σ) (l : ℕ) (F : Option (List ℝ))
    (U J : Option ℝ) (b : BasisArg) (T : Option (ℕ → ℕ → ℂ)) (t : ℕ → ℕ → ℂ) (V : ℕ → ℕ → ℕ → ℕ → ℂ)
    (hb : basisArg l b T = some (some t)) (hr : b ≠ .cubic → ∀ a < 2 * l + 1, RealRow l t a) (h : uMatrixSlater l F U J b T = .ok V) :
    (∀ x < 2 * l + 1, ∀ y < 2 * l + 1, ∀ p < 2 * l + 1, ∀ q < 2 * l + 1, (V x y p q).im = 0 ∧ V p y x q = V x y p q ∧ V x q p y = V x y p q) ∧
    ∃ H, slaterChecked false mk sp (2 * l + 1) V = some H ∧ eqOp H (slater mk sp (2 * l + 1) V) = true := by
  obtain ⟨F', T'', hb', rfl, _⟩ := (C121_outcome l F U J b T).2.1 V h
  rw [hb] at hb'
  obtain rfl := Option.some.inj hb'
  have hrow : ∀ a < 2 * l + 1, RealRow l t a := by
    by_cases hc : b = .cubic
    · subst hc
      simp only [basisArg, Option.map_eq_some_iff] at hb
      obtain ⟨t', ht, e⟩ := hb
      obtain rfl := Option.some.inj e
      exact C120_real .triqs l (by simp) _ ht
    · exact hr hc
  have h1 : ∀ x < 2 * l + 1, ∀ y < 2 * l + 1, ∀ p < 2 * l + 1, ∀ q < 2 * l + 1,
      (uBasis l (some t) F' x y p q).im = 0 ∧ uBasis l (some t) F' p y x q = uBasis l (some t) F' x y p q := fun x hx y hy p hp q hq =>
    real_basis l t F' x y p q (hrow x hx) (hrow y hy) (hrow p hp) (hrow q hq)
  refine ⟨fun x hx y hy p hp q hq => ⟨(h1 x hx y hy p hp q hq).1, (h1 x hx y hy p hp q hq).2, ?_⟩, ?_⟩
  · rw [← (basis_symmetries l (some t) F' x q p y).2, (h1 y hy x hx q hq p hp).2, (basis_symmetries l (some t) F' x y p q).2]
  · cases hH : slaterChecked false mk sp (2 * l + 1) (uBasis l (some t) F') with
    | none =>
      obtain ⟨_, _, x, hx, y, hy, p, hp, q, hq, hlt⟩ := (C114_reality false mk sp (2 * l + 1) _).1.mp hH
      rw [(h1 x hx y hy p hp q hq).1] at hlt
      norm_num at hlt
    | some H =>
      refine ⟨H, rfl, ?_⟩
      rw [(C114_reality false mk sp (2 * l + 1) _).2 H hH]
      apply eqOp_of_action (slater_canonical _ _ _ _) (slater_canonical _ _ _ _)
      rw [C114_formula, C114_formula]
      apply Finset.sum_congr rfl; intro i _; apply Finset.sum_congr rfl; intro j _
      apply Finset.sum_congr rfl; intro x _; apply Finset.sum_congr rfl; intro y _
      apply Finset.sum_congr rfl; intro p _; apply Finset.sum_congr rfl; intro q _
      congr 2
      simp only [Bool.false_eq_true, if_false]
      apply Complex.ext
      · simp
      · simp [(h1 x x.2 y y.2 p p.2 q q.2).1]

/-- **C121.** For the s shell the cubic basis gives no interaction at all. -/
theorem C121_s_shell (F0 : ℝ) : (∃ V, uMatrixSlater 0 (some [F0]) none none .spherical none = .ok V ∧ V 0 0 0 0 = F0) ∧
    ∃ V, uMatrixSlater 0 (some [F0]) none none .cubic none = .ok V ∧ ∀ a b p q, V a b p q = 0 := by
  constructor
  · refine ⟨_, rfl, ?_⟩
    have h := direct_total 0 [F0]
    simpa [uBasis] using h
  · obtain ⟨T, hT, h0, _⟩ := C120_s_orbital .triqs
    refine ⟨uBasis 0 (some T) [F0], by simp only [uMatrixSlater, radialArg, basisArg, hT, Option.map_some], ?_⟩
    intro a b p q
    simp [uBasis, transformU_sum, h0]

-- for a p shell two electrons in the orbital m = 0 repel each other with F0 + 4/25 F2; the call with U = 4 and J = 1 in the cubic basis succeeds;
-- for a d shell with F4 alone the function `radial_integrals_to_U_J` returns J = 0, the interaction has 1
example (F0 F2 : ℝ) : uSpherical 1 [F0, F2] 1 1 1 1 = F0 + 4 / 25 * F2 := by
  have h : ∀ k : ℤ, 0 ≤ k → angular 1 k 0 0 0 0 = (threeJ 1 0 k 0 1 0 ^ 2) ^ 2 * 9 := by
    intro k hk
    rw [angular_sum, Finset.sum_eq_single 0]
    · simp [sign]
      ring
    · intro q _ hq
      rw [threeJ_zero (by omega)]
      ring
    · intro h
      exfalso
      apply h
      rw [Finset.mem_Icc]
      omega
  have h0 := zero_sq 1 (by norm_num)
  rw [uSpherical_sum]
  simp [h, square_values.1, h0]
  ring

example : ∃ V, uMatrixSlater 1 none (some 4) (some 1) .cubic none = .ok V ∧ averageU 3 V = 4 ∧ averageParallel 3 V = 3 := by
  have hd := C120_domain .triqs 1
  cases hT : sphericalToCubic .triqs 1 with
  | none => rw [hT] at hd; simp at hd
  | some T =>
    refine ⟨uBasis 1 (some T) [4, 5 * 1], by simp only [uMatrixSlater, radialArg, radialOfUJ, basisArg, hT, Option.map_some], ?_⟩
    have := (C124_convert 1 4 1 _ rfl).1 (some T) (by
      intro t e
      obtain rfl := Option.some.inj e
      exact (C120_unitary .triqs 1 (by norm_num) _ hT).1)
    norm_num at this
    rw [mul_one]
    exact this

example : ujOfRadial 2 [0, 0, 14] = some (0, 0) ∧ averageParallel 5 (uBasis 2 none [0, 0, 14]) = -1 := by
  constructor
  · simp [ujOfRadial]
  · have := (C124_averages 2 none 0 [0, 14] (by intro t h; cases h)).2 (by norm_num)
    rw [show 2 * 2 + 1 = 5 by norm_num] at this
    rw [this]
    norm_num [square_values.2.2.1]

example : uMatrixSlater 2 none (some 4) none .cubic none = .typeError := (C121_outcome 2 none (some 4) none .cubic none).1.mpr ⟨rfl, by simp⟩

end Verif.Ham
