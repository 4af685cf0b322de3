import Verif.Operators.Observables
import Mathlib.Tactic.FinCases

/-!
# Property C120: from spherical to cubic harmonics

Source: `/repo/python/triqs/operators/util/U_matrix.py:233-300, 327-437`.

Simplifications: exact complex numbers; a convention is one of the five accepted strings (any other string raises `ValueError`
before anything else, lines 352-353); arrays are total functions, zero outside of the assigned entries.
-/

namespace Verif.Ham
open Complex

/-! ## Model -/

/-- the accepted values of `convention`, U_matrix.py:352. -/
inductive Conv | triqs | vasp | wien2k | wannier90 | qe
  deriving DecidableEq

/-- `1.0/sqrt(2)` -/
noncomputable def rt : ℂ := ((1 / Real.sqrt 2 : ℝ) : ℂ)

/-- the assignments `T[i,j] = x` in the order of the code, U_matrix.py:357-405; `none` is a `ValueError`. -/
noncomputable def cubicEntries (v : Conv) (l : ℕ) : Option (List (ℕ × ℕ × ℂ)) :=
  if (v = .wien2k ∨ v = .wannier90 ∨ v = .qe) ∧ l = 3 then none
  else match l with
  | 0 => some []
  | 1 =>
    match v with
    | .wannier90 | .qe => some [(1, 0, rt), (1, 2, -rt), (2, 0, I * rt), (2, 2, I * rt), (0, 1, 1)]
    | _ => some [(0, 0, rt), (0, 2, -rt), (1, 0, I * rt), (1, 2, I * rt), (2, 1, 1)]
  | 2 =>
    match v with
    | .wien2k => some [(0, 2, 1), (1, 0, rt), (1, 4, rt), (2, 0, -rt), (2, 4, rt), (3, 1, rt), (3, 3, -rt), (4, 1, rt), (4, 3, rt)]
    | .wannier90 | .qe => some [(0, 2, 1), (1, 1, rt), (1, 3, -rt), (2, 1, I * rt), (2, 3, I * rt), (3, 0, rt), (3, 4, rt), (4, 0, I * rt),
        (4, 4, -I * rt)]
    | _ => some [(0, 0, I * rt), (0, 4, -I * rt), (1, 1, I * rt), (1, 3, I * rt), (2, 2, 1), (3, 1, rt), (3, 3, -rt), (4, 0, rt), (4, 4, rt)]
  | 3 => some [(0, 0, rt), (0, 6, -rt), (1, 1, rt), (1, 5, rt), (2, 2, rt), (2, 4, -rt), (3, 3, 1), (4, 2, I * rt), (4, 4, I * rt),
      (5, 1, I * rt), (5, 5, -I * rt), (6, 0, I * rt), (6, 6, I * rt)]
  | _ => none

/-- `T[i,j] = x` -/
def assign (T : ℕ → ℕ → ℂ) (e : ℕ × ℕ × ℂ) (i j : ℕ) : ℂ := if i = e.1 ∧ j = e.2.1 then e.2.2 else T i j

/-- `spherical_to_cubic`, U_matrix.py:352-407. -/
noncomputable def sphericalToCubic (v : Conv) (l : ℕ) : Option (ℕ → ℕ → ℂ) :=
  (cubicEntries v l).map fun es => es.foldl assign fun _ _ => 0

/-- the local variable `cubic_names` of `spherical_to_cubic`, U_matrix.py:360-397; the order of the rows according to the
documentation, lines 339-343. -/
def rowNames (v : Conv) (l : ℕ) : List String :=
  match l with
  | 0 => ["s"]
  | 1 =>
    match v with
    | .wannier90 | .qe => ["z", "x", "y"]
    | _ => ["x", "y", "z"]
  | 2 =>
    match v with
    | .wien2k => ["z^2", "x^2-y^2", "xy", "yz", "xz"]
    | .wannier90 | .qe => ["z^2", "xz", "yz", "x^2-y^2", "xy"]
    | _ => ["xy", "yz", "z^2", "xz", "x^2-y^2"]
  | 3 => ["x(x^2-3y^2)", "z(x^2-y^2)", "xz^2", "z^3", "yz^2", "xyz", "y(3x^2-y^2)"]
  | _ => []

/-- index list of `t2g_submatrix`, U_matrix.py:258-263. -/
def t2gIndices : Conv → List ℕ
  | .wien2k => [2, 3, 4]
  | .wannier90 | .qe => [1, 2, 4]
  | _ => [0, 1, 3]

/-- index list of `eg_submatrix`, U_matrix.py:292-297. -/
def egIndices : Conv → List ℕ
  | .wien2k => [0, 1]
  | .wannier90 | .qe => [0, 3]
  | _ => [2, 4]

/-- `subarray` of a four-index array with the same index list in each dimension, U_matrix.py:653-655; `none` is the `IndexError`
of an index that is too large. -/
def subarray4 (n : ℕ) (idx : List ℕ) (U : ℕ → ℕ → ℕ → ℕ → ℂ) : Option (ℕ → ℕ → ℕ → ℕ → ℂ) :=
  if idx.any (fun i => decide (n ≤ i)) then none else some fun a b p q => U (idx.getD a 0) (idx.getD b 0) (idx.getD p 0) (idx.getD q 0)

/-! ## Specification -/

/-- row `a` is a real function: the coefficient of `Y_{-m}` is `(-1)^m` times the conjugate of that of `Y_m` -/
def RealRow (l : ℕ) (T : ℕ → ℕ → ℂ) (a : ℕ) : Prop := ∀ j ≤ 2 * l, T a (2 * l - j) = (-1) ^ (j + l) * star (T a j)

/-- row of the matrix that has a name -/
def rowOf (v : Conv) (l : ℕ) (T : ℕ → ℕ → ℂ) (name : String) : ℕ → ℂ := T ((rowNames v l).idxOf name)

/-! ## Proofs -/

theorem rt_sq : rt * rt = 1 / 2 := by
  unfold rt
  rw [← ofReal_mul, div_mul_div_comm, Real.mul_self_sqrt (by norm_num)]
  norm_num

theorem rt_sq' : rt * rt + rt * rt = 1 := by
  rw [rt_sq]
  norm_num

theorem star_rt : (starRingEnd ℂ) rt = rt := conj_ofReal _

theorem I_rt : I * rt * (I * rt) = -(1 / 2) := by linear_combination (I * I) * rt_sq + (1 / 2) * I_mul_I

/-- **C120.** The function fails exactly for `l > 3` and for `l = 3` in the conventions of other programs. -/
theorem C120_domain (v : Conv) (l : ℕ) : sphericalToCubic v l = none ↔ 3 < l ∨ (l = 3 ∧ v ≠ .triqs ∧ v ≠ .vasp) := by
  unfold sphericalToCubic cubicEntries
  match l with
  | 0 => cases v <;> simp
  | 1 => cases v <;> simp
  | 2 => cases v <;> simp
  | 3 => cases v <;> simp
  | l + 4 => cases v <;> simp

theorem rt_pow : rt ^ 2 = 1 / 2 := by rw [pow_two, rt_sq]

set_option maxHeartbeats 2000000 in
theorem columns (v : Conv) (l : ℕ) (hl : l ≠ 0) (T : ℕ → ℕ → ℂ) (hT : sphericalToCubic v l = some T) : Orthonormal (2 * l + 1) T := by
  intro j hj k hk
  match l, hl with
  | 1, _ =>
    interval_cases j <;> interval_cases k <;> cases v <;>
      (obtain rfl := Option.some.inj hT
       simp [assign, Fin.sum_univ_succ, star_rt]) <;> (ring_nf; simp only [I_sq, rt_pow]; norm_num)
  | 2, _ =>
    interval_cases j <;> interval_cases k <;> cases v <;>
      (obtain rfl := Option.some.inj hT
       simp [assign, Fin.sum_univ_succ, star_rt]) <;> (ring_nf; simp only [I_sq, rt_pow]; norm_num)
  | 3, _ =>
    cases v <;> first
      | (simp [sphericalToCubic, cubicEntries] at hT; done)
      | (interval_cases j <;> interval_cases k <;>
          (obtain rfl := Option.some.inj hT
           simp [assign, Fin.sum_univ_succ, star_rt]) <;> (ring_nf; simp only [I_sq, rt_pow]; norm_num))
  | l + 4, _ => cases v <;> simp [sphericalToCubic, cubicEntries] at hT

/-- **C120.** For `l` from 1 to 3 and every convention the matrix is unitary. -/
theorem C120_unitary (v : Conv) (l : ℕ) (hl : l ≠ 0) (T : ℕ → ℕ → ℂ) (hT : sphericalToCubic v l = some T) :
    Orthonormal (2 * l + 1) T ∧ ∀ a < 2 * l + 1, ∀ b < 2 * l + 1, ∑ k : Fin (2 * l + 1), T a k * star (T b k) = if a = b then 1 else 0 := by
  have h := columns v l hl T hT
  refine ⟨h, ?_⟩
  let Q : Matrix (Fin (2 * l + 1)) (Fin (2 * l + 1)) ℂ := Matrix.of fun a b => T a b
  have h1 : Q.conjTranspose * Q = 1 := by
    ext a b
    rw [Matrix.mul_apply, Matrix.one_apply]
    simp only [Q, Matrix.conjTranspose_apply, Matrix.of_apply]
    rw [h a a.2 b b.2]
    simp [Fin.ext_iff]
  have h2 := mul_eq_one_comm.mp h1
  intro a ha b hb
  have h3 := congrFun (congrFun h2 ⟨a, ha⟩) ⟨b, hb⟩
  rw [Matrix.mul_apply, Matrix.one_apply] at h3
  simp only [Q, Matrix.conjTranspose_apply, Matrix.of_apply, Fin.mk.injEq] at h3
  exact h3

/-- **C120.** For `l = 0` the matrix is zero and not the unit matrix. -/
theorem C120_s_orbital (v : Conv) : ∃ T, sphericalToCubic v 0 = some T ∧ (∀ i j, T i j = 0) ∧ ¬ Orthonormal 1 T := by
  refine ⟨fun _ _ => 0, ?_, fun _ _ => rfl, ?_⟩
  · cases v <;> simp [sphericalToCubic, cubicEntries]
  · intro h
    have := h 0 (by norm_num) 0 (by norm_num)
    simp at this

set_option maxHeartbeats 1000000 in
/-- **C120.** In every convention but `wien2k` for `l = 2` the rows are real functions. -/
theorem C120_real (v : Conv) (l : ℕ) (hw : v = .wien2k → l ≠ 2) (T : ℕ → ℕ → ℂ) (hT : sphericalToCubic v l = some T) :
    ∀ a < 2 * l + 1, RealRow l T a := by
  intro a ha j hj
  match l with
  | 0 => cases v <;> (obtain rfl := Option.some.inj hT; simp)
  | 1 =>
    interval_cases a <;> interval_cases j <;> cases v <;> (obtain rfl := Option.some.inj hT; simp [assign, star_rt]) <;> ring
  | 2 =>
    interval_cases a <;> interval_cases j <;> cases v <;> first
      | exact absurd rfl (hw rfl)
      | (obtain rfl := Option.some.inj hT; simp [assign, star_rt]; done)
      | (obtain rfl := Option.some.inj hT; simp [assign, star_rt]; ring)
  | 3 =>
    cases v <;> first
      | (simp [sphericalToCubic, cubicEntries] at hT; done)
      | (interval_cases a <;> interval_cases j <;> (obtain rfl := Option.some.inj hT; simp [assign, star_rt]) <;> ring)
  | l + 4 => cases v <;> simp [sphericalToCubic, cubicEntries] at hT

set_option maxHeartbeats 1000000 in
theorem names_triqs (v : Conv) (l : ℕ) (hw : v = .wien2k → l ≠ 2) (T T' : ℕ → ℕ → ℂ)
    (hT : sphericalToCubic v l = some T) (hT' : sphericalToCubic .triqs l = some T') :
    (rowNames v l).Perm (rowNames .triqs l) ∧ (rowNames v l).length = 2 * l + 1 ∧
      ∀ name ∈ rowNames v l, ∀ j < 2 * l + 1, rowOf v l T name j = rowOf .triqs l T' name j := by
  match l with
  | 0 =>
    refine ⟨by cases v <;> decide +kernel, by cases v <;> rfl, ?_⟩
    intro name hn j hj
    cases v <;> (obtain rfl := Option.some.inj hT; obtain rfl := Option.some.inj hT'; simp [rowOf])
  | 1 =>
    refine ⟨by cases v <;> decide +kernel, by cases v <;> rfl, ?_⟩
    intro name hn j hj
    have hn : name = "x" ∨ name = "y" ∨ name = "z" := by cases v <;> simp [rowNames] at hn <;> tauto
    rcases hn with rfl | rfl | rfl <;> interval_cases j <;> cases v <;>
      (obtain rfl := Option.some.inj hT; obtain rfl := Option.some.inj hT'; simp [rowOf, rowNames, assign, List.idxOf_cons])
  | 2 =>
    refine ⟨by cases v <;> first | exact absurd rfl (hw rfl) | decide +kernel, by cases v <;> rfl, ?_⟩
    intro name hn j hj
    have hn : name = "xy" ∨ name = "yz" ∨ name = "z^2" ∨ name = "xz" ∨ name = "x^2-y^2" := by cases v <;> simp [rowNames] at hn <;> tauto
    rcases hn with rfl | rfl | rfl | rfl | rfl <;> interval_cases j <;> cases v <;> first
      | exact absurd rfl (hw rfl)
      | (obtain rfl := Option.some.inj hT; obtain rfl := Option.some.inj hT'; simp [rowOf, rowNames, assign, List.idxOf_cons]; done)
  | 3 =>
    cases v <;> first
      | (simp [sphericalToCubic, cubicEntries] at hT; done)
      | (have he : some T = some T' := by exact hT.symm.trans hT'
         obtain rfl := Option.some.inj he
         exact ⟨List.Perm.refl _, rfl, fun _ _ _ _ => rfl⟩)
  | l + 4 => cases v <;> simp [sphericalToCubic, cubicEntries] at hT

/-- **C120.** The rows that have the same name are equal in all conventions, except `wien2k` for `l = 2`. -/
theorem C120_names (v v' : Conv) (l : ℕ) (hw : v = .wien2k → l ≠ 2) (hw' : v' = .wien2k → l ≠ 2) (T T' : ℕ → ℕ → ℂ)
    (hT : sphericalToCubic v l = some T) (hT' : sphericalToCubic v' l = some T') :
    (rowNames v l).Perm (rowNames v' l) ∧ (rowNames v l).length = 2 * l + 1 ∧
      ∀ name ∈ rowNames v l, ∀ j < 2 * l + 1, rowOf v l T name j = rowOf v' l T' name j := by
  have hl : ¬ 3 < l := by
    intro h
    rw [(C120_domain v l).mpr (Or.inl h)] at hT
    cases hT
  obtain ⟨S, hS⟩ := Option.ne_none_iff_exists'.mp (mt (C120_domain .triqs l).mp (by simp [hl]))
  have h1 := names_triqs v l hw T S hT hS
  have h2 := names_triqs v' l hw' T' S hT' hS
  refine ⟨h1.1.trans h2.1.symm, h1.2.1, ?_⟩
  intro name hn j hj
  rw [h1.2.2 name hn j hj, h2.2.2 name ((h1.1.trans h2.1.symm).mem_iff.mp hn) j hj]

/-- **C120.** In the convention `wien2k` for `l = 2` the row named `yz` is the function `xz` of the other conventions, and the row named
`xz` is the function `yz` up to a phase. -/
theorem C120_wien2k (T T' : ℕ → ℕ → ℂ) (hT : sphericalToCubic .wien2k 2 = some T) (hT' : sphericalToCubic .triqs 2 = some T') :
    ∀ j < 5, rowOf .wien2k 2 T "yz" j = rowOf .triqs 2 T' "xz" j ∧ rowOf .wien2k 2 T "xz" j = -I * rowOf .triqs 2 T' "yz" j ∧
      rowOf .wien2k 2 T "xy" j = I * rowOf .triqs 2 T' "xy" j := by
  intro j hj
  obtain rfl := Option.some.inj hT
  obtain rfl := Option.some.inj hT'
  have hI : I * (I * rt) = -rt := by rw [← mul_assoc, I_mul_I, neg_one_mul]
  interval_cases j <;> simp [rowOf, rowNames, assign, List.idxOf_cons, hI]

/-- **C120.** The index lists of `t2g_submatrix` and `eg_submatrix` select the orbitals with the names of these manifolds, and
together every orbital once. -/
theorem C120_manifolds (v : Conv) :
    ((t2gIndices v).map fun i => (rowNames v 2)[i]?).Perm [some "xy", some "yz", some "xz"] ∧
    ((egIndices v).map fun i => (rowNames v 2)[i]?).Perm [some "z^2", some "x^2-y^2"] ∧
    (t2gIndices v ++ egIndices v).Perm (List.range 5) := by
  cases v <;> decide +kernel

-- the row `x` of the p orbitals is (Y_{-1} - Y_1) / √2; the d orbitals have a matrix in every convention
example : ∃ T, sphericalToCubic .wannier90 1 = some T ∧ rowOf .wannier90 1 T "x" 0 = rt ∧ rowOf .wannier90 1 T "x" 2 = -rt ∧
    rowOf .wannier90 1 T "z" 1 = 1 := by
  refine ⟨_, rfl, ?_, ?_, ?_⟩ <;> simp [rowOf, rowNames, assign, List.idxOf_cons]

example (v : Conv) : ∃ T, sphericalToCubic v 2 = some T ∧ Orthonormal 5 T := by
  obtain ⟨T, hT⟩ := Option.ne_none_iff_exists'.mp (mt (C120_domain v 2).mp (by norm_num))
  exact ⟨T, hT, (C120_unitary v 2 (by norm_num) T hT).1⟩

-- the row `xy` of the convention `wien2k` is not a real function
example : ∃ T, sphericalToCubic .wien2k 2 = some T ∧ ¬ RealRow 2 T 2 := by
  refine ⟨_, rfl, ?_⟩
  intro h
  have := h 0 (by norm_num)
  simp [assign, star_rt] at this
  have h1 : rt + rt = 0 := by linear_combination this
  have h2 : rt = 0 := by simpa using h1
  have := rt_sq
  rw [h2] at this
  norm_num at this

-- the submatrix of the eg orbitals
example (U : ℕ → ℕ → ℕ → ℕ → ℂ) : ∃ V, subarray4 5 (egIndices .qe) U = some V ∧ V 0 1 1 0 = U 0 3 3 0 := ⟨_, rfl, rfl⟩

end Verif.Ham
