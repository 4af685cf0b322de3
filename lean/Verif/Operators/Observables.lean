import Verif.Operators.Hamiltonians
import Mathlib.Analysis.SpecialFunctions.Pow.Real
import Mathlib.Analysis.Complex.Basic
import Mathlib.Tactic.FinCases
import Mathlib.LinearAlgebra.Matrix.NonsingularInverse
import Mathlib.LinearAlgebra.Matrix.ConjTranspose

/-!
# Property C118: spin and orbital momentum operators

Source: `/repo/python/triqs/operators/util/observables.py`.

Simplifications: exact complex numbers; `np.isclose` of two (half-)integers is equality, so that the tests on the magnetic
quantum numbers `m = o - l` are tests on the orbital numbers `o`.
-/

set_option linter.unusedSectionVars false

namespace Verif.Ham
open Verif.Operators Verif.Fock Verif.TwoBody Complex
open Verif.TwoBody renaming comm → br

/-! ## Model -/

/-- the components `'x', 'y', 'z', '+', '-'` -/
inductive Cmp where
  | x | y | z | p | m
deriving DecidableEq

/-- `pauli_matrix`, observables.py:29-33. -/
noncomputable def pauli : Cmp → ℕ → ℕ → ℂ
  | .x, 0, 1 => 1
  | .x, 1, 0 => 1
  | .y, 0, 1 => -I
  | .y, 1, 0 => I
  | .z, 0, 0 => 1
  | .z, 1, 1 => -1
  | .p, 0, 1 => 2
  | .m, 1, 0 => 2
  | _, _, _ => 0

section
variable {σ : Type} [DecidableEq σ] {ι : Type} [LinearOrder ι]

/-- `S_op`, observables.py:109-118; `none` is the `IndexError` of `pm[n1, n2]` for more than two spin names. -/
noncomputable def sOp (k : Cmp) (mk : σ → ℕ → ι) (sp : List σ) (n : ℕ) : Option (MMap ι ℂ) :=
  if 2 < sp.length ∧ 0 < n then none
  else some ((pairs (List.finRange sp.length)).foldl (fun S p =>
    accum (fun o => mul (smul (smul (cDag (mk sp[p.1] o)) (1 / 2)) (pauli k p.1 p.2)) (c (mk sp[p.2] o))) (List.range n) S) [])

/-- `Sz*Sz + 0.5*(Sp*Sm + Sm*Sp)`, observables.py:149, 261. -/
noncomputable def squareOf (z p m : MMap ι ℂ) : MMap ι ℂ :=
  add (mul z z) (smul (add (mul p m) (mul m p)) (1 / 2))

/-- `S2_op`, observables.py:147-149. -/
noncomputable def s2Op (mk : σ → ℕ → ι) (sp : List σ) (n : ℕ) : Option (MMap ι ℂ) := do
  let z ← sOp .z mk sp n
  let p ← sOp .p mk sp n
  let m ← sOp .m mk sp n
  pure (squareOf z p m)

end

/-- `l = (n_orb-1)/2.0`, observables.py:197. -/
noncomputable def ell (n : ℕ) : ℝ := ((n : ℝ) - 1) / 2

/-- entry `'+'` of `L_melem_dict`, observables.py:199, with `m = o1 - l`, `mp = o2 - l`. -/
noncomputable def lUp (n o1 o2 : ℕ) : ℂ :=
  if o1 = o2 + 1 then ((Real.sqrt (ell n * (ell n + 1) - (o2 - ell n) * (o2 - ell n + 1)) : ℝ) : ℂ) else 0

/-- entry `'-'` of `L_melem_dict`, observables.py:200. -/
noncomputable def lDown (n o1 o2 : ℕ) : ℂ :=
  if o1 + 1 = o2 then ((Real.sqrt (ell n * (ell n + 1) - (o2 - ell n) * (o2 - ell n - 1)) : ℝ) : ℂ) else 0

/-- `L_melem_dict`, observables.py:198-203, with `m = o1 - l`, `mp = o2 - l`. -/
noncomputable def lMelem (n : ℕ) : Cmp → ℕ → ℕ → ℂ
  | .z, o1, o2 => if o1 = o2 then (((o1 : ℝ) - ell n : ℝ) : ℂ) else 0
  | .p, o1, o2 => lUp n o1 o2
  | .m, o1, o2 => lDown n o1 o2
  | .x, o1, o2 => 1 / 2 * (lUp n o1 o2 + lDown n o1 o2)
  | .y, o1, o2 => -(1 / 2) * I * (lUp n o1 o2 - lDown n o1 o2)

/-- `L_matrix` after the optional change of basis `np.einsum("ij,jk,kl", conj T, L, T^t)`, observables.py:204-205, 213. -/
noncomputable def lMatrix (n : ℕ) (T : Option (ℕ → ℕ → ℂ)) (k : Cmp) (o1 o2 : ℕ) : ℂ :=
  match T with
  | none => lMelem n k o1 o2
  | some T => ((pairs (List.range n)).map fun x => star (T o1 x.1) * lMelem n k x.1 x.2 * T o2 x.2).sum

section
variable {σ : Type} [DecidableEq σ] {ι : Type} [LinearOrder ι]

/-- `L_op`, observables.py:196-220. -/
noncomputable def lOp (k : Cmp) (mk : σ → ℕ → ι) (sp : List σ) (n : ℕ) (T : Option (ℕ → ℕ → ℂ)) : MMap ι ℂ :=
  orbitalOp mk sp n (lMatrix n T k)

/-- `L2_op`, observables.py:259-261. -/
noncomputable def l2Op (mk : σ → ℕ → ι) (sp : List σ) (n : ℕ) (T : Option (ℕ → ℕ → ℂ)) : MMap ι ℂ :=
  squareOf (lOp .z mk sp n T) (lOp .p mk sp n T) (lOp .m mk sp n T)

/-- `LS_op`, observables.py:300-303. -/
noncomputable def lsOp (mk : σ → ℕ → ι) (sp : List σ) (n : ℕ) (T : Option (ℕ → ℕ → ℂ)) : Option (MMap ι ℂ) := do
  let z ← sOp .z mk sp n
  let p ← sOp .p mk sp n
  let m ← sOp .m mk sp n
  pure (add (mul (lOp .z mk sp n T) z) (smul (add (mul (lOp .p mk sp n T) m) (mul (lOp .m mk sp n T) p)) (1 / 2)))

end

/-! ## Specification -/

/-- the columns of the matrix of the change of basis are orthonormal -/
def Orthonormal (n : ℕ) (T : ℕ → ℕ → ℂ) : Prop :=
  ∀ j < n, ∀ l < n, ∑ k : Fin n, star (T k j) * T k l = if j = l then 1 else 0

/-- no change of basis, or an orthonormal one -/
def Basis (n : ℕ) (T : Option (ℕ → ℕ → ℂ)) : Prop := ∀ t, T = some t → Orthonormal n t

section
variable {ι : Type} [LinearOrder ι]

/-- commutator -/
noncomputable def bracket (a b : MMap ι ℂ) : MMap ι ℂ := sub (mul a b) (mul b a)

/-- five operators are the components of an angular momentum -/
structure Angular (x y z p m : MMap ι ℂ) : Prop where
  xy : eqOp (bracket x y) (smul z I) = true
  yz : eqOp (bracket y z) (smul x I) = true
  zx : eqOp (bracket z x) (smul y I) = true
  plus : eqOp p (add x (smul y I)) = true
  minus : eqOp m (sub x (smul y I)) = true
  hx : isHermitian x = true
  hy : isHermitian y = true
  hz : isHermitian z = true

/-- `sq` is the sum of the squares of three operators and commutes with each of them -/
structure Square (sq x y z : MMap ι ℂ) : Prop where
  sum : eqOp sq (add (add (mul x x) (mul y y)) (mul z z)) = true
  commutes : ∀ w, w = x ∨ w = y ∨ w = z → eqOp (mul sq w) (mul w sq) = true

end

/-! ## Proofs -/

section algebra
variable {A : Type} [Ring A] [Algebra ℂ A]

/-- ladder form of the angular momentum algebra -/
structure Ladder (z p m : A) : Prop where
  zp : br z p = p
  zm : br z m = -m
  pm : br p m = (2 : ℂ) • z

variable {z p m : A} (h : Ladder z p m)

theorem comm_self (a : A) : br a a = 0 := sub_self _
theorem comm_swap (a b : A) : br a b = -br b a := by unfold TwoBody.comm; rw [neg_sub]
theorem comm_sub' (a b c : A) : br a (b - c) = br a b - br a c := by unfold TwoBody.comm; noncomm_ring
theorem sub_comm' (a b c : A) : br (a - b) c = br a c - br b c := by unfold TwoBody.comm; noncomm_ring

include h in
theorem Ladder.xyz : let x := (1 / 2 : ℂ) • (p + m); let y := (-(1 / 2) * I : ℂ) • (p - m);
    br x y = I • z ∧ br y z = I • x ∧ br z x = I • y ∧ z * z + (1 / 2 : ℂ) • (p * m + m * p) = x * x + y * y + z * z := by
  intro x y
  have hpz : br p z = -p := by rw [comm_swap, h.zp]
  have hmz : br m z = m := by rw [comm_swap, h.zm, neg_neg]
  have hmp : br m p = -((2 : ℂ) • z) := by rw [comm_swap, h.pm]
  have hI : I * I = -1 := I_mul_I
  refine ⟨?_, ?_, ?_, ?_⟩
  · simp only [x, y, comm_smul, smul_comm_left, comm_sub', add_comm_left, comm_self, h.pm, hmp]
    module
  · simp only [x, y, smul_comm_left, sub_comm', hpz, hmz]
    module
  · simp only [x, y, comm_smul, comm_add, h.zp, h.zm]
    rw [smul_smul, show I * (-(1 / 2) * I) = 1 / 2 by linear_combination (-(1 / 2) : ℂ) * hI]
    rw [sub_eq_add_neg]
  · simp only [x, y, smul_mul_smul_comm, mul_add, add_mul, mul_sub, sub_mul]
    rw [show (-(1 / 2) * I : ℂ) * (-(1 / 2) * I) = -(1 / 4) by linear_combination (1 / 4 : ℂ) * hI]
    module

include h in
theorem Ladder.casimir (w : A) (hw : w = z ∨ w = p ∨ w = m) : br (z * z + (1 / 2 : ℂ) • (p * m + m * p)) w = 0 := by
  have hpz : br p z = -p := by rw [comm_swap, h.zp]
  have hmz : br m z = m := by rw [comm_swap, h.zm, neg_neg]
  have hmp : br m p = -((2 : ℂ) • z) := by rw [comm_swap, h.pm]
  have hml : ∀ a b c : A, br (a * b) c = a * br b c + br a c * b := by
    intro a b c; unfold TwoBody.comm; noncomm_ring
  rcases hw with rfl | rfl | rfl
  · simp only [add_comm_left, smul_comm_left, hml, comm_self, hpz, hmz, mul_neg, neg_mul]
    simp
  · simp only [add_comm_left, smul_comm_left, hml, comm_self, h.zp, hmp, mul_neg, neg_mul, mul_smul_comm, smul_mul_assoc, mul_zero, zero_mul]
    module
  · simp only [add_comm_left, smul_comm_left, hml, comm_self, h.zm, h.pm, mul_neg, neg_mul, mul_smul_comm, smul_mul_assoc, mul_zero, zero_mul]
    module

end algebra

section onebody
variable {A : Type} [Ring A] [Algebra ℂ A] {X : Type} [Fintype X] [DecidableEq X] (cr an : X → A)

theorem one_smul_mat (r : ℂ) (M : X → X → ℂ) : one cr an (fun x y => r * M x y) = r • one cr an M := by
  unfold one
  simp only [Finset.smul_sum, smul_smul]

theorem one_add_mat (M N : X → X → ℂ) : one cr an (fun x y => M x y + N x y) = one cr an M + one cr an N := by
  unfold one
  simp only [add_smul, Finset.sum_add_distrib]

theorem one_sub_mat (M N : X → X → ℂ) : one cr an (fun x y => M x y - N x y) = one cr an M - one cr an N := by
  unfold one
  simp only [sub_smul, Finset.sum_sub_distrib]

end onebody

section spin
variable {σ : Type} [DecidableEq σ] {ι : Type} [LinearOrder ι]

theorem sOp_some (k : Cmp) (mk : σ → ℕ → ι) (u d : σ) (n : ℕ) : ∃ S, sOp k mk [u, d] n = some S := by
  unfold sOp
  rw [if_neg (by simp)]
  exact ⟨_, rfl⟩

theorem sOp_canonical (k : Cmp) (mk : σ → ℕ → ι) (sp : List σ) (n : ℕ) (S : MMap ι ℂ) (h : sOp k mk sp n = some S) : Canonical S := by
  unfold sOp at h
  split at h
  · exact absurd h (by simp)
  · obtain rfl := Option.some.inj h
    apply foldl_canonical _ _ _ _ canonical_nil
    intro H s hH
    exact accum_canonical _ _ _ (fun o => mul_canonical (smul_canonical (smul_canonical (can_cDag _) _) _) (can_c _)) hH

/-- the one-body matrix of the spin -/
noncomputable def spinMat (k : Cmp) (l n : ℕ) (x y : Fin l × Fin n) : ℂ := if x.2 = y.2 then 1 / 2 * pauli k x.1 y.1 else 0

theorem sOp_action (k : Cmp) (mk : σ → ℕ → ι) (sp : List σ) (n : ℕ) (S : MMap ι ℂ) (h : sOp k mk sp n = some S) :
    action S = one (fun x => create (lab mk sp n x)) (fun x => annihilate (lab mk sp n x)) (spinMat k sp.length n) := by
  unfold sOp at h
  split at h
  · exact absurd h (by simp)
  · obtain rfl := Option.some.inj h
    rw [foldl_action _ _ (fun H s => accum_action _ _ _), action_nil, zero_add]
    unfold pairs one
    rw [sum_flatMap, ← Fin.sum_univ_def, Fintype.sum_prod_type]
    apply Finset.sum_congr rfl; intro i _
    rw [List.map_map, ← Fin.sum_univ_def]
    calc _ = ∑ j : Fin sp.length, ∑ o : Fin n, (1 / 2 * pauli k i j) • (create (mk sp[i] o) * annihilate (mk sp[j] o)) := by
          apply Finset.sum_congr rfl; intro j _
          simp only [Function.comp]
          rw [sum_range_fin]
          apply Finset.sum_congr rfl; intro o _
          rw [mul_action, smul_action, smul_action, c_action, cDag_action, smul_smul, smul_mul_assoc, mul_comm]
      _ = _ := by
          rw [Finset.sum_comm]
          apply Finset.sum_congr rfl; intro o _
          rw [Fintype.sum_prod_type]
          apply Finset.sum_congr rfl; intro j _
          rw [Finset.sum_eq_single o]
          · simp only [spinMat, if_true]
            rfl
          · intro o' _ ho
            rw [spinMat, if_neg (Ne.symm ho), zero_smul]
          · simp

theorem spinMat_mul (k k' : Cmp) (l n : ℕ) (x y : Fin l × Fin n) : ∑ a, spinMat k l n x a * spinMat k' l n a y =
    if x.2 = y.2 then ∑ i : Fin l, 1 / 2 * pauli k x.1 i * (1 / 2 * pauli k' i y.1) else 0 := by
  rw [Fintype.sum_prod_type]
  by_cases h : x.2 = y.2
  · rw [if_pos h]
    apply Finset.sum_congr rfl; intro i _
    rw [Finset.sum_eq_single x.2]
    · simp [spinMat, h]
    · intro o _ ho
      simp [spinMat, Ne.symm ho]
    · simp
  · rw [if_neg h]
    apply Finset.sum_eq_zero; intro i _; apply Finset.sum_eq_zero; intro o _
    by_cases h1 : x.2 = o
    · simp [spinMat, ← h1, h]
    · simp [spinMat, h1]

theorem pauli_sum (k k' : Cmp) (l : ℕ) (hl : l = 2) (i j : Fin l) : ∑ a : Fin l, 1 / 2 * pauli k i a * (1 / 2 * pauli k' a j) =
    1 / 4 * (pauli k i 0 * pauli k' 0 j + pauli k i 1 * pauli k' 1 j) := by
  subst hl
  rw [Fin.sum_univ_two]
  simp
  ring

theorem spin_ladder {A : Type} [Ring A] [Algebra ℂ A] (l n : ℕ) (hl : l = 2) (cr an : Fin l × Fin n → A) (h : Car cr an) :
    Ladder (one cr an (spinMat .z l n)) (one cr an (spinMat .p l n)) (one cr an (spinMat .m l n)) := by
  have key : ∀ (k k' : Cmp) (N : Fin l × Fin n → Fin l × Fin n → ℂ),
      (∀ x y, (if x.2 = y.2 then 1 / 4 * (pauli k x.1 0 * pauli k' 0 y.1 + pauli k x.1 1 * pauli k' 1 y.1) -
        1 / 4 * (pauli k' x.1 0 * pauli k 0 y.1 + pauli k' x.1 1 * pauli k 1 y.1) else 0) = N x y) →
      br (one cr an (spinMat k l n)) (one cr an (spinMat k' l n)) = one cr an N := by
    intro k k' N hN
    rw [comm_one h]
    congr 1
    funext x y
    rw [Finset.sum_sub_distrib, spinMat_mul, spinMat_mul, ← hN x y, pauli_sum _ _ l hl, pauli_sum _ _ l hl]
    split_ifs <;> simp
  subst hl
  refine ⟨?_, ?_, ?_⟩
  · apply key
    intro x y
    unfold spinMat
    obtain ⟨i, o⟩ := x
    obtain ⟨j, o'⟩ := y
    fin_cases i <;> fin_cases j <;> simp [pauli] <;> norm_num
  · have := key .z .m (fun x y => -1 * spinMat .m 2 n x y) (by
      intro x y
      unfold spinMat
      obtain ⟨i, o⟩ := x
      obtain ⟨j, o'⟩ := y
      fin_cases i <;> fin_cases j <;> simp [pauli] <;> norm_num)
    rw [this, one_smul_mat, neg_one_smul]
  · have := key .p .m (fun x y => 2 * spinMat .z 2 n x y) (by
      intro x y
      unfold spinMat
      obtain ⟨i, o⟩ := x
      obtain ⟨j, o'⟩ := y
      fin_cases i <;> fin_cases j <;> simp [pauli] <;> norm_num)
    rw [this, one_smul_mat]

end spin

section orbital

theorem ell_up (n o : ℕ) : ell n * (ell n + 1) - (o - ell n) * (o - ell n + 1) = (o + 1) * (n - 1 - o) := by
  unfold ell
  ring

theorem ell_down (n o : ℕ) : ell n * (ell n + 1) - (o - ell n) * (o - ell n - 1) = o * (n - o) := by
  unfold ell
  ring

theorem up_down (n : ℕ) (a b : Fin n) : ∑ x : Fin n, lUp n a x * lDown n x b = if a = b then ((a * (n - a) : ℝ) : ℂ) else 0 := by
  simp only [lUp, lDown, ell_up, ell_down]
  by_cases h : a = b
  · subst h
    rw [if_pos rfl]
    by_cases h0 : a.1 = 0
    · rw [h0, Finset.sum_eq_zero]
      · simp
      · intro x _
        rw [if_neg (by omega), zero_mul]
    · have ha := a.2
      rw [Finset.sum_eq_single ⟨a.1 - 1, by omega⟩]
      · have e : ((a.1 - 1 : ℕ) : ℝ) = (a : ℝ) - 1 := by
          rw [Nat.cast_sub (by omega), Nat.cast_one]
        rw [if_pos (by simp only; omega), if_pos (by simp only; omega), ← ofReal_mul]
        simp only [e]
        rw [show ((a : ℝ) - 1 + 1) * (n - 1 - (a - 1)) = a * (n - a) by ring, Real.mul_self_sqrt]
        exact mul_nonneg (Nat.cast_nonneg _) (sub_nonneg.mpr (by exact_mod_cast ha.le))
      · intro x _ hx
        rw [if_neg (fun e => hx (Fin.ext (by simp only; omega))), zero_mul]
      · simp
  · rw [if_neg h]
    apply Finset.sum_eq_zero; intro x _
    by_cases h1 : a.1 = x.1 + 1
    · rw [if_neg (fun e => h (Fin.ext (by omega))) (c := x.1 + 1 = b.1), mul_zero]
    · rw [if_neg h1, zero_mul]

theorem down_up (n : ℕ) (a b : Fin n) : ∑ x : Fin n, lDown n a x * lUp n x b = if a = b then (((a + 1) * (n - 1 - a) : ℝ) : ℂ) else 0 := by
  simp only [lUp, lDown, ell_up, ell_down]
  by_cases h : a = b
  · subst h
    rw [if_pos rfl]
    have ha := a.2
    by_cases h0 : a.1 + 1 = n
    · have e : (n : ℝ) = a + 1 := by exact_mod_cast h0.symm
      rw [e, Finset.sum_eq_zero]
      · simp
      · intro x _
        rw [if_neg (by omega), zero_mul]
    · rw [Finset.sum_eq_single ⟨a.1 + 1, by omega⟩]
      · rw [if_pos rfl, if_pos rfl, ← ofReal_mul]
        have : ((a.1 + 1 : ℕ) : ℝ) * (n - (a.1 + 1 : ℕ)) = (a + 1) * (n - 1 - a) := by push_cast; ring
        simp only [this]
        rw [Real.mul_self_sqrt]
        refine mul_nonneg (by positivity) ?_
        have : ((a.1 + 1 : ℕ) : ℝ) ≤ n := by exact_mod_cast ha
        push_cast at this
        linarith
      · intro x _ hx
        rw [if_neg (fun e => hx (Fin.ext e.symm)), zero_mul]
      · simp
  · rw [if_neg h]
    apply Finset.sum_eq_zero; intro x _
    by_cases h1 : a.1 + 1 = x.1
    · rw [if_neg (fun e => h (Fin.ext (by omega))) (c := x.1 = b.1 + 1), mul_zero]
    · rw [if_neg h1, zero_mul]

theorem z_left (n : ℕ) (a b : Fin n) (F : ℕ → ℕ → ℂ) : ∑ x : Fin n, lMelem n .z a x * F x b = ((a : ℝ) - ell n : ℝ) * F a b := by
  rw [Finset.sum_eq_single a]
  · simp [lMelem]
  · intro x _ hx
    rw [lMelem, if_neg (fun e => hx (Fin.ext e.symm)), zero_mul]
  · simp

theorem z_right (n : ℕ) (a b : Fin n) (F : ℕ → ℕ → ℂ) : ∑ x : Fin n, F a x * lMelem n .z x b = F a b * ((b : ℝ) - ell n : ℝ) := by
  rw [Finset.sum_eq_single b]
  · simp [lMelem]
  · intro x _ hx
    rw [lMelem, if_neg (fun e => hx (Fin.ext e)), mul_zero]
  · simp

/-- change of basis of a matrix -/
noncomputable def tr (n : ℕ) (T : Option (ℕ → ℕ → ℂ)) (L : ℕ → ℕ → ℂ) (a b : ℕ) : ℂ :=
  match T with
  | none => L a b
  | some T => ∑ j : Fin n, ∑ k : Fin n, star (T a j) * L j k * T b k

theorem lMatrix_tr (n : ℕ) (T : Option (ℕ → ℕ → ℂ)) (k : Cmp) (a b : ℕ) : lMatrix n T k a b = tr n T (lMelem n k) a b := by
  cases T with
  | none => rfl
  | some T => exact sum_pairs_range n _

theorem tr_congr (n : ℕ) (T : Option (ℕ → ℕ → ℂ)) (L N : ℕ → ℕ → ℂ) (h : ∀ j k : Fin n, L j k = N j k) (a b : Fin n) :
    tr n T L a b = tr n T N a b := by
  cases T with
  | none => exact h a b
  | some T => simp only [tr, h]

theorem tr_smul (n : ℕ) (T : Option (ℕ → ℕ → ℂ)) (r : ℂ) (L : ℕ → ℕ → ℂ) (a b : ℕ) :
    tr n T (fun j k => r * L j k) a b = r * tr n T L a b := by
  cases T with
  | none => rfl
  | some T =>
    simp only [tr, Finset.mul_sum]
    apply Finset.sum_congr rfl; intro j _; apply Finset.sum_congr rfl; intro k _
    ring

theorem tr_add (n : ℕ) (T : Option (ℕ → ℕ → ℂ)) (L N : ℕ → ℕ → ℂ) (a b : ℕ) :
    tr n T (fun j k => L j k + N j k) a b = tr n T L a b + tr n T N a b := by
  cases T with
  | none => rfl
  | some T => simp only [tr, mul_add, add_mul, Finset.sum_add_distrib]

theorem tr_sub (n : ℕ) (T : Option (ℕ → ℕ → ℂ)) (L N : ℕ → ℕ → ℂ) (a b : ℕ) :
    tr n T (fun j k => L j k - N j k) a b = tr n T L a b - tr n T N a b := by
  cases T with
  | none => rfl
  | some T => simp only [tr, mul_sub, sub_mul, Finset.sum_sub_distrib]

theorem tr_mul (n : ℕ) (T : Option (ℕ → ℕ → ℂ)) (hT : Basis n T) (L N : ℕ → ℕ → ℂ) (a b : Fin n) :
    ∑ x : Fin n, tr n T L a x * tr n T N x b = tr n T (fun j k => ∑ x : Fin n, L j x * N x k) a b := by
  cases T with
  | none => rfl
  | some T =>
    have h := hT T rfl
    simp only [tr, Finset.mul_sum, Finset.sum_mul]
    calc ∑ x : Fin n, ∑ j' : Fin n, ∑ k' : Fin n, ∑ j : Fin n, ∑ k : Fin n,
          star (T a j) * L j k * T x k * (star (T x j') * N j' k' * T b k')
        = ∑ j' : Fin n, ∑ k' : Fin n, ∑ j : Fin n, ∑ k : Fin n, star (T a j) * L j k * N j' k' * T b k' *
            ∑ x : Fin n, star (T x j') * T x k := by
          rw [Finset.sum_comm]; apply Finset.sum_congr rfl; intro j' _
          rw [Finset.sum_comm]; apply Finset.sum_congr rfl; intro k' _
          rw [Finset.sum_comm]; apply Finset.sum_congr rfl; intro j _
          rw [Finset.sum_comm]; apply Finset.sum_congr rfl; intro k _
          rw [Finset.mul_sum]
          apply Finset.sum_congr rfl; intro x _
          ring
      _ = ∑ j' : Fin n, ∑ k' : Fin n, ∑ j : Fin n, star (T a j) * L j j' * N j' k' * T b k' := by
          apply Finset.sum_congr rfl; intro j' _; apply Finset.sum_congr rfl; intro k' _
          apply Finset.sum_congr rfl; intro j _
          rw [Finset.sum_eq_single j']
          · rw [h j' j'.2 j' j'.2, if_pos rfl, mul_one]
          · intro k _ hk
            rw [h j' j'.2 k k.2, if_neg (fun e => hk (Fin.ext e.symm)), mul_zero]
          · simp
      _ = _ := by
          conv_rhs =>
            enter [2, j, 2, k]
          rw [Finset.sum_comm]
          conv_lhs => enter [2, k']; rw [Finset.sum_comm]
          rw [Finset.sum_comm]
          apply Finset.sum_congr rfl; intro j _; apply Finset.sum_congr rfl; intro k _
          apply Finset.sum_congr rfl; intro x _
          ring

/-- the one-body matrix of an orbital operator -/
def orbMat (l n : ℕ) (L : ℕ → ℕ → ℂ) (x y : Fin l × Fin n) : ℂ := if x.1 = y.1 then L x.2 y.2 else 0

theorem orbMat_mul (l n : ℕ) (L N : ℕ → ℕ → ℂ) (x y : Fin l × Fin n) : ∑ a, orbMat l n L x a * orbMat l n N a y =
    orbMat l n (fun j k => ∑ o : Fin n, L j o * N o k) x y := by
  rw [Fintype.sum_prod_type]
  unfold orbMat
  by_cases h : x.1 = y.1
  · rw [if_pos h, Finset.sum_eq_single x.1]
    · simp [h]
    · intro o _ ho
      simp [Ne.symm ho]
    · simp
  · rw [if_neg h]
    apply Finset.sum_eq_zero; intro i _; apply Finset.sum_eq_zero; intro o _
    by_cases h1 : x.1 = i
    · simp [← h1, h]
    · simp [h1]

theorem orbital_ladder {A : Type} [Ring A] [Algebra ℂ A] (l n : ℕ) (T : Option (ℕ → ℕ → ℂ)) (hT : Basis n T)
    (cr an : Fin l × Fin n → A) (h : Car cr an) :
    Ladder (one cr an (orbMat l n (lMatrix n T .z))) (one cr an (orbMat l n (lMatrix n T .p))) (one cr an (orbMat l n (lMatrix n T .m))) := by
  have key : ∀ (k k' : Cmp) (N : ℕ → ℕ → ℂ),
      (∀ a b : Fin n, (∑ x : Fin n, lMelem n k a x * lMelem n k' x b) - ∑ x : Fin n, lMelem n k' a x * lMelem n k x b = N a b) →
      br (one cr an (orbMat l n (lMatrix n T k))) (one cr an (orbMat l n (lMatrix n T k'))) = one cr an (orbMat l n (tr n T N)) := by
    intro k k' N hN
    rw [comm_one h]
    congr 1
    funext x y
    rw [Finset.sum_sub_distrib, orbMat_mul, orbMat_mul]
    unfold orbMat
    split_ifs
    · simp only [lMatrix_tr]
      rw [tr_mul n T hT, tr_mul n T hT, ← tr_sub]
      exact tr_congr n T _ _ hN _ _
    · simp
  have e : ∀ k, lMatrix n T k = tr n T (lMelem n k) := fun k => by funext a b; exact lMatrix_tr n T k a b
  have hs : ∀ (r : ℂ) (L : ℕ → ℕ → ℂ), one cr an (orbMat l n (tr n T fun j k => r * L j k)) = r • one cr an (orbMat l n (tr n T L)) := by
    intro r L
    rw [← one_smul_mat]
    congr 1
    funext x y
    unfold orbMat
    split_ifs
    · exact tr_smul n T r L _ _
    · simp
  refine ⟨?_, ?_, ?_⟩
  · rw [key .z .p (lMelem n .p), e .p]
    intro a b
    rw [z_left, z_right]
    simp only [lMelem, lUp]
    split_ifs with hab
    · rw [hab]
      push_cast
      ring
    · simp
  · rw [key .z .m (fun j k => -1 * lMelem n .m j k), hs, neg_one_smul, e .m]
    intro a b
    rw [z_left, z_right]
    simp only [lMelem, lDown]
    split_ifs with hab
    · rw [← hab]
      push_cast
      ring
    · simp
  · rw [key .p .m (fun j k => 2 * lMelem n .z j k), hs, e .z]
    intro a b
    simp only [lMelem]
    rw [up_down, down_up]
    simp only [Fin.ext_iff]
    split_ifs
    · unfold ell
      push_cast
      ring
    · simp

end orbital

section main
variable {σ : Type} [DecidableEq σ] {ι : Type} [LinearOrder ι]

theorem bracket_action (a b : MMap ι ℂ) : action (bracket a b) = br (action a) (action b) := by
  rw [bracket, sub_action, mul_action, mul_action]
  rfl

theorem bracket_canonical {a b : MMap ι ℂ} (ha : Canonical a) (hb : Canonical b) : Canonical (bracket a b) :=
  sub_canonical (mul_canonical ha hb) (mul_canonical hb ha)

theorem squareOf_action (z p m : MMap ι ℂ) : action (squareOf z p m) = action z * action z +
    (1 / 2 : ℂ) • (action p * action m + action m * action p) := by
  rw [squareOf, add_action, smul_action, add_action, mul_action, mul_action, mul_action]

theorem squareOf_canonical {z p m : MMap ι ℂ} (hz : Canonical z) (hp : Canonical p) (hm : Canonical m) : Canonical (squareOf z p m) :=
  add_canonical (mul_canonical hz hz) (smul_canonical (add_canonical (mul_canonical hp hm) (mul_canonical hm hp)) _)

theorem melem_two (p q : ι) (T S : Finset ι) : star (melem (create p * annihilate q : Module.End ℂ (Space ι ℂ)) S T) =
    melem (create q * annihilate p) T S := by
  have h1 : (create p * annihilate q : Module.End ℂ (Space ι ℂ)) = monoAct [⟨true, p⟩, ⟨false, q⟩] := by
    simp [monoAct, opAct]
  have h2 : (create q * annihilate p : Module.End ℂ (Space ι ℂ)) = monoAct (Mono.adj [⟨true, p⟩, ⟨false, q⟩]) := by
    simp [monoAct, opAct, Mono.adj, COp.adj]
  rw [h1, h2, monoAct_adj, melem_monoAct_int]

/-- an operator with a Hermitian one-body matrix is Hermitian -/
theorem hermitian_of_one {X : Type} [Fintype X] (f : X → ι) (M : X → X → ℂ) (a : MMap ι ℂ) (ha : Canonical a)
    (h : action a = one (fun x => create (f x)) (fun x => annihilate (f x)) M) (hM : ∀ x y, star (M x y) = M y x) :
    isHermitian a = true := by
  have h1 := eqOp_iff_melem (dagger_canonical ha) ha
  have h2 : isHermitian a = eqOp (dagger a) a := by
    unfold isHermitian eqOp isZero
    cases sub (dagger a) a <;> simp
  rw [h2, h1]
  intro T S
  rw [dagger_melem ha, h]
  unfold one
  simp only [melem_sum, melem_smul, star_sum, star_mul', melem_two, hM]
  exact Finset.sum_comm

/-- components with the matrices of ladder operators are an angular momentum -/
theorem angular_of_ladder {x y z p m : MMap ι ℂ} (cx : Canonical x) (cy : Canonical y) (cz : Canonical z) (cp : Canonical p) (cm : Canonical m)
    (h : Ladder (action z) (action p) (action m)) (hx : action x = (1 / 2 : ℂ) • (action p + action m))
    (hy : action y = (-(1 / 2) * I : ℂ) • (action p - action m))
    (hhx : isHermitian x = true) (hhy : isHermitian y = true) (hhz : isHermitian z = true) :
    Angular x y z p m ∧ Square (squareOf z p m) x y z := by
  obtain ⟨h1, h2, h3, h4⟩ := h.xyz
  rw [← hx, ← hy] at h1 h4
  rw [← hy, ← hx] at h2 h3
  have hI : I * I = -1 := I_mul_I
  have hiy : I • action y = (1 / 2 : ℂ) • (action p - action m) := by
    rw [hy, smul_smul, show I * (-(1 / 2) * I) = 1 / 2 by linear_combination (-(1 / 2) : ℂ) * hI]
  have hc := squareOf_canonical cz cp cm
  refine ⟨⟨?_, ?_, ?_, ?_, ?_, hhx, hhy, hhz⟩, ?_, ?_⟩
  · exact eqOp_of_action (bracket_canonical cx cy) (smul_canonical cz _) (by rw [bracket_action, smul_action, h1])
  · exact eqOp_of_action (bracket_canonical cy cz) (smul_canonical cx _) (by rw [bracket_action, smul_action, h2])
  · exact eqOp_of_action (bracket_canonical cz cx) (smul_canonical cy _) (by rw [bracket_action, smul_action, h3])
  · exact eqOp_of_action cp (add_canonical cx (smul_canonical cy _)) (by rw [add_action, smul_action, hiy, hx]; module)
  · exact eqOp_of_action cm (sub_canonical cx (smul_canonical cy _)) (by rw [sub_action, smul_action, hiy, hx]; module)
  · apply eqOp_of_action hc (add_canonical (add_canonical (mul_canonical cx cx) (mul_canonical cy cy)) (mul_canonical cz cz))
    rw [squareOf_action, add_action, add_action, mul_action, mul_action, mul_action, h4]
  · have hp := h.casimir (action p) (Or.inr (Or.inl rfl))
    have hm := h.casimir (action m) (Or.inr (Or.inr rfl))
    rintro w (rfl | rfl | rfl)
    · apply eqOp_comm hc cx
      rw [squareOf_action, hx, comm_smul, comm_add, hp, hm, add_zero, smul_zero]
    · apply eqOp_comm hc cy
      rw [squareOf_action, hy, comm_smul, comm_sub', hp, hm, sub_zero, smul_zero]
    · apply eqOp_comm hc cz
      rw [squareOf_action, h.casimir _ (Or.inl rfl)]

theorem pauli_xy (i j : ℕ) : pauli .x i j = 1 / 2 * (pauli .p i j + pauli .m i j) ∧
    pauli .y i j = -(1 / 2) * I * (pauli .p i j - pauli .m i j) := by
  match i, j with
  | 0, 0 => simp [pauli]
  | 0, 1 => simp [pauli]; ring
  | 1, 0 => simp [pauli]; ring
  | 1, 1 => simp [pauli]
  | 0, j + 2 => simp [pauli]
  | 1, j + 2 => simp [pauli]
  | i + 2, j => simp [pauli]

theorem pauli_star (k : Cmp) (hk : k = .x ∨ k = .y ∨ k = .z) (i j : ℕ) : star (pauli k i j) = pauli k j i := by
  rcases hk with rfl | rfl | rfl <;> match i, j with
  | 0, 0 => simp [pauli]
  | 0, 1 => simp [pauli]
  | 1, 0 => simp [pauli]
  | 1, 1 => simp [pauli]
  | 0, j + 2 => simp [pauli]
  | 1, j + 2 => simp [pauli]
  | i + 2, 0 => simp [pauli]
  | i + 2, 1 => simp [pauli]
  | i + 2, j + 2 => simp [pauli]

/-- **C118.** For two distinct spin names `S_op` gives the Hermitian components of an angular momentum with
`S± = Sx ± i Sy`, and `S2_op` is `Sx² + Sy² + Sz²` and commutes with all of them. -/
theorem C118_spin (mk : σ → ℕ → ι) (u d : σ) (n : ℕ) (hud : u ≠ d) (hinj : Inj mk [u, d] n) : ∃ x y z p m sq,
    sOp .x mk [u, d] n = some x ∧ sOp .y mk [u, d] n = some y ∧ sOp .z mk [u, d] n = some z ∧
    sOp .p mk [u, d] n = some p ∧ sOp .m mk [u, d] n = some m ∧ s2Op mk [u, d] n = some sq ∧
    Angular x y z p m ∧ Square sq x y z := by
  obtain ⟨x, hx⟩ := sOp_some .x mk u d n
  obtain ⟨y, hy⟩ := sOp_some .y mk u d n
  obtain ⟨z, hz⟩ := sOp_some .z mk u d n
  obtain ⟨p, hp⟩ := sOp_some .p mk u d n
  obtain ⟨m, hm⟩ := sOp_some .m mk u d n
  refine ⟨x, y, z, p, m, squareOf z p m, hx, hy, hz, hp, hm, by simp [s2Op, hz, hp, hm], ?_⟩
  have hl := spin_ladder 2 n rfl _ _ (car_of_injective (R := ℂ) _ (lab_injective (List.nodup_cons.mpr ⟨by simpa using hud, by simp⟩) hinj))
  have ax := sOp_action _ _ _ _ _ hx
  have ay := sOp_action _ _ _ _ _ hy
  have az := sOp_action _ _ _ _ _ hz
  have ap := sOp_action _ _ _ _ _ hp
  have am := sOp_action _ _ _ _ _ hm
  have cx := sOp_canonical _ _ _ _ _ hx
  have cy := sOp_canonical _ _ _ _ _ hy
  have cz := sOp_canonical _ _ _ _ _ hz
  have hst : ∀ k, k = Cmp.x ∨ k = .y ∨ k = .z → ∀ a b, star (spinMat k [u, d].length n a b) = spinMat k [u, d].length n b a := by
    intro k hk a b
    unfold spinMat
    rw [apply_ite star, star_mul', pauli_star k hk]
    simp [eq_comm]
  apply angular_of_ladder cx cy cz (sOp_canonical _ _ _ _ _ hp) (sOp_canonical _ _ _ _ _ hm)
  · rw [az, ap, am]
    exact hl
  · rw [ax, ap, am, ← one_add_mat, ← one_smul_mat]
    congr 1
    funext a b
    unfold spinMat
    split_ifs
    · rw [(pauli_xy _ _).1]
      ring
    · simp
  · rw [ay, ap, am, ← one_sub_mat, ← one_smul_mat]
    congr 1
    funext a b
    unfold spinMat
    split_ifs
    · rw [(pauli_xy _ _).2]
      ring
    · simp
  · exact hermitian_of_one _ _ x cx ax (hst _ (Or.inl rfl))
  · exact hermitian_of_one _ _ y cy ay (hst _ (Or.inr (Or.inl rfl)))
  · exact hermitian_of_one _ _ z cz az (hst _ (Or.inr (Or.inr rfl)))

theorem lMelem_star (n : ℕ) (k : Cmp) (hk : k = .x ∨ k = .y ∨ k = .z) (a b : ℕ) : star (lMelem n k a b) = lMelem n k b a := by
  have h1 : ∀ a b, star (lUp n a b) = lDown n b a := by
    intro a b
    unfold lUp lDown
    by_cases h : a = b + 1
    · rw [if_pos h, if_pos h.symm]
      rw [ell_up, ell_down, h]
      rw [show ((b + 1 : ℕ) : ℝ) * ((n : ℝ) - (b + 1 : ℕ)) = (b + 1) * (n - 1 - b) by push_cast; ring]
      exact conj_ofReal _
    · rw [if_neg h, if_neg (Ne.symm h), star_zero]
  have h2 : ∀ a b, star (lDown n a b) = lUp n b a := by
    intro a b
    rw [← h1, star_star]
  rcases hk with rfl | rfl | rfl
  · simp only [lMelem, star_mul', star_add, h1, h2]
    rw [add_comm]
    congr 1
    simp
  · simp only [lMelem, star_mul', star_sub, h1, h2, star_neg, star_def, conj_I]
    simp only [map_div₀, map_one, map_ofNat]
    ring
  · simp only [lMelem]
    rw [apply_ite star]
    by_cases h : a = b
    · subst h
      simp only [if_true]
      exact conj_ofReal _
    · rw [if_neg h, if_neg (Ne.symm h), star_zero]

theorem tr_star (n : ℕ) (T : Option (ℕ → ℕ → ℂ)) (L : ℕ → ℕ → ℂ) (hL : ∀ a b, star (L a b) = L b a) (a b : ℕ) :
    star (tr n T L a b) = tr n T L b a := by
  cases T with
  | none => exact hL a b
  | some T =>
    simp only [tr, star_sum, star_mul', hL, star_star]
    rw [Finset.sum_comm]
    apply Finset.sum_congr rfl; intro j _; apply Finset.sum_congr rfl; intro k _
    ring

/-- **C118.** For any number of orbitals, spin names and orthonormal change of basis, `L_op` gives the Hermitian components of
an angular momentum with `L± = Lx ± i Ly`, and `L2_op` is `Lx² + Ly² + Lz²` and commutes with all of them. -/
theorem C118_orbital (mk : σ → ℕ → ι) (sp : List σ) (n : ℕ) (T : Option (ℕ → ℕ → ℂ)) (hsp : sp.Nodup) (hinj : Inj mk sp n)
    (hT : Basis n T) :
    Angular (lOp .x mk sp n T) (lOp .y mk sp n T) (lOp .z mk sp n T) (lOp .p mk sp n T) (lOp .m mk sp n T) ∧
    Square (l2Op mk sp n T) (lOp .x mk sp n T) (lOp .y mk sp n T) (lOp .z mk sp n T) := by
  have hl := orbital_ladder sp.length n T hT _ _ (car_of_injective (R := ℂ) _ (lab_injective hsp hinj))
  have ha : ∀ k, action (lOp k mk sp n T) = one (fun x => create (lab mk sp n x)) (fun x => annihilate (lab mk sp n x))
      (orbMat sp.length n (lMatrix n T k)) := fun k => orbitalOp_action mk sp n _
  have hc : ∀ k, Canonical (lOp k mk sp n T) := fun k => orbitalOp_canonical _ _ _ _
  have hst : ∀ k, k = Cmp.x ∨ k = .y ∨ k = .z → isHermitian (lOp k mk sp n T) = true := by
    intro k hk
    apply hermitian_of_one _ _ _ (hc k) (ha k)
    intro a b
    unfold orbMat
    rw [apply_ite star, lMatrix_tr, tr_star n T _ (lMelem_star n k hk), star_zero, ← lMatrix_tr]
    simp [eq_comm]
  apply angular_of_ladder (hc _) (hc _) (hc _) (hc _) (hc _)
  · rw [ha, ha, ha]
    exact hl
  · rw [ha, ha, ha, ← one_add_mat, ← one_smul_mat]
    congr 1
    funext a b
    unfold orbMat
    split_ifs
    · rw [lMatrix_tr, lMatrix_tr, lMatrix_tr, ← tr_add, ← tr_smul]
      rfl
    · simp
  · rw [ha, ha, ha, ← one_sub_mat, ← one_smul_mat]
    congr 1
    funext a b
    unfold orbMat
    split_ifs
    · rw [lMatrix_tr, lMatrix_tr, lMatrix_tr, ← tr_sub, ← tr_smul]
      rfl
    · simp
  · exact hst _ (Or.inl rfl)
  · exact hst _ (Or.inr (Or.inl rfl))
  · exact hst _ (Or.inr (Or.inr rfl))

/-- **C118.** `S_op` fails for more than two spin names exactly when there is an orbital. -/
theorem C118_spin_names (k : Cmp) (mk : σ → ℕ → ι) (sp : List σ) (n : ℕ) : sOp k mk sp n = none ↔ 2 < sp.length ∧ 0 < n := by
  unfold sOp
  split_ifs with h <;> simp [h]

/-- **C118.** The spin of `S_op` is conserved by every Slater Hamiltonian and by the Kanamori Hamiltonian. -/
theorem C118_spin_conserved (k : Cmp) (mk : σ → ℕ → ι) (sp : List σ) (n : ℕ) (hsp : sp.Nodup) (hinj : Inj mk sp n)
    (S : MMap ι ℂ) (hS : sOp k mk sp n = some S) :
    (∀ U : ℕ → ℕ → ℕ → ℕ → ℂ, eqOp (mul S (slater mk sp n U)) (mul (slater mk sp n U) S) = true) ∧
    ∀ U Up J : ℂ, eqOp (mul S (kanamori mk sp n (kanU Up J) (kanUp U Up) J)) (mul (kanamori mk sp n (kanU Up J) (kanUp U Up) J) S) = true := by
  have hc := sOp_canonical _ _ _ _ _ hS
  have h : ∀ U : ℕ → ℕ → ℕ → ℕ → ℂ, br (action S) (action (slater mk sp n U)) = 0 := by
    intro U
    rw [sOp_action _ _ _ _ _ hS, slater_two, comm_smul]
    have := comm_spin sp.length n U _ _ (car_of_injective (R := ℂ) _ (lab_injective hsp hinj)) (fun i j => 1 / 2 * pauli k i j)
    rw [show spinMat k sp.length n = fun x y => if x.2 = y.2 then 1 / 2 * pauli k x.1 y.1 else 0 from rfl, this, smul_zero]
  refine ⟨fun U => eqOp_comm hc (slater_canonical _ _ _ _) (h U), fun U Up J => eqOp_comm hc (kanamori_canonical _ _ _ _ _ _) ?_⟩
  rw [kan_action mk sp n U Up J hsp hinj, h]

theorem comm_spin_orbital {A : Type} [Ring A] [Algebra ℂ A] (l n : ℕ) (L : ℕ → ℕ → ℂ) (k : Cmp) (cr an : Fin l × Fin n → A) (h : Car cr an) :
    br (one cr an (orbMat l n L)) (one cr an (spinMat k l n)) = 0 := by
  rw [comm_one h]
  rw [show (fun x y => ∑ a, (orbMat l n L x a * spinMat k l n a y - spinMat k l n x a * orbMat l n L a y)) = fun _ _ => 0 from ?_]
  · simp [one]
  · funext x y
    rw [Finset.sum_sub_distrib, Fintype.sum_prod_type, Fintype.sum_prod_type]
    rw [Finset.sum_eq_single x.1 (by intro i _ hi; apply Finset.sum_eq_zero; intro o _; simp [orbMat, Ne.symm hi]) (by simp)]
    rw [Finset.sum_eq_single y.1 (by intro i _ hi; apply Finset.sum_eq_zero; intro o _; simp [orbMat, hi]) (by simp)]
    rw [Finset.sum_eq_single y.2 (by intro o _ ho; simp [spinMat, ho]) (by simp)]
    rw [Finset.sum_eq_single x.2 (by intro o _ ho; simp [spinMat, Ne.symm ho]) (by simp)]
    simp [orbMat, spinMat]
    ring

theorem Ladder.coupling {A : Type} [Ring A] [Algebra ℂ A] {z p m z' p' m' : A} (h : Ladder z p m) (h' : Ladder z' p' m')
    (hc : ∀ a, a = z ∨ a = p ∨ a = m → ∀ b, b = z' ∨ b = p' ∨ b = m' → br a b = 0) :
    let ls := z * z' + (1 / 2 : ℂ) • (p * m' + m * p');
    br ls (z + z') = 0 ∧ br ls (p + p') = 0 ∧ br ls (m + m') = 0 := by
  intro ls
  have hpz : br p z = -p := by rw [comm_swap, h.zp]
  have hmz : br m z = m := by rw [comm_swap, h.zm, neg_neg]
  have hmp : br m p = -((2 : ℂ) • z) := by rw [comm_swap, h.pm]
  have hpz' : br p' z' = -p' := by rw [comm_swap, h'.zp]
  have hmz' : br m' z' = m' := by rw [comm_swap, h'.zm, neg_neg]
  have hmp' : br m' p' = -((2 : ℂ) • z') := by rw [comm_swap, h'.pm]
  have hml : ∀ a b c : A, br (a * b) c = a * br b c + br a c * b := by
    intro a b c; unfold TwoBody.comm; noncomm_ring
  have c1 : ∀ a, a = z ∨ a = p ∨ a = m → ∀ b, b = z' ∨ b = p' ∨ b = m' → br b a = 0 := by
    intro a ha b hb
    rw [comm_swap, hc a ha b hb, neg_zero]
  have zz := hc z (by simp) z' (by simp)
  have zp := hc z (by simp) p' (by simp)
  have zm := hc z (by simp) m' (by simp)
  have pz := hc p (by simp) z' (by simp)
  have pp := hc p (by simp) p' (by simp)
  have pm := hc p (by simp) m' (by simp)
  have mz := hc m (by simp) z' (by simp)
  have mp := hc m (by simp) p' (by simp)
  have mm := hc m (by simp) m' (by simp)
  have zz1 := c1 z (by simp) z' (by simp)
  have zp1 := c1 z (by simp) p' (by simp)
  have zm1 := c1 z (by simp) m' (by simp)
  have pz1 := c1 p (by simp) z' (by simp)
  have pp1 := c1 p (by simp) p' (by simp)
  have pm1 := c1 p (by simp) m' (by simp)
  have mz1 := c1 m (by simp) z' (by simp)
  have mp1 := c1 m (by simp) p' (by simp)
  have mm1 := c1 m (by simp) m' (by simp)
  refine ⟨?_, ?_, ?_⟩ <;> simp only [ls, comm_add, add_comm_left, smul_comm_left, hml, comm_self, h.zp, h.zm, h.pm, h'.zp, h'.zm, h'.pm,
    hpz, hmz, hmp, hpz', hmz', hmp', zz, zp, zm, pz, pp, pm, mz, mp, mm, zz1, zp1, zm1, pz1, pp1, pm1, mz1, mp1, mm1,
    mul_zero, zero_mul, mul_neg, neg_mul, mul_smul_comm, smul_mul_assoc] <;> module

/-- **C118.** `LS_op` is `Lx Sx + Ly Sy + Lz Sz`; orbital momentum and spin commute; `LS_op` commutes with each component of the
total momentum `L + S`. -/
theorem C118_coupling (mk : σ → ℕ → ι) (u d : σ) (n : ℕ) (T : Option (ℕ → ℕ → ℂ)) (hud : u ≠ d) (hinj : Inj mk [u, d] n)
    (hT : Basis n T) (S : Cmp → MMap ι ℂ) (hS : ∀ k, sOp k mk [u, d] n = some (S k)) :
    ∃ ls, lsOp mk [u, d] n T = some ls ∧
      eqOp ls (add (add (mul (lOp .x mk [u, d] n T) (S .x)) (mul (lOp .y mk [u, d] n T) (S .y))) (mul (lOp .z mk [u, d] n T) (S .z))) = true ∧
      ∀ k, (∀ k', eqOp (mul (lOp k mk [u, d] n T) (S k')) (mul (S k') (lOp k mk [u, d] n T)) = true) ∧
        eqOp (mul ls (add (lOp k mk [u, d] n T) (S k))) (mul (add (lOp k mk [u, d] n T) (S k)) ls) = true := by
  refine ⟨_, by simp only [lsOp, hS]; rfl, ?_⟩
  have hcar := car_of_injective (R := ℂ) _ (lab_injective (List.nodup_cons.mpr ⟨by simpa using hud, by simp⟩) hinj)
  have hs := spin_ladder 2 n rfl _ _ hcar
  have hl := orbital_ladder 2 n T hT _ _ hcar
  have aS : ∀ k, action (S k) = one (fun x => create (lab mk [u, d] n x)) (fun x => annihilate (lab mk [u, d] n x))
      (spinMat k 2 n) := fun k => sOp_action _ _ _ _ _ (hS k)
  have aL : ∀ k, action (lOp k mk [u, d] n T) = one (fun x => create (lab mk [u, d] n x)) (fun x => annihilate (lab mk [u, d] n x))
      (orbMat 2 n (lMatrix n T k)) := fun k => orbitalOp_action mk [u, d] n _
  rw [← aS, ← aS, ← aS] at hs
  rw [← aL, ← aL, ← aL] at hl
  have cS := fun k => sOp_canonical _ _ _ _ _ (hS k)
  have cL : ∀ k, Canonical (lOp k mk [u, d] n T) := fun k => orbitalOp_canonical _ _ _ _
  have hc : ∀ k k', br (action (lOp k mk [u, d] n T)) (action (S k')) = 0 := by
    intro k k'
    rw [aL, aS]
    exact comm_spin_orbital 2 n _ _ _ _ hcar
  have sx : action (S .x) = (1 / 2 : ℂ) • (action (S .p) + action (S .m)) := by
    rw [aS, aS, aS, ← one_add_mat, ← one_smul_mat]
    congr 1
    funext a b
    unfold spinMat
    split_ifs
    · rw [(pauli_xy _ _).1]; ring
    · simp
  have sy : action (S .y) = (-(1 / 2) * I : ℂ) • (action (S .p) - action (S .m)) := by
    rw [aS, aS, aS, ← one_sub_mat, ← one_smul_mat]
    congr 1
    funext a b
    unfold spinMat
    split_ifs
    · rw [(pauli_xy _ _).2]; ring
    · simp
  have lx : action (lOp .x mk [u, d] n T) = (1 / 2 : ℂ) • (action (lOp .p mk [u, d] n T) + action (lOp .m mk [u, d] n T)) := by
    rw [aL, aL, aL, ← one_add_mat, ← one_smul_mat]
    congr 1
    funext a b
    unfold orbMat
    split_ifs
    · rw [lMatrix_tr, lMatrix_tr, lMatrix_tr, ← tr_add, ← tr_smul]; rfl
    · simp
  have ly : action (lOp .y mk [u, d] n T) = (-(1 / 2) * I : ℂ) • (action (lOp .p mk [u, d] n T) - action (lOp .m mk [u, d] n T)) := by
    rw [aL, aL, aL, ← one_sub_mat, ← one_smul_mat]
    congr 1
    funext a b
    unfold orbMat
    split_ifs
    · rw [lMatrix_tr, lMatrix_tr, lMatrix_tr, ← tr_sub, ← tr_smul]; rfl
    · simp
  have cls : Canonical (add (mul (lOp .z mk [u, d] n T) (S .z)) (smul (add (mul (lOp .p mk [u, d] n T) (S .m)) (mul (lOp .m mk [u, d] n T) (S .p))) (1 / 2))) :=
    add_canonical (mul_canonical (cL _) (cS _)) (smul_canonical (add_canonical (mul_canonical (cL _) (cS _)) (mul_canonical (cL _) (cS _))) _)
  obtain ⟨jz, jp, jm⟩ := hl.coupling hs (by
    rintro a (rfl | rfl | rfl) b (rfl | rfl | rfl) <;> exact hc _ _)
  refine ⟨?_, fun k => ⟨fun k' => eqOp_comm (cL k) (cS k') (hc k k'), ?_⟩⟩
  · apply eqOp_of_action cls (add_canonical (add_canonical (mul_canonical (cL _) (cS _)) (mul_canonical (cL _) (cS _))) (mul_canonical (cL _) (cS _)))
    simp only [add_action, smul_action, mul_action, lx, ly, sx, sy, smul_mul_smul_comm]
    rw [show (-(1 / 2) * I : ℂ) * (-(1 / 2) * I) = -(1 / 4) by linear_combination (1 / 4 : ℂ) * I_mul_I]
    generalize action (lOp .p mk [u, d] n T) = P
    generalize action (lOp .m mk [u, d] n T) = M
    generalize action (S .p) = P'
    generalize action (S .m) = M'
    generalize action (S .z) = Z'
    generalize action (lOp .z mk [u, d] n T) = Z
    simp only [mul_add, add_mul, mul_sub, sub_mul]
    module
  · apply eqOp_comm cls (add_canonical (cL k) (cS k))
    rw [add_action, add_action, smul_action, add_action, mul_action, mul_action, mul_action]
    cases k with
    | z => exact jz
    | p => exact jp
    | m => exact jm
    | x =>
      rw [lx, sx, ← smul_add, comm_smul, add_add_add_comm, comm_add, jp, jm, add_zero, smul_zero]
    | y =>
      rw [ly, sy, ← smul_add, comm_smul, sub_add_sub_comm, comm_sub', jp, jm, sub_zero, smul_zero]

theorem annihilate_one (i j : ι) : annihilate i (ket {j} : Space ι ℂ) = if i = j then ket ∅ else 0 := by
  funext T
  rw [annihilate_apply]
  by_cases hij : i = j
  · subst hij
    rw [if_pos rfl]
    by_cases hT : T = ∅
    · subst hT
      simp [ket, sgn]
    · by_cases hi : i ∈ T
      · simp [ket, hi, hT]
      · rw [if_neg hi, ket, if_neg, ket, if_neg hT, mul_zero]
        intro e
        obtain ⟨x, hx⟩ := Finset.nonempty_iff_ne_empty.mpr hT
        have : x ∈ insert i T := Finset.mem_insert_of_mem hx
        rw [e, Finset.mem_singleton] at this
        exact hi (this ▸ hx)
  · rw [if_neg hij]
    by_cases hi : i ∈ T
    · simp [hi]
    · rw [if_neg hi, ket, if_neg]
      · simp
      · intro e
        have : i ∈ insert i T := Finset.mem_insert_self _ _
        rw [e, Finset.mem_singleton] at this
        exact hij this

theorem create_empty (i : ι) : create i (ket ∅ : Space ι ℂ) = ket {i} := by
  funext T
  rw [create_apply]
  by_cases hT : T = {i}
  · subst hT
    simp [ket, sgn, Finset.filter_singleton]
  · by_cases hi : i ∈ T
    · rw [if_pos hi, ket, if_neg, ket, if_neg hT, mul_zero]
      intro e
      exact hT (by rw [← Finset.insert_erase hi, e]; rfl)
    · rw [if_neg hi, ket, if_neg hT]

/-- a one-body operator acts on one-particle states by its matrix -/
theorem one_ket {X : Type} [Fintype X] [DecidableEq X] (f : X → ι) (hf : Function.Injective f) (M : X → X → ℂ) (x : X) :
    one (fun x => create (f x)) (fun x => annihilate (f x)) M (ket {f x} : Space ι ℂ) = ∑ y, M y x • ket {f y} := by
  unfold one
  simp only [LinearMap.sum_apply, LinearMap.smul_apply, Module.End.mul_apply, annihilate_one]
  apply Finset.sum_congr rfl; intro y _
  rw [Finset.sum_eq_single x]
  · rw [if_pos rfl, create_empty]
  · intro z _ hz
    rw [if_neg (fun e => hz (hf e)), map_zero, smul_zero]
  · simp

theorem one_one_ket {X : Type} [Fintype X] [DecidableEq X] (f : X → ι) (hf : Function.Injective f) (M N : X → X → ℂ) (x : X) :
    (one (fun x => create (f x)) (fun x => annihilate (f x)) M * one (fun x => create (f x)) (fun x => annihilate (f x)) N :
      Module.End ℂ (Space ι ℂ)) (ket {f x}) = ∑ y, (∑ a, M y a * N a x) • ket {f y} := by
  rw [Module.End.mul_apply, one_ket f hf, map_sum]
  simp only [map_smul, one_ket f hf, Finset.smul_sum, smul_smul, Finset.sum_smul]
  rw [Finset.sum_comm]
  apply Finset.sum_congr rfl; intro y _; apply Finset.sum_congr rfl; intro a _
  rw [mul_comm]

theorem tr_delta (n : ℕ) (T : Option (ℕ → ℕ → ℂ)) (hT : Basis n T) (a b : Fin n) :
    tr n T (fun j k => if j = k then 1 else 0) a b = if a = b then 1 else 0 := by
  cases T with
  | none => simp [tr, Fin.ext_iff]
  | some T =>
    have h := hT T rfl
    let Q : Matrix (Fin n) (Fin n) ℂ := Matrix.of fun k j => T k j
    have h1 : Q.conjTranspose * Q = 1 := by
      ext j l
      rw [Matrix.mul_apply, Matrix.one_apply]
      simpa [Q, Fin.ext_iff] using h j j.2 l l.2
    have h2 : Q * Q.conjTranspose = 1 := mul_eq_one_comm.mp h1
    have h3 := congrFun (congrFun h2 b) a
    rw [Matrix.mul_apply, Matrix.one_apply] at h3
    calc _ = ∑ j : Fin n, star (T a j) * T b j := by
          simp only [tr]
          apply Finset.sum_congr rfl; intro j _
          rw [Finset.sum_eq_single j]
          · simp
          · intro k _ hk
            rw [if_neg (fun e => hk (Fin.ext e.symm))]
            simp
          · simp
      _ = _ := by
          simp only [Q, Matrix.of_apply, Matrix.conjTranspose_apply] at h3
          rw [show (if a = b then (1 : ℂ) else 0) = if b = a then 1 else 0 by simp [eq_comm], ← h3]
          apply Finset.sum_congr rfl; intro j _
          ring

/-- **C118.** On the states of one particle `S2_op` is `3/4` and `L2_op` is `l (l + 1)` with `l = (n - 1) / 2`: the orbitals are
one multiplet. -/
theorem C118_one_particle (mk : σ → ℕ → ι) (u d : σ) (sp : List σ) (n : ℕ) (T : Option (ℕ → ℕ → ℂ)) (hsp : sp.Nodup) (hT : Basis n T) (hud : u ≠ d) :
    (Inj mk [u, d] n → ∀ sq, s2Op mk [u, d] n = some sq → ∀ s ∈ [u, d], ∀ o < n, action sq (ket {mk s o}) = (3 / 4 : ℂ) • ket {mk s o}) ∧
    (Inj mk sp n → ∀ s ∈ sp, ∀ o < n,
      action (l2Op mk sp n T) (ket {mk s o}) = ((((n : ℝ) - 1) / 2 * (((n : ℝ) - 1) / 2 + 1) : ℝ) : ℂ) • ket {mk s o}) := by
  constructor
  · intro hinj sq hsq s hs o ho
    obtain ⟨z, hz⟩ := sOp_some .z mk u d n
    obtain ⟨p, hp⟩ := sOp_some .p mk u d n
    obtain ⟨m, hm⟩ := sOp_some .m mk u d n
    obtain rfl : squareOf z p m = sq := by simpa [s2Op, hz, hp, hm] using hsq
    have hl := lab_injective (List.nodup_cons.mpr ⟨by simpa using hud, by simp⟩) hinj
    obtain ⟨i, hi, rfl⟩ := List.getElem_of_mem hs
    have hx : mk [u, d][i] o = lab mk [u, d] n (⟨i, hi⟩, ⟨o, ho⟩) := rfl
    rw [hx, squareOf_action, sOp_action _ _ _ _ _ hz, sOp_action _ _ _ _ _ hp, sOp_action _ _ _ _ _ hm]
    simp only [LinearMap.add_apply, LinearMap.smul_apply, one_one_ket _ hl, spinMat_mul, Finset.smul_sum, ← Finset.sum_add_distrib,
      smul_smul, ← add_smul]
    rw [Finset.sum_eq_single (⟨i, hi⟩, ⟨o, ho⟩)]
    · congr 1
      simp only [if_true, pauli_sum _ _ [u, d].length rfl]
      have : i = 0 ∨ i = 1 := by simp at hi; omega
      rcases this with rfl | rfl <;> simp [pauli] <;> norm_num
    · rintro ⟨j, o'⟩ _ hne
      convert zero_smul ℂ _
      simp only [pauli_sum _ _ [u, d].length rfl]
      by_cases ho' : o' = ⟨o, ho⟩
      · subst ho'
        have hj : j.1 ≠ i := fun e => hne (by simp [← e])
        have h1 : i = 0 ∨ i = 1 := by simp at hi; omega
        have h2 : j.1 = 0 ∨ j.1 = 1 := by have := j.2; simp at this; omega
        rcases h1 with rfl | rfl <;> rcases h2 with h2 | h2 <;> simp [h2, pauli] at hj ⊢
      · simp [ho']
    · simp
  · intro hinj s hs o ho
    have hl := lab_injective hsp hinj
    obtain ⟨i, hi, rfl⟩ := List.getElem_of_mem hs
    have hx : mk sp[i] o = lab mk sp n (⟨i, hi⟩, ⟨o, ho⟩) := rfl
    have ha : ∀ k, action (lOp k mk sp n T) = one (fun x => create (lab mk sp n x)) (fun x => annihilate (lab mk sp n x))
        (orbMat sp.length n (lMatrix n T k)) := fun k => orbitalOp_action mk sp n _
    rw [hx, l2Op, squareOf_action, ha, ha, ha]
    simp only [LinearMap.add_apply, LinearMap.smul_apply, one_one_ket _ hl, orbMat_mul, Finset.smul_sum, ← Finset.sum_add_distrib,
      smul_smul, ← add_smul]
    have hm : ∀ a b : Fin n, (∑ x : Fin n, lMatrix n T .z a x * lMatrix n T .z x b) + 1 / 2 * ((∑ x : Fin n, lMatrix n T .p a x * lMatrix n T .m x b) +
        ∑ x : Fin n, lMatrix n T .m a x * lMatrix n T .p x b) =
        if a = b then ((((n : ℝ) - 1) / 2 * (((n : ℝ) - 1) / 2 + 1) : ℝ) : ℂ) else 0 := by
      intro a b
      simp only [lMatrix_tr]
      rw [tr_mul n T hT, tr_mul n T hT, tr_mul n T hT, ← tr_add, ← tr_smul, ← tr_add]
      rw [tr_congr n T _ (fun j k => ((((n : ℝ) - 1) / 2 * (((n : ℝ) - 1) / 2 + 1) : ℝ) : ℂ) * if j = k then 1 else 0), tr_smul, tr_delta n T hT]
      · simp
      · intro j k
        rw [z_left]
        simp only [lMelem]
        rw [up_down, down_up]
        simp only [Fin.ext_iff]
        split_ifs
        · unfold ell
          push_cast
          ring
        · simp
    rw [Finset.sum_eq_single (⟨i, hi⟩, ⟨o, ho⟩)]
    · congr 1
      simpa [orbMat] using hm ⟨o, ho⟩ ⟨o, ho⟩
    · rintro ⟨j, o'⟩ _ hne
      convert zero_smul ℂ _
      by_cases hj : j = ⟨i, hi⟩
      · subst hj
        have := hm o' ⟨o, ho⟩
        rw [if_neg (fun e => hne (by rw [e]))] at this
        simpa [orbMat] using this
      · simp [orbMat, hj]
    · simp

end main

theorem exMk_inj : Inj exMk [0, 1] 2 := by
  intro s hs s' hs' o ho o' ho' h
  simp [exMk] at hs hs' h
  omega

-- two orbitals: the hypotheses of `C118_spin` hold, the raising operator is not zero
example : (∃ x y z p m sq, sOp .x exMk [0, 1] 2 = some x ∧ sOp .y exMk [0, 1] 2 = some y ∧ sOp .z exMk [0, 1] 2 = some z ∧
    sOp .p exMk [0, 1] 2 = some p ∧ sOp .m exMk [0, 1] 2 = some m ∧ s2Op exMk [0, 1] 2 = some sq ∧ Angular x y z p m ∧ Square sq x y z) ∧
    pauli .p 0 1 = 2 := ⟨C118_spin exMk 0 1 2 (by decide) exMk_inj, rfl⟩

-- p orbitals: matrix elements of the raising operator and of Lz
example : lMelem 3 .p 1 0 = ((Real.sqrt 2 : ℝ) : ℂ) ∧ lMelem 3 .p 0 1 = 0 ∧ lMelem 3 .z 2 2 = 1 ∧ lMelem 3 .z 0 0 = -1 := by
  refine ⟨?_, ?_, ?_, ?_⟩
  · simp only [lMelem, lUp, ell]
    norm_num
  · simp [lMelem, lUp]
  · simp only [lMelem, ell]
    norm_num
  · simp only [lMelem, ell]
    norm_num

-- one electron in two orbitals has S² = 3/4, L² = 3/4
example (sq : MMap ℕ ℂ) (h : s2Op exMk [0, 1] 2 = some sq) : action sq (ket {3}) = (3 / 4 : ℂ) • ket {3} :=
  (C118_one_particle exMk 0 1 [0, 1] 2 none (by decide) (by simp [Basis]) (by decide)).1 exMk_inj sq h 1 (by simp) 1 (by norm_num)

end Verif.Ham
