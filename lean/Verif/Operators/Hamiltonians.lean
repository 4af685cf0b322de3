import Verif.Operators.TwoBody
import Verif.Operators.Archive
import Mathlib.Algebra.BigOperators.Fin
import Mathlib.Data.Fintype.Prod
import Mathlib.Algebra.Field.Rat
import Mathlib.Algebra.Star.BigOperators
import Std.Data.String.ToNat
import Mathlib.Algebra.Star.Rat
import Mathlib.Tactic.NormNum
import Mathlib.Tactic.FieldSimp
import Mathlib.Tactic.Module

/-!
# Properties C113-C117: operator labels and interaction Hamiltonians

Source: `/repo/python/triqs/operators/util/op_struct.py`, `hamiltonians.py` and the array functions of `U_matrix.py`
they are used with.

Simplifications: numbers are elements of an exact field (`0.5` is `1/2`); arrays are total functions of natural indices,
read only below the number of orbitals; `Operator` is the model `MMap` of `many_body_operator` (C01-C06); the optional
dump of the terms to a text file and the deprecated argument forms are left out.
-/

set_option linter.unusedSectionVars false

namespace Verif.Ham
open Verif.Operators Verif.Fock Verif.TwoBody
open Verif.Fops (Comp)

/-! ## Model -/

/-- a Python string -/
abbrev Str := List Char

/-- `'_%s' % on` for an integer, op_struct.py:52, 93. -/
def suffix (o : ℕ) : Str := '_' :: (toString o).toList

/-- operator label `(name, inner index)` -/
abbrev Lab := Str × ℕ

/-- `get_mkind(off_diag, map_operator_structure)`, op_struct.py:45-56: `none` is the `ValueError`; the returned function
gives `none` for the `KeyError` of a dictionary without the key. -/
def getMkind (offDiag : Option Bool) (map : Option (List (Lab × Lab))) : Option (Str → ℕ → Option Lab) :=
  match offDiag, map with
  | none, none => none
  | some true, none => some fun sn o => some (sn, o)
  | some false, none => some fun sn o => some (sn ++ suffix o, 0)
  | _, some d => some fun sn o => (d.find? fun e => e.1 = (sn, o)).map (·.2)

/-- `set_operator_structure`, op_struct.py:87-95: `[block name, number of inner indices]`. -/
def setOperatorStructure (sp : List Str) (n : ℕ) (offDiag : Bool) : List (Str × ℕ) :=
  if offDiag then sp.map fun sn => (sn, n)
  else sp.flatMap fun sn => (List.range n).map fun o => (sn ++ suffix o, 1)

section builders
variable {σ : Type} [DecidableEq σ] {ι : Type} [LinearOrder ι] {R : Type} [Field R] [DecidableEq R]

/-- `product(l, l)` of `itertools` -/
def pairs {α : Type} (l : List α) : List (α × α) := l.flatMap fun a => l.map fun b => (a, b)

/-- `product(range(n), range(n), range(n), range(n))` -/
def quads (n : ℕ) : List (ℕ × ℕ × ℕ × ℕ) :=
  (List.range n).flatMap fun a => (List.range n).flatMap fun b => (List.range n).flatMap fun c =>
    (List.range n).map fun d => (a, b, c, d)

/-- `H += f(x)` for all `x` of a list -/
def accum {α : Type} (f : α → MMap ι R) (l : List α) (H : MMap ι R) : MMap ι R := l.foldl (fun H x => add H (f x)) H

/-- the term of `h_int_slater`, hamiltonians.py:87. -/
def slaterTerm (mk : σ → ℕ → ι) (U : ℕ → ℕ → ℕ → ℕ → R) (s : σ × σ) (a : ℕ × ℕ × ℕ × ℕ) : MMap ι R :=
  mul (mul (mul (smul (cDag (mk s.1 a.1)) (1 / 2 * U a.1 a.2.1 a.2.2.1 a.2.2.2)) (cDag (mk s.2 a.2.1)))
    (c (mk s.2 a.2.2.2))) (c (mk s.1 a.2.2.1))

/-- `h_int_slater` for a matrix that passes the reality test, hamiltonians.py:79-98. -/
def slater (mk : σ → ℕ → ι) (sp : List σ) (n : ℕ) (U : ℕ → ℕ → ℕ → ℕ → R) : MMap ι R :=
  (pairs sp).foldl (fun H s => accum (slaterTerm mk U s) (quads n) H) []

/-- the density term, hamiltonians.py:151-156, 246-251. -/
def densTerm (mk : σ → ℕ → ι) (U U' : ℕ → ℕ → R) (s : σ × σ) (a : ℕ × ℕ) : MMap ι R :=
  mul (smul (nOp (mk s.1 a.1)) (1 / 2 * if s.1 = s.2 then U a.1 a.2 else U' a.1 a.2)) (nOp (mk s.2 a.2))

/-- the spin-flip term, hamiltonians.py:173. -/
def flipTerm (mk : σ → ℕ → ι) (J : R) (s : σ × σ) (a : ℕ × ℕ) : MMap ι R :=
  mul (mul (mul (smul (cDag (mk s.1 a.1)) (-(1 / 2) * J)) (c (mk s.2 a.1))) (cDag (mk s.2 a.2))) (c (mk s.1 a.2))

/-- the pair-hopping term, hamiltonians.py:190. -/
def hopTerm (mk : σ → ℕ → ι) (J : R) (s : σ × σ) (a : ℕ × ℕ) : MMap ι R :=
  mul (mul (mul (smul (cDag (mk s.1 a.1)) (1 / 2 * J)) (cDag (mk s.2 a.1))) (c (mk s.2 a.2))) (c (mk s.1 a.2))

/-- a loop over pairs of spins and pairs of orbitals that `continue`s where `skip` holds -/
def loop2 (f : σ × σ → ℕ × ℕ → MMap ι R) (skipEqual : Bool) (sp : List σ) (n : ℕ) (H : MMap ι R) : MMap ι R :=
  (pairs sp).foldl (fun H s => if skipEqual && decide (s.1 = s.2) then H
    else accum (fun a => f s a) ((pairs (List.range n)).filter fun a => !(skipEqual && decide (a.1 = a.2))) H) H

/-- `h_int_density`, hamiltonians.py:241-260. -/
def density (mk : σ → ℕ → ι) (sp : List σ) (n : ℕ) (U U' : ℕ → ℕ → R) : MMap ι R :=
  loop2 (densTerm mk U U') false sp n []

/-- `h_int_kanamori`, hamiltonians.py:144-199. -/
def kanamori (mk : σ → ℕ → ι) (sp : List σ) (n : ℕ) (U U' : ℕ → ℕ → R) (J : R) : MMap ι R :=
  loop2 (hopTerm mk J) true sp n (loop2 (flipTerm mk J) true sp n (loop2 (densTerm mk U U') false sp n []))

/-- `N_op`, observables.py:73-76. -/
def numberOp (mk : σ → ℕ → ι) (sp : List σ) (n : ℕ) : MMap ι R :=
  accum (fun p : σ × ℕ => nOp (mk p.1 p.2)) (sp.flatMap fun s => (List.range n).map fun o => (s, o)) []

/-- the loop of `L_op` over spins and pairs of orbitals for a given matrix, observables.py:216-220. -/
def orbitalOp (mk : σ → ℕ → ι) (sp : List σ) (n : ℕ) (L : ℕ → ℕ → R) : MMap ι R :=
  sp.foldl (fun H s => accum (fun a : ℕ × ℕ => mul (smul (cDag (mk s a.1)) (L a.1 a.2)) (c (mk s a.2)))
    (pairs (List.range n)) H) []

/-- `c_ind == c_dag_ind` as sets, hamiltonians.py:281-284. -/
def nType (m : Mono ι) : Bool :=
  m.all fun x => m.any fun y => decide (y.idx = x.idx) && (y.dagger != x.dagger)

/-- `diagonal_part`, hamiltonians.py:279-288. -/
def diagonalPart (H : MMap ι R) : MMap ι R :=
  H.foldl (fun t e => if nType e.1 then
    add t (smul (e.1.foldl (fun p x => mul p (if x.dagger then cDag x.idx else c x.idx)) (ofScalar 1)) e.2) else t) []

end builders

section tensors
variable {R : Type} [Field R]

/-- `U_matrix_kanamori`, parallel spins, U_matrix.py:207-218. -/
def kanU (Up J : R) (m mp : ℕ) : R := if m = mp then 0 else Up - J

/-- `U_matrix_kanamori`, antiparallel spins, U_matrix.py:207-218. -/
def kanUp (U Up : R) (m mp : ℕ) : R := if m = mp then U else Up

/-- `U_matrix_kanamori(full_Uijkl = True)`, U_matrix.py:220-231. -/
def kan4 (U Up J Jc : R) (i j k l : ℕ) : R :=
  if i = j ∧ j = k ∧ k = l then U
  else if i = k ∧ j = l then Up
  else if i = l ∧ j = k then J
  else if i = j ∧ k = l then Jc
  else 0

/-- the default of `Up_int`, U_matrix.py:200-201. -/
def upDefault (U J : R) : R := U - 2 * J

end tensors

/-- `reduce_4index_to_2index`, U_matrix.py:133-142 (for a real matrix): parallel spins. -/
def reduceU {R : Type} [Field R] (U : ℕ → ℕ → ℕ → ℕ → R) (m mp : ℕ) : R := U m mp m mp - U m mp mp m

/-- `reduce_4index_to_2index`: antiparallel spins. -/
def reduceUp {R : Type} [Field R] (U : ℕ → ℕ → ℕ → ℕ → R) (m mp : ℕ) : R := U m mp m mp

/-- `transform_U_matrix`, U_matrix.py:325: `np.einsum("ij,kl,jlmo,mn,op", conj T, conj T, U, T^t, T^t)` for an array `T` with
`n` columns; the output indices are `i, k, n, p`. -/
def transformU {R : Type} [Field R] [StarRing R] (n : ℕ) (T : ℕ → ℕ → R) (U : ℕ → ℕ → ℕ → ℕ → R) (i k p q : ℕ) : R :=
  ((quads n).map fun x => star (T i x.1) * star (T k x.2.1) * U x.1 x.2.1 x.2.2.1 x.2.2.2 * T p x.2.2.1 * T q x.2.2.2).sum

/-! ## Specification -/

/-- distinct spin names and orbitals get distinct labels -/
def Inj {σ ι : Type} (mk : σ → ℕ → ι) (sp : List σ) (n : ℕ) : Prop :=
  ∀ s ∈ sp, ∀ s' ∈ sp, ∀ o < n, ∀ o' < n, mk s o = mk s' o' → s = s' ∧ o = o'

/-! ## Proofs -/

section lemmas
variable {σ : Type} [DecidableEq σ] {ι : Type} [LinearOrder ι] {R : Type} [Field R] [DecidableEq R]

theorem eqOp_of_action {a b : MMap ι R} (ha : Canonical a) (hb : Canonical b) (h : action a = action b) : eqOp a b = true := by
  rw [eqOp_iff_melem ha hb]
  intro T S
  rw [h]

theorem accum_action {α : Type} (f : α → MMap ι R) (l : List α) (H : MMap ι R) :
    action (accum f l H) = action H + (l.map fun x => action (f x)).sum := by
  unfold accum
  induction l generalizing H with
  | nil => simp
  | cons x l ih => rw [List.foldl_cons, ih, add_action, List.map_cons, List.sum_cons, add_assoc]

theorem accum_canonical {α : Type} (f : α → MMap ι R) (l : List α) (H : MMap ι R) (hf : ∀ x, Canonical (f x))
    (hH : Canonical H) : Canonical (accum f l H) := by
  unfold accum
  induction l generalizing H with
  | nil => exact hH
  | cons x l ih => exact ih _ (add_canonical hH (hf x))

theorem can_c (i : ι) : Canonical (c i : MMap ι R) := makeCanonical_canonical _ _
theorem can_cDag (i : ι) : Canonical (cDag i : MMap ι R) := makeCanonical_canonical _ _
theorem can_n (i : ι) : Canonical (nOp i : MMap ι R) := mul_canonical (can_cDag i) (can_c i)

theorem nOp_action (i : ι) : action (nOp i : MMap ι R) = create i * annihilate i := by
  rw [nOp, mul_action, c_action, cDag_action]

theorem slaterTerm_canonical (mk : σ → ℕ → ι) (U : ℕ → ℕ → ℕ → ℕ → R) (s : σ × σ) (a : ℕ × ℕ × ℕ × ℕ) :
    Canonical (slaterTerm mk U s a) :=
  mul_canonical (mul_canonical (mul_canonical (smul_canonical (can_cDag _) _) (can_cDag _)) (can_c _)) (can_c _)

theorem slaterTerm_action (mk : σ → ℕ → ι) (U : ℕ → ℕ → ℕ → ℕ → R) (s : σ × σ) (a : ℕ × ℕ × ℕ × ℕ) :
    action (slaterTerm mk U s a) = (1 / 2 * U a.1 a.2.1 a.2.2.1 a.2.2.2) •
      (create (mk s.1 a.1) * create (mk s.2 a.2.1) * annihilate (mk s.2 a.2.2.2) * annihilate (mk s.1 a.2.2.1)) := by
  rw [slaterTerm, mul_action, mul_action, mul_action, smul_action, c_action, c_action, cDag_action, cDag_action]
  simp only [smul_mul_assoc]

theorem foldl_action {α : Type} (g : MMap ι R → α → MMap ι R) (v : α → Module.End R (Space ι R))
    (hg : ∀ H x, action (g H x) = action H + v x) (l : List α) (H : MMap ι R) :
    action (l.foldl g H) = action H + (l.map v).sum := by
  induction l generalizing H with
  | nil => simp
  | cons x l ih => rw [List.foldl_cons, ih, hg, List.map_cons, List.sum_cons, add_assoc]

theorem foldl_canonical {α : Type} (g : MMap ι R → α → MMap ι R) (hg : ∀ H x, Canonical H → Canonical (g H x))
    (l : List α) (H : MMap ι R) (hH : Canonical H) : Canonical (l.foldl g H) := by
  induction l generalizing H with
  | nil => exact hH
  | cons x l ih => exact ih _ (hg _ _ hH)

theorem slater_canonical (mk : σ → ℕ → ι) (sp : List σ) (n : ℕ) (U : ℕ → ℕ → ℕ → ℕ → R) : Canonical (slater mk sp n U) := by
  apply foldl_canonical _ _ _ _ canonical_nil
  intro H s hH
  exact accum_canonical _ _ _ (slaterTerm_canonical mk U s) hH

theorem sum_flatMap {α β B : Type} [AddCommMonoid B] (l : List α) (f : α → List β) (g : β → B) :
    ((l.flatMap f).map g).sum = (l.map fun x => ((f x).map g).sum).sum := by
  induction l with
  | nil => rfl
  | cons x l ih => rw [List.flatMap_cons, List.map_append, List.sum_append, ih, List.map_cons, List.sum_cons]

theorem sum_list_fin {α B : Type} [AddCommMonoid B] (l : List α) (g : α → B) :
    (l.map g).sum = ∑ i : Fin l.length, g l[i] := by
  have := Fin.sum_univ_fun_getElem l g
  simpa using this.symm

theorem sum_range_fin {B : Type} [AddCommMonoid B] (n : ℕ) (g : ℕ → B) :
    ((List.range n).map g).sum = ∑ i : Fin n, g i := (Finset.sum_range g)

theorem sum_pairs {α B : Type} [AddCommMonoid B] (l : List α) (g : α × α → B) :
    ((pairs l).map g).sum = ∑ i : Fin l.length, ∑ j : Fin l.length, g (l[i], l[j]) := by
  unfold pairs
  rw [sum_flatMap, sum_list_fin]
  apply Finset.sum_congr rfl
  intro i _
  rw [List.map_map, sum_list_fin]
  rfl

theorem sum_pairs_range {B : Type} [AddCommMonoid B] (n : ℕ) (g : ℕ × ℕ → B) :
    ((pairs (List.range n)).map g).sum = ∑ i : Fin n, ∑ j : Fin n, g (i.1, j.1) := by
  unfold pairs
  rw [sum_flatMap, sum_range_fin]
  apply Finset.sum_congr rfl
  intro i _
  rw [List.map_map, sum_range_fin]
  rfl

theorem sum_quads {B : Type} [AddCommMonoid B] (n : ℕ) (g : ℕ × ℕ × ℕ × ℕ → B) :
    ((quads n).map g).sum = ∑ a : Fin n, ∑ b : Fin n, ∑ c : Fin n, ∑ d : Fin n, g (a.1, b.1, c.1, d.1) := by
  unfold quads
  rw [sum_flatMap, sum_range_fin]
  apply Finset.sum_congr rfl; intro a _
  rw [sum_flatMap, sum_range_fin]
  apply Finset.sum_congr rfl; intro b _
  rw [sum_flatMap, sum_range_fin]
  apply Finset.sum_congr rfl; intro c _
  rw [List.map_map, sum_range_fin]
  rfl

end lemmas

section main
variable {σ : Type} [DecidableEq σ] {ι : Type} [LinearOrder ι] {R : Type} [Field R] [DecidableEq R]

/-! ### C113 -/

theorem append_sep {s s' d d' : Str} {ch : Char} (hd : ch ∉ d) (hd' : ch ∉ d') (h : s ++ ch :: d = s' ++ ch :: d') : s = s' ∧ d = d' := by
  rw [List.append_eq_append_iff] at h
  rcases h with ⟨t, h1, h2⟩ | ⟨t, h1, h2⟩
  · cases t with
    | nil => simp at h1 h2; exact ⟨h1.symm, h2⟩
    | cons x t =>
      simp only [List.cons_append, List.cons.injEq] at h2
      exact absurd (by rw [h2.2]; simp) hd
  · cases t with
    | nil => simp at h1 h2; exact ⟨h1, h2.symm⟩
    | cons x t =>
      simp only [List.cons_append, List.cons.injEq] at h2
      exact absurd (by rw [h2.2]; simp) hd'

theorem not_mem_digits (o : ℕ) : '_' ∉ (toString o).toList := by
  intro h
  have : (toString o).toList = Nat.toDigits 10 o := Nat.toList_repr
  rw [this] at h
  have := Nat.isDigit_of_mem_toDigits (by decide) (by decide) h
  exact absurd this (by decide)

theorem suffix_inj {s s' : Str} {o o' : ℕ} (h : s ++ suffix o = s' ++ suffix o') : s = s' ∧ o = o' := by
  obtain ⟨h1, h2⟩ := append_sep (not_mem_digits o) (not_mem_digits o') h
  exact ⟨h1, Nat.repr_injective (String.toList_injective h2)⟩

/-- **C113.** Without a dictionary, the two label conventions are defined for all spins and orbitals and never give the same
label to different spin-orbital pairs, whatever the spin names (which may contain underscores and digits). -/
theorem C113_injective (offDiag : Bool) : ∃ f, getMkind (some offDiag) none = some f ∧
    (∀ s o, (f s o).isSome) ∧ ∀ s s' o o', f s o = f s' o' → s = s' ∧ o = o' := by
  cases offDiag
  · refine ⟨_, rfl, fun _ _ => rfl, ?_⟩
    intro s s' o o' h
    simp only [Option.some.injEq, Prod.mk.injEq, and_true] at h
    exact suffix_inj h
  · refine ⟨_, rfl, fun _ _ => rfl, ?_⟩
    intro s s' o o' h
    simpa only [Option.some.injEq, Prod.mk.injEq] using h

/-- **C113.** The block structure belongs to the labels: block `b` has inner index `i` exactly when `(b, i)` is the label of
one of the spins and orbitals, and no block name occurs twice. -/
theorem C113_structure (sp : List Str) (n : ℕ) (offDiag : Bool) (f : Str → ℕ → Option Lab)
    (hf : getMkind (some offDiag) none = some f) (b : Str) (i : ℕ) :
    ((∃ k, (b, k) ∈ setOperatorStructure sp n offDiag ∧ i < k) ↔ ∃ s ∈ sp, ∃ o < n, f s o = some (b, i)) ∧
    (sp.Nodup → ((setOperatorStructure sp n offDiag).map (·.1)).Nodup) := by
  cases offDiag
  · obtain rfl : f = fun sn o => some (sn ++ suffix o, 0) := by simpa [getMkind] using hf.symm
    constructor
    · simp only [setOperatorStructure, Bool.false_eq_true, if_false, List.mem_flatMap, List.mem_map, List.mem_range, Prod.mk.injEq,
        Option.some.injEq]
      constructor
      · rintro ⟨k, ⟨s, hs, o, ho, h1, rfl⟩, hi⟩
        exact ⟨s, hs, o, ho, h1, by omega⟩
      · rintro ⟨s, hs, o, ho, h1, rfl⟩
        exact ⟨1, ⟨s, hs, o, ho, h1, rfl⟩, by omega⟩
    · intro hsp
      simp only [setOperatorStructure, Bool.false_eq_true, if_false, List.map_flatMap, List.map_map]
      rw [List.nodup_flatMap]
      refine ⟨fun s _ => ?_, ?_⟩
      · apply List.Nodup.map _ List.nodup_range
        intro o o' h
        exact (suffix_inj h).2
      · apply hsp.imp
        intro s s' hne x hx hx'
        simp only [List.mem_map, Function.comp] at hx hx'
        obtain ⟨o, _, rfl⟩ := hx
        obtain ⟨o', _, h⟩ := hx'
        exact hne (suffix_inj h.symm).1
  · obtain rfl : f = fun sn o => some (sn, o) := by simpa [getMkind] using hf.symm
    constructor
    · simp only [setOperatorStructure, if_true, List.mem_map, Prod.mk.injEq, Option.some.injEq]
      constructor
      · rintro ⟨k, ⟨s, hs, rfl, rfl⟩, hi⟩
        exact ⟨s, hs, i, hi, rfl, rfl⟩
      · rintro ⟨s, hs, o, ho, rfl, rfl⟩
        exact ⟨n, ⟨s, hs, rfl, rfl⟩, ho⟩
    · intro hsp
      simp only [setOperatorStructure, if_true, List.map_map]
      convert hsp
      conv_rhs => rw [← List.map_id sp]
      rfl

/-- **C113.** Neither argument given is an error; with a dictionary a label is found exactly for its keys, whatever
`off_diag` is. -/
theorem C113_dictionary (d : List (Lab × Lab)) (offDiag : Option Bool) :
    getMkind none none = none ∧ ∃ f, getMkind offDiag (some d) = some f ∧
      (∀ s o, (f s o).isSome ↔ (s, o) ∈ d.map (·.1)) ∧ ∀ s o l, f s o = some l → ((s, o), l) ∈ d := by
  refine ⟨rfl, fun sn o => (d.find? fun e => e.1 = (sn, o)).map (·.2), ?_, ?_, ?_⟩
  · cases offDiag with
    | none => rfl
    | some b => cases b <;> rfl
  · intro s o
    rw [Option.isSome_map, List.find?_isSome]
    simp
  · intro s o l h
    rw [Option.map_eq_some_iff] at h
    obtain ⟨e, he, rfl⟩ := h
    have h1 := List.find?_some he
    have h2 := List.mem_of_find?_eq_some he
    simp only [decide_eq_true_eq] at h1
    rw [← h1]
    exact h2

-- spin names that look like the labels themselves: "up" and "up_1" with two orbitals
example : setOperatorStructure ["up".toList, "up_1".toList] 2 false =
    [("up_0".toList, 1), ("up_1".toList, 1), ("up_1_0".toList, 1), ("up_1_1".toList, 1)] ∧
    setOperatorStructure ["up".toList, "dn".toList] 3 true = [("up".toList, 3), ("dn".toList, 3)] := by
  decide

/-! ### C114: the Slater Hamiltonian -/

/-- the label of a spin-orbital state -/
def lab (mk : σ → ℕ → ι) (sp : List σ) (n : ℕ) (x : Fin sp.length × Fin n) : ι := mk sp[x.1] x.2

theorem lab_injective {mk : σ → ℕ → ι} {sp : List σ} {n : ℕ} (hsp : sp.Nodup) (h : Inj mk sp n) : Function.Injective (lab mk sp n) := by
  intro x y hxy
  obtain ⟨h1, h2⟩ := h _ (List.getElem_mem _) _ (List.getElem_mem _) _ x.2.2 _ y.2.2 hxy
  ext
  · exact (List.Nodup.getElem_inj_iff hsp).mp h1
  · exact h2

theorem car_of_injective {X : Type} [Fintype X] [DecidableEq X] (f : X → ι) (hf : Function.Injective f) :
    Car (A := Module.End R (Space ι R)) (fun x => create (f x)) (fun x => annihilate (f x)) where
  cc x y := create_anti _ _
  aa x y := annihilate_anti _ _
  ac x y := by
    by_cases h : x = y
    · subst h
      rw [if_pos rfl, annihilate_create_self]
    · rw [if_neg h, annihilate_create_ne _ _ (fun e => h (hf e)), zero_sub]

/-- **C114.** The documented formula: `H = 1/2 sum U_abcd c†_{s a} c†_{s' b} c_{s' d} c_{s c}`, for all spin names, numbers of
orbitals, matrices and labellings. -/
theorem C114_formula (mk : σ → ℕ → ι) (sp : List σ) (n : ℕ) (U : ℕ → ℕ → ℕ → ℕ → R) :
    action (slater mk sp n U) = ∑ i : Fin sp.length, ∑ j : Fin sp.length, ∑ a : Fin n, ∑ b : Fin n, ∑ k : Fin n, ∑ d : Fin n,
      (1 / 2 * U a b k d) • (create (mk sp[i] a) * create (mk sp[j] b) * annihilate (mk sp[j] d) * annihilate (mk sp[i] k)) := by
  unfold slater
  rw [foldl_action _ (fun s => ((quads n).map fun a => action (slaterTerm mk U s a)).sum) (fun H s => accum_action _ _ _)]
  rw [action_nil, zero_add, sum_pairs]
  apply Finset.sum_congr rfl; intro i _; apply Finset.sum_congr rfl; intro j _
  rw [sum_quads]
  simp only [slaterTerm_action]

/-- the interaction of spin-orbital states: the spin is conserved at each vertex -/
def spinTensor (k n : ℕ) (U : ℕ → ℕ → ℕ → ℕ → R) (x y z w : Fin k × Fin n) : R :=
  if x.1 = z.1 ∧ y.1 = w.1 then U x.2 y.2 z.2 w.2 else 0

theorem two_spinTensor {A : Type} [Ring A] [Algebra R A] (k n : ℕ) (U : ℕ → ℕ → ℕ → ℕ → R) (cr an : Fin k × Fin n → A) :
    two cr an (spinTensor k n U) = ∑ i, ∑ j, ∑ a : Fin n, ∑ b : Fin n, ∑ p : Fin n, ∑ q : Fin n,
      U a b p q • (cr (i, a) * cr (j, b) * an (j, q) * an (i, p)) := by
  unfold two
  rw [Fintype.sum_prod_type]
  apply Finset.sum_congr rfl; intro i _
  rw [Finset.sum_comm, Fintype.sum_prod_type]
  apply Finset.sum_congr rfl; intro j _
  rw [Finset.sum_comm]
  apply Finset.sum_congr rfl; intro a _; apply Finset.sum_congr rfl; intro b _
  rw [Fintype.sum_prod_type, Finset.sum_eq_single i]
  · apply Finset.sum_congr rfl; intro p _
    rw [Fintype.sum_prod_type, Finset.sum_eq_single j]
    · apply Finset.sum_congr rfl; intro q _
      rw [spinTensor, if_pos ⟨rfl, rfl⟩]
    · intro j' _ hj
      apply Finset.sum_eq_zero; intro q _
      rw [spinTensor, if_neg (fun h => hj h.2.symm), zero_smul]
    · simp
  · intro i' _ hi
    apply Finset.sum_eq_zero; intro p _
    apply Finset.sum_eq_zero; intro w _
    rw [spinTensor, if_neg (fun h => hi h.1.symm), zero_smul]
  · simp

theorem slater_two (mk : σ → ℕ → ι) (sp : List σ) (n : ℕ) (U : ℕ → ℕ → ℕ → ℕ → R) :
    action (slater mk sp n U) = (1 / 2 : R) • two (fun x => create (lab mk sp n x)) (fun x => annihilate (lab mk sp n x))
      (spinTensor sp.length n U) := by
  rw [C114_formula, two_spinTensor]
  simp only [Finset.smul_sum, smul_smul]
  rfl

theorem numberOp_action (mk : σ → ℕ → ι) (sp : List σ) (n : ℕ) :
    action (numberOp mk sp n : MMap ι R) = one (fun x => create (lab mk sp n x)) (fun x => annihilate (lab mk sp n x))
      (fun x y => if x = y then (1 : R) else 0) := by
  unfold numberOp one
  rw [accum_action, action_nil, zero_add, sum_flatMap, sum_list_fin, Fintype.sum_prod_type]
  apply Finset.sum_congr rfl; intro i _
  rw [List.map_map, sum_range_fin]
  apply Finset.sum_congr rfl; intro o _
  rw [Finset.sum_eq_single (i, o)]
  · beta_reduce
    rw [if_pos rfl, one_smul]
    exact nOp_action _
  · intro y _ hy
    beta_reduce
    rw [if_neg (Ne.symm hy), zero_smul]
  · simp

theorem numberOp_canonical (mk : σ → ℕ → ι) (sp : List σ) (n : ℕ) : Canonical (numberOp mk sp n : MMap ι R) :=
  accum_canonical _ _ _ (fun _ => can_n _) canonical_nil

/-- one-body operators that act on the spin only commute with the interaction -/
theorem comm_spin {A : Type} [Ring A] [Algebra R A] (k n : ℕ) (U : ℕ → ℕ → ℕ → ℕ → R) (cr an : Fin k × Fin n → A)
    (h : Car cr an) (τ : Fin k → Fin k → R) :
    comm (one cr an fun x y => if x.2 = y.2 then τ x.1 y.1 else 0) (two cr an (spinTensor k n U)) = 0 := by
  rw [comm_two h]
  unfold two
  apply Finset.sum_eq_zero; intro x _; apply Finset.sum_eq_zero; intro y _
  apply Finset.sum_eq_zero; intro z _; apply Finset.sum_eq_zero; intro w _
  convert zero_smul R _
  simp only [Finset.sum_sub_distrib, Finset.sum_add_distrib]
  have e1 : ∑ a, (if x.2 = a.2 then τ x.1 a.1 else 0) * spinTensor k n U a y z w =
      if y.1 = w.1 then τ x.1 z.1 * U x.2 y.2 z.2 w.2 else 0 := by
    rw [Finset.sum_eq_single (z.1, x.2)]
    · simp [spinTensor]
    · intro a _ ha
      by_cases h2 : x.2 = a.2
      · rw [if_pos h2, spinTensor, if_neg (fun hh => ha (Prod.ext hh.1 h2.symm)), mul_zero]
      · rw [if_neg h2, zero_mul]
    · simp
  have e2 : ∑ a, (if y.2 = a.2 then τ y.1 a.1 else 0) * spinTensor k n U x a z w =
      if x.1 = z.1 then τ y.1 w.1 * U x.2 y.2 z.2 w.2 else 0 := by
    rw [Finset.sum_eq_single (w.1, y.2)]
    · simp [spinTensor]
    · intro a _ ha
      by_cases h2 : y.2 = a.2
      · rw [if_pos h2, spinTensor, if_neg (fun hh => ha (Prod.ext hh.2 h2.symm)), mul_zero]
      · rw [if_neg h2, zero_mul]
    · simp
  have e3 : ∑ a, spinTensor k n U x y a w * (if a.2 = z.2 then τ a.1 z.1 else 0) =
      if y.1 = w.1 then τ x.1 z.1 * U x.2 y.2 z.2 w.2 else 0 := by
    rw [Finset.sum_eq_single (x.1, z.2)]
    · simp [spinTensor, mul_comm]
    · intro a _ ha
      by_cases h2 : a.2 = z.2
      · rw [spinTensor, if_neg (fun hh => ha (Prod.ext hh.1.symm h2)), zero_mul]
      · rw [if_neg h2, mul_zero]
    · simp
  have e4 : ∑ a, spinTensor k n U x y z a * (if a.2 = w.2 then τ a.1 w.1 else 0) =
      if x.1 = z.1 then τ y.1 w.1 * U x.2 y.2 z.2 w.2 else 0 := by
    rw [Finset.sum_eq_single (y.1, w.2)]
    · simp [spinTensor, mul_comm]
    · intro a _ ha
      by_cases h2 : a.2 = w.2
      · rw [spinTensor, if_neg (fun hh => ha (Prod.ext hh.2.symm h2)), zero_mul]
      · rw [if_neg h2, mul_zero]
    · simp
  rw [e1, e2, e3, e4]
  ring

theorem eqOp_comm {a b : MMap ι R} (ha : Canonical a) (hb : Canonical b) (h : comm (action a) (action b) = 0) :
    eqOp (mul a b) (mul b a) = true := by
  apply eqOp_of_action (mul_canonical ha hb) (mul_canonical hb ha)
  rw [mul_action, mul_action]
  exact (comm_eq_zero _ _).mp h

/-- **C114.** Whatever the matrix, the Slater Hamiltonian commutes with `N_op`. -/
theorem C114_number (mk : σ → ℕ → ι) (sp : List σ) (n : ℕ) (U : ℕ → ℕ → ℕ → ℕ → R) (hsp : sp.Nodup) (hinj : Inj mk sp n) :
    eqOp (mul (numberOp mk sp n) (slater mk sp n U)) (mul (slater mk sp n U) (numberOp mk sp n)) = true := by
  apply eqOp_comm (numberOp_canonical _ _ _) (slater_canonical _ _ _ _)
  rw [slater_two, numberOp_action, comm_smul]
  have := comm_spin sp.length n U _ _ (car_of_injective (R := R) _ (lab_injective hsp hinj)) (fun i j => if i = j then 1 else 0)
  rw [show (fun x y : Fin sp.length × Fin n => if x = y then (1 : R) else 0) =
    fun x y => if x.2 = y.2 then (if x.1 = y.1 then 1 else 0) else 0 from ?_, this, smul_zero]
  funext x y
  by_cases h1 : x.1 = y.1 <;> by_cases h2 : x.2 = y.2 <;> simp [Prod.ext_iff, h1, h2]

theorem melem_sum {κ : Type} (s : Finset κ) (f : κ → Module.End R (Space ι R)) (T S : Finset ι) :
    melem (∑ k ∈ s, f k) T S = ∑ k ∈ s, melem (f k) T S := by
  simp [melem]

theorem melem_smul (r : R) (a : Module.End R (Space ι R)) (T S : Finset ι) : melem (r • a) T S = r * melem a T S := by
  simp [melem]

theorem melem_four [StarRing R] (p q r s : ι) (T S : Finset ι) :
    star (melem (create p * create q * annihilate r * annihilate s : Module.End R (Space ι R)) S T) =
      melem (create s * create r * annihilate q * annihilate p) T S := by
  have h1 : (create p * create q * annihilate r * annihilate s : Module.End R (Space ι R)) =
      monoAct [⟨true, p⟩, ⟨true, q⟩, ⟨false, r⟩, ⟨false, s⟩] := by
    simp [monoAct, opAct, mul_assoc]
  have h2 : (create s * create r * annihilate q * annihilate p : Module.End R (Space ι R)) =
      monoAct (Mono.adj [⟨true, p⟩, ⟨true, q⟩, ⟨false, r⟩, ⟨false, s⟩]) := by
    simp [monoAct, opAct, mul_assoc, Mono.adj, COp.adj]
  rw [h1, h2, monoAct_adj, melem_monoAct_int]

/-- **C114.** If `U_abcd = conj U_cdab` the Slater Hamiltonian is Hermitian (as tested by `is_op_hermitian`). -/
theorem C114_hermitian [StarRing R] (mk : σ → ℕ → ι) (sp : List σ) (n : ℕ) (U : ℕ → ℕ → ℕ → ℕ → R)
    (hU : ∀ a < n, ∀ b < n, ∀ k < n, ∀ d < n, star (U a b k d) = U k d a b) : isHermitian (slater mk sp n U) = true := by
  have ha := slater_canonical mk sp n U
  have h1 := eqOp_iff_melem (dagger_canonical ha) ha
  have h2 : isHermitian (slater mk sp n U) = eqOp (dagger (slater mk sp n U)) (slater mk sp n U) := by
    unfold isHermitian eqOp isZero
    cases sub (dagger (slater mk sp n U)) (slater mk sp n U) <;> simp
  rw [h2, h1]
  intro T S
  rw [dagger_melem ha, C114_formula]
  simp only [melem_sum, melem_smul, star_sum, star_mul', melem_four]
  apply Finset.sum_congr rfl; intro i _; apply Finset.sum_congr rfl; intro j _
  have hs : star (1 / 2 : R) = 1 / 2 := by
    rw [star_div₀, star_one, show (2 : R) = 1 + 1 by norm_num, star_add, star_one]
  calc _ = ∑ a : Fin n, ∑ b : Fin n, ∑ k : Fin n, ∑ d : Fin n, 1 / 2 * U k d a b *
        melem (create (mk sp[i] k) * create (mk sp[j] d) * annihilate (mk sp[j] b) * annihilate (mk sp[i] a)) T S := by
        apply Finset.sum_congr rfl; intro a _; apply Finset.sum_congr rfl; intro b _
        apply Finset.sum_congr rfl; intro k _; apply Finset.sum_congr rfl; intro d _
        rw [hs, hU a a.2 b b.2 k k.2 d d.2]
    _ = _ := by
        rw [Finset.sum_comm]
        calc _ = ∑ b : Fin n, ∑ k : Fin n, ∑ a : Fin n, ∑ d : Fin n, 1 / 2 * U k d a b *
              melem (create (mk sp[i] k) * create (mk sp[j] d) * annihilate (mk sp[j] b) * annihilate (mk sp[i] a)) T S :=
              Finset.sum_congr rfl fun b _ => Finset.sum_comm
          _ = ∑ k : Fin n, ∑ b : Fin n, ∑ a : Fin n, ∑ d : Fin n, 1 / 2 * U k d a b *
              melem (create (mk sp[i] k) * create (mk sp[j] d) * annihilate (mk sp[j] b) * annihilate (mk sp[i] a)) T S :=
              Finset.sum_comm
          _ = _ := Finset.sum_congr rfl fun k _ => swap3 fun b a d : Fin n => 1 / 2 * U k d a b *
              melem (create (mk sp[i] k) * create (mk sp[j] d) * annihilate (mk sp[j] b) * annihilate (mk sp[i] a)) T S


/-! ### C115: the Kanamori Hamiltonian -/

omit [DecidableEq σ] [LinearOrder ι] [Field R] [DecidableEq R] in
theorem sum_filter {α B : Type} [AddCommMonoid B] (l : List α) (p : α → Bool) (g : α → B) :
    ((l.filter p).map g).sum = (l.map fun x => if p x then g x else 0).sum := by
  induction l with
  | nil => rfl
  | cons x l ih =>
    rw [List.filter_cons, List.map_cons, List.sum_cons, ← ih]
    split <;> simp

theorem loop2_action (f : σ × σ → ℕ × ℕ → MMap ι R) (sk : Bool) (sp : List σ) (n : ℕ) (H : MMap ι R) :
    action (loop2 f sk sp n H) = action H + ∑ i : Fin sp.length, ∑ j : Fin sp.length,
      if (sk && decide (sp[i] = sp[j])) = true then 0 else ∑ a : Fin n, ∑ b : Fin n,
        if (sk && decide (a = b)) = true then 0 else action (f (sp[i], sp[j]) (a.1, b.1)) := by
  unfold loop2
  rw [foldl_action _ (fun s => if (sk && decide (s.1 = s.2)) = true then 0 else
    (((pairs (List.range n)).filter fun a => !(sk && decide (a.1 = a.2))).map fun a => action (f s a)).sum)]
  · rw [sum_pairs]
    congr 1
    apply Finset.sum_congr rfl; intro i _; apply Finset.sum_congr rfl; intro j _
    split
    · rfl
    · rw [sum_filter, sum_pairs_range]
      apply Finset.sum_congr rfl; intro a _; apply Finset.sum_congr rfl; intro b _
      by_cases h : (sk && decide (a = b)) = true
      · rw [if_pos h, if_neg]
        simpa [Fin.ext_iff] using h
      · rw [if_neg h, if_pos]
        rw [Bool.not_eq_true, ← Bool.not_eq_true'] at h
        simpa [Fin.ext_iff] using h
  · intro H s
    split
    · rw [add_zero]
    · exact accum_action _ _ _

theorem loop2_canonical (f : σ × σ → ℕ × ℕ → MMap ι R) (hf : ∀ s a, Canonical (f s a)) (sk : Bool) (sp : List σ) (n : ℕ)
    (H : MMap ι R) (hH : Canonical H) : Canonical (loop2 f sk sp n H) := by
  apply foldl_canonical _ _ _ _ hH
  intro H s hH
  split
  · exact hH
  · exact accum_canonical _ _ _ (hf s) hH

theorem densTerm_canonical (mk : σ → ℕ → ι) (U U' : ℕ → ℕ → R) (s : σ × σ) (a : ℕ × ℕ) : Canonical (densTerm mk U U' s a) :=
  mul_canonical (smul_canonical (can_n _) _) (can_n _)

theorem flipTerm_canonical (mk : σ → ℕ → ι) (J : R) (s : σ × σ) (a : ℕ × ℕ) : Canonical (flipTerm mk J s a) :=
  mul_canonical (mul_canonical (mul_canonical (smul_canonical (can_cDag _) _) (can_c _)) (can_cDag _)) (can_c _)

theorem hopTerm_canonical (mk : σ → ℕ → ι) (J : R) (s : σ × σ) (a : ℕ × ℕ) : Canonical (hopTerm mk J s a) :=
  mul_canonical (mul_canonical (mul_canonical (smul_canonical (can_cDag _) _) (can_cDag _)) (can_c _)) (can_c _)

theorem kanamori_canonical (mk : σ → ℕ → ι) (sp : List σ) (n : ℕ) (U U' : ℕ → ℕ → R) (J : R) :
    Canonical (kanamori mk sp n U U' J) :=
  loop2_canonical _ (hopTerm_canonical mk J) _ _ _ _ (loop2_canonical _ (flipTerm_canonical mk J) _ _ _ _
    (loop2_canonical _ (densTerm_canonical mk U U') _ _ _ _ canonical_nil))

theorem density_canonical (mk : σ → ℕ → ι) (sp : List σ) (n : ℕ) (U U' : ℕ → ℕ → R) : Canonical (density mk sp n U U') :=
  loop2_canonical _ (densTerm_canonical mk U U') _ _ _ _ canonical_nil

theorem densTerm_action (mk : σ → ℕ → ι) (U U' : ℕ → ℕ → R) (s : σ × σ) (a : ℕ × ℕ) : action (densTerm mk U U' s a) =
    (1 / 2 * if s.1 = s.2 then U a.1 a.2 else U' a.1 a.2) •
      (create (mk s.1 a.1) * annihilate (mk s.1 a.1) * (create (mk s.2 a.2) * annihilate (mk s.2 a.2))) := by
  rw [densTerm, mul_action, smul_action, nOp_action, nOp_action, smul_mul_assoc]

theorem flipTerm_action (mk : σ → ℕ → ι) (J : R) (s : σ × σ) (a : ℕ × ℕ) : action (flipTerm mk J s a) = (-(1 / 2) * J) •
    (create (mk s.1 a.1) * annihilate (mk s.2 a.1) * create (mk s.2 a.2) * annihilate (mk s.1 a.2)) := by
  rw [flipTerm, mul_action, mul_action, mul_action, smul_action, c_action, c_action, cDag_action, cDag_action]
  simp only [smul_mul_assoc]

theorem hopTerm_action (mk : σ → ℕ → ι) (J : R) (s : σ × σ) (a : ℕ × ℕ) : action (hopTerm mk J s a) = (1 / 2 * J) •
    (create (mk s.1 a.1) * create (mk s.2 a.1) * annihilate (mk s.2 a.2) * annihilate (mk s.1 a.2)) := by
  rw [hopTerm, mul_action, mul_action, mul_action, smul_action, c_action, c_action, cDag_action, cDag_action]
  simp only [smul_mul_assoc]

omit [DecidableEq R] [LinearOrder ι] [DecidableEq σ] in
theorem sum_kan4 {B : Type} [AddCommMonoid B] [Module R B] (n : ℕ) (U Up J Jc : R) (f : Fin n → Fin n → Fin n → Fin n → B) :
    ∑ a : Fin n, ∑ b : Fin n, ∑ p : Fin n, ∑ q : Fin n, kan4 U Up J Jc a b p q • f a b p q =
      ∑ a : Fin n, ∑ b : Fin n, if a = b then U • f a a a a else Up • f a b a b + J • f a b b a + Jc • f a a b b := by
  have key : ∀ a b p q : Fin n, kan4 U Up J Jc a b p q • f a b p q =
      (if q = a then if p = a then if b = a then U • f a a a a else 0 else 0 else 0) +
      (if q = b then if p = a then if a = b then 0 else Up • f a b a b else 0 else 0) +
      (if q = a then if p = b then if a = b then 0 else J • f a b b a else 0 else 0) +
      (if q = p then if b = a then if a = p then 0 else Jc • f a a p p else 0 else 0) := by
    intro a b p q
    unfold kan4
    simp only [← Fin.ext_iff]
    by_cases h1 : b = a
    · subst h1
      by_cases h2 : p = b
      · subst h2
        by_cases h3 : q = p
        · subst h3; simp
        · simp [h3, Ne.symm h3]
      · by_cases h3 : q = b
        · subst h3; simp [h2, Ne.symm h2]
        · by_cases h4 : q = p
          · subst h4; simp [h2, Ne.symm h2]
          · simp [h2, h3, h4, Ne.symm h2, Ne.symm h3, Ne.symm h4]
    · by_cases h2 : p = a
      · subst h2
        by_cases h3 : q = b
        · subst h3; simp [h1, Ne.symm h1]
        · by_cases h4 : q = p
          · subst h4; simp [h1, Ne.symm h1]
          · simp [h1, h3, h4, Ne.symm h1, Ne.symm h3, Ne.symm h4]
      · by_cases h3 : q = a
        · subst h3
          by_cases h4 : p = b
          · subst h4; simp [h1, Ne.symm h1]
          · simp [h1, h2, h4, Ne.symm h1, Ne.symm h2, Ne.symm h4]
        · by_cases h4 : q = b
          · subst h4
            simp [h1, h2, h3, Ne.symm h1, Ne.symm h2, Ne.symm h3]
          · simp [h1, h2, h3, h4, Ne.symm h1, Ne.symm h2, Ne.symm h3, Ne.symm h4]
  simp only [key, Finset.sum_add_distrib, Finset.sum_ite_eq', Finset.mem_univ, if_true]
  have e4 : ∑ a : Fin n, ∑ b : Fin n, ∑ p : Fin n, (if b = a then if a = p then 0 else Jc • f a a p p else 0) =
      ∑ a, ∑ b, if a = b then 0 else Jc • f a a b b := by
    apply Finset.sum_congr rfl; intro a _
    rw [Finset.sum_comm]
    simp only [Finset.sum_ite_eq', Finset.mem_univ, if_true]
  have e1 : ∑ a : Fin n, U • f a a a a = ∑ a : Fin n, ∑ b : Fin n, if a = b then U • f a a a a else 0 := by
    apply Finset.sum_congr rfl; intro a _
    rw [Finset.sum_ite_eq]
    simp
  rw [e4, e1]
  simp only [← Finset.sum_add_distrib]
  apply Finset.sum_congr rfl; intro a _; apply Finset.sum_congr rfl; intro b _
  split_ifs <;> simp

omit [DecidableEq R] in
theorem nn_ne {x y : ι} (h : x ≠ y) : (create x * annihilate x * (create y * annihilate y) : Module.End R (Space ι R)) =
    create x * create y * annihilate y * annihilate x := by
  rw [show (create x * annihilate x * (create y * annihilate y) : Module.End R (Space ι R)) =
    create x * (annihilate x * create y) * annihilate y by noncomm_ring, annihilate_create_ne x y h]
  rw [show (create x * create y * annihilate y * annihilate x : Module.End R (Space ι R)) =
    create x * create y * (annihilate y * annihilate x) by noncomm_ring, annihilate_anti y x]
  rw [mul_neg_end, mul_neg_end, neg_mul_end]
  simp only [mul_assoc]

/-- the sum over the orbitals of one pair of spins -/
theorem kan_pair (mk : σ → ℕ → ι) (sp : List σ) (n : ℕ) (U Up J : R) (hsp : sp.Nodup) (hinj : Inj mk sp n) (i j : Fin sp.length) :
    (∑ a : Fin n, ∑ b : Fin n, action (densTerm mk (kanU Up J) (kanUp U Up) (sp[i], sp[j]) (a.1, b.1))) +
    (if sp[i] = sp[j] then 0 else ∑ a : Fin n, ∑ b : Fin n, if a = b then 0 else action (flipTerm mk J (sp[i], sp[j]) (a.1, b.1))) +
    (if sp[i] = sp[j] then 0 else ∑ a : Fin n, ∑ b : Fin n, if a = b then 0 else action (hopTerm mk J (sp[i], sp[j]) (a.1, b.1))) =
    ∑ a : Fin n, ∑ b : Fin n, ∑ p : Fin n, ∑ q : Fin n, kan4 U Up J J a b p q •
      ((1 / 2 : R) • (create (mk sp[i] a) * create (mk sp[j] b) * annihilate (mk sp[j] q) * annihilate (mk sp[i] p))) := by
  rw [sum_kan4]
  have hne : ∀ (i j : Fin sp.length) (a b : Fin n), (i ≠ j ∨ a ≠ b) → mk sp[i] a ≠ mk sp[j] b := by
    intro i j a b h e
    obtain ⟨h1, h2⟩ := hinj _ (List.getElem_mem _) _ (List.getElem_mem _) _ a.2 _ b.2 e
    rcases h with h | h
    · exact h (Fin.ext ((List.Nodup.getElem_inj_iff hsp).mp h1))
    · exact h (Fin.ext h2)
  simp only [densTerm_action, flipTerm_action, hopTerm_action]
  by_cases hij : i = j
  · subst hij
    rw [if_pos rfl, if_pos rfl, add_zero, add_zero]
    apply Finset.sum_congr rfl; intro a _; apply Finset.sum_congr rfl; intro b _
    simp only [if_true, kanU, ← Fin.ext_iff]
    by_cases hab : a = b
    · subst hab
      rw [if_pos rfl, if_pos rfl, create_sq]
      simp
    · rw [if_neg hab, if_neg hab, nn_ne (hne i i a b (Or.inr hab)), create_sq]
      rw [show (create (mk sp[i] a) * create (mk sp[i] b) * annihilate (mk sp[i] a) * annihilate (mk sp[i] b) : Module.End R (Space ι R)) =
        create (mk sp[i] a) * create (mk sp[i] b) * (annihilate (mk sp[i] a) * annihilate (mk sp[i] b)) by noncomm_ring,
        annihilate_anti (mk sp[i] a) (mk sp[i] b)]
      rw [zero_mul, zero_mul, smul_zero, smul_zero, add_zero, mul_neg_end, smul_neg_end, smul_neg_end, ← mul_assoc]
      module
  · have hs : sp[i] ≠ sp[j] := fun e => hij (Fin.ext ((List.Nodup.getElem_inj_iff hsp).mp e))
    rw [if_neg hs, if_neg hs]
    simp only [← Finset.sum_add_distrib]
    apply Finset.sum_congr rfl; intro a _; apply Finset.sum_congr rfl; intro b _
    simp only [if_neg hs, kanUp, ← Fin.ext_iff]
    by_cases hab : a = b
    · subst hab
      rw [if_pos rfl, if_pos rfl, if_pos rfl, if_pos rfl, nn_ne (hne i j a a (Or.inl hij))]
      module
    · rw [if_neg hab, if_neg hab, if_neg hab, if_neg hab, nn_ne (hne i j a b (Or.inl hij))]
      rw [show (create (mk sp[i] a) * annihilate (mk sp[j] a) * create (mk sp[j] b) * annihilate (mk sp[i] b) : Module.End R (Space ι R)) =
        create (mk sp[i] a) * (annihilate (mk sp[j] a) * create (mk sp[j] b)) * annihilate (mk sp[i] b) by noncomm_ring,
        annihilate_create_ne _ _ (hne j j a b (Or.inr hab)), mul_neg_end, neg_mul_end, smul_neg_end, ← mul_assoc]
      module

theorem kan_action (mk : σ → ℕ → ι) (sp : List σ) (n : ℕ) (U Up J : R) (hsp : sp.Nodup) (hinj : Inj mk sp n) :
    action (kanamori mk sp n (kanU Up J) (kanUp U Up) J) = action (slater mk sp n (kan4 U Up J J)) := by
  rw [C114_formula, kanamori, loop2_action, loop2_action, loop2_action, action_nil, zero_add]
  simp only [Bool.false_and, Bool.true_and, decide_eq_true_eq, Bool.false_eq_true, if_false]
  simp only [← Finset.sum_add_distrib]
  apply Finset.sum_congr rfl; intro i _; apply Finset.sum_congr rfl; intro j _
  rw [kan_pair mk sp n U Up J hsp hinj i j]
  apply Finset.sum_congr rfl; intro a _; apply Finset.sum_congr rfl; intro b _
  apply Finset.sum_congr rfl; intro p _; apply Finset.sum_congr rfl; intro q _
  rw [smul_smul, mul_comm]

/-- **C115.** The Kanamori Hamiltonian built from the two-index matrices of `U_matrix_kanamori` is the Slater Hamiltonian of
the four-index tensor of the same function, for all numbers of orbitals, spin names, `U`, `U'` and `J`. -/
theorem C115_equals_slater (mk : σ → ℕ → ι) (sp : List σ) (n : ℕ) (U Up J : R) (hsp : sp.Nodup) (hinj : Inj mk sp n) :
    eqOp (kanamori mk sp n (kanU Up J) (kanUp U Up) J) (slater mk sp n (kan4 U Up J J)) = true :=
  eqOp_of_action (kanamori_canonical _ _ _ _ _ _) (slater_canonical _ _ _ _) (kan_action mk sp n U Up J hsp hinj)

/-- **C115.** The Kanamori Hamiltonian conserves the number of particles and is Hermitian for real parameters. -/
theorem C115_number_hermitian [StarRing R] (mk : σ → ℕ → ι) (sp : List σ) (n : ℕ) (U Up J : R) (hsp : sp.Nodup) (hinj : Inj mk sp n) :
    eqOp (mul (numberOp mk sp n) (kanamori mk sp n (kanU Up J) (kanUp U Up) J))
      (mul (kanamori mk sp n (kanU Up J) (kanUp U Up) J) (numberOp mk sp n)) = true ∧
    (star U = U → star Up = Up → star J = J → isHermitian (kanamori mk sp n (kanU Up J) (kanUp U Up) J) = true) := by
  have hk := kanamori_canonical mk sp n (kanU Up J) (kanUp U Up) J
  constructor
  · have h := C114_number mk sp n (kan4 U Up J J) hsp hinj
    rw [eqOp_iff_melem (mul_canonical (numberOp_canonical _ _ _) (slater_canonical _ _ _ _))
      (mul_canonical (slater_canonical _ _ _ _) (numberOp_canonical _ _ _))] at h
    rw [eqOp_iff_melem (mul_canonical (numberOp_canonical _ _ _) hk) (mul_canonical hk (numberOp_canonical _ _ _))]
    intro T S
    rw [mul_action, mul_action, kan_action mk sp n U Up J hsp hinj, ← mul_action, ← mul_action]
    exact h T S
  · intro hU hUp hJ
    have h := C114_hermitian mk sp n (kan4 U Up J J) (by
      intro a _ b _ p _ q _
      unfold kan4
      split_ifs <;> first | assumption | (exfalso; omega) | simp)
    have ha := slater_canonical mk sp n (kan4 U Up J J)
    have h2 : ∀ H : MMap ι R, isHermitian H = eqOp (dagger H) H := by
      intro H
      unfold isHermitian eqOp isZero
      cases sub (dagger H) H <;> simp
    rw [h2, eqOp_iff_melem (dagger_canonical ha) ha] at h
    rw [h2, eqOp_iff_melem (dagger_canonical hk) hk]
    intro T S
    rw [dagger_melem hk, kan_action mk sp n U Up J hsp hinj, ← dagger_melem ha, h]

theorem orbitalOp_canonical (mk : σ → ℕ → ι) (sp : List σ) (n : ℕ) (L : ℕ → ℕ → R) : Canonical (orbitalOp mk sp n L) := by
  apply foldl_canonical _ _ _ _ canonical_nil
  intro H s hH
  exact accum_canonical _ _ _ (fun a => mul_canonical (smul_canonical (can_cDag _) _) (can_c _)) hH

theorem orbitalOp_action (mk : σ → ℕ → ι) (sp : List σ) (n : ℕ) (L : ℕ → ℕ → R) :
    action (orbitalOp mk sp n L) = one (fun x => create (lab mk sp n x)) (fun x => annihilate (lab mk sp n x))
      (fun x y => if x.1 = y.1 then L x.2 y.2 else 0) := by
  unfold orbitalOp one
  rw [foldl_action _ _ (fun H s => accum_action _ _ _), action_nil, zero_add, sum_list_fin, Fintype.sum_prod_type]
  apply Finset.sum_congr rfl; intro i _
  rw [sum_pairs_range]
  apply Finset.sum_congr rfl; intro a _
  rw [Fintype.sum_prod_type, Finset.sum_eq_single i]
  · apply Finset.sum_congr rfl; intro b _
    beta_reduce
    rw [if_pos rfl, mul_action, smul_action, c_action, cDag_action, smul_mul_assoc]
    rfl
  · intro j _ hj
    apply Finset.sum_eq_zero; intro b _
    beta_reduce
    rw [if_neg (Ne.symm hj), zero_smul]
  · simp

/-- an orbital operator commutes with the interaction if the interaction tensor is invariant -/
theorem comm_orbital {A : Type} [Ring A] [Algebra R A] (k n : ℕ) (U : ℕ → ℕ → ℕ → ℕ → R) (cr an : Fin k × Fin n → A)
    (h : Car cr an) (L : ℕ → ℕ → R)
    (hL : ∀ a b p q : Fin n, ∑ x : Fin n, (L a x * U x b p q + L b x * U a x p q - U a b x q * L x p - U a b p x * L x q) = 0) :
    comm (one cr an fun x y => if x.1 = y.1 then L x.2 y.2 else 0) (two cr an (spinTensor k n U)) = 0 := by
  rw [comm_two h]
  unfold two
  apply Finset.sum_eq_zero; intro x _; apply Finset.sum_eq_zero; intro y _
  apply Finset.sum_eq_zero; intro z _; apply Finset.sum_eq_zero; intro w _
  convert zero_smul R _
  simp only [Finset.sum_sub_distrib, Finset.sum_add_distrib]
  have e1 : ∑ a : Fin k × Fin n, (if x.1 = a.1 then L x.2 a.2 else 0) * spinTensor k n U a y z w =
      ∑ o : Fin n, if x.1 = z.1 ∧ y.1 = w.1 then L x.2 o * U o y.2 z.2 w.2 else 0 := by
    rw [Fintype.sum_prod_type, Finset.sum_eq_single x.1]
    · apply Finset.sum_congr rfl; intro o _
      simp [spinTensor]
    · intro i _ hi
      simp [Ne.symm hi]
    · simp
  have e2 : ∑ a : Fin k × Fin n, (if y.1 = a.1 then L y.2 a.2 else 0) * spinTensor k n U x a z w =
      ∑ o : Fin n, if x.1 = z.1 ∧ y.1 = w.1 then L y.2 o * U x.2 o z.2 w.2 else 0 := by
    rw [Fintype.sum_prod_type, Finset.sum_eq_single y.1]
    · apply Finset.sum_congr rfl; intro o _
      simp [spinTensor]
    · intro i _ hi
      simp [Ne.symm hi]
    · simp
  have e3 : ∑ a : Fin k × Fin n, spinTensor k n U x y a w * (if a.1 = z.1 then L a.2 z.2 else 0) =
      ∑ o : Fin n, if x.1 = z.1 ∧ y.1 = w.1 then U x.2 y.2 o w.2 * L o z.2 else 0 := by
    rw [Fintype.sum_prod_type, Finset.sum_eq_single z.1]
    · apply Finset.sum_congr rfl; intro o _
      simp [spinTensor]
    · intro i _ hi
      simp [hi]
    · simp
  have e4 : ∑ a : Fin k × Fin n, spinTensor k n U x y z a * (if a.1 = w.1 then L a.2 w.2 else 0) =
      ∑ o : Fin n, if x.1 = z.1 ∧ y.1 = w.1 then U x.2 y.2 z.2 o * L o w.2 else 0 := by
    rw [Fintype.sum_prod_type, Finset.sum_eq_single w.1]
    · apply Finset.sum_congr rfl; intro o _
      simp [spinTensor]
    · intro i _ hi
      simp [hi]
    · simp
  rw [e1, e2, e3, e4]
  by_cases hc : x.1 = z.1 ∧ y.1 = w.1
  · have := hL x.2 y.2 z.2 w.2
    simp only [Finset.sum_sub_distrib, Finset.sum_add_distrib] at this
    simp only [if_pos hc]
    exact this
  · simp [hc]

/-- **C115.** With the default `U' = U - 2 J` the Kanamori Hamiltonian is invariant under all rotations of the orbitals: it
commutes with every orbital operator of an antisymmetric matrix. -/
theorem C115_rotations (mk : σ → ℕ → ι) (sp : List σ) (n : ℕ) (U J : R) (hsp : sp.Nodup) (hinj : Inj mk sp n) (L : ℕ → ℕ → R)
    (hL : ∀ a < n, ∀ b < n, L a b = -L b a) :
    eqOp (mul (orbitalOp mk sp n L) (kanamori mk sp n (kanU (upDefault U J) J) (kanUp U (upDefault U J)) J))
      (mul (kanamori mk sp n (kanU (upDefault U J) J) (kanUp U (upDefault U J)) J) (orbitalOp mk sp n L)) = true := by
  apply eqOp_comm (orbitalOp_canonical _ _ _ _) (kanamori_canonical _ _ _ _ _ _)
  rw [kan_action mk sp n U _ J hsp hinj, slater_two, orbitalOp_action, comm_smul,
    comm_orbital _ _ _ _ _ (car_of_injective (R := R) _ (lab_injective hsp hinj)), smul_zero]
  intro a b p q
  have key : ∀ a b p q : Fin n, kan4 U (upDefault U J) J J a b p q =
      (if a = p then if b = q then upDefault U J else 0 else 0) + (if a = q then if b = p then J else 0 else 0) +
      (if a = b then if p = q then J else 0 else 0) := by
    intro a b p q
    unfold kan4 upDefault
    simp only [← Fin.ext_iff]
    by_cases h1 : a = b
    · subst h1
      by_cases h2 : a = p
      · subst h2
        by_cases h3 : a = q
        · subst h3; simp; ring
        · simp [h3]
      · by_cases h3 : a = q
        · subst h3; simp [h2, Ne.symm h2]
        · simp [h2, h3]
    · by_cases h2 : a = p
      · subst h2
        by_cases h3 : a = q
        · subst h3; simp [h1, Ne.symm h1]
        · simp [h1, h3, Ne.symm h1]
      · simp [h1, h2, ite_and]
  simp only [key, mul_add, add_mul, Finset.sum_sub_distrib, Finset.sum_add_distrib, mul_ite, mul_zero, ite_mul, zero_mul]
  have hab := hL a a.2 b b.2
  have hpq := hL p p.2 q q.2
  have s1 : ∀ (v : Fin n) (P : Prop) [Decidable P] (g : Fin n → R), (∑ x : Fin n, if x = v then (if P then g x else 0) else 0) = if P then g v else 0 := by
    intro v P _ g
    rw [Finset.sum_ite_eq']; simp
  have s2 : ∀ (v : Fin n) (P : Prop) [Decidable P] (g : Fin n → R), (∑ x : Fin n, if P then (if x = v then g x else 0) else 0) = if P then g v else 0 := by
    intro v P _ g
    split_ifs
    · rw [Finset.sum_ite_eq']; simp
    · simp
  have s3 : ∀ (v : Fin n) (P : Prop) [Decidable P] (g : Fin n → R), (∑ x : Fin n, if v = x then (if P then g x else 0) else 0) = if P then g v else 0 := by
    intro v P _ g
    rw [Finset.sum_ite_eq]; simp
  have s4 : ∀ (v : Fin n) (P : Prop) [Decidable P] (g : Fin n → R), (∑ x : Fin n, if P then (if v = x then g x else 0) else 0) = if P then g v else 0 := by
    intro v P _ g
    split_ifs
    · rw [Finset.sum_ite_eq]; simp
    · simp
  simp only [s1, s2, s3, s4]
  rw [hab, hpq]
  split_ifs <;> ring

/-! ### C116: the density-density part -/

omit [DecidableEq σ] [DecidableEq R] in
/-- acting with a monomial on a basis state gives a multiple of one basis state; for each label the outermost factor fixes the
occupation afterwards and the innermost factor the occupation before, unless the result vanishes -/
theorem mono_occupation (m : Mono ι) (S : Finset ι) : ∃ (r : R) (S' : Finset ι), monoAct m (ket S : Space ι R) = r • ket S' ∧
    ∀ x, (m.filter (fun y => decide (y.idx = x)) = [] → (x ∈ S' ↔ x ∈ S)) ∧
      (∀ y, (m.filter (fun y => decide (y.idx = x))).head? = some y → r = 0 ∨ (x ∈ S' ↔ y.dagger = true)) ∧
      (∀ y, (m.filter (fun y => decide (y.idx = x))).getLast? = some y → r = 0 ∨ (x ∈ S ↔ y.dagger = false)) := by
  induction m with
  | nil => exact ⟨1, S, by simp, fun x => ⟨fun _ => Iff.rfl, by simp, by simp⟩⟩
  | cons o m ih =>
    obtain ⟨r, S', h, hx⟩ := ih
    have step : ∃ (t : R) (S'' : Finset ι), opAct o (ket S' : Space ι R) = t • ket S'' ∧ (∀ x, x ≠ o.idx → (x ∈ S'' ↔ x ∈ S')) ∧
        (o.idx ∈ S'' ↔ o.dagger = true) ∧ (t = 0 ∨ (o.idx ∈ S' ↔ o.dagger = false)) := by
      obtain ⟨d, i⟩ := o
      cases d
      · by_cases hi : i ∈ S'
        · refine ⟨sgn i S', S'.erase i, ?_, ?_, by simp, Or.inr (by simpa using hi)⟩
          · simp only [opAct, Bool.false_eq_true, if_false]
            rw [annihilate_ket, if_pos hi]
          · intro x hx
            simp at hx
            simp [hx]
        · refine ⟨0, S'.erase i, ?_, ?_, by simp, Or.inl rfl⟩
          · simp only [opAct, Bool.false_eq_true, if_false]
            rw [annihilate_ket, if_neg hi, zero_smul]
          · intro x hx
            simp at hx
            simp [hx]
      · by_cases hi : i ∈ S'
        · refine ⟨0, insert i S', ?_, ?_, by simp, Or.inl rfl⟩
          · simp only [opAct, if_true]
            rw [create_ket, if_pos hi, zero_smul]
          · intro x hx
            simp at hx
            simp [hx]
        · refine ⟨sgn i S', insert i S', ?_, ?_, by simp, Or.inr (by simpa using hi)⟩
          · simp only [opAct, if_true]
            rw [create_ket, if_neg hi]
          · intro x hx
            simp at hx
            simp [hx]
    obtain ⟨t, S'', h', hne, hself, hbef⟩ := step
    refine ⟨r * t, S'', ?_, ?_⟩
    · rw [monoAct_cons, Module.End.mul_apply, h, map_smul, h', smul_smul]
    · intro x
      obtain ⟨h1, h2, h3⟩ := hx x
      by_cases hox : o.idx = x
      · subst hox
        rw [List.filter_cons_of_pos (by simp)]
        refine ⟨by simp, ?_, ?_⟩
        · intro y hy
          simp only [List.head?_cons, Option.some.injEq] at hy
          subst hy
          exact Or.inr hself
        · intro y hy
          rcases hf : m.filter (fun y => decide (y.idx = o.idx)) with _ | ⟨z, l⟩
          · rw [hf] at hy
            simp only [List.getLast?_singleton, Option.some.injEq] at hy
            subst hy
            rcases hbef with hb | hb
            · left; rw [hb, mul_zero]
            · right; rw [← h1 hf, hb]
          · rw [hf, List.getLast?_cons_cons, ← hf] at hy
            rcases h3 y hy with h | h
            · left; rw [h, zero_mul]
            · right; exact h
      · rw [List.filter_cons_of_neg (by simpa using hox)]
        have hxo : x ≠ o.idx := fun e => hox e.symm
        refine ⟨fun hf => by rw [hne x hxo]; exact h1 hf, ?_, ?_⟩
        · intro y hy
          rcases h2 y hy with h | h
          · left; rw [h, zero_mul]
          · right; rw [hne x hxo]; exact h
        · intro y hy
          rcases h3 y hy with h | h
          · left; rw [h, zero_mul]
          · right; exact h

omit [DecidableEq σ] [DecidableEq R] in
/-- a monomial in which some label is only created or only annihilated has no diagonal matrix element -/
theorem melem_unbalanced (m : Mono ι) (x : COp ι) (hx : x ∈ m) (hd : ∀ y ∈ m, y.idx = x.idx → y.dagger = x.dagger) (S : Finset ι) :
    melem (monoAct m : Module.End R (Space ι R)) S S = 0 := by
  obtain ⟨r, S', h, hocc⟩ := mono_occupation (R := R) m S
  obtain ⟨_, h2, h3⟩ := hocc x.idx
  have hmem : x ∈ m.filter (fun y => decide (y.idx = x.idx)) := by simp [hx]
  have hall : ∀ y ∈ m.filter (fun y => decide (y.idx = x.idx)), y.dagger = x.dagger := by
    intro y hy
    simp only [List.mem_filter, decide_eq_true_eq] at hy
    exact hd y hy.1 hy.2
  have hne := List.ne_nil_of_mem hmem
  have a1 := h2 _ (List.head?_eq_some_head hne)
  have a2 := h3 _ (List.getLast?_eq_some_getLast hne)
  rw [hall _ (List.head_mem hne)] at a1
  rw [hall _ (List.getLast_mem hne)] at a2
  simp only [melem, h, Pi.smul_apply, smul_eq_mul, ket]
  rcases a1 with a1 | a1
  · rw [a1, zero_mul]
  · rcases a2 with a2 | a2
    · rw [a2, zero_mul]
    · have : S ≠ S' := by
        intro e
        rw [← e] at a1
        rw [a1] at a2
        cases x.dagger <;> simp at a2
      rw [if_neg this, mul_zero]

omit [DecidableEq σ] [DecidableEq R] in
/-- a normal-ordered monomial in which the same labels are created and annihilated is diagonal -/
theorem melem_nType (m : Mono ι) (hm : NormalOrdered m) (hn : nType m = true) (T S : Finset ι) (hTS : T ≠ S) :
    melem (monoAct m : Module.End R (Space ι R)) T S = 0 := by
  obtain ⟨r, S', h, hocc⟩ := mono_occupation (R := R) m S
  simp only [melem, h, Pi.smul_apply, smul_eq_mul, ket]
  by_cases hr : r = 0
  · rw [hr, zero_mul]
  have : S' = S := by
    ext x
    obtain ⟨h1, h2, h3⟩ := hocc x
    by_cases hf : m.filter (fun y => decide (y.idx = x)) = []
    · exact h1 hf
    · have hs : (m.filter (fun y => decide (y.idx = x))).Pairwise (fun a b => a.lt b = true) := List.Pairwise.filter _ hm
      -- both kinds of factors occur
      have hboth : ∀ d, ∃ y ∈ m.filter (fun y => decide (y.idx = x)), y.dagger = d := by
        obtain ⟨z, hz⟩ := List.exists_mem_of_ne_nil _ hf
        have hz' := hz
        simp only [List.mem_filter, decide_eq_true_eq] at hz'
        unfold nType at hn
        rw [List.all_eq_true] at hn
        have := hn z hz'.1
        rw [List.any_eq_true] at this
        obtain ⟨y, hy, hyz⟩ := this
        simp only [Bool.and_eq_true, decide_eq_true_eq, bne_iff_ne, ne_eq] at hyz
        intro d
        by_cases hzd : z.dagger = d
        · exact ⟨z, hz, hzd⟩
        · refine ⟨y, by simp [hy, hyz.1, hz'.2], ?_⟩
          cases hd : d <;> cases hzz : z.dagger <;> cases hyy : y.dagger <;> simp_all
      have hhead : ((m.filter (fun y => decide (y.idx = x))).head hf).dagger = true := by
        obtain ⟨y, hy, hyd⟩ := hboth true
        rcases hl : m.filter (fun y => decide (y.idx = x)) with _ | ⟨z, l⟩
        · exact absurd hl hf
        · simp only [hl, List.head_cons]
          rw [hl] at hy hs
          rcases List.mem_cons.mp hy with e | hyl
          · rw [← e]; exact hyd
          · have := (List.pairwise_cons.mp hs).1 y hyl
            unfold COp.lt at this
            cases hzd : z.dagger
            · simp [hzd, hyd] at this
            · rfl
      have hlast : ((m.filter (fun y => decide (y.idx = x))).getLast hf).dagger = false := by
        obtain ⟨y, hy, hyd⟩ := hboth false
        have hdl := List.dropLast_append_getLast hf
        rw [← hdl] at hy hs
        rw [List.pairwise_append] at hs
        rcases List.mem_append.mp hy with hyl | e
        · have := hs.2.2 y hyl _ (List.mem_singleton.mpr rfl)
          revert this
          generalize (m.filter (fun y => decide (y.idx = x))).getLast hf = z
          intro this
          unfold COp.lt at this
          cases hzd : z.dagger
          · rfl
          · rw [hzd, hyd] at this
            simp at this
        · rw [List.mem_singleton] at e
          rw [← e]; exact hyd
      have a1 := (h2 _ (List.head?_eq_some_head hf)).resolve_left hr
      have a2 := (h3 _ (List.getLast?_eq_some_getLast hf)).resolve_left hr
      rw [hhead] at a1
      rw [hlast] at a2
      simp only [iff_true] at a1 a2
      exact ⟨fun _ => a2, fun _ => a1⟩
  rw [this, if_neg hTS, mul_zero]

theorem prod_action (m : Mono ι) (p : MMap ι R) :
    action (m.foldl (fun p x => mul p (if x.dagger then cDag x.idx else c x.idx)) p) = action p * monoAct m := by
  induction m generalizing p with
  | nil => simp
  | cons x m ih =>
    rw [List.foldl_cons, ih, mul_action, monoAct_cons, mul_assoc]
    congr 2
    unfold opAct
    split
    · exact cDag_action _
    · exact c_action _

theorem prod_canonical (m : Mono ι) (p : MMap ι R) (hp : Canonical p) :
    Canonical (m.foldl (fun p x => mul p (if x.dagger then cDag x.idx else c x.idx)) p) := by
  induction m generalizing p with
  | nil => exact hp
  | cons x m ih =>
    rw [List.foldl_cons]
    apply ih
    apply mul_canonical hp
    split
    · exact can_cDag _
    · exact can_c _

theorem diagonalPart_canonical (H : MMap ι R) : Canonical (diagonalPart H) := by
  apply foldl_canonical _ _ _ _ canonical_nil
  intro t e ht
  split
  · exact add_canonical ht (smul_canonical (prod_canonical _ _ (ofScalar_canonical 1)) _)
  · exact ht

theorem diagonalPart_action (H : MMap ι R) : action (diagonalPart H) = (H.map fun e => if nType e.1 then e.2 • monoAct e.1 else 0).sum := by
  unfold diagonalPart
  rw [foldl_action _ (fun e => if nType e.1 then e.2 • monoAct e.1 else 0), action_nil, zero_add]
  intro t e
  split
  · rw [add_action, smul_action, prod_action, ofScalar_action, one_smul, one_mul]
  · rw [add_zero]

/-- **C116.** `diagonal_part` keeps exactly the diagonal matrix elements: in the occupation basis its result is diagonal, with
the diagonal of the argument. (For operators in canonical form, which all operators of the library are by C03.) -/
theorem C116_diagonal_part (H : MMap ι R) (hH : Canonical H) (T S : Finset ι) :
    melem (action (diagonalPart H)) T S = if T = S then melem (action H) S S else 0 := by
  rw [diagonalPart_action, melem_action]
  have hm : ∀ e ∈ H, NormalOrdered e.1 := hH.normal
  clear hH
  induction H with
  | nil => simp [melem]
  | cons e H ih =>
    have h0 := ih fun e he => hm e (List.mem_cons_of_mem _ he)
    have hadd : ∀ a b : Module.End R (Space ι R), melem (a + b) T S = melem a T S + melem b T S := by intro a b; simp [melem]
    rw [List.map_cons, List.sum_cons, hadd, h0, List.map_cons, List.sum_cons]
    have : melem (if nType e.1 = true then e.2 • monoAct e.1 else 0 : Module.End R (Space ι R)) T S =
        if T = S then e.2 * melem (monoAct e.1) S S else 0 := by
      by_cases hn : nType e.1 = true
      · rw [if_pos hn, melem_smul]
        by_cases hTS : T = S
        · rw [if_pos hTS, hTS]
        · rw [if_neg hTS, melem_nType e.1 (hm e List.mem_cons_self) hn T S hTS, mul_zero]
      · rw [if_neg hn]
        have : melem (monoAct e.1 : Module.End R (Space ι R)) S S = 0 := by
          unfold nType at hn
          rw [List.all_eq_true] at hn
          push Not at hn
          obtain ⟨x, hx, hxn⟩ := hn
          apply melem_unbalanced e.1 x hx
          intro y hy hyx
          rw [ne_eq, List.any_eq_true] at hxn
          push Not at hxn
          have := hxn y hy
          simpa [hyx] using this
        rw [this]
        simp [melem]
    rw [this]
    split_ifs <;> simp

omit [DecidableEq σ] [DecidableEq R] in
theorem nn_offdiag (x y : ι) (T S : Finset ι) (hTS : T ≠ S) :
    melem (create x * annihilate x * (create y * annihilate y) : Module.End R (Space ι R)) T S = 0 := by
  have h : ∀ (z : ι) (S : Finset ι), ∃ r : R, (create z * annihilate z : Module.End R (Space ι R)) (ket S) = r • ket S := by
    intro z S
    rw [Module.End.mul_apply, annihilate_ket]
    by_cases hz : z ∈ S
    · rw [if_pos hz, map_smul, create_ket, if_neg (Finset.notMem_erase _ _), Finset.insert_erase hz, smul_smul]
      exact ⟨_, rfl⟩
    · rw [if_neg hz, map_zero]
      exact ⟨0, by simp⟩
  obtain ⟨r, hr⟩ := h y S
  obtain ⟨t, ht⟩ := h x S
  simp only [melem, Module.End.mul_apply (create x * annihilate x) (create y * annihilate y), hr, map_smul, ht]
  simp [ket, hTS]

omit [DecidableEq σ] [DecidableEq R] in
theorem diag_four (x y w z : ι) (S : Finset ι) : melem (create x * create y * annihilate w * annihilate z : Module.End R (Space ι R)) S S =
    (if z = x ∧ w = y ∧ x ≠ y then melem (create x * annihilate x * (create y * annihilate y)) S S else 0) -
    (if z = y ∧ w = x ∧ x ≠ y then melem (create x * annihilate x * (create y * annihilate y)) S S else 0) := by
  have hm : (create x * create y * annihilate w * annihilate z : Module.End R (Space ι R)) =
      monoAct [⟨true, x⟩, ⟨true, y⟩, ⟨false, w⟩, ⟨false, z⟩] := by
    simp [monoAct, opAct, mul_assoc]
  by_cases hxy : x = y
  · subst hxy
    rw [create_sq]
    simp [melem]
  by_cases hzx : z = x
  · subst hzx
    by_cases hwy : w = y
    · subst hwy
      rw [nn_ne hxy]
      simp [hxy]
    · rw [if_neg (fun h => hwy h.2.1), if_neg (fun h => hxy h.1), sub_zero, hm]
      apply melem_unbalanced _ ⟨true, y⟩ (by simp)
      intro u hu hy
      simp only [List.mem_cons, List.not_mem_nil, or_false] at hu
      rcases hu with rfl | rfl | rfl | rfl
      · rfl
      · rfl
      · exact absurd hy hwy
      · exact absurd hy hxy
  · by_cases hzy : z = y
    · subst hzy
      by_cases hwx : w = x
      · subst hwx
        rw [if_neg (fun h => hzx h.1), if_pos ⟨rfl, rfl, hxy⟩, nn_ne hxy]
        rw [show (create w * create z * annihilate w * annihilate z : Module.End R (Space ι R)) =
          create w * create z * (annihilate w * annihilate z) by simp only [mul_assoc], annihilate_anti, mul_neg_end, ← mul_assoc]
        simp [melem]
      · rw [if_neg (fun h => hzx h.1), if_neg (fun h => hwx h.2.1), sub_zero, hm]
        apply melem_unbalanced _ ⟨true, x⟩ (by simp)
        intro u hu hy
        simp only [List.mem_cons, List.not_mem_nil, or_false] at hu
        rcases hu with rfl | rfl | rfl | rfl
        · rfl
        · rfl
        · exact absurd hy hwx
        · exact absurd hy.symm hxy
    · rw [if_neg (fun h => hzx h.1), if_neg (fun h => hzy h.1), sub_zero, hm]
      apply melem_unbalanced _ ⟨false, z⟩ (by simp)
      intro u hu hy
      simp only [List.mem_cons, List.not_mem_nil, or_false] at hu
      rcases hu with rfl | rfl | rfl | rfl
      · exact absurd hy.symm hzx
      · exact absurd hy.symm hzy
      · rfl
      · rfl

theorem density_action (mk : σ → ℕ → ι) (sp : List σ) (n : ℕ) (U U' : ℕ → ℕ → R) :
    action (density mk sp n U U') = ∑ i : Fin sp.length, ∑ j : Fin sp.length, ∑ a : Fin n, ∑ b : Fin n,
      (1 / 2 * if sp[i] = sp[j] then U a b else U' a b) •
        (create (mk sp[i] a) * annihilate (mk sp[i] a) * (create (mk sp[j] b) * annihilate (mk sp[j] b))) := by
  rw [density, loop2_action, action_nil, zero_add]
  simp only [Bool.false_and, Bool.false_eq_true, if_false, densTerm_action]

/-- **C116.** The density-density Hamiltonian of the reduced two-index matrices is the diagonal part of the Slater Hamiltonian
of the four-index matrix, for all matrices, spin names and numbers of orbitals. -/
theorem C116_density (mk : σ → ℕ → ι) (sp : List σ) (n : ℕ) (U : ℕ → ℕ → ℕ → ℕ → R) (hsp : sp.Nodup) (hinj : Inj mk sp n) :
    eqOp (density mk sp n (reduceU U) (reduceUp U)) (diagonalPart (slater mk sp n U)) = true := by
  rw [eqOp_iff_melem (density_canonical _ _ _ _ _) (diagonalPart_canonical _)]
  intro T S
  rw [C116_diagonal_part _ (slater_canonical _ _ _ _), density_action, C114_formula]
  by_cases hTS : T = S
  · subst hTS
    rw [if_pos rfl]
    simp only [melem_sum, melem_smul]
    apply Finset.sum_congr rfl; intro i _; apply Finset.sum_congr rfl; intro j _
    apply Finset.sum_congr rfl; intro a _; apply Finset.sum_congr rfl; intro b _
    simp only [diag_four]
    have hl : ∀ (i j : Fin sp.length) (a b : Fin n), mk sp[i] a = mk sp[j] b ↔ i = j ∧ a = b := by
      intro i j a b
      constructor
      · intro e
        obtain ⟨h1, h2⟩ := hinj _ (List.getElem_mem _) _ (List.getElem_mem _) _ a.2 _ b.2 e
        exact ⟨Fin.ext ((List.Nodup.getElem_inj_iff hsp).mp h1), Fin.ext h2⟩
      · rintro ⟨rfl, rfl⟩; rfl
    have hs : sp[i] = sp[j] ↔ i = j :=
      ⟨fun e => Fin.ext ((List.Nodup.getElem_inj_iff hsp).mp e), fun e => by rw [e]⟩
    simp only [ne_eq, hl, hs]
    generalize melem (create (mk sp[i] a) * annihilate (mk sp[i] a) * (create (mk sp[j] b) * annihilate (mk sp[j] b)) : Module.End R (Space ι R)) T T = v
    have e1 : ∑ p : Fin n, ∑ q : Fin n, 1 / 2 * U a b p q * ((if (True ∧ p = a) ∧ (True ∧ q = b) ∧ ¬(i = j ∧ a = b) then v else 0) -
        if (i = j ∧ p = b) ∧ (j = i ∧ q = a) ∧ ¬(i = j ∧ a = b) then v else 0) =
        (if ¬(i = j ∧ a = b) then 1 / 2 * U a b a b * v else 0) - (if i = j ∧ a ≠ b then 1 / 2 * U a b b a * v else 0) := by
      simp only [mul_sub, Finset.sum_sub_distrib]
      congr 1
      · rw [Finset.sum_eq_single a]
        · rw [Finset.sum_eq_single b]
          · simp
          · intro q _ hq
            simp [hq]
          · simp
        · intro p _ hp
          simp [hp]
        · simp
      · rw [Finset.sum_eq_single b]
        · rw [Finset.sum_eq_single a]
          · by_cases hij : i = j
            · subst hij; simp
            · simp [hij]
          · intro q _ hq
            simp [hq]
          · simp
        · intro p _ hp
          simp [hp]
        · simp
    rw [e1]
    unfold reduceU reduceUp
    by_cases hij : i = j
    · subst hij
      by_cases hab : a = b
      · subst hab; simp
      · simp [hab]; ring
    · simp [hij]
  · rw [if_neg hTS]
    simp only [melem_sum, melem_smul, nn_offdiag _ _ T S hTS, mul_zero, Finset.sum_const_zero]

/-! ### C117: change of basis -/

/-- **C117.** The transformed matrix describes the same interaction: the Slater Hamiltonian of `transform_U_matrix(U, T)` is the
Slater form of `U` written with the old operators `a†_j = sum_i conj(T_ij) b†_i`, `a_j = sum_i T_ij b_i`, for all matrices `T`
with `n'` rows and `n` columns. -/
theorem C117_substitution [StarRing R] (mk : σ → ℕ → ι) (sp : List σ) (n n' : ℕ) (T : ℕ → ℕ → R) (U : ℕ → ℕ → ℕ → ℕ → R) :
    let ad := fun (i : Fin sp.length) (j : Fin n) => (∑ k : Fin n', star (T k j) • create (mk sp[i] k) : Module.End R (Space ι R));
    let a := fun (i : Fin sp.length) (j : Fin n) => (∑ k : Fin n', T k j • annihilate (mk sp[i] k) : Module.End R (Space ι R));
    action (slater mk sp n' (transformU n T U)) = ∑ i : Fin sp.length, ∑ j : Fin sp.length,
      ∑ x : Fin n, ∑ y : Fin n, ∑ z : Fin n, ∑ w : Fin n, (1 / 2 * U x y z w) • (ad i x * ad j y * a j w * a i z) := by
  intro ad a
  rw [C114_formula]
  apply Finset.sum_congr rfl; intro i _; apply Finset.sum_congr rfl; intro j _
  have hl : ∀ p q r s : Fin n', transformU n T U p q r s =
      ∑ x : Fin n, ∑ y : Fin n, ∑ z : Fin n, ∑ w : Fin n, star (T p x) * star (T q y) * U x y z w * T r z * T s w :=
    fun p q r s => sum_quads n _
  simp only [hl, Finset.mul_sum, Finset.sum_smul]
  -- bring the sums over the old indices to the front
  have pull : ∀ (f : Fin n' → Fin n' → Fin n' → Fin n' → Fin n → Fin n → Fin n → Fin n → Module.End R (Space ι R)),
      ∑ p, ∑ q, ∑ r, ∑ s, ∑ x, ∑ y, ∑ z, ∑ w, f p q r s x y z w = ∑ x, ∑ y, ∑ z, ∑ w, ∑ p, ∑ q, ∑ r, ∑ s, f p q r s x y z w := by
    intro f
    have := Finset.sum_comm (s := (Finset.univ : Finset (Fin n' × Fin n' × Fin n' × Fin n')))
      (t := (Finset.univ : Finset (Fin n × Fin n × Fin n × Fin n)))
      (f := fun u v => f u.1 u.2.1 u.2.2.1 u.2.2.2 v.1 v.2.1 v.2.2.1 v.2.2.2)
    simpa only [Fintype.sum_prod_type] using this
  rw [pull]
  apply Finset.sum_congr rfl; intro x _; apply Finset.sum_congr rfl; intro y _
  apply Finset.sum_congr rfl; intro z _; apply Finset.sum_congr rfl; intro w _
  have : ad i x * ad j y * a j w * a i z = ∑ p : Fin n', ∑ q : Fin n', ∑ r : Fin n', ∑ s : Fin n',
      (star (T p x) * star (T q y) * T r z * T s w) •
        (create (mk sp[i] p) * create (mk sp[j] q) * annihilate (mk sp[j] s) * annihilate (mk sp[i] r)) := by
    show (∑ p : Fin n', star (T p x) • create (mk sp[i] p)) * (∑ q : Fin n', star (T q y) • create (mk sp[j] q)) *
      (∑ s : Fin n', T s w • annihilate (mk sp[j] s)) * (∑ r : Fin n', T r z • annihilate (mk sp[i] r)) = _
    rw [Finset.sum_mul_sum]
    simp only [Finset.sum_mul]
    apply Finset.sum_congr rfl; intro p _; apply Finset.sum_congr rfl; intro q _
    rw [Finset.mul_sum]
    apply Finset.sum_congr rfl; intro r _
    rw [Finset.mul_sum, Finset.sum_mul]
    apply Finset.sum_congr rfl; intro s _
    simp only [smul_mul_assoc, mul_smul_comm, smul_smul]
    congr 1
    ring
  rw [this]
  simp only [Finset.smul_sum, smul_smul]
  apply Finset.sum_congr rfl; intro p _; apply Finset.sum_congr rfl; intro q _
  apply Finset.sum_congr rfl; intro r _; apply Finset.sum_congr rfl; intro s _
  congr 1
  ring

/-- **C117.** If the columns of `T` are orthonormal, the old operators written in the new ones satisfy the canonical
anticommutation relations. -/
theorem C117_car [StarRing R] (mk : σ → ℕ → ι) (sp : List σ) (n n' : ℕ) (T : ℕ → ℕ → R) (hsp : sp.Nodup) (hinj : Inj mk sp n')
    (hT : ∀ j < n, ∀ l < n, ∑ k : Fin n', star (T k j) * T k l = if j = l then 1 else 0) :
    Car (X := Fin sp.length × Fin n)
      (fun x => (∑ k : Fin n', star (T k x.2) • create (mk sp[x.1] k) : Module.End R (Space ι R)))
      (fun x => (∑ k : Fin n', T k x.2 • annihilate (mk sp[x.1] k) : Module.End R (Space ι R))) where
  cc x y := by
    rw [Finset.sum_mul_sum, Finset.sum_mul_sum, Finset.sum_comm, ← Finset.sum_neg_distrib]
    apply Finset.sum_congr rfl; intro k _
    rw [← Finset.sum_neg_distrib]
    apply Finset.sum_congr rfl; intro l _
    rw [smul_mul_smul_comm, smul_mul_smul_comm, create_anti, smul_neg_end, mul_comm]
  aa x y := by
    rw [Finset.sum_mul_sum, Finset.sum_mul_sum, Finset.sum_comm, ← Finset.sum_neg_distrib]
    apply Finset.sum_congr rfl; intro k _
    rw [← Finset.sum_neg_distrib]
    apply Finset.sum_congr rfl; intro l _
    rw [smul_mul_smul_comm, smul_mul_smul_comm, annihilate_anti, smul_neg_end, mul_comm]
  ac x y := by
    have hcar := car_of_injective (R := R) _ (lab_injective hsp hinj)
    rw [Finset.sum_mul_sum, Finset.sum_mul_sum]
    rw [eq_sub_iff_add_eq, Finset.sum_comm (f := fun i j : Fin n' => star (T i y.2) • create (mk sp[y.1] i) * T j x.2 • annihilate (mk sp[x.1] j)),
      ← Finset.sum_add_distrib]
    have key : ∀ k l : Fin n', T k x.2 • annihilate (mk sp[x.1] k) * star (T l y.2) • create (mk sp[y.1] l) +
        star (T l y.2) • create (mk sp[y.1] l) * T k x.2 • annihilate (mk sp[x.1] k) =
        if x.1 = y.1 ∧ k = l then (star (T l y.2) * T k x.2) • (1 : Module.End R (Space ι R)) else 0 := by
      intro k l
      have := hcar.ac (x.1, k) (y.1, l)
      rw [smul_mul_smul_comm, smul_mul_smul_comm, mul_comm (T k x.2), ← smul_add]
      have h2 : annihilate (mk sp[x.1] k) * create (mk sp[y.1] l) + create (mk sp[y.1] l) * annihilate (mk sp[x.1] k) =
          (if (x.1, k) = (y.1, l) then 1 else 0 : Module.End R (Space ι R)) := by
        rw [← eq_sub_iff_add_eq]
        exact this
      rw [h2]
      simp only [Prod.mk.injEq]
      split_ifs <;> simp
    have : ∀ k : Fin n', (∑ l : Fin n', T k x.2 • annihilate (mk sp[x.1] k) * star (T l y.2) • create (mk sp[y.1] l)) +
        (∑ l : Fin n', star (T l y.2) • create (mk sp[y.1] l) * T k x.2 • annihilate (mk sp[x.1] k)) =
        if x.1 = y.1 then (star (T k y.2) * T k x.2) • (1 : Module.End R (Space ι R)) else 0 := by
      intro k
      rw [← Finset.sum_add_distrib]
      simp only [key, ite_and]
      split_ifs
      · rw [Finset.sum_ite_eq]; simp
      · simp
    rw [Finset.sum_congr rfl fun k _ => this k]
    by_cases h1 : x.1 = y.1
    · simp only [if_pos h1]
      rw [← Finset.sum_smul, hT y.2 y.2.2 x.2 x.2.2]
      by_cases h2 : x.2 = y.2
      · rw [if_pos (by rw [h2]), if_pos (Prod.ext h1 h2), one_smul]
      · rw [if_neg (fun e => h2 (Fin.ext e.symm)), if_neg (fun e => h2 (by rw [e])), zero_smul]
    · simp only [if_neg h1]
      rw [if_neg (fun e => h1 (by rw [e]))]
      simp

omit [DecidableEq R] [LinearOrder ι] [DecidableEq σ] in
/-- **C117.** Transforming twice is transforming with the product of the matrices; the unit matrix changes nothing. -/
theorem C117_compose [StarRing R] (n n' : ℕ) (T T' : ℕ → ℕ → R) (U : ℕ → ℕ → ℕ → ℕ → R) :
    transformU n' T' (transformU n T U) = transformU n (fun i j => ∑ k : Fin n', T' i k * T k j) U ∧
    ∀ i < n, ∀ k < n, ∀ p < n, ∀ q < n, transformU n (fun i j => if i = j then 1 else 0) U i k p q = U i k p q := by
  constructor
  · funext i k p q
    have hl : ∀ (m : ℕ) (T : ℕ → ℕ → R) (U : ℕ → ℕ → ℕ → ℕ → R) (i k p q : ℕ), transformU m T U i k p q =
        ∑ v : Fin m × Fin m × Fin m × Fin m, star (T i v.1) * star (T k v.2.1) * U v.1 v.2.1 v.2.2.1 v.2.2.2 * T p v.2.2.1 * T q v.2.2.2 := by
      intro m T U i k p q
      simp only [Fintype.sum_prod_type]
      exact sum_quads m _
    rw [hl, hl]
    conv_lhs =>
      simp only [hl, Finset.mul_sum, Finset.sum_mul]
      rw [Finset.sum_comm]
    apply Finset.sum_congr rfl; intro v _
    have prod4 : ∀ (a b c d : Fin n' → R) (u : R), (∑ p, a p) * (∑ p, b p) * u * (∑ p, c p) * (∑ p, d p) =
        ∑ v : Fin n' × Fin n' × Fin n' × Fin n', a v.1 * b v.2.1 * u * c v.2.2.1 * d v.2.2.2 := by
      intro a b c d u
      simp only [Fintype.sum_prod_type, ← Finset.mul_sum, ← Finset.sum_mul]
    simp only [star_sum, prod4]
    apply Finset.sum_congr rfl; intro w _
    simp only [star_mul']
    ring
  · intro i hi k hk p hp q hq
    have : ∀ x : ℕ × ℕ × ℕ × ℕ, star (if i = x.1 then (1 : R) else 0) * star (if k = x.2.1 then (1 : R) else 0) * U x.1 x.2.1 x.2.2.1 x.2.2.2 *
        (if p = x.2.2.1 then 1 else 0) * (if q = x.2.2.2 then 1 else 0) =
        if i = x.1 then if k = x.2.1 then if p = x.2.2.1 then if q = x.2.2.2 then U i k p q else 0 else 0 else 0 else 0 := by
      intro x
      split_ifs <;> simp_all
    unfold transformU
    simp only [this]
    rw [sum_quads]
    simp only
    rw [Finset.sum_eq_single ⟨i, hi⟩ (by intro b _ hb; simp [show i ≠ b from fun e => hb (Fin.ext e.symm)]) (by simp)]
    rw [Finset.sum_eq_single ⟨k, hk⟩ (by intro b _ hb; simp [show k ≠ b from fun e => hb (Fin.ext e.symm)]) (by simp)]
    rw [Finset.sum_eq_single ⟨p, hp⟩ (by intro b _ hb; simp [show p ≠ b from fun e => hb (Fin.ext e.symm)]) (by simp)]
    rw [Finset.sum_eq_single ⟨q, hq⟩ (by intro b _ hb; simp [show q ≠ b from fun e => hb (Fin.ext e.symm)]) (by simp)]
    simp

end main

/-! ### Examples -/

/-- labels of two spins with two orbitals -/
def exMk (s o : ℕ) : ℕ := 2 * s + o

-- one orbital: H = U n_up n_down; two spin names given twice the same label break the hypothesis
example : slater exMk [0, 1] 1 (fun _ _ _ _ => (4 : ℚ)) = [([⟨true, 0⟩, ⟨true, 2⟩, ⟨false, 2⟩, ⟨false, 0⟩], 4)] ∧
    Inj exMk [0, 1] 2 := by
  constructor
  · decide +kernel
  · intro s hs s' hs' o ho o' ho' h
    simp [exMk] at hs hs' h
    omega

-- the Kanamori Hamiltonian of two orbitals with U = 4, J = 1: pair hopping and spin flips are there; rotations are a symmetry for
-- U' = U - 2J = 2 and not for U' = 3
example : (kanamori exMk [0, 1] 2 (kanU 2 1) (kanUp 4 2) (1 : ℚ)).length = 10 ∧
    eqOp (mul (orbitalOp exMk [0, 1] 2 fun a b => (a : ℚ) - b) (kanamori exMk [0, 1] 2 (kanU 2 1) (kanUp 4 2) 1))
      (mul (kanamori exMk [0, 1] 2 (kanU 2 1) (kanUp 4 2) 1) (orbitalOp exMk [0, 1] 2 fun a b => (a : ℚ) - b)) = true ∧
    eqOp (mul (orbitalOp exMk [0, 1] 2 fun a b => (a : ℚ) - b) (kanamori exMk [0, 1] 2 (kanU 3 1) (kanUp 4 3) 1))
      (mul (kanamori exMk [0, 1] 2 (kanU 3 1) (kanUp 4 3) 1) (orbitalOp exMk [0, 1] 2 fun a b => (a : ℚ) - b)) = false := by
  decide +kernel

-- the diagonal part is smaller than the operator and not zero
example : (slater exMk [0, 1] 2 (kan4 4 2 1 (1 : ℚ))).length = 10 ∧ (diagonalPart (slater exMk [0, 1] 2 (kan4 4 2 1 (1 : ℚ)))).length = 6 := by
  decide +kernel

-- exchanging the two orbitals exchanges the indices of the matrix
example : transformU 2 (fun i j => if i + j = 1 then (1 : ℚ) else 0) (fun a b p q => a + 2 * b + 4 * p + 8 * q) 0 0 1 0 = 11 := by
  decide +kernel

end Verif.Ham
