import Mathlib.Algebra.BigOperators.Group.List.Basic
import Mathlib.Algebra.Module.Basic
import Mathlib.Algebra.Module.BigOperators
import Mathlib.Data.List.Nodup
import Mathlib.Tactic.Module
import Mathlib.Tactic.Abel

/-!
# Model of product meshes and of nested evaluation

Source: `/repo/c++/triqs/mesh/prod.hpp`, `evaluate.hpp`. A `std::tuple` of component meshes is a list of
components; the index types of the components are modelled by one common type `ι` (the code has a
different type per component, resolved at compile time), likewise the data-index types by `δ`.
-/

namespace Verif.Product

/-! ## Model -/

/-- what `prod` uses of a component mesh -/
structure Comp (ι δ : Type) where
  size : Nat
  toDataIndex : ι → Option δ
  toIndex : δ → Option ι
  /-- indices of the points visited by iteration -/
  points : List ι

variable {ι δ : Type}

/-- `size`, prod.hpp:98-100. -/
def size : List (Comp ι δ) → Nat := fun ms => ms.foldl (fun R m => R * m.size) 1

/-- `map_on_zip` with a component function that may be undefined. -/
def mapZip {α β : Type} (g : Comp ι δ → α → Option β) : List (Comp ι δ) → List α → Option (List β)
  | [], [] => some []
  | m :: ms, a :: as => match g m a, mapZip g ms as with
    | some b, some bs => some (b :: bs)
    | _, _ => none
  | _, _ => none

/-- `to_data_index`, prod.hpp:128-131. -/
def toDataIndex (ms : List (Comp ι δ)) (i : List ι) : Option (List δ) := mapZip (fun m => m.toDataIndex) ms i

/-- `to_index`, prod.hpp:136-139. -/
def toIndex (ms : List (Comp ι δ)) (d : List δ) : Option (List ι) := mapZip (fun m => m.toIndex) ms d

/-- iteration `itertools::product(components...)`, prod.hpp:165-169 (the last component is fastest). -/
def points : List (Comp ι δ) → List (List ι)
  | [] => [[]]
  | m :: ms => m.points.flatMap (fun i => (points ms).map (fun is => i :: is))

/-- nested evaluation, evaluate.hpp:97-110: `φ k` is `evaluate(m_k, ·, x_k)`. The first component is
innermost. The code stops the recursion at a single component; stopping at the empty tuple gives the
same. -/
def evaluate {V : Type} : List ((ι → V) → V) → (List ι → V) → V
  | [], f => f []
  | φ :: φs, f => evaluate φs (fun ys => φ (fun y1 => f (y1 :: ys)))

/-! ## Specification -/

/-- the component is well indexed: `to_data_index` and `to_index` are partial inverses, iteration visits the
indexed points once -/
structure Comp.Good (m : Comp ι δ) : Prop where
  inverse : ∀ i d, m.toDataIndex i = some d ↔ m.toIndex d = some i
  nodup : m.points.Nodup
  complete : ∀ i, i ∈ m.points ↔ ∃ d, m.toDataIndex i = some d
  count : m.points.length = m.size

/-- a component evaluation is a finite weighted sum of values (interpolation stencil) -/
def stencil {R V : Type} [Semiring R] [AddCommMonoid V] [Module R V] (s : List (R × ι)) (f : ι → V) : V :=
  (s.map (fun p => p.1 • f p.2)).sum

/-- all combinations of stencil nodes with the product of the weights -/
def tensor {R : Type} [Semiring R] : List (List (R × ι)) → List (R × List ι)
  | [] => [(1, [])]
  | s :: ss => s.flatMap (fun p => (tensor ss).map (fun q => (p.1 * q.1, p.2 :: q.2)))

/-- nesting in the opposite order: the last component innermost -/
def evaluateRev {V : Type} : List ((ι → V) → V) → (List ι → V) → V
  | [], f => f []
  | φ :: φs, f => φ (fun y1 => evaluateRev φs (fun ys => f (y1 :: ys)))

/-! ## Proofs -/

theorem size_eq (ms : List (Comp ι δ)) : size ms = (ms.map (·.size)).prod := by
  have : ∀ (l : List (Comp ι δ)) (r : Nat), l.foldl (fun R m => R * m.size) r = r * (l.map (·.size)).prod := by
    intro l
    induction l with
    | nil => intro r; simp
    | cons m l ih => intro r; rw [List.foldl_cons, ih]; simp [Nat.mul_assoc]
  unfold size
  rw [this, Nat.one_mul]

theorem mapZip_eq_some {α β : Type} (g : Comp ι δ → α → Option β) :
    ∀ (ms : List (Comp ι δ)) (as : List α) (bs : List β),
      mapZip g ms as = some bs ↔ List.Forall₂ (fun p b => g p.1 p.2 = some b) (ms.zip as) bs ∧ ms.length = as.length := by
  intro ms
  induction ms with
  | nil =>
    intro as bs
    cases as with
    | nil => simp [mapZip]
    | cons a as => simp [mapZip]
  | cons m ms ih =>
    intro as bs
    cases as with
    | nil => simp [mapZip]
    | cons a as =>
      simp only [mapZip, List.zip_cons_cons, List.length_cons, Nat.add_right_cancel_iff]
      cases bs with
      | nil =>
        simp only [List.forall₂_nil_right_iff, reduceCtorEq, false_and, iff_false]
        split <;> simp
      | cons b bs =>
        rw [List.forall₂_cons, and_assoc, ← ih as bs]
        cases h1 : g m a <;> cases h2 : mapZip g ms as <;> simp

theorem inverse_prod : ∀ (ms : List (Comp ι δ)), (∀ m ∈ ms, m.Good) → ∀ i d,
    (toDataIndex ms i = some d ↔ toIndex ms d = some i) := by
  intro ms
  induction ms with
  | nil =>
    intro _ i d
    cases i <;> cases d <;> simp [toDataIndex, toIndex, mapZip]
  | cons m ms ih =>
    intro h i d
    have ih := ih (fun m' hm => h m' (by simp [hm]))
    have hm := (h m (by simp)).inverse
    unfold toDataIndex toIndex at *
    cases i with
    | nil => cases d with
      | nil => simp [mapZip]
      | cons b d => simp only [mapZip, reduceCtorEq, false_iff]; split <;> simp
    | cons a i =>
      cases d with
      | nil => simp only [mapZip, reduceCtorEq, iff_false]; split <;> simp
      | cons b d =>
        have h1 := hm a b
        have h2 := ih i d
        simp only [mapZip]
        constructor
        · intro hh
          split at hh
          · rename_i b' bs e1 e2
            simp only [Option.some.injEq, List.cons.injEq] at hh
            obtain ⟨rfl, rfl⟩ := hh
            rw [h1.mp e1, h2.mp e2]
          · cases hh
        · intro hh
          split at hh
          · rename_i a' as e1 e2
            simp only [Option.some.injEq, List.cons.injEq] at hh
            obtain ⟨rfl, rfl⟩ := hh
            rw [h1.mpr e1, h2.mpr e2]
          · cases hh

theorem points_nodup : ∀ (ms : List (Comp ι δ)), (∀ m ∈ ms, m.Good) → (points ms).Nodup := by
  intro ms
  induction ms with
  | nil => intro _; simp [points]
  | cons m ms ih =>
    intro h
    have ih := ih (fun m' hm => h m' (by simp [hm]))
    unfold points
    rw [List.nodup_flatMap]
    refine ⟨fun i _ => ih.map (fun a b hab => by simpa using hab), ?_⟩
    refine ((h m (by simp)).nodup).imp ?_
    intro a b hab
    simp only [Function.onFun, List.disjoint_left, List.mem_map]
    rintro x ⟨y, _, rfl⟩ ⟨z, _, hz⟩
    simp only [List.cons.injEq] at hz
    exact hab hz.1.symm

theorem mem_points : ∀ (ms : List (Comp ι δ)), (∀ m ∈ ms, m.Good) → ∀ i, (i ∈ points ms ↔ ∃ d, toDataIndex ms i = some d) := by
  intro ms
  induction ms with
  | nil =>
    intro _ i
    cases i <;> simp [points, toDataIndex, mapZip]
  | cons m ms ih =>
    intro h i
    have ih := ih (fun m' hm => h m' (by simp [hm]))
    have hm := (h m (by simp)).complete
    unfold points
    simp only [List.mem_flatMap, List.mem_map]
    constructor
    · rintro ⟨a, ha, as, has, rfl⟩
      obtain ⟨d, hd⟩ := (hm a).mp ha
      obtain ⟨ds, hds⟩ := (ih as).mp has
      unfold toDataIndex at hds ⊢
      exact ⟨d :: ds, by simp only [mapZip, hd, hds]⟩
    · rintro ⟨ds, hds⟩
      unfold toDataIndex at hds
      cases i with
      | nil => simp [mapZip] at hds
      | cons a as =>
        simp only [mapZip] at hds
        split at hds
        · rename_i b bs e1 e2
          exact ⟨a, (hm a).mpr ⟨b, e1⟩, as, (ih as).mpr ⟨bs, e2⟩, rfl⟩
        · cases hds

theorem points_length (ms : List (Comp ι δ)) (h : ∀ m ∈ ms, m.Good) : (points ms).length = (ms.map (·.size)).prod := by
  induction ms with
  | nil => simp [points]
  | cons m ms ih =>
    have ih := ih (fun m' hm => h m' (by simp [hm]))
    unfold points
    simp only [List.length_flatMap, List.length_map, ih, List.map_const', List.sum_replicate, List.map_cons, List.prod_cons,
      (h m (by simp)).count, smul_eq_mul]

/-- **C49, indexing.** For every number of well-indexed components: conversion of indices is
componentwise, `to_data_index` and `to_index` are inverse to each other, the size is the product of the
sizes, and iteration visits every valid index tuple exactly once. -/
theorem C49_product_indexing (ms : List (Comp ι δ)) (h : ∀ m ∈ ms, m.Good) :
    (∀ i d, toDataIndex ms i = some d ↔
      List.Forall₂ (fun p b => p.1.toDataIndex p.2 = some b) (ms.zip i) d ∧ ms.length = i.length) ∧
    (∀ i d, toDataIndex ms i = some d ↔ toIndex ms d = some i) ∧
    size ms = (ms.map (·.size)).prod ∧
    (points ms).Nodup ∧ (points ms).length = size ms ∧
    (∀ i, i ∈ points ms ↔ ∃ d, toDataIndex ms i = some d) :=
  ⟨fun i d => mapZip_eq_some _ ms i d, inverse_prod ms h, size_eq ms, points_nodup ms h,
    by rw [points_length ms h, size_eq], mem_points ms h⟩

/-- an interval of integers as a component -/
def exComp (first : Int) (n : Nat) : Comp Int Nat where
  size := n
  toDataIndex i := if first ≤ i ∧ i < first + n then some (i - first).toNat else none
  toIndex d := if d < n then some (first + d) else none
  points := (List.range n).map (fun d : Nat => first + (d : Int))

theorem exComp_good (first : Int) (n : Nat) : (exComp first n).Good where
  inverse i d := by
    simp only [exComp]
    split <;> split <;> simp <;> omega
  nodup := by
    simp only [exComp]
    exact List.Nodup.map (fun a b hab => by simpa using hab) List.nodup_range
  complete i := by
    simp only [exComp, List.mem_map, List.mem_range]
    constructor
    · rintro ⟨d, hd, rfl⟩; exact ⟨d, by rw [if_pos (by omega)]; simp⟩
    · rintro ⟨d, hd⟩
      split at hd
      · exact ⟨(i - first).toNat, by omega, by omega⟩
      · cases hd
  count := by simp [exComp]

example : toDataIndex [exComp (-2) 4, exComp 0 3] [1, 2] = some [3, 2] ∧
    size [exComp (-2) 4, exComp 0 3] = 12 ∧ (points [exComp (-2) 4, exComp 0 3]).length = 12 ∧
    ∀ m ∈ [exComp (-2) 4, exComp 0 3], m.Good :=
  ⟨by decide, by decide, by decide, by
    intro m hm
    simp only [List.mem_cons, List.not_mem_nil, or_false] at hm
    rcases hm with rfl | rfl <;> exact exComp_good _ _⟩

section
variable {R V : Type} [CommSemiring R] [AddCommMonoid V] [Module R V]

theorem sum_map_sum {α β : Type} (l : List α) (l' : List β) (g : α → β → V) :
    (l.map (fun a => (l'.map (fun b => g a b)).sum)).sum = (l'.map (fun b => (l.map (fun a => g a b)).sum)).sum := by
  induction l with
  | nil => simp
  | cons a l ih => simp [ih, List.sum_map_add]

theorem smul_list_sum (r : R) (l : List V) : r • l.sum = (l.map (fun v => r • v)).sum := by
  induction l with
  | nil => simp
  | cons v l ih => simp [smul_add, ih]

theorem tensor_sum_cons (s : List (R × ι)) (ss : List (List (R × ι))) (f : List ι → V) :
    ((tensor (s :: ss)).map (fun q => q.1 • f q.2)).sum =
      (s.map (fun p => p.1 • ((tensor ss).map (fun q => q.1 • f (p.2 :: q.2))).sum)).sum := by
  simp only [tensor]
  induction s with
  | nil => simp
  | cons p s ih =>
    rw [List.flatMap_cons, List.map_append, List.sum_append, ih, List.map_cons, List.sum_cons, smul_list_sum]
    simp only [List.map_map, Function.comp_def, mul_smul]

theorem evaluate_tensor : ∀ (ss : List (List (R × ι))) (f : List ι → V),
    evaluate (ss.map (fun s => stencil s)) f = ((tensor ss).map (fun q => q.1 • f q.2)).sum := by
  intro ss
  induction ss with
  | nil => intro f; simp [evaluate, tensor]
  | cons s ss ih =>
    intro f
    rw [tensor_sum_cons]
    simp only [List.map_cons, evaluate]
    rw [ih]
    simp only [stencil, smul_list_sum, List.map_map, Function.comp_def]
    rw [sum_map_sum]
    congr 1
    apply List.map_congr_left
    intro p _
    congr 1
    apply List.map_congr_left
    intro q _
    rw [smul_comm]

theorem evaluateRev_tensor : ∀ (ss : List (List (R × ι))) (f : List ι → V),
    evaluateRev (ss.map (fun s => stencil s)) f = ((tensor ss).map (fun q => q.1 • f q.2)).sum := by
  intro ss
  induction ss with
  | nil => intro f; simp [evaluateRev, tensor]
  | cons s ss ih =>
    intro f
    rw [tensor_sum_cons]
    simp only [List.map_cons, evaluateRev, ih, stencil]

/-- **C49, evaluation.** If every component evaluation is an interpolation stencil, evaluation on the
product is the tensor product of the stencils, for any number of variables, and nesting in the opposite
order gives the same. -/
theorem C49_tensor_product_evaluation (ss : List (List (R × ι))) (f : List ι → V) :
    evaluate (ss.map (fun s => stencil s)) f = ((tensor ss).map (fun q => q.1 • f q.2)).sum ∧
    evaluate (ss.map (fun s => stencil s)) f = evaluateRev (ss.map (fun s => stencil s)) f :=
  ⟨evaluate_tensor ss f, by rw [evaluate_tensor, evaluateRev_tensor]⟩

/-- With the stencils evaluated at single nodes, the data at the tuple of nodes is returned. -/
theorem C49_exact_on_points (is : List ι) (f : List ι → V) :
    evaluate (is.map (fun i => stencil [((1 : R), i)])) f = f is := by
  have h := evaluate_tensor (R := R) (is.map (fun i => [((1 : R), i)])) f
  have ht : tensor (is.map (fun i => [((1 : R), i)])) = [(1, is)] := by
    clear h
    induction is with
    | nil => rfl
    | cons i is ih => simp [tensor, ih]
  rw [ht] at h
  simpa [List.map_map, Function.comp_def] using h
end

-- two variables, two nodes each
example : evaluate ([[(3, 0), (1, 1)], [(2, 5), (7, 6)]].map (fun s => stencil s)) (fun i : List Int => (i.headD 0 * 10 + i.getLastD 0 : Int))
    = 3 * 2 * 5 + 3 * 7 * 6 + 1 * 2 * 15 + 1 * 7 * 16 := by decide

end Verif.Product
