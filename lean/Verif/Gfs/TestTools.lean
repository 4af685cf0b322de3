import Mathlib.Order.WithBot
import Mathlib.Algebra.Order.Ring.Rat
import Mathlib.Algebra.Order.Group.Abs
import Mathlib.Data.List.Forall2
import Mathlib.Tactic.NormNum

/-!
# Property C156: the comparison of Green functions in C++ tests

Source: `/repo/c++/triqs/gfs/gf_tests.hpp` (26-49), `/repo/c++/triqs/test_tools/gfs.hpp` (31-69).

`max_element` belongs to the array library and is not in the repository: it folds `std::max` over the elements, beginning with the first.

Simplifications: real data, exact for finite numbers; the difference of arrays of different shape stops the program (`abort`), the maximum
of an empty array is `undefined`.
-/

namespace Verif.TestTools

/-! ## Model -/

/-- a floating-point number: `none` is NaN, then the two infinities and finite numbers -/
abbrev F := Option (WithBot (WithTop ℚ))

def fin (q : ℚ) : F := some ((q : WithTop ℚ) : WithBot (WithTop ℚ))
def inf : F := some ((⊤ : WithTop ℚ) : WithBot (WithTop ℚ))
def ninf : F := some ⊥

/-- `a < b`, false if one of them is NaN -/
def lt : F → F → Bool
  | some a, some b => decide (a < b)
  | _, _ => false

/-- `abs(x - y)` -/
def absDiff : F → F → F
  | none, _ => none
  | _, none => none
  | some ⊥, some ⊥ => none
  | some ⊥, some _ => inf
  | some (some ⊤), some (some ⊤) => none
  | some (some ⊤), some _ => inf
  | some (some (some _)), some ⊥ => inf
  | some (some (some _)), some (some ⊤) => inf
  | some (some (some p)), some (some (some q)) => fin |p - q|

/-- `std::max` -/
def stdMax (a b : F) : F := if lt a b then b else a

/-- `max_element` of a list with first element `d` -/
def maxElement (d : F) (l : List F) : F := l.foldl stdMax d

inductive Outcome where
  | passed
  | error
  | abort
  | undefined
deriving DecidableEq

/-- a Green function: its mesh, the shape and the elements of the data -/
structure Gf (μ : Type) where
  mesh : μ
  shape : List ℕ
  data : List F

variable {μ : Type} [DecidableEq μ]

/-- `assert_gfs_are_close`, 26-32 -/
def close (p : F) (x y : Gf μ) : Outcome :=
  if x.mesh ≠ y.mesh then .error
  else if x.shape ≠ y.shape then .abort
  else
    match List.zipWith absDiff x.data y.data with
    | [] => .undefined
    | d :: l => if lt p (maxElement d l) then .error else .passed

/-- one check after the other, until one does not pass -/
def closeAll (p : F) : List (Gf μ × Gf μ) → Outcome
  | [] => .passed
  | q :: l =>
    match close p q.1 q.2 with
    | .passed => closeAll p l
    | o => o

/-- a block Green function -/
structure BlockGf (μ : Type) where
  names : List String
  blocks : List (Gf μ)

/-- `assert_block_gfs_are_close`, 35-40 -/
def blocksClose (p : F) (x y : BlockGf μ) : Outcome :=
  if x.blocks.length ≠ y.blocks.length then .error
  else if x.names ≠ y.names then .error
  else closeAll p (x.blocks.zip y.blocks)

/-- with two indices -/
structure Block2Gf (μ : Type) where
  names1 : List String
  names2 : List String
  rows : List (List (Gf μ))

def Block2Gf.size (x : Block2Gf μ) : ℕ := x.rows.length * (x.rows.headD []).length

/-- `assert_block2_gfs_are_close`, 43-49 -/
def blocks2Close (p : F) (x y : Block2Gf μ) : Outcome :=
  if x.size ≠ y.size then .error
  else if (x.names1, x.names2) ≠ (y.names1, y.names2) then .error
  else closeAll p (x.rows.flatten.zip y.rows.flatten)

/-! ## Specification -/

/-- at most, as numbers -/
def AtMost (p : ℚ) (d : F) : Prop := d = none ∨ ∃ x, d = some x ∧ x ≤ ((p : WithTop ℚ) : WithBot (WithTop ℚ))

/-- the sizes belong together -/
def Block2Gf.Ok (x : Block2Gf μ) : Prop := x.names1.length = x.rows.length ∧ ∀ r ∈ x.rows, r.length = x.names2.length

/-! ## Proofs -/

theorem foldl_none (l : List F) : l.foldl stdMax none = none := by
  induction l with
  | nil => rfl
  | cons a l ih => simpa [stdMax, lt] using ih

theorem foldl_some (p : ℚ) (x : WithBot (WithTop ℚ)) (l : List F) :
    lt (fin p) (l.foldl stdMax (some x)) = false ↔ x ≤ ((p : WithTop ℚ) : WithBot (WithTop ℚ)) ∧ ∀ d ∈ l, AtMost p d := by
  induction l generalizing x with
  | nil => simp [lt, fin]
  | cons a l ih =>
    rw [List.foldl_cons]
    cases a with
    | none =>
      have : stdMax (some x) none = some x := by simp [stdMax, lt]
      rw [this, ih]
      simp [AtMost]
    | some b =>
      by_cases h : x < b
      · have : stdMax (some x) (some b) = some b := by simp [stdMax, lt, h]
        rw [this, ih]
        simp only [List.mem_cons, forall_eq_or_imp]
        constructor
        · rintro ⟨h1, h2⟩
          exact ⟨(le_of_lt h).trans h1, Or.inr ⟨b, rfl, h1⟩, h2⟩
        · rintro ⟨h1, h2, h3⟩
          rcases h2 with h2 | ⟨x', h2, h4⟩
          · cases h2
          · cases h2
            exact ⟨h4, h3⟩
      · have : stdMax (some x) (some b) = some x := by simp [stdMax, lt, h]
        rw [this, ih]
        simp only [List.mem_cons, forall_eq_or_imp]
        constructor
        · rintro ⟨h1, h2⟩
          exact ⟨h1, Or.inr ⟨b, rfl, (not_lt.mp h).trans h1⟩, h2⟩
        · rintro ⟨h1, h2, h3⟩
          exact ⟨h1, h3⟩

/-- **What passes.** The meshes are equal, and the first difference is NaN or every difference is at most the precision or NaN. -/
theorem C156_passes (p : ℚ) (x y : Gf μ) (hs : x.shape = y.shape) (d : F) (l : List F) (hd : List.zipWith absDiff x.data y.data = d :: l) :
    (close (fin p) x y = .passed ↔ x.mesh = y.mesh ∧ (d = none ∨ ∀ e ∈ d :: l, AtMost p e)) ∧
    (close (fin p) x y = .passed ∨ close (fin p) x y = .error) := by
  unfold close
  by_cases hm : x.mesh = y.mesh
  · rw [if_neg (not_not.mpr hm), if_neg (not_not.mpr hs), hd]
    simp only
    have key : lt (fin p) (maxElement d l) = false ↔ d = none ∨ ∀ e ∈ d :: l, AtMost p e := by
      cases d with
      | none =>
        unfold maxElement
        rw [foldl_none]
        simp [lt, fin]
      | some z =>
        unfold maxElement
        rw [foldl_some]
        simp [AtMost]
    constructor
    · rw [← key]
      cases lt (fin p) (maxElement d l) <;> simp [hm]
    · cases lt (fin p) (maxElement d l) <;> simp
  · rw [if_pos hm]
    simp [hm]

theorem passes' (p : ℚ) (m m' : μ) (shape : List ℕ) (x y : List F) (d : F) (l : List F) (hd : List.zipWith absDiff x y = d :: l) :
    close (fin p) ⟨m, shape, x⟩ ⟨m', shape, y⟩ = .passed ↔ m = m' ∧ (d = none ∨ ∀ e ∈ d :: l, AtMost p e) :=
  (C156_passes p ⟨m, shape, x⟩ ⟨m', shape, y⟩ rfl d l hd).1

/-- **Finite data.** The check passes exactly if the meshes are equal and no element differs by more than the precision. -/
theorem C156_finite (p : ℚ) (m m' : μ) (shape : List ℕ) (a b : List ℚ) (hl : a.length = b.length) (hn : a ≠ []) :
    close (fin p) ⟨m, shape, a.map fin⟩ ⟨m', shape, b.map fin⟩ = .passed ↔ m = m' ∧ ∀ q ∈ a.zip b, |q.1 - q.2| ≤ p := by
  have hz : List.zipWith absDiff (a.map fin) (b.map fin) = (a.zip b).map fun q => fin |q.1 - q.2| := by
    rw [List.zipWith_map]
    show List.zipWith (fun q r => fin |q - r|) a b = _
    rw [List.zip, List.map_zipWith]
  have hle : ∀ q : ℚ, AtMost p (fin q) ↔ q ≤ p := by
    intro q
    unfold AtMost fin
    simp
  rcases hab : a.zip b with _ | ⟨q, l⟩
  · have := congrArg List.length hab
    rw [List.length_zip, ← hl, min_self, List.length_nil] at this
    exact absurd (List.length_eq_zero_iff.mp this) hn
  · rw [hab, List.map_cons] at hz
    rw [passes' p _ _ _ _ _ _ _ hz]
    simp only [List.mem_cons, forall_eq_or_imp, hle, List.mem_map, forall_exists_index, and_imp, forall_apply_eq_imp_iff₂]
    constructor
    · rintro ⟨h1, h2 | h2⟩
      · cases h2
      · exact ⟨h1, h2⟩
    · rintro ⟨h1, h2⟩
      exact ⟨h1, Or.inr h2⟩

/-- **NaN.** If the first element is NaN on either side, nothing else in the data is compared; a NaN elsewhere is not noticed. -/
theorem C156_nan (p : ℚ) (m : μ) (shape : List ℕ) (x y : List F) (a b : F) :
    close (fin p) ⟨m, shape, none :: x⟩ ⟨m, shape, b :: y⟩ = .passed ∧ close (fin p) ⟨m, shape, a :: x⟩ ⟨m, shape, none :: y⟩ = .passed ∧
    (x.length = y.length → x ≠ [] → (close (fin p) ⟨m, shape, x ++ [none]⟩ ⟨m, shape, y ++ [b]⟩ = .passed ↔
      close (fin p) ⟨m, shape, x⟩ ⟨m, shape, y⟩ = .passed)) := by
  refine ⟨?_, ?_, ?_⟩
  · refine (passes' p _ _ _ _ _ none (List.zipWith absDiff x y) ?_).mpr ⟨rfl, Or.inl rfl⟩
    cases b <;> rfl
  · refine (passes' p _ _ _ _ _ none (List.zipWith absDiff x y) ?_).mpr ⟨rfl, Or.inl rfl⟩
    rcases a with _ | _ | _ | _ <;> rfl
  · intro hl hne
    · rcases hz : List.zipWith absDiff x y with _ | ⟨d, l⟩
      · have := congrArg List.length hz
        rw [List.length_zipWith, ← hl, min_self, List.length_nil] at this
        exact absurd (List.length_eq_zero_iff.mp this) hne
      · have hz' : List.zipWith absDiff (x ++ [none]) (y ++ [b]) = d :: (l ++ [none]) := by
          rw [List.zipWith_append hl, hz]
          cases b <;> rfl
        rw [passes' p _ _ _ _ _ _ _ hz', passes' p _ _ _ _ _ _ _ hz]
        simp only [List.mem_cons, List.mem_append, List.not_mem_nil, or_false]
        constructor
        · rintro ⟨h1, h2 | h2⟩
          · exact ⟨h1, Or.inl h2⟩
          · exact ⟨h1, Or.inr fun e he => h2 e (by tauto)⟩
        · rintro ⟨h1, h2 | h2⟩
          · exact ⟨h1, Or.inl h2⟩
          · refine ⟨h1, Or.inr fun e he => ?_⟩
            rcases he with he | he | he
            · exact h2 e (Or.inl he)
            · exact h2 e (Or.inr he)
            · exact Or.inl he

/-- the same infinity on both sides counts as NaN: if it comes first, nothing is compared -/
theorem C156_infinite (p : ℚ) (m : μ) (shape : List ℕ) (x y : List F) (a : F) (ha : a = inf ∨ a = ninf) :
    close (fin p) ⟨m, shape, a :: x⟩ ⟨m, shape, a :: y⟩ = .passed := by
  refine (passes' p _ _ _ _ _ none (List.zipWith absDiff x y) ?_).mpr ⟨rfl, Or.inl rfl⟩
  rcases ha with rfl | rfl <;> rfl

theorem closeAll_passed (p : F) (l : List (Gf μ × Gf μ)) : closeAll p l = .passed ↔ ∀ q ∈ l, close p q.1 q.2 = .passed := by
  induction l with
  | nil => simp [closeAll]
  | cons q l ih =>
    simp only [closeAll, List.mem_cons, forall_eq_or_imp]
    cases h : close p q.1 q.2 <;> simp [ih]

/-- **Blocks.** The check of block functions passes exactly if the names agree and the check of every block passes. -/
theorem C156_blocks (p : F) (x y : BlockGf μ) :
    blocksClose p x y = .passed ↔ x.names = y.names ∧ List.Forall₂ (fun a b => close p a b = .passed) x.blocks y.blocks := by
  unfold blocksClose
  rw [List.forall₂_iff_zip]
  by_cases h1 : x.blocks.length = y.blocks.length
  · by_cases h2 : x.names = y.names
    · simp only [h1, h2, ne_eq, not_true_eq_false, if_false, closeAll_passed, true_and]
      constructor
      · intro h a b hab
        exact h (a, b) hab
      · intro h q hq
        exact h (a := q.1) (b := q.2) hq
    · simp [h1, h2]
  · simp [h1]

/-- two indices -/
theorem C156_blocks2 (p : F) (x y : Block2Gf μ) (hx : x.Ok) (hy : y.Ok) : blocks2Close p x y = .passed ↔
    x.names1 = y.names1 ∧ x.names2 = y.names2 ∧ List.Forall₂ (List.Forall₂ fun a b => close p a b = .passed) x.rows y.rows := by
  unfold blocks2Close
  have hsize : ∀ z : Block2Gf μ, z.Ok → z.size = z.names1.length * z.names2.length := by
    intro z hz
    unfold Block2Gf.size
    rw [hz.1]
    rcases hr : z.rows with _ | ⟨r, l⟩
    · simp
    · rw [List.headD_cons, hz.2 r (by simp [hr])]
  rw [hsize x hx, hsize y hy]
  by_cases h : (x.names1, x.names2) = (y.names1, y.names2)
  · have h1 := congrArg Prod.fst h
    have h2 := congrArg Prod.snd h
    simp only at h1 h2
    rw [if_neg (by simp [h1, h2]), if_neg (by simpa using h), closeAll_passed]
    simp only [h1, h2, true_and]
    have hlen : x.rows.length = y.rows.length := by rw [← hx.1, ← hy.1, h1]
    have hr : ∀ r ∈ x.rows, r.length = y.names2.length := fun r hr => by rw [hx.2 r hr, h2]
    have hr' : ∀ r ∈ y.rows, r.length = y.names2.length := hy.2
    clear hsize hx hy h h1 h2
    generalize x.rows = X at *
    generalize y.rows = Y at *
    generalize y.names2.length = n at *
    induction X generalizing Y with
    | nil =>
      cases Y with
      | nil => simp
      | cons => simp at hlen
    | cons r X ih =>
      cases Y with
      | nil => simp at hlen
      | cons s Y =>
        have hrs : r.length = s.length := by rw [hr r (by simp), hr' s (by simp)]
        have ih' := ih Y (by simpa using hlen) (fun q hq => hr q (by simp [hq])) (fun q hq => hr' q (by simp [hq]))
        rw [List.flatten_cons, List.flatten_cons, List.zip_append hrs, List.forall₂_cons, List.forall₂_iff_zip (l₁ := r)]
        simp only [List.mem_append]
        constructor
        · intro h
          exact ⟨⟨hrs, fun hab => h (_, _) (Or.inl hab)⟩, ih'.mp fun q hq => h q (Or.inr hq)⟩
        · rintro ⟨⟨_, h1⟩, h2⟩ q (hq | hq)
          · exact h1 (a := q.1) (b := q.2) hq
          · exact ih'.mpr h2 q hq
  · have h' : ¬ (x.names1 = y.names1 ∧ x.names2 = y.names2) := by simpa using h
    constructor
    · intro hp
      split at hp
      · cases hp
      · cases hp
    · rintro ⟨h1, h2, _⟩
      exact absurd ⟨h1, h2⟩ h'

/-! ### Examples -/

/-- minus infinity on both sides, the rest differs by 100 -/
example : close (μ := Unit) (fin (1 / 1000000)) ⟨(), [2], [ninf, fin 100]⟩ ⟨(), [2], [ninf, fin 0]⟩ = .passed :=
  C156_infinite _ _ _ _ _ _ (Or.inr rfl)

/-- no names, and blocks on one side only -/
example : blocksClose (μ := Unit) (fin 1) ⟨[], []⟩ ⟨[], [⟨(), [1], [fin 0]⟩]⟩ ≠ .passed := fun h => by
  have := ((C156_blocks _ _ _).mp h).2.length_eq
  simp at this

/-- two functions that differ by 100 pass, because their first element is NaN -/
example : close (μ := Unit) (fin (1 / 1000000)) ⟨(), [2], [none, fin 100]⟩ ⟨(), [2], [fin 0, fin 0]⟩ = .passed := by decide +kernel

/-- equal infinite values also give NaN -/
example : close (μ := Unit) (fin (1 / 1000000)) ⟨(), [2], [inf, fin 100]⟩ ⟨(), [2], [inf, fin 0]⟩ = .passed := by decide +kernel

example : close (μ := Unit) (fin 1) ⟨(), [2], [fin 2, fin 100]⟩ ⟨(), [2], [fin 1, fin 102]⟩ = .error := by decide +kernel

end Verif.TestTools
