import Mathlib.Data.List.Basic
import Mathlib.Data.List.Nodup
import Mathlib.Data.Rat.Defs
import Mathlib.Algebra.Order.Field.Rat
import Mathlib.Tactic.NormNum

/-!
# Property C148: comparison of archives

Source: `/repo/python/triqs/utility/h5diff.py` (27-98) and `/repo/python/triqs/utility/comparison_tests.py` (22-42).

Numbers are elements of a type `α`, and `lt p x y` is the value of `abs(x - y) < p`: nothing is assumed about it, so that it may be
that of floating point numbers, with NaN. `numpy.amax(...) < p` is true exactly if `lt` is true for all elements, also with NaN.

Simplifications: an operator is an element of a type `ω` with the test `(a - b).is_zero()`; a mesh is an element of a type `μ` with
a test of equality; the archive has been read; the messages are counted only.
-/

namespace Verif.H5Diff

/-! ## Model -/

variable {α μ ω : Type}

/-- an array; the shape and the indices begin with the last axis -/
structure Arr (α : Type) where
  shape : List ℕ
  el : List ℕ → α

/-- the shape of `a - b`, numpy's broadcasting -/
def bshape : List ℕ → List ℕ → Option (List ℕ)
  | [], t => some t
  | s, [] => some s
  | a :: s, b :: t =>
    match bshape s t with
    | none => none
    | some r => if a = b then some (a :: r) else if a = 1 then some (b :: r) else if b = 1 then some (a :: r) else none

/-- the element of an operand that belongs to an index of the result -/
def bidx : List ℕ → List ℕ → List ℕ
  | [], _ => []
  | _ :: _, [] => []
  | a :: s, i :: l => (if a = 1 then 0 else i) :: bidx s l

/-- all indices of a shape -/
def indices : List ℕ → List (List ℕ)
  | [] => [[]]
  | a :: s => (List.range a).flatMap fun i => (indices s).map (i :: ·)

/-- the tests on numbers, meshes and operators -/
structure Tests (α μ ω : Type) where
  lt : ℚ → α → α → Bool
  mesh : μ → μ → Bool
  zeroDiff : ω → ω → Bool

/-- `assert_arrays_are_close`, comparison_tests.py:22-24: false also stands for the `ValueError` of shapes that do not fit and of
`amax` of an empty array, which `compare` treats in the same way (h5diff.py:84) -/
def arraysClose (T : Tests α μ ω) (p : ℚ) (a b : Arr α) : Bool :=
  match bshape a.shape b.shape with
  | none => false
  | some r => !(indices r).isEmpty && (indices r).all fun i => T.lt p (a.el (bidx a.shape i)) (b.el (bidx b.shape i))

structure Gf (α μ : Type) where
  mesh : μ
  data : Arr α

/-- `assert_gfs_are_close`, 29-32 -/
def gfsClose (T : Tests α μ ω) (p : ℚ) (a b : Gf α μ) : Bool := T.mesh a.mesh b.mesh && arraysClose T p a.data b.data

/-- `assert_block_gfs_are_close`, 34-39 -/
def blocksClose (T : Tests α μ ω) (p : ℚ) (a b : List (String × Gf α μ)) : Bool :=
  decide (a.length = b.length) && (a.zip b).all fun q => q.1.1 == q.2.1 && gfsClose T p q.1.2 q.2.2

/-- the types of Python numbers -/
inductive Num where
  | int
  | float
  | complex
deriving DecidableEq

/-- values without further keys -/
inductive Leaf (α μ ω : Type) where
  | gf (g : Gf α μ)
  | block (two : Bool) (l : List (String × Gf α μ))
  | op (o : ω)
  | arr (a : Arr α)
  | num (t : Num) (x : α)
  | bool (b : Bool)
  | str (s : String)
  | other (t : String)

/-- lines 36-37 and 47-82 -/
def leafOk (T : Tests α μ ω) (p : ℚ) : Leaf α μ ω → Leaf α μ ω → Bool
  | .gf a, .gf b => gfsClose T p a b
  | .block t a, .block t' b => t == t' && blocksClose T p a b
  | .op a, .op b => T.zeroDiff a b
  | .arr a, .arr b => arraysClose T (1 / 1000000) a b
  | .num t a, .num t' b => t == t' && T.lt (1 / 10000000000) a b
  | .bool a, .bool b => a == b
  | .str a, .str b => a == b
  | _, _ => false

mutual
/-- the values of an archive -/
inductive Val (α μ ω : Type) where
  | dict (group : Bool) (f : Fields α μ ω)
  | seq (tuple : Bool) (l : Vals α μ ω)
  | leaf (x : Leaf α μ ω)
inductive Vals (α μ ω : Type) where
  | nil
  | cons (v : Val α μ ω) (l : Vals α μ ω)
inductive Fields (α μ ω : Type) where
  | nil
  | cons (k : String) (v : Val α μ ω) (l : Fields α μ ω)
end

def Vals.length : Vals α μ ω → ℕ
  | .nil => 0
  | .cons _ l => l.length + 1

def Fields.keys : Fields α μ ω → List String
  | .nil => []
  | .cons k _ l => k :: l.keys

def Fields.get : Fields α μ ω → String → Option (Val α μ ω)
  | .nil, _ => none
  | .cons k v l, q => if k = q then some v else l.get q

def Vals.get : Vals α μ ω → ℕ → Option (Val α μ ω)
  | .nil, _ => none
  | .cons v _, 0 => some v
  | .cons _ l, n + 1 => l.get n

/-- the number of messages and whether a `KeyError` was raised, which nothing catches -/
abbrev Res := ℕ × Bool

def Res.then (a b : Res) : Res := if a.2 then a else (a.1 + b.1, b.2)

mutual
/-- `compare`, 30-87 -/
def compare (T : Tests α μ ω) (p : ℚ) : Val α μ ω → Val α μ ω → Res
  | .dict g f, b =>
    match b with
    | .dict g' f' => if g = g' then Res.then (if f.keys = f'.keys then 0 else 1, false) (compareFields T p f f') else (1, false)
    | _ => (1, false)
  | .seq t l, b =>
    match b with
    | .seq t' l' => if t = t' ∧ l.length = l'.length then compareVals T p l l' else (1, false)
    | _ => (1, false)
  | .leaf x, b =>
    match b with
    | .leaf y => (if leafOk T p x y then 0 else 1, false)
    | _ => (1, false)
/-- 42-43 -/
def compareFields (T : Tests α μ ω) (p : ℚ) : Fields α μ ω → Fields α μ ω → Res
  | .nil, _ => (0, false)
  | .cons k v l, f =>
    match f.get k with
    | none => (0, true)
    | some w => Res.then (compare T p v w) (compareFields T p l f)
/-- 75-76 -/
def compareVals (T : Tests α μ ω) (p : ℚ) : Vals α μ ω → Vals α μ ω → Res
  | .nil, _ => (0, false)
  | .cons v l, m =>
    match m with
    | .nil => (0, false)
    | .cons w m => Res.then (compare T p v w) (compareVals T p l m)
end

inductive Outcome where
  | passed
  | failed
  | keyError
deriving DecidableEq

/-- `h5diff`, 89-98; `failures` is a global list that is never emptied -/
def h5diff (T : Tests α μ ω) (p : ℚ) (failures : ℕ) (a b : Val α μ ω) : ℕ × Outcome :=
  let r := compare T p a b
  (failures + r.1, if r.2 then .keyError else if failures + r.1 = 0 then .passed else .failed)

/-- calls one after the other in one process -/
def calls (T : Tests α μ ω) (p : ℚ) : ℕ → List (Val α μ ω × Val α μ ω) → List Outcome
  | _, [] => []
  | n, (a, b) :: l => (h5diff T p n a b).2 :: calls T p (h5diff T p n a b).1 l

/-! ## Specification -/

/-- a step into a value -/
inductive Step where
  | key (k : String)
  | item (n : ℕ)

def Val.step : Val α μ ω → Step → Option (Val α μ ω)
  | .dict _ f, .key k => f.get k
  | .seq _ l, .item n => l.get n
  | _, _ => none

/-- the value at the end of a path -/
def Val.at : Val α μ ω → List Step → Option (Val α μ ω)
  | v, [] => some v
  | v, s :: l =>
    match v.step s with
    | none => none
    | some w => w.at l

/-- two values agree at the top: same type, same keys in the same order or same length, or comparable content -/
def Head (T : Tests α μ ω) (p : ℚ) : Val α μ ω → Val α μ ω → Prop
  | .dict g f, .dict g' f' => g = g' ∧ f.keys = f'.keys
  | .seq t l, .seq t' l' => t = t' ∧ l.length = l'.length
  | .leaf x, .leaf y => leafOk T p x y = true
  | _, _ => False

/-- the same at the end of a path -/
def HeadAt (T : Tests α μ ω) (p : ℚ) : Option (Val α μ ω) → Option (Val α μ ω) → Prop
  | none, none => True
  | some v, some w => Head T p v w
  | _, _ => False

/-- the comparison finds no difference -/
def Same (T : Tests α μ ω) (p : ℚ) (a b : Val α μ ω) : Prop := compare T p a b = (0, false)

/-- dictionaries have distinct keys -/
def DistinctKeys (a : Val α μ ω) : Prop := ∀ path g f, a.at path = some (.dict g f) → f.keys.Nodup

/-! ## Proofs -/

theorem then_zero (a b : Res) : Res.then a b = (0, false) ↔ a = (0, false) ∧ b = (0, false) := by
  obtain ⟨n, r⟩ := a
  obtain ⟨m, s⟩ := b
  unfold Res.then
  cases r
  · simp only [Bool.false_eq_true, if_false, Prod.mk.injEq, Nat.add_eq_zero_iff, and_true]
    tauto
  · simp

theorem get_none : ∀ (f : Fields α μ ω) (k : String), f.get k = none ↔ k ∉ f.keys
  | .nil, k => by simp [Fields.get, Fields.keys]
  | .cons k' v l, k => by
    simp only [Fields.get, Fields.keys, List.mem_cons, not_or]
    by_cases h : k' = k
    · simp [h]
    · rw [if_neg h, get_none l k]
      exact ⟨fun h2 => ⟨fun e => h e.symm, h2⟩, fun h2 => h2.2⟩

theorem vget_none : ∀ (l : Vals α μ ω) (n : ℕ), l.get n = none ↔ l.length ≤ n
  | .nil, n => by simp [Vals.get, Vals.length]
  | .cons v l, 0 => by simp [Vals.get, Vals.length]
  | .cons v l, n + 1 => by simp only [Vals.get, Vals.length]; rw [vget_none l n]; omega

theorem get_size : ∀ (f : Fields α μ ω) (k : String) (v : Val α μ ω), f.get k = some v → sizeOf v < sizeOf f
  | .nil, k, v, h => by simp [Fields.get] at h
  | .cons k' w l, k, v, h => by
    simp only [Fields.get] at h
    split at h
    · cases h; simp; omega
    · have := get_size l k v h
      simp
      omega

theorem vget_size : ∀ (l : Vals α μ ω) (n : ℕ) (v : Val α μ ω), l.get n = some v → sizeOf v < sizeOf l
  | .nil, n, v, h => by simp [Vals.get] at h
  | .cons w l, 0, v, h => by simp only [Vals.get] at h; cases h; simp; omega
  | .cons w l, n + 1, v, h => by
    simp only [Vals.get] at h
    have := vget_size l n v h
    simp
    omega

theorem step_size (a : Val α μ ω) (s : Step) (v : Val α μ ω) (h : a.step s = some v) : sizeOf v < sizeOf a := by
  cases a with
  | dict g f =>
    cases s with
    | key k => have := get_size f k v h; simp; omega
    | item n => cases h
  | seq t l =>
    cases s with
    | key k => cases h
    | item n => have := vget_size l n v h; simp; omega
  | leaf x => cases s <;> cases h

def Fields.toList : Fields α μ ω → List (String × Val α μ ω)
  | .nil => []
  | .cons k v l => (k, v) :: l.toList

theorem get_mem : ∀ (f : Fields α μ ω) (k : String) (v : Val α μ ω), f.get k = some v → (k, v) ∈ f.toList
  | .nil, k, v, h => by simp [Fields.get] at h
  | .cons k' w l, k, v, h => by
    simp only [Fields.get] at h
    simp only [Fields.toList, List.mem_cons]
    split at h
    · rename_i e
      cases h
      exact Or.inl (by rw [e])
    · exact Or.inr (get_mem l k v h)

theorem mem_keys : ∀ (f : Fields α μ ω) (k : String) (v : Val α μ ω), (k, v) ∈ f.toList → k ∈ f.keys
  | .nil, k, v, h => by simp [Fields.toList] at h
  | .cons k' w l, k, v, h => by
    simp only [Fields.toList, List.mem_cons] at h
    simp only [Fields.keys, List.mem_cons]
    rcases h with h | h
    · exact Or.inl (congrArg Prod.fst h)
    · exact Or.inr (mem_keys l k v h)

theorem mem_get : ∀ (f : Fields α μ ω) (k : String) (v : Val α μ ω), f.keys.Nodup → (k, v) ∈ f.toList → f.get k = some v
  | .nil, k, v, _, h => by simp [Fields.toList] at h
  | .cons k' w l, k, v, hn, h => by
    simp only [Fields.toList, List.mem_cons] at h
    simp only [Fields.keys] at hn
    obtain ⟨h1, h2⟩ := List.nodup_cons.mp hn
    simp only [Fields.get]
    rcases h with h | h
    · cases h; rw [if_pos rfl]
    · rw [if_neg fun e : k' = k => h1 (by rw [e]; exact mem_keys l k v h)]
      exact mem_get l k v h2 h

theorem fields_zero (T : Tests α μ ω) (p : ℚ) : ∀ (f f' : Fields α μ ω),
    compareFields T p f f' = (0, false) ↔ ∀ e ∈ f.toList, ∃ w, f'.get e.1 = some w ∧ Same T p e.2 w
  | .nil, f' => by simp [compareFields, Fields.toList]
  | .cons k v l, f' => by
    simp only [compareFields, Fields.toList, List.mem_cons, forall_eq_or_imp]
    cases h : f'.get k with
    | none => simp
    | some w =>
      simp only
      rw [then_zero, fields_zero T p l f']
      simp [Same]

theorem vals_zero (T : Tests α μ ω) (p : ℚ) : ∀ (l m : Vals α μ ω), l.length = m.length →
    (compareVals T p l m = (0, false) ↔ ∀ n v w, l.get n = some v → m.get n = some w → Same T p v w)
  | .nil, m, _ => by simp [compareVals, Vals.get]
  | .cons v l, .nil, h => by simp [Vals.length] at h
  | .cons v l, .cons w m, h => by
    simp only [compareVals]
    rw [then_zero, vals_zero T p l m (by simpa [Vals.length] using h)]
    constructor
    · rintro ⟨h1, h2⟩ n a b ha hb
      cases n with
      | zero => simp only [Vals.get] at ha hb; cases ha; cases hb; exact h1
      | succ n => exact h2 n a b ha hb
    · intro h1
      exact ⟨h1 0 v w rfl rfl, fun n a b ha hb => h1 (n + 1) a b ha hb⟩

/-- the same values have the same steps -/
theorem head_step (T : Tests α μ ω) (p : ℚ) (a b : Val α μ ω) (h : Head T p a b) (s : Step) : a.step s = none ↔ b.step s = none := by
  cases a <;> cases b <;> simp only [Head] at h
  · cases s with
    | key k => simp only [Val.step]; rw [get_none, get_none, h.2]
    | item n => simp [Val.step]
  · cases s with
    | key k => simp [Val.step]
    | item n => simp only [Val.step]; rw [vget_none, vget_none, h.2]
  · cases s <;> simp [Val.step]

theorem same_one (T : Tests α μ ω) (p : ℚ) (a b : Val α μ ω) :
    (Same T p a b → Head T p a b ∧ ∀ s v w, a.step s = some v → b.step s = some w → Same T p v w) ∧
    ((∀ g f, a = .dict g f → f.keys.Nodup) → Head T p a b → (∀ s v w, a.step s = some v → b.step s = some w → Same T p v w) → Same T p a b) := by
  cases a with
  | dict g f =>
    cases b with
    | dict g' f' =>
      unfold Same
      simp only [compare, Head]
      constructor
      · intro h
        by_cases hg : g = g'
        · rw [if_pos hg, then_zero] at h
          have hk : f.keys = f'.keys := by
            by_contra hk
            rw [if_neg hk] at h
            simp at h
          refine ⟨⟨hg, hk⟩, fun s v w hv hw => ?_⟩
          cases s with
          | item n => cases hv
          | key k =>
            simp only [Val.step] at hv hw
            obtain ⟨w', h1, h2⟩ := (fields_zero T p f f').mp h.2 (k, v) (get_mem f k v hv)
            simp only at h1
            rw [hw] at h1
            cases h1
            exact h2
        · rw [if_neg hg] at h
          simp at h
      · rintro hn ⟨hg, hk⟩ hs
        rw [if_pos hg, then_zero, if_pos hk]
        refine ⟨rfl, (fields_zero T p f f').mpr ?_⟩
        rintro ⟨k, v⟩ he
        have hv := mem_get f k v (hn g f rfl) he
        have hmem : k ∈ f'.keys := hk ▸ mem_keys f k v he
        cases hw : f'.get k with
        | none => exact absurd hmem ((get_none f' k).mp hw)
        | some w => exact ⟨w, rfl, hs (.key k) v w hv hw⟩
    | seq t l => exact ⟨fun h => by simp [Same, compare] at h, fun _ h => by simp [Head] at h⟩
    | leaf x => exact ⟨fun h => by simp [Same, compare] at h, fun _ h => by simp [Head] at h⟩
  | seq t l =>
    cases b with
    | dict g f => exact ⟨fun h => by simp [Same, compare] at h, fun _ h => by simp [Head] at h⟩
    | seq t' l' =>
      unfold Same
      simp only [compare, Head]
      constructor
      · intro h
        by_cases hg : t = t' ∧ l.length = l'.length
        · rw [if_pos hg] at h
          refine ⟨hg, fun s v w hv hw => ?_⟩
          cases s with
          | key k => cases hv
          | item n => exact (vals_zero T p l l' hg.2).mp h n v w hv hw
        · rw [if_neg hg] at h
          simp at h
      · intro _ hg hs
        rw [if_pos hg]
        exact (vals_zero T p l l' hg.2).mpr fun n v w hv hw => hs (.item n) v w hv hw
    | leaf x => exact ⟨fun h => by simp [Same, compare] at h, fun _ h => by simp [Head] at h⟩
  | leaf x =>
    cases b with
    | dict g f => exact ⟨fun h => by simp [Same, compare] at h, fun _ h => by simp [Head] at h⟩
    | seq t l => exact ⟨fun h => by simp [Same, compare] at h, fun _ h => by simp [Head] at h⟩
    | leaf y =>
      unfold Same
      simp only [compare, Head]
      constructor
      · intro h
        refine ⟨?_, fun s v w hv _ => by cases s <;> cases hv⟩
        by_contra hb
        rw [if_neg hb] at h
        simp at h
      · intro _ hb _
        rw [if_pos hb]

/-- no difference is found exactly if along every path of keys and positions both archives have a value or neither has, with the
same type, the same keys in the same order, the same length, or a content that passes the test of its type -/
theorem C148_paths (T : Tests α μ ω) (p : ℚ) (a b : Val α μ ω) (hd : DistinctKeys a) :
    Same T p a b ↔ ∀ path, HeadAt T p (a.at path) (b.at path) := by
  constructor
  · intro h path
    clear hd
    induction path generalizing a b with
    | nil => exact ((same_one T p a b).1 h).1
    | cons s l ih =>
      obtain ⟨h1, h2⟩ := (same_one T p a b).1 h
      have h3 := head_step T p a b h1 s
      simp only [Val.at]
      cases ha : a.step s with
      | none => rw [h3.mp ha]; trivial
      | some v =>
        cases hb : b.step s with
        | none => rw [h3.mpr hb] at ha; cases ha
        | some w => exact ih v w (h2 s v w ha hb)
  · intro h
    induction hn : sizeOf a using Nat.strong_induction_on generalizing a b with
    | _ n ih =>
      refine (same_one T p a b).2 (fun g f e => hd [] g f (by rw [e]; rfl)) (h []) fun s v w hv hw => ?_
      refine ih (sizeOf v) (by rw [← hn]; exact step_size a s v hv) v w (fun path g f e => hd (s :: path) g f (by simp only [Val.at]; rw [hv]; exact e)) (fun path => ?_) rfl
      have := h (s :: path)
      simp only [Val.at] at this
      rw [hv, hw] at this
      exact this

theorem bshape_self : ∀ s : List ℕ, bshape s s = some s
  | [] => rfl
  | a :: s => by simp only [bshape]; rw [bshape_self s]; simp

theorem bidx_self : ∀ (s i : List ℕ), i ∈ indices s → bidx s i = i
  | [], i, h => by simp only [indices, List.mem_singleton] at h; rw [h]; rfl
  | a :: s, i, h => by
    simp only [indices, List.mem_flatMap, List.mem_range, List.mem_map] at h
    obtain ⟨j, hj, l, hl, rfl⟩ := h
    simp only [bidx]
    rw [bidx_self s l hl]
    by_cases ha : a = 1
    · rw [if_pos ha]
      have : j = 0 := by omega
      rw [this]
    · rw [if_neg ha]

theorem mem_indices (s i : List ℕ) : i ∈ indices s ↔ List.Forall₂ (· < ·) i s := by
  induction s generalizing i with
  | nil => simp [indices]
  | cons a s ih =>
    simp only [indices, List.mem_flatMap, List.mem_range, List.mem_map]
    constructor
    · rintro ⟨j, hj, l, hl, rfl⟩
      exact List.Forall₂.cons hj ((ih l).mp hl)
    · intro h
      cases h with
      | cons h1 h2 => exact ⟨_, h1, _, (ih _).mpr h2, rfl⟩

theorem indices_nil (s : List ℕ) : indices s = [] ↔ 0 ∈ s := by
  induction s with
  | nil => simp [indices]
  | cons a s ih =>
    simp only [indices, List.flatMap_eq_nil_iff, List.mem_range, List.map_eq_nil_iff, List.mem_cons]
    rw [← ih]
    constructor
    · intro h
      rcases Nat.eq_zero_or_pos a with h0 | h0
      · exact Or.inl h0.symm
      · exact Or.inr (h 0 h0)
    · rintro (h | h) i hi
      · omega
      · exact h

/-- arrays of one shape pass exactly if they have elements and all of them are close -/
theorem C148_arrays (T : Tests α μ ω) (p : ℚ) (a b : Arr α) (h : a.shape = b.shape) :
    arraysClose T p a b = true ↔ 0 ∉ a.shape ∧ ∀ i, List.Forall₂ (· < ·) i a.shape → T.lt p (a.el i) (b.el i) = true := by
  unfold arraysClose
  rw [← h, bshape_self]
  simp only [Bool.and_eq_true, Bool.not_eq_true', List.isEmpty_eq_false_iff, ne_eq, List.all_eq_true]
  rw [indices_nil]
  refine and_congr_right fun _ => forall_congr' fun i => ?_
  rw [mem_indices]
  refine imp_congr_right fun hi => ?_
  rw [bidx_self _ _ ((mem_indices _ _).mpr hi)]

/-- what passes against itself -/
def SelfOk (T : Tests α μ ω) (p : ℚ) : Leaf α μ ω → Prop
  | .gf g => T.mesh g.mesh g.mesh = true ∧ 0 ∉ g.data.shape ∧ ∀ i, List.Forall₂ (· < ·) i g.data.shape → T.lt p (g.data.el i) (g.data.el i) = true
  | .block _ l => ∀ q ∈ l, T.mesh q.2.mesh q.2.mesh = true ∧ 0 ∉ q.2.data.shape ∧
      ∀ i, List.Forall₂ (· < ·) i q.2.data.shape → T.lt p (q.2.data.el i) (q.2.data.el i) = true
  | .op o => T.zeroDiff o o = true
  | .arr a => 0 ∉ a.shape ∧ ∀ i, List.Forall₂ (· < ·) i a.shape → T.lt (1 / 1000000) (a.el i) (a.el i) = true
  | .num _ x => T.lt (1 / 10000000000) x x = true
  | .bool _ => True
  | .str _ => True
  | .other _ => False

theorem zip_self_all {β : Type} (l : List β) (P : β × β → Bool) : (l.zip l).all P = true ↔ ∀ q ∈ l, P (q, q) = true := by
  induction l with
  | nil => simp
  | cons a l ih => simp only [List.zip_cons_cons, List.all_cons, Bool.and_eq_true, ih, List.mem_cons, forall_eq_or_imp]

theorem leaf_self (T : Tests α μ ω) (p : ℚ) (x : Leaf α μ ω) : leafOk T p x x = true ↔ SelfOk T p x := by
  cases x with
  | gf g => simp only [leafOk, gfsClose, SelfOk, Bool.and_eq_true]; rw [C148_arrays T p _ _ rfl]
  | block t l =>
    simp only [leafOk, SelfOk, blocksClose, Bool.and_eq_true, beq_self_eq_true, true_and, decide_true]
    rw [zip_self_all]
    refine forall_congr' fun q => imp_congr_right fun _ => ?_
    simp only [beq_self_eq_true, Bool.true_and, gfsClose, Bool.and_eq_true]
    rw [C148_arrays T p _ _ rfl]
  | op o => rfl
  | arr a => exact C148_arrays T _ a a rfl
  | num t x => simp [leafOk, SelfOk]
  | bool b => simp [leafOk, SelfOk]
  | str s => simp [leafOk, SelfOk]
  | other t => simp [leafOk, SelfOk]

/-- an archive passes against itself exactly if it has no empty array, no value of an unsupported type, and no number that is not
close to itself (NaN or infinity) -/
theorem C148_self (T : Tests α μ ω) (p : ℚ) (a : Val α μ ω) (hd : DistinctKeys a) :
    Same T p a a ↔ ∀ path x, a.at path = some (.leaf x) → SelfOk T p x := by
  rw [C148_paths T p a a hd]
  constructor
  · intro h path x hx
    have := h path
    rw [hx] at this
    exact (leaf_self T p x).mp this
  · intro h path
    cases hv : a.at path with
    | none => trivial
    | some v =>
      cases v with
      | dict g f => exact ⟨rfl, rfl⟩
      | seq t l => exact ⟨rfl, rfl⟩
      | leaf x => exact (leaf_self T p x).mpr (h path x hv)

theorem bshape_comm : ∀ s t : List ℕ, bshape s t = bshape t s
  | [], [] => rfl
  | [], _ :: _ => rfl
  | _ :: _, [] => rfl
  | a :: s, b :: t => by
    simp only [bshape]
    rw [bshape_comm s t]
    cases bshape t s with
    | none => rfl
    | some r =>
      simp only
      by_cases h1 : a = b
      · subst h1; rfl
      · rw [if_neg h1, if_neg (Ne.symm h1)]
        by_cases h2 : a = 1
        · rw [if_pos h2]
          by_cases h3 : b = 1
          · exact absurd (h2.trans h3.symm) h1
          · rw [if_neg h3, if_pos h2]
        · rw [if_neg h2]
          by_cases h3 : b = 1
          · rw [if_pos h3, if_pos h3]
          · rw [if_neg h3, if_neg h3, if_neg h2]

theorem arrays_symm (T : Tests α μ ω) (hl : ∀ p x y, T.lt p x y = T.lt p y x) (p : ℚ) (a b : Arr α) : arraysClose T p a b = arraysClose T p b a := by
  unfold arraysClose
  rw [bshape_comm]
  cases bshape b.shape a.shape with
  | none => rfl
  | some r =>
    simp only
    congr 2
    funext i
    rw [hl]

theorem blocks_symm (T : Tests α μ ω) (hl : ∀ p x y, T.lt p x y = T.lt p y x) (hm : ∀ x y, T.mesh x y = T.mesh y x) (p : ℚ)
    (a b : List (String × Gf α μ)) : blocksClose T p a b = blocksClose T p b a := by
  unfold blocksClose
  congr 1
  · exact decide_eq_decide.mpr eq_comm
  · induction a generalizing b with
    | nil => cases b <;> rfl
    | cons x a ih =>
      cases b with
      | nil => rfl
      | cons y b =>
        simp only [List.zip_cons_cons, List.all_cons]
        rw [ih b]
        congr 1
        unfold gfsClose
        rw [hm, arrays_symm T hl]
        congr 1
        exact Bool.beq_comm

theorem leaf_symm (T : Tests α μ ω) (hl : ∀ p x y, T.lt p x y = T.lt p y x) (hm : ∀ x y, T.mesh x y = T.mesh y x)
    (ho : ∀ x y, T.zeroDiff x y = T.zeroDiff y x) (p : ℚ) (x y : Leaf α μ ω) : leafOk T p x y = leafOk T p y x := by
  cases x <;> cases y <;> simp only [leafOk]
  · unfold gfsClose; rw [hm, arrays_symm T hl]
  · rw [blocks_symm T hl hm]; congr 1; exact Bool.beq_comm
  · exact ho _ _
  · exact arrays_symm T hl _ _ _
  · rw [hl]; congr 1; exact Bool.beq_comm
  · exact Bool.beq_comm
  · exact Bool.beq_comm

/-- the order of the two archives does not matter for the verdict -/
theorem C148_symm (T : Tests α μ ω) (hl : ∀ p x y, T.lt p x y = T.lt p y x) (hm : ∀ x y, T.mesh x y = T.mesh y x)
    (ho : ∀ x y, T.zeroDiff x y = T.zeroDiff y x) (p : ℚ) (a b : Val α μ ω) (ha : DistinctKeys a) (hb : DistinctKeys b) :
    Same T p a b ↔ Same T p b a := by
  rw [C148_paths T p a b ha, C148_paths T p b a hb]
  refine forall_congr' fun path => ?_
  cases a.at path with
  | none => cases b.at path <;> exact Iff.rfl
  | some v =>
    cases b.at path with
    | none => exact Iff.rfl
    | some w =>
      simp only [HeadAt]
      cases v <;> cases w <;> simp only [Head]
      · exact and_congr eq_comm eq_comm
      · exact and_congr eq_comm eq_comm
      · rw [leaf_symm T hl hm ho]

/-- arrays outside Green functions, and numbers, are always compared with the fixed precisions: without Green functions the
argument `precision` has no effect -/
theorem C148_precision (T : Tests α μ ω) (p q : ℚ) (a b : Val α μ ω) (ha : DistinctKeys a)
    (hg : ∀ path x, a.at path = some (.leaf x) → (∀ g, x ≠ .gf g) ∧ ∀ t l, x ≠ .block t l) : Same T p a b ↔ Same T q a b := by
  rw [C148_paths T p a b ha, C148_paths T q a b ha]
  refine forall_congr' fun path => ?_
  have := hg path
  cases hv : a.at path with
  | none => cases b.at path <;> exact Iff.rfl
  | some v =>
    rw [hv] at this
    cases b.at path with
    | none => exact Iff.rfl
    | some w =>
      simp only [HeadAt]
      cases v with
      | dict g f => cases w <;> exact Iff.rfl
      | seq t l => cases w <;> exact Iff.rfl
      | leaf x =>
        cases w with
        | dict g f => exact Iff.rfl
        | seq t l => exact Iff.rfl
        | leaf y =>
          obtain ⟨h1, h2⟩ := this x rfl
          simp only [Head]
          cases x with
          | gf g => exact absurd rfl (h1 g)
          | block t l => exact absurd rfl (h2 t l)
          | _ => cases y <;> exact Iff.rfl

theorem then_pos (a b : Res) (ha : a.2 = true → 0 < a.1) (hb : b.2 = true → 0 < b.1) : (Res.then a b).2 = true → 0 < (Res.then a b).1 := by
  unfold Res.then
  split
  · exact ha
  · intro h; have := hb h; simp only; omega

mutual
theorem raised (T : Tests α μ ω) (p : ℚ) : ∀ a b : Val α μ ω, (compare T p a b).2 = true → 0 < (compare T p a b).1
  | .dict g f, .dict g' f' => by
    simp only [compare]
    split
    · unfold Res.then
      simp only [Bool.false_eq_true, if_false]
      intro h
      rcases raisedFields T p f f' h with h1 | ⟨k, hk, hk'⟩
      · omega
      · rw [if_neg fun e : f.keys = f'.keys => hk' (by rw [← e]; exact hk)]
        omega
    · simp
  | .dict g f, .seq t l => by simp [compare]
  | .dict g f, .leaf x => by simp [compare]
  | .seq t l, .seq t' l' => by
    simp only [compare]
    split
    · exact raisedVals T p l l'
    · simp
  | .seq t l, .dict g f => by simp [compare]
  | .seq t l, .leaf x => by simp [compare]
  | .leaf x, .leaf y => by simp [compare]
  | .leaf x, .dict g f => by simp [compare]
  | .leaf x, .seq t l => by simp [compare]
theorem raisedFields (T : Tests α μ ω) (p : ℚ) : ∀ f f' : Fields α μ ω, (compareFields T p f f').2 = true →
    0 < (compareFields T p f f').1 ∨ ∃ k, k ∈ f.keys ∧ k ∉ f'.keys
  | .nil, f' => by simp [compareFields]
  | .cons k v l, f' => by
    simp only [compareFields, Fields.keys, List.mem_cons]
    cases h : f'.get k with
    | none => intro _; exact Or.inr ⟨k, Or.inl rfl, (get_none f' k).mp h⟩
    | some w =>
      simp only
      unfold Res.then
      split
      · rename_i hr; intro _; exact Or.inl (raised T p v w hr)
      · intro hr
        rcases raisedFields T p l f' hr with h1 | ⟨k', hk, hk'⟩
        · left; simp only; omega
        · exact Or.inr ⟨k', Or.inr hk, hk'⟩
theorem raisedVals (T : Tests α μ ω) (p : ℚ) : ∀ l m : Vals α μ ω, (compareVals T p l m).2 = true → 0 < (compareVals T p l m).1
  | .nil, m => by simp [compareVals]
  | .cons v l, .nil => by simp [compareVals]
  | .cons v l, .cons w m => by
    simp only [compareVals]
    exact then_pos _ _ (raised T p v w) (raisedVals T p l m)
end

theorem calls_dirty (T : Tests α μ ω) (p : ℚ) (n : ℕ) (hn : 0 < n) (l : List (Val α μ ω × Val α μ ω)) : ∀ o ∈ calls T p n l, o ≠ .passed := by
  induction l generalizing n with
  | nil => simp [calls]
  | cons q l ih =>
    obtain ⟨a, b⟩ := q
    simp only [calls, List.mem_cons, forall_eq_or_imp]
    constructor
    · unfold h5diff
      simp only
      split
      · simp
      · rw [if_neg (by omega)]; simp
    · exact ih _ (by unfold h5diff; simp only; omega)

/-- in one process, a call passes exactly if its archives and **those of all calls before it** agree: the list of failures is never
emptied -/
theorem C148_calls (T : Tests α μ ω) (p : ℚ) (l : List (Val α μ ω × Val α μ ω)) (k : ℕ) :
    (calls T p 0 l)[k]? = some .passed ↔ k < l.length ∧ ∀ q ∈ l.take (k + 1), Same T p q.1 q.2 := by
  induction l generalizing k with
  | nil => simp [calls]
  | cons q l ih =>
    obtain ⟨a, b⟩ := q
    have hone : (h5diff T p 0 a b).2 = .passed ↔ Same T p a b := by
      unfold h5diff Same
      rcases hc : compare T p a b with ⟨n, r⟩
      cases r <;> simp
    have hfst : Same T p a b → (h5diff T p 0 a b).1 = 0 := by
      intro h
      unfold h5diff
      rw [h]
      rfl
    by_cases hs : Same T p a b
    · cases k with
      | zero => simp [calls, hone, hs]
      | succ k =>
        simp only [calls, List.getElem?_cons_succ, List.take_succ_cons, List.mem_cons, forall_eq_or_imp, List.length_cons]
        rw [hfst hs, ih k]
        simp only [Nat.add_lt_add_iff_right, hs, true_and]
    · have hpos : 0 < (h5diff T p 0 a b).1 := by
        unfold h5diff
        simp only
        rcases hc : compare T p a b with ⟨n, r⟩
        cases r with
        | true =>
          have := raised T p a b (by rw [hc])
          rw [hc] at this
          simpa using this
        | false =>
          rcases Nat.eq_zero_or_pos n with h0 | h0
          · exact absurd (by unfold Same; rw [hc, h0]) hs
          · simpa using h0
      constructor
      · intro h
        exfalso
        cases k with
        | zero => simp only [calls, List.getElem?_cons_zero, Option.some.injEq] at h; exact hs (hone.mp h)
        | succ k =>
          simp only [calls, List.getElem?_cons_succ] at h
          exact calls_dirty T p _ hpos l _ (List.mem_of_getElem? h) rfl
      · rintro ⟨_, h⟩
        exact absurd (h (a, b) (by simp)) hs

/-! ### Examples -/

/-- integers as numbers: `abs(x - y) < p` -/
def exT : Tests ℚ ℕ ℕ := ⟨fun p x y => decide (|x - y| < p), fun a b => a == b, fun a b => a == b⟩

def arr1 (l : List ℚ) : Arr ℚ := ⟨[l.length], fun i => l.getD (i.getD 0 0) 0⟩

def exV (l : List ℚ) : Val ℚ ℕ ℕ := .dict true (.cons "a" (.leaf (.arr (arr1 l))) (.cons "n" (.leaf (.num .int 3)) .nil))

example : compare exT 1 (exV [1, 2]) (exV [1, 2]) = (0, false) := by decide +kernel

/-- one different number is one message, whatever the precision asked for -/
example : compare exT 10 (exV [1, 2]) (exV [1, 3]) = (1, false) := by decide +kernel

/-- an empty array differs from itself -/
theorem C148_empty : compare exT 1 (exV []) (exV []) = (1, false) := by decide +kernel

/-- arrays of different shapes pass if they agree after broadcasting: one number and three copies of it -/
theorem C148_broadcast : compare exT 1 (exV [5]) (exV [5, 5, 5]) = (0, false) := by decide +kernel

/-- a key that only the first archive has raises `KeyError`, one that only the second has is reported -/
example : compare exT 1 (exV [1]) (.dict true (.cons "a" (.leaf (.arr (arr1 [1]))) .nil)) = (1, true) ∧
    compare exT 1 (.dict true (.cons "a" (.leaf (.arr (arr1 [1]))) .nil)) (exV [1]) = (1, false) := by decide +kernel

/-- the second call compares equal archives and fails -/
theorem C148_second_call : calls exT 1 0 [(exV [1], exV [2]), (exV [1], exV [1])] = [.failed, .failed] := by decide +kernel

end Verif.H5Diff
