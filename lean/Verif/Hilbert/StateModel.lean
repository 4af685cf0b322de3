import Mathlib.Algebra.Field.Defs
import Mathlib.Algebra.Star.Basic
import Verif.Hilbert.SpaceModel

/-!
# Model of the many-body `state` classes

Source: `/repo/c++/triqs/hilbert_space/state.hpp`. Amplitudes are elements of an exact field with
conjugation; `is_zero(x)` is `x = 0`.
-/

namespace Verif.State

variable {R : Type} [Field R] [DecidableEq R]

/-! ### map-based state, state.hpp:74-224 -/

/-- `std::unordered_map<fock_state_t, ScalarType> ampli`, state.hpp:80-81, as an association list;
the iteration order of the container is not modelled beyond being some fixed order. -/
abbrev Sparse (R : Type) := List (Nat × R)

namespace Sparse

/-- value stored at `i`, `0` when there is no entry -/
def get (s : Sparse R) (i : Nat) : R :=
  match s.find? (fun e => e.1 == i) with
  | some e => e.2
  | none => 0

def has (s : Sparse R) (i : Nat) : Bool := s.any (fun e => e.1 == i)

/-- `operator()(i)` (non const), state.hpp:116: a default entry is inserted when there is none. -/
def touch (s : Sparse R) (i : Nat) : Sparse R := if has s i then s else s ++ [(i, 0)]

/-- `st(i) = v` -/
def set (s : Sparse R) (i : Nat) (v : R) : Sparse R :=
  (touch s i).map (fun e => if e.1 = i then (e.1, v) else e)

/-- constructor from a basis state, state.hpp:104. -/
def basis (i : Nat) : Sparse R := set [] i 1

/-- `prune`, state.hpp:215-223. -/
def prune (s : Sparse R) : Sparse R := s.filter (fun e => decide (e.2 ≠ 0))

/-- one step of the loops of `+=` and `-=`: `ampli.insert({k, v})`, and when the key was present
`r.first->second += v`. -/
def insertAdd (s : Sparse R) (k : Nat) (v : R) : Sparse R :=
  if has s k then s.map (fun e => if e.1 = k then (e.1, e.2 + v) else e) else s ++ [(k, v)]

/-- `operator+=`, state.hpp:130-137. -/
def add (s s2 : Sparse R) : Sparse R := prune (s2.foldl (fun s e => insertAdd s e.1 e.2) s)

/-- one step of `-=`, state.hpp:145-148. -/
def insertSub (s : Sparse R) (k : Nat) (v : R) : Sparse R :=
  if has s k then s.map (fun e => if e.1 = k then (e.1, e.2 - v) else e) else s ++ [(k, -v)]

/-- `operator-=`, state.hpp:144-151. -/
def sub (s s2 : Sparse R) : Sparse R := prune (s2.foldl (fun s e => insertSub s e.1 e.2) s)

/-- `operator*=`, state.hpp:158-162. -/
def scale (s : Sparse R) (x : R) : Sparse R := prune (s.map (fun e => (e.1, e.2 * x)))

/-- `operator/=`, state.hpp:169. -/
def div (s : Sparse R) (x : R) : Sparse R := scale s (1 / x)

/-- `dot_product`, state.hpp:177-184. -/
def dot [StarRing R] (s1 s2 : Sparse R) : R :=
  s1.foldl (fun res a => if has s2 a.1 then res + star a.2 * get s2 a.1 else res) 0

/-- the calls made by `foreach`, state.hpp:194-197. -/
def visits (s : Sparse R) : List (Nat × R) := prune s

end Sparse

/-! ### vector-based state, state.hpp:227-364 -/

abbrev Dense (R : Type) := List R

namespace Dense

/-- constructor, state.hpp:256. -/
def zero (n : Nat) : Dense R := List.replicate n 0

/-- `operator()(i)`; `none` out of range (undefined). -/
def get (s : Dense R) (i : Nat) : Option R := s[i]?

def set (s : Dense R) (i : Nat) (v : R) : Option (Dense R) := if i < s.length then some (List.set s i v) else none

/-- state.hpp:259. -/
def basis (n i : Nat) : Option (Dense R) := set (zero n) i 1

/-- `operator+=`, state.hpp:284-287 (element-wise; the sizes must agree). -/
def add (s s2 : Dense R) : Option (Dense R) :=
  if s.length = s2.length then some (List.zipWith (· + ·) s s2) else none

/-- `operator-=`, state.hpp:294-297. -/
def sub (s s2 : Dense R) : Option (Dense R) :=
  if s.length = s2.length then some (List.zipWith (· - ·) s s2) else none

/-- `operator*=`, state.hpp:304-307. -/
def scale (s : Dense R) (x : R) : Dense R := s.map (· * x)

/-- `operator/=`, state.hpp:314-317. -/
def div (s : Dense R) (x : R) : Dense R := s.map (· / x)

/-- `dot_product` through `blas::dotc`, state.hpp:324: first argument conjugated. -/
def dot [StarRing R] (s1 s2 : Dense R) : Option R :=
  if s1.length = s2.length then some ((List.zipWith (fun a b => star a * b) s1 s2).foldl (· + ·) 0) else none

/-- the calls made by `foreach`, state.hpp:334-337. -/
def visits (s : Dense R) : List (Nat × R) := s.zipIdx.map (fun e => (e.2, e.1))

end Dense

/-! ### `project`, state.hpp:387-404 -/

/-- the lambda of `project` onto a sub-space, state.hpp:399-402: index `e.1` of the full space is
its Fock state. -/
def projectStep (target : HSpace.Sub) (t : Sparse R) (e : Nat × R) : Sparse R :=
  match target.stateIndex (BitVec.ofNat 64 e.1) with
  | some j => Sparse.set t j e.2
  | none => t

/-- `project` onto a sub-space, state.hpp:396-404, applied to the visited amplitudes of the
source state in a full space; the target is a map-based state. -/
def projectSub (vis : List (Nat × R)) (target : HSpace.Sub) : Sparse R :=
  vis.foldl (projectStep target) []

end Verif.State
