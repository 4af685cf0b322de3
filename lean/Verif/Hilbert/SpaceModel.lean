import Verif.Hilbert.FopsModel

/-!
# Model of `hilbert_space` and `sub_hilbert_space`

Source: `/repo/c++/triqs/hilbert_space/hilbert_space.hpp`. A Fock state is a 64-bit word
(`fock_state_t`, line 33).
-/

namespace Verif.HSpace

/-- `class hilbert_space`: the `int dim` member, hilbert_space.hpp:39-40. -/
structure Full where
  dim : Int
deriving DecidableEq, Repr

/-- constructor, hilbert_space.hpp:50: `1ull << n` narrowed to `int`; `none` for `n ≥ 64`,
where the shift is undefined. -/
def Full.ofOrbitals (n : Nat) : Option Full :=
  if n < 64 then some ⟨Verif.Fops.toInt32 (2 ^ n)⟩ else none

/-- `dim` converted to `uint64_t` in the comparisons `f < dim`, `f >= dim`. -/
def Full.udim (h : Full) : Nat := (h.dim % 2 ^ 64).toNat

/-- `has_state`, hilbert_space.hpp:80. -/
def Full.hasState (h : Full) (f : BitVec 64) : Bool := f.toNat < h.udim

/-- `get_state_index`, hilbert_space.hpp:87-90 (the result is an `int`); `none` when it throws. -/
def Full.stateIndex (h : Full) (f : BitVec 64) : Option Int :=
  if f.toNat ≥ h.udim then none else some (Verif.Fops.toInt32 f.toNat)

/-- `get_fock_state(int)`, hilbert_space.hpp:97-100 (signed comparison, then conversion of the
`int` to `uint64_t`); `none` when it throws. -/
def Full.fockState (h : Full) (i : Int) : Option (BitVec 64) :=
  if i ≥ h.dim then none else some (BitVec.ofInt 64 i)

/-- `1 << p` with an `int` left operand (C++20), widened to 64 bits; `none` for `p ≥ 32` (undefined). -/
def intShift (p : Nat) : Option (BitVec 64) :=
  if p < 32 then some (BitVec.ofInt 64 (Verif.Fops.toInt32 (2 ^ p))) else none

/-- `get_fock_state(fops, set)`, hilbert_space.hpp:108-112; `none` when a label is unknown. -/
def fockStateOf {ι : Type} [DecidableEq ι] (f : Verif.Fops.Fops ι) : List ι → BitVec 64 → Option (BitVec 64)
  | [], acc => some acc
  | t :: ts, acc => match Verif.Fops.position f t with
    | none => none
    | some p => match intShift p with
      | none => none
      | some w => fockStateOf f ts (acc + w)

/-! ### `sub_hilbert_space` -/

/-- `fock_states` and `fock_to_index` (the flat map as an association list); the member `index` is
a passive tag. -/
structure Sub where
  states : List (BitVec 64)
  map : List (BitVec 64 × Nat)
deriving DecidableEq, Repr

def Sub.empty : Sub := ⟨[], []⟩

def lookup (f : BitVec 64) : List (BitVec 64 × Nat) → Option Nat
  | [] => none
  | e :: es => if e.1 = f then some e.2 else lookup f es

/-- `flat_map::insert`: keeps an existing entry. -/
def mapInsert (m : List (BitVec 64 × Nat)) (f : BitVec 64) (i : Nat) : List (BitVec 64 × Nat) :=
  match lookup f m with
  | some _ => m
  | none => m ++ [(f, i)]

/-- `add_fock_state`, hilbert_space.hpp:174-178. -/
def Sub.add (s : Sub) (f : BitVec 64) : Sub := ⟨s.states ++ [f], mapInsert s.map f s.states.length⟩

/-- `get_state_index`, hilbert_space.hpp:211; `none` stands for dereferencing `end()` (undefined). -/
def Sub.stateIndex (s : Sub) (f : BitVec 64) : Option Nat := lookup f s.map

/-- `has_state`, hilbert_space.hpp:218. -/
def Sub.hasState (s : Sub) (f : BitVec 64) : Bool := (lookup f s.map).isSome

/-- `get_fock_state`, hilbert_space.hpp:225; `none` for an out-of-range index (undefined). -/
def Sub.fockState (s : Sub) (i : Nat) : Option (BitVec 64) := s.states[i]?

/-- `h5_read`, hilbert_space.hpp:282-289: the map is rebuilt with `fock_to_index.size()` as index. -/
def Sub.ofArchive (states : List (BitVec 64)) : Sub :=
  ⟨states, states.foldl (fun m f => mapInsert m f m.length) []⟩

end Verif.HSpace
