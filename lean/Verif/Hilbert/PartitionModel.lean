import Mathlib.Data.List.Basic

/-!
# Model of the automatic partition of a Hilbert space

Source: `/repo/c++/triqs/hilbert_space/space_partition.hpp`. Basis states are numbered `0..size-1`
(`uint32_t` in the code; sizes beyond `2^32` are outside the model). An operator is given by its action on
basis states: `op i` lists the pairs (final state, amplitude) that `foreach` visits on `op(|i⟩)`. Amplitudes
are exact, `is_zero` is equality with 0.

`boost::disjoint_sets_with_storage` is external and idealised: a partition is the list of the
representatives of all elements, and which of the two representatives survives `link` (decided by ranks in
boost) is an arbitrary function `w` of the state. All theorems hold for every `w`.
-/

namespace Verif.Partition

abbrev UF := List Nat

/-- `find_set`. -/
def find (u : UF) (i : Nat) : Nat := u.getD i i

/-- `link`: boost takes the representatives of the arguments first. -/
def link (w : UF → Nat → Nat → Bool) (u : UF) (x y : Nat) : UF :=
  if find u x = find u y then u
  else if w u (find u x) (find u y) then u.map (fun r => if r = find u y then find u x else r)
  else u.map (fun r => if r = find u x then find u y else r)

/-- action on basis states -/
abbrev Op (K : Type) := Nat → List (Nat × K)

/-- `matrix_element_map_t` (`std::map`), an association list with one entry per key. -/
abbrev Elems (K : Type) := List ((Nat × Nat) × K)

variable {K : Type} [DecidableEq K] [Zero K]

/-- `m[k] = v` -/
def setElem (m : Elems K) (k : Nat × Nat) (v : K) : Elems K := (k, v) :: m.filter (fun e => e.1 ≠ k)

def getEl (m : Elems K) (k : Nat × Nat) : Option K := (m.find? (fun e => e.1 = k)).map (·.2)

/-- the lambda `mapping` of the constructor, space_partition.hpp:76-84. -/
def mapping (w : UF → Nat → Nat → Bool) (store : Bool) (i : Nat) (s : UF × Elems K) (fa : Nat × K) : UF × Elems K :=
  if fa.2 = 0 then s
  else (if find s.1 i ≠ find s.1 fa.1 then link w s.1 (find s.1 i) (find s.1 fa.1) else s.1,
        if store then setElem s.2 (i, fa.1) fa.2 else s.2)

/-- body of the loop over basis states, space_partition.hpp:72-98. `Hyb = none`: empty operator. -/
def ctorStep (w : UF → Nat → Nat → Bool) (store : Bool) (H : Op K) (Hyb : Option (Op K)) (s : UF × Elems K) (i : Nat) : UF × Elems K :=
  let s1 := (H i).foldl (mapping w store i) s
  match Hyb with
  | none => s1
  | some Y => (Y i).foldl (mapping w store i) s1

/-- constructor, space_partition.hpp:67-101. -/
def ctor (w : UF → Nat → Nat → Bool) (size : Nat) (H : Op K) (store : Bool) (Hyb : Option (Op K)) : UF × Elems K :=
  (List.range size).foldl (ctorStep w store H Hyb) (List.range size, [])

/-- `_update_index`, space_partition.hpp:256-266: `representative_to_index`, as the list of representatives
in the order of their numbers. Compression and normalisation of the disjoint sets rename representatives
inside a set only and are left out. -/
def updateIndex (u : UF) (size : Nat) : List Nat :=
  (List.range size).foldl (fun m n => if find u n ∈ m then m else m ++ [find u n]) []

/-- `n_subspaces`, space_partition.hpp:195. -/
def nSubspaces (u : UF) (size : Nat) : Nat := (updateIndex u size).length

/-- `lookup_basis_state`, space_partition.hpp:215. -/
def lookup (u : UF) (size : Nat) (i : Nat) : Nat := (updateIndex u size).idxOf (find u i)

/-- multimap `insert`: after all elements with a key that is not larger. -/
def insertMM (e : Nat × Nat) : List (Nat × Nat) → List (Nat × Nat)
  | [] => [e]
  | x :: l => if x.1 ≤ e.1 then x :: insertMM e l else e :: x :: l

/-- multimap `find` followed by `erase` of the element found. -/
def takeKey (k : Nat) : List (Nat × Nat) → Option (Nat × List (Nat × Nat))
  | [] => none
  | x :: l => if x.1 = k then some (x.2, l) else (takeKey k l).map (fun r => (r.1, x :: r.2))

/-- `fill_conn`, space_partition.hpp:129-141, connections part. -/
def fillOne (u : UF) (i : Nat) (conn : List (Nat × Nat)) (fa : Nat × K) : List (Nat × Nat) :=
  if fa.2 = 0 then conn else insertMM (find u i, find u fa.1) conn

/-- connections of an operator, space_partition.hpp:124-147. -/
def fillConn (u : UF) (size : Nat) (op : Op K) : List (Nat × Nat) :=
  (List.range size).foldl (fun conn i => (op i).foldl (fillOne u i) conn) []

/-- `fill_conn`, stored matrix elements. -/
def storeOne (i : Nat) (m : Elems K) (fa : Nat × K) : Elems K := if fa.2 = 0 then m else setElem m (i, fa.1) fa.2

/-- matrix elements of an operator, space_partition.hpp:138. -/
def storeElems (size : Nat) (op : Op K) : Elems K :=
  (List.range size).foldl (fun m i => (op i).foldl (storeOne i) m) []

/-- state of the traversal -/
structure Zig where
  uf : UF
  cd : List (Nat × Nat)
  c : List (Nat × Nat)

def Zig.edges (z : Zig) (up : Bool) : List (Nat × Nat) := if up then z.cd else z.c
def Zig.setEdges (z : Zig) (up : Bool) (l : List (Nat × Nat)) : Zig := if up then { z with cd := l } else { z with c := l }

/-- the update of one visited connection, space_partition.hpp:169-175. -/
def zigLink (w : UF → Nat → Nat → Bool) (lower upper : Nat) (z : Zig) (up : Bool) (f : Nat) (rest : List (Nat × Nat)) : Zig :=
  { z.setEdges up rest with uf := link w z.uf f (if up then upper else lower) }

/-- `zigzag_traversal`, space_partition.hpp:162-180. The first argument bounds the recursion; every step
erases a connection, so that the number of connections plus one is enough. -/
def zig (w : UF → Nat → Nat → Bool) (lower upper : Nat) : Nat → Zig → Nat → Bool → Zig
  | 0, z, _, _ => z
  | fuel + 1, z, i, up => match takeKey i (z.edges up) with
    | none => z
    | some (f, rest) => zig w lower upper fuel (zig w lower upper fuel (zigLink w lower upper z up f rest) f (!up)) i up

/-- the outer loop, space_partition.hpp:150-184. The first argument bounds the number of iterations. -/
def zigLoop (w : UF → Nat → Nat → Bool) : Nat → Zig → Zig
  | 0, z => z
  | n + 1, z => match z.cd with
    | [] => z
    | (lower, upper) :: _ => zigLoop w n (zig w lower upper (z.cd.length + z.c.length + 1) z lower true)

/-- `merge_subspaces`, space_partition.hpp:116-189: the new partition (the matrix elements are `storeElems`). -/
def merge (w : UF → Nat → Nat → Bool) (u : UF) (size : Nat) (Cd C : Op K) : UF :=
  let cd := fillConn u size Cd
  (zigLoop w cd.length ⟨u, cd, fillConn u size C⟩).uf

/-- one visited amplitude in `find_mappings`, space_partition.hpp:242-248; the set is a list. -/
def mapOne (u : UF) (size : Nat) (diag : Bool) (i : Nat) (m : List (Nat × Nat)) (fa : Nat × K) : List (Nat × Nat) :=
  if fa.2 = 0 then m
  else if (!diag) || find u i == find u fa.1 then
    (let e := ((updateIndex u size).idxOf (find u i), (updateIndex u size).idxOf (find u fa.1)); if e ∈ m then m else m ++ [e])
  else m

/-- `find_mappings`, space_partition.hpp:229-253. -/
def findMappings (u : UF) (size : Nat) (op : Op K) (diag : Bool) : List (Nat × Nat) :=
  (List.range size).foldl (fun m i => (op i).foldl (mapOne u size diag i) m) []

end Verif.Partition
