import Mathlib.Data.List.Nodup
import Mathlib.Data.List.Range
import Mathlib.Data.List.Flatten
import Std.Data.String.ToNat
import Mathlib.Tactic.Ring
import Mathlib.Tactic.Linarith

/-!
# Block Green's functions: assignment of expressions, iteration, construction and archives

Source: `/repo/c++/triqs/gfs/block/block_gf.hpp`, `block_gf_view.hpp`, `_block_gf_view_common.hpp`, `expr.hpp`, `factories.hpp`,
`map.hpp`, `auto_assign.hpp`, `mpi.hpp` (all in the same directory).

The blocks are Green's functions of an abstract type `G` (modelled in `Verif.Gfs.GfCore`), kept at addresses: a `block_gf` owns its
blocks, a `block_gf_view` refers to those of others. Access to a block that does not exist is undefined behaviour.

Simplifications: unbounded integers; the assignment of one block is taken as a whole (`Verif.GfCore.C99_assign` covers what happens
inside of a block); storages are not freed when a `block_gf` shrinks (nothing refers to them in the theorems); names are lists of
characters; an archive is a map from names to contents in which writing to an existing name replaces the contents (`h5::group`
unlinks an existing object first).
-/

namespace Verif.BlockGf

/-! ## Model -/

/-- outcome of a statement -/
inductive Out (α : Type)
  | ok (x : α)
  /-- exception, with what has been done before -/
  | exn (x : α)
  | undef

abbrev Name := List Char

/-- `data_t`: addresses of the blocks, for arity one or two -/
inductive Data
  | one (l : List ℕ)
  | two (l : List (List ℕ))
deriving DecidableEq

/-- `_glist[n]`, `_glist[n1][n2]`; no bounds check -/
def Data.at? : Data → List ℕ → Option ℕ
  | .one l, [n] => l[n]?
  | .two l, [n, m] => (l[n]?).bind fun r => r[m]?
  | _, _ => none

/-- `size1`, _block_gf_view_common.hpp:40-44 -/
def Data.size1 : Data → ℕ
  | .one l => l.length
  | .two l => l.length

/-- `size2`, _block_gf_view_common.hpp:45-49: of the first row, which `at(0)` requires to exist (`none`: exception) -/
def Data.size2 : Data → Option ℕ
  | .one _ => none
  | .two l => (l[0]?).map List.length

/-- `size`, _block_gf_view_common.hpp:50-56 -/
def Data.size : Data → Option ℕ
  | .one l => some l.length
  | .two l => (Data.two l).size2.map fun m => l.length * m

/-- the loops of `_assign_impl`, _block_gf_view_common.hpp:61-66 -/
def Data.keys : Data → List (List ℕ)
  | .one l => (List.range l.length).map fun n => [n]
  | .two l => (List.range l.length).flatMap fun n => (List.range (((Data.two l).size2).getD 0)).map fun m => [n, m]

/-- `block_gf`, `block_gf_view`; for arity two the names of rows and columns -/
structure Blk where
  names : List (List Name)
  data : Data
deriving DecidableEq

/-- all Green's functions and all objects -/
structure St (G : Type) where
  heap : ℕ → G
  next : ℕ
  obj : ℕ → Blk

/-- `utility::tags` -/
inductive Tag
  | plus
  | minus
  | multiplies
  | divides
deriving DecidableEq

/-- `bgf_expr`, `bgf_unary_m_expr`, expr.hpp:64-119; leaves are held by reference. A scalar acts on a block by `un`. -/
inductive Expr (G : Type)
  | leaf (i : ℕ)
  | node (t : Tag) (a b : Expr G)
  | un (f : G → G) (a : Expr G)

section
variable {G : Type}

/-- `size()` of an expression, expr.hpp:81: the larger one. A scalar has size -1. -/
def Expr.size (σ : St G) : Expr G → Option ℕ
  | .leaf i => (σ.obj i).data.size
  | .node _ a b => (a.size σ).bind fun x => (b.size σ).map fun y => max x y
  | .un _ a => a.size σ

/-- `size1()`, expr.hpp:82 -/
def Expr.size1 (σ : St G) : Expr G → ℕ
  | .leaf i => (σ.obj i).data.size1
  | .node _ a b => max (a.size1 σ) (b.size1 σ)
  | .un _ a => a.size1 σ

/-- `size2()`, expr.hpp:83 -/
def Expr.size2 (σ : St G) : Expr G → Option ℕ
  | .leaf i => (σ.obj i).data.size2
  | .node _ a b => (a.size2 σ).bind fun x => (b.size2 σ).map fun y => max x y
  | .un _ a => a.size2 σ

/-- `block_names()`, expr.hpp:85-90: of the leftmost operand -/
def Expr.names (σ : St G) : Expr G → List (List Name)
  | .leaf i => (σ.obj i).names
  | .node _ a _ => a.names σ
  | .un _ a => a.names σ

/-- `operator[]`, `operator()` of an expression at a block, expr.hpp:92-97. `op`: operation on Green's functions, which may throw. -/
def Expr.eval (op : Tag → G → G → Option G) (σ : St G) (k : List ℕ) : Expr G → Out G
  | .leaf i => match (σ.obj i).data.at? k with
    | some a => .ok (σ.heap a)
    | none => .undef
  | .node t a b => match a.eval op σ k, b.eval op σ k with
    | .ok x, .ok y => match op t x y with
      | some z => .ok z
      | none => .exn x
    | .undef, _ => .undef
    | _, .undef => .undef
    | .exn x, _ => .exn x
    | _, .exn x => .exn x
  | .un f a => match a.eval op σ k with
    | .ok x => .ok (f x)
    | o => o

/-- `_glist[w] = rhs[w]` for the remaining blocks `ks`, _block_gf_view_common.hpp:61-66 -/
def assignLoop (op : Tag → G → G → Option G) (i : ℕ) (e : Expr G) : List (List ℕ) → St G → Out (St G)
  | [], σ => .ok σ
  | k :: ks, σ => match e.eval op σ k with
    | .undef => .undef
    | .exn _ => .exn σ
    | .ok x => match (σ.obj i).data.at? k with
      | none => .undef
      | some a => assignLoop op i e ks { σ with heap := Function.update σ.heap a x }

/-- `_assign_impl`, _block_gf_view_common.hpp:59-68 -/
def assignImpl (op : Tag → G → G → Option G) (i : ℕ) (e : Expr G) (σ : St G) : Out (St G) :=
  match assignLoop op i e (σ.obj i).data.keys σ with
  | .ok σ' => .ok { σ' with obj := Function.update σ'.obj i ⟨e.names σ', (σ'.obj i).data⟩ }
  | o => o

/-- `std::vector::resize`; new elements are given by `f` -/
def vresize {α : Type} (f : ℕ → α) (n : ℕ) (l : List α) : List α := l.take n ++ (List.range (n - l.length)).map f

/-- resize of a vector of blocks: new default constructed ones -/
def resizeOne (dflt : G) (σ : St G) (n : ℕ) (l : List ℕ) : St G × List ℕ :=
  ({ σ with heap := fun a => if σ.next ≤ a ∧ a < σ.next + (n - l.length) then dflt else σ.heap a, next := σ.next + (n - l.length) },
    vresize (fun j => σ.next + j) n l)

/-- resize of all rows -/
def resizeRows (dflt : G) (m : ℕ) : List (List ℕ) → St G → St G × List (List ℕ)
  | [], σ => (σ, [])
  | r :: rs, σ =>
    let p := resizeOne dflt σ m r;
    let q := resizeRows dflt m rs p.1;
    (q.1, p.2 :: q.2)

/-- `block_gf::operator=(RHS &&)`, block_gf.hpp:272-286, for arity one -/
def assign1 (dflt : G) (op : Tag → G → G → Option G) (i : ℕ) (e : Expr G) (σ : St G) : Out (St G) :=
  match (σ.obj i).data, e.size σ with
  | .one l, some n =>
    let p := resizeOne dflt σ n l;
    assignImpl op i e { p.1 with obj := Function.update p.1.obj i ⟨(σ.obj i).names.map (vresize (fun _ => []) n), .one p.2⟩ }
  | _, none => .exn σ
  | _, _ => .undef

/-- `block_gf::operator=(RHS &&)`, block_gf.hpp:272-286, for arity two. `size1` and `size2` of the expression are evaluated again after
`_glist` has been resized. -/
def assign2 (dflt : G) (op : Tag → G → G → Option G) (i : ℕ) (e : Expr G) (σ : St G) : Out (St G) :=
  match (σ.obj i).data with
  | .one _ => .undef
  | .two l =>
    let l1 := vresize (fun _ => []) (e.size1 σ) l;
    let σ1 : St G := { σ with obj := Function.update σ.obj i ⟨vresize (fun _ => []) 2 (σ.obj i).names, .two l1⟩ };
    match e.size2 σ1 with
    | none => .exn (if l1 = [] then { σ1 with obj := Function.update σ1.obj i ⟨(σ1.obj i).names.set 0 [], .two []⟩ } else σ1)
    | some m =>
      let p := resizeRows dflt m l1 σ1;
      let σ2 : St G := { p.1 with obj := Function.update p.1.obj i ⟨(p.1.obj i).names, .two p.2⟩ };
      assignImpl op i e { σ2 with obj := Function.update σ2.obj i ⟨[vresize (fun _ => []) (e.size1 σ2) ((σ2.obj i).names.getD 0 []),
        vresize (fun _ => []) ((e.size2 σ2).getD 0) ((σ2.obj i).names.getD 1 [])], .two p.2⟩ }

/-- `block_gf_view::operator=(RHS const &)`, block_gf_view.hpp:110-126, for right hand sides that are not scalars -/
def viewAssign (op : Tag → G → G → Option G) (i : ℕ) (e : Expr G) (σ : St G) : Out (St G) :=
  match (σ.obj i).data.size, e.size σ with
  | some n, some m => if n = m then assignImpl op i e σ else .exn σ
  | _, _ => .exn σ

/-- `block_gf_view::operator=(block_gf_view const &)`, block_gf_view.hpp:100-105: the sizes are not compared -/
def viewCopy (op : Tag → G → G → Option G) (i j : ℕ) (σ : St G) : Out (St G) := assignImpl op i (.leaf j) σ

/-- `block_gf(block_names_t, data_t)`, block_gf.hpp:145-156: are the sizes accepted? (`none`: undefined) -/
def checkNames (names : List (List Name)) : Data → Option Bool
  | .one l => (names[0]?).map fun b => b.length == l.length
  | .two l => (names[0]?).bind fun b => if b.length = l.length then
      match l with
      | [] => some true
      | r :: _ => (names[1]?).map fun b' => b'.length == r.length
    else some false

/-- `make_block2_gf(names1, names2, vv)`, factories.hpp:105-115: all rows are compared -/
def checkNames2 (n1 n2 : List Name) (vv : List (List ℕ)) : Bool := n1.length == vv.length && vv.all fun v => n2.length == v.length

/-- block that iterator number `n` refers to, _block_gf_view_common.hpp:230-236 -/
def iterAt (d : Data) (n : ℕ) : Option ℕ := match d with
  | .one _ => d.at? [n]
  | .two _ => d.size2.bind fun m => d.at? [n / m, n % m]

/-- `for (auto &g : bgf)`: iterators from 0 to `size()`, _block_gf_view_common.hpp:225, 264-267 -/
def iterate (d : Data) : Option (List (Option ℕ)) := d.size.map fun n => (List.range n).map (iterAt d)

/-- `details::_make_block_names1`, block_gf.hpp:94-98; `std::to_string` gives the decimal digits -/
def makeBlockNames1 (n : ℕ) : List Name := (List.range n).map fun i => (toString i).toList

/-- contents of a group -/
inductive Node (G : Type)
  | strs (l : List Name)
  | gf (g : G)

/-- a group of an archive -/
abbrev Arch (G : Type) := Name → Option (Node G)

def Arch.write (a : Arch G) (k : Name) (x : Node G) : Arch G := fun k' => if k' = k then some x else a k'

/-- loop of `h5_write`, _block_gf_view_common.hpp:171 -/
def writeBlocks (a : Arch G) : List (Name × G) → Arch G
  | [] => a
  | p :: ps => writeBlocks (Arch.write a p.1 (.gf p.2)) ps

/-- `h5_write` of arity one, _block_gf_view_common.hpp:165-171 -/
def h5Write1 (names : List Name) (gs : List G) : Arch G := writeBlocks (Arch.write (fun _ => none) "block_names".toList (.strs names)) (names.zip gs)

/-- `h5_read` of a list of names -/
def readNames (a : Arch G) (k : Name) : Option (List Name) := match a k with
  | some (.strs l) => some l
  | _ => none

/-- `h5_read` of a Green's function; `none`: exception -/
def readGf (a : Arch G) (k : Name) : Option G := match a k with
  | some (.gf g) => some g
  | _ => none

/-- `h5_read` of arity one, _block_gf_view_common.hpp:181-194 -/
def h5Read1 (a : Arch G) : Option (List Name × List G) :=
  (readNames a "block_names".toList).bind fun names => (names.mapM (readGf a)).map fun gs => (names, gs)

/-- names of the blocks of arity two, _block_gf_view_common.hpp:176, 205 -/
def joinName (a b : Name) : Name := a ++ '_' :: b

/-- names in the order of the loops -/
def joinNames (n1 n2 : List Name) : List Name := n1.flatMap fun a => n2.map fun b => joinName a b

/-- `h5_write` of arity two, _block_gf_view_common.hpp:172-177 -/
def h5Write2 (n1 n2 : List Name) (gs : List (List G)) : Arch G :=
  writeBlocks (Arch.write (Arch.write (fun _ => none) "block_names1".toList (.strs n1)) "block_names2".toList (.strs n2))
    ((n1.zip gs).flatMap fun p => (n2.zip p.2).map fun q => (joinName p.1 q.1, q.2))

/-- `h5_read` of arity two, _block_gf_view_common.hpp:195-207 -/
def h5Read2 (a : Arch G) : Option (List Name × List Name × List (List G)) :=
  (readNames a "block_names1".toList).bind fun n1 => (readNames a "block_names2".toList).bind fun n2 =>
    (n1.mapM fun x => n2.mapM fun y => readGf a (joinName x y)).map fun gs => (n1, n2, gs)

/-- `_map` and the construction of the result in `map`, map.hpp:35-103: names are kept -/
def mapBlocks {H : Type} (f : G → H) (names : List Name) (gs : List G) : Option (List Name × List H) :=
  let res := gs.foldl (fun r x => r ++ [f x]) [];
  if res.length = names.length then some (names, res) else none

/-- `mpi_broadcast`, mpi.hpp:36-39: only the data -/
def mpiBroadcast (root : ℕ) (ranks : ℕ → List Name × List G) : ℕ → List Name × List G := fun r => ((ranks r).1, (ranks root).2)

/-! ## Specification -/

/-- indices of the objects in an expression -/
def Expr.leaves : Expr G → List ℕ
  | .leaf i => [i]
  | .node _ a b => a.leaves ++ b.leaves
  | .un _ a => a.leaves

/-- value of an expression at a block, for given values of the operands at this block; `none`: exception -/
def Expr.value (op : Tag → G → G → Option G) (v : ℕ → G) : Expr G → Option G
  | .leaf i => some (v i)
  | .node t a b => (a.value op v).bind fun x => (b.value op v).bind fun y => op t x y
  | .un f a => (a.value op v).map f

/-- the block `k` of object `j` -/
def St.blk (σ : St G) (dflt : G) (j : ℕ) (k : List ℕ) : G := (((σ.obj j).data.at? k).map σ.heap).getD dflt

/-- same structure: arity, numbers of blocks -/
def Data.Same : Data → Data → Prop
  | .one l, .one l' => l.length = l'.length
  | .two l, .two l' => l.map List.length = l'.map List.length
  | _, _ => False

/-- all rows have the same length -/
def Data.Rect : Data → Prop
  | .one _ => True
  | .two l => ∃ m, ∀ r ∈ l, r.length = m

/-! ## Proofs -/

theorem at?_isSome (d : Data) (hr : d.Rect) : ∀ k ∈ d.keys, (d.at? k).isSome := by
  intro k hk
  cases d with
  | one l =>
    simp only [Data.keys, List.mem_map, List.mem_range] at hk
    obtain ⟨n, hn, rfl⟩ := hk
    simp [Data.at?, hn]
  | two l =>
    obtain ⟨m, hm⟩ := hr
    simp only [Data.keys, List.mem_flatMap, List.mem_map, List.mem_range] at hk
    obtain ⟨n, hn, j, hj, rfl⟩ := hk
    have h0 : 0 < l.length := by omega
    have hj' : j < m := by
      simp only [Data.size2, List.getElem?_eq_getElem h0, Option.map_some, Option.getD_some] at hj
      rw [hm _ (List.getElem_mem h0)] at hj
      exact hj
    have hlen : j < l[n].length := by rw [hm _ (List.getElem_mem hn)]; exact hj'
    simp only [Data.at?, List.getElem?_eq_getElem hn, Option.bind_some, List.getElem?_eq_getElem hlen, Option.isSome_some]

theorem keys_nodup (d : Data) : d.keys.Nodup := by
  cases d with
  | one l => exact List.nodup_range.map fun a b h => by simpa using h
  | two l =>
    simp only [Data.keys]
    rw [List.nodup_flatMap]
    refine ⟨fun n _ => List.nodup_range.map fun a b h => by simpa using h, ?_⟩
    refine List.nodup_range.imp_of_mem ?_
    intro a b _ _ hab
    simp only [Function.onFun, List.disjoint_left, List.mem_map, not_exists, not_and]
    rintro x ⟨j, _, rfl⟩ j' _ h
    simp at h
    exact hab h.1.symm

theorem size_same {d d' : Data} (h : d.Same d') : d.size = d'.size ∧ d.size1 = d'.size1 ∧ d.size2 = d'.size2 ∧ d.keys = d'.keys := by
  cases d with
  | one l =>
    cases d' with
    | one l' =>
      simp only [Data.Same] at h
      simp [Data.size, Data.size1, Data.size2, Data.keys, h]
    | two => exact h.elim
  | two l =>
    cases d' with
    | one => exact h.elim
    | two l' =>
      have h1 : l.length = l'.length := by simpa using congrArg List.length h
      have h2 : (Data.two l).size2 = (Data.two l').size2 := by
        simp only [Data.size2]
        have := congrArg (fun x => x[0]?) h
        simpa using this
      refine ⟨?_, h1, h2, ?_⟩
      · simp only [Data.size, h2, h1]
      · simp only [Data.keys, h2, h1]

/-- what evaluating an expression at a block reads -/
theorem eval_value (op : Tag → G → G → Option G) (σ : St G) (dflt : G) (k : List ℕ) (e : Expr G) (h : ∀ j ∈ e.leaves, ((σ.obj j).data.at? k).isSome) :
    match e.value op (fun j => σ.blk dflt j k) with
    | some x => e.eval op σ k = .ok x
    | none => ∃ x, e.eval op σ k = .exn x := by
  induction e with
  | leaf i =>
    obtain ⟨a, ha⟩ := Option.isSome_iff_exists.mp (h i (by simp [Expr.leaves]))
    simp [Expr.value, Expr.eval, ha, St.blk]
  | un f a ih =>
    have := ih h
    rw [Expr.value, Expr.eval]
    cases hv : a.value op (fun j => σ.blk dflt j k) with
    | some x => simp only [hv] at this; simp [this]
    | none => simp only [hv] at this; obtain ⟨x, hx⟩ := this; simp [hx]
  | node t a b iha ihb =>
    have h1 := iha fun j hj => h j (by simp [Expr.leaves, hj])
    have h2 := ihb fun j hj => h j (by simp [Expr.leaves, hj])
    rw [Expr.value, Expr.eval]
    cases hva : a.value op (fun j => σ.blk dflt j k) with
    | none =>
      simp only [hva] at h1
      obtain ⟨x, hx⟩ := h1
      cases hvb : b.value op (fun j => σ.blk dflt j k) with
      | none => simp only [hvb] at h2; obtain ⟨y, hy⟩ := h2; simp [hx, hy]
      | some y => simp only [hvb] at h2; simp [hx, h2]
    | some x =>
      simp only [hva] at h1
      cases hvb : b.value op (fun j => σ.blk dflt j k) with
      | none => simp only [hvb] at h2; obtain ⟨y, hy⟩ := h2; simp [h1, hy]
      | some y =>
        simp only [hvb] at h2
        simp only [h1, h2, Option.bind_some]
        cases hop : op t x y with
        | some z => simp
        | none => simp

theorem value_congr (op : Tag → G → G → Option G) (e : Expr G) (v w : ℕ → G) (h : ∀ j ∈ e.leaves, v j = w j) : e.value op v = e.value op w := by
  induction e with
  | leaf i => simp [Expr.value, h i (by simp [Expr.leaves])]
  | un f a ih => rw [Expr.value, Expr.value, ih h]
  | node t a b iha ihb =>
    rw [Expr.value, Expr.value, iha fun j hj => h j (by simp [Expr.leaves, hj]), ihb fun j hj => h j (by simp [Expr.leaves, hj])]

/-- the target and an operand do not share blocks, or share them at the same places -/
def Apart (d d' : Data) : Prop := ∀ k k' a, d.at? k = some a → d'.at? k' = some a → k = k'

theorem assignLoop_ok (op : Tag → G → G → Option G) (dflt : G) (i : ℕ) (e : Expr G) (ks : List (List ℕ)) (σ : St G) (hnd : ks.Nodup)
    (hi : ∀ k ∈ ks, ((σ.obj i).data.at? k).isSome) (hl : ∀ j ∈ e.leaves, ∀ k ∈ ks, ((σ.obj j).data.at? k).isSome)
    (hself : Apart (σ.obj i).data (σ.obj i).data) (hap : ∀ j ∈ e.leaves, Apart (σ.obj i).data (σ.obj j).data)
    (v : List ℕ → G) (hv : ∀ k ∈ ks, e.value op (fun j => σ.blk dflt j k) = some (v k)) :
    ∃ σ', assignLoop op i e ks σ = .ok σ' ∧ σ'.obj = σ.obj ∧ σ'.next = σ.next ∧ (∀ k ∈ ks, σ'.blk dflt i k = v k) ∧
      (∀ a, (∀ k ∈ ks, (σ.obj i).data.at? k ≠ some a) → σ'.heap a = σ.heap a) := by
  induction ks generalizing σ with
  | nil => exact ⟨σ, rfl, rfl, rfl, by simp, fun _ _ => rfl⟩
  | cons k ks ih =>
    obtain ⟨a, ha⟩ := Option.isSome_iff_exists.mp (hi k (by simp))
    have he := eval_value op σ dflt k e fun j hj => hl j hj k (by simp)
    rw [hv k (by simp)] at he
    simp only at he
    rw [assignLoop, he]
    simp only [ha]
    set σ1 : St G := { σ with heap := Function.update σ.heap a (v k) } with hσ1
    have hnk : k ∉ ks := (List.nodup_cons.mp hnd).1
    obtain ⟨σ', g1, g2, g3, g4, g5⟩ := ih σ1 (List.nodup_cons.mp hnd).2 (fun k' hk' => hi k' (by simp [hk'])) (fun j hj k' hk' => hl j hj k' (by simp [hk'])) hself hap (by
      intro k' hk'
      rw [← hv k' (by simp [hk'])]
      apply value_congr
      intro j hj
      simp only [St.blk, hσ1]
      obtain ⟨b, hb⟩ := Option.isSome_iff_exists.mp (hl j hj k' (by simp [hk']))
      have hne : b ≠ a := by
        rintro rfl
        have := hap j hj k k' b ha hb
        exact hnk (this ▸ hk')
      simp [hb, Function.update_of_ne hne])
    refine ⟨σ', g1, g2, g3, ?_, ?_⟩
    · intro k' hk'
      rcases List.mem_cons.mp hk' with rfl | hk'
      · have : σ'.heap a = σ1.heap a := g5 a fun k'' hk'' h => hnk (by rw [hself k' k'' a ha h]; exact hk'')
        simp [St.blk, g2, ha, this, hσ1]
      · exact g4 k' hk'
    · intro b hb
      rw [g5 b fun k' hk' => hb k' (by simp [hk'])]
      have : b ≠ a := fun h => hb k (by simp) (h ▸ ha)
      simp [hσ1, Function.update_of_ne this]

theorem names_congr (σ σ' : St G) (h : ∀ j, (σ'.obj j).names = (σ.obj j).names) (e : Expr G) : e.names σ' = e.names σ := by
  induction e with
  | leaf j => simp [Expr.names, h]
  | un f a ih => exact ih
  | node t a b iha ihb => exact iha

theorem same_rect {d d' : Data} (hr : d.Rect) (h : d.Same d') : d'.Rect := by
  revert h hr
  cases d <;> cases d' <;> simp only [Data.Same, Data.Rect, false_imp_iff, imp_true_iff]
  rename_i l l'
  rintro ⟨m, hm⟩ h
  refine ⟨m, fun r hr => ?_⟩
  have : r.length ∈ l'.map List.length := List.mem_map_of_mem hr
  rw [← h, List.mem_map] at this
  obtain ⟨r', hr', e⟩ := this
  rw [← e, hm r' hr']

theorem assignImpl_ok (op : Tag → G → G → Option G) (dflt : G) (i : ℕ) (e : Expr G) (σ : St G) (hr : (σ.obj i).data.Rect)
    (hs : ∀ j ∈ e.leaves, (σ.obj i).data.Same (σ.obj j).data)
    (hself : Apart (σ.obj i).data (σ.obj i).data) (hap : ∀ j ∈ e.leaves, Apart (σ.obj i).data (σ.obj j).data)
    (v : List ℕ → G) (hv : ∀ k ∈ (σ.obj i).data.keys, e.value op (fun j => σ.blk dflt j k) = some (v k)) :
    ∃ σ', assignImpl op i e σ = .ok σ' ∧ (∀ k ∈ (σ.obj i).data.keys, σ'.blk dflt i k = v k) ∧ (σ'.obj i).data = (σ.obj i).data ∧ (σ'.obj i).names = e.names σ ∧
      (∀ j, j ≠ i → σ'.obj j = σ.obj j) ∧ (∀ a, (∀ k, (σ.obj i).data.at? k ≠ some a) → σ'.heap a = σ.heap a) := by
  obtain ⟨σ', g1, g2, g3, g4, g5⟩ := assignLoop_ok op dflt i e _ σ (keys_nodup _) (at?_isSome _ hr)
    (fun j hj k hk => at?_isSome _ (same_rect hr (hs j hj)) k (by rw [← (size_same (hs j hj)).2.2.2]; exact hk)) hself hap v hv
  refine ⟨{ σ' with obj := Function.update σ'.obj i ⟨e.names σ', (σ'.obj i).data⟩ }, ?_, ?_, ?_, ?_, ?_, ?_⟩
  · simp only [assignImpl, g1]
  · intro k hk
    rw [← g4 k hk]
    simp [St.blk]
  · simp [g2]
  · simp [names_congr σ σ' (by simp [g2]) e]
  · intro j hj
    simp [Function.update_of_ne hj, g2]
  · intro a ha
    exact g5 a fun k _ => ha k

theorem expr_size (σ : St G) (d : Data) (hsz : d.size.isSome) (e : Expr G) (h : ∀ j ∈ e.leaves, d.Same (σ.obj j).data) : e.size σ = d.size := by
  induction e with
  | leaf j => exact (size_same (h j (by simp [Expr.leaves]))).1.symm
  | un f a ih => exact ih h
  | node t a b iha ihb =>
    rw [Expr.size, iha fun j hj => h j (by simp [Expr.leaves, hj]), ihb fun j hj => h j (by simp [Expr.leaves, hj])]
    obtain ⟨n, hn⟩ := Option.isSome_iff_exists.mp hsz
    simp [hn]

/-- **C104.** Assignment of an expression of block functions to a view, block by block: if all operands have the structure of the view
and share blocks with it only at the same places, every block gets the value that the expression had before; other blocks are not
touched. The view takes the names of the leftmost operand. -/
theorem C104_view (op : Tag → G → G → Option G) (dflt : G) (i : ℕ) (e : Expr G) (σ : St G) (hsz : ((σ.obj i).data.size).isSome) (hr : (σ.obj i).data.Rect)
    (hs : ∀ j ∈ e.leaves, (σ.obj i).data.Same (σ.obj j).data)
    (hself : Apart (σ.obj i).data (σ.obj i).data) (hap : ∀ j ∈ e.leaves, Apart (σ.obj i).data (σ.obj j).data)
    (v : List ℕ → G) (hv : ∀ k ∈ (σ.obj i).data.keys, e.value op (fun j => σ.blk dflt j k) = some (v k)) :
    ∃ σ', viewAssign op i e σ = .ok σ' ∧ (∀ k ∈ (σ.obj i).data.keys, σ'.blk dflt i k = v k) ∧ (σ'.obj i).data = (σ.obj i).data ∧ (σ'.obj i).names = e.names σ ∧
      (∀ j, j ≠ i → σ'.obj j = σ.obj j) ∧ (∀ a, (∀ k, (σ.obj i).data.at? k ≠ some a) → σ'.heap a = σ.heap a) := by
  obtain ⟨n, hn⟩ := Option.isSome_iff_exists.mp hsz
  obtain ⟨σ', h1, h2⟩ := assignImpl_ok op dflt i e σ hr hs hself hap v hv
  refine ⟨σ', ?_, h2⟩
  simp only [viewAssign, hn, expr_size σ _ hsz e hs, if_true, h1]

/-- If the numbers of blocks differ, the exception leaves everything as it was. -/
theorem C104_view_exn (op : Tag → G → G → Option G) (i : ℕ) (e : Expr G) (σ : St G) (h : (σ.obj i).data.size ≠ e.size σ) : viewAssign op i e σ = .exn σ := by
  unfold viewAssign
  split
  · rename_i n m h1 h2
    rw [if_neg]
    rintro rfl
    exact h (by rw [h1, h2])
  · rfl

theorem vresize_self {α : Type} (f : ℕ → α) (l : List α) : vresize f l.length l = l := by simp [vresize]

theorem vresize_length {α : Type} (f : ℕ → α) (n : ℕ) (l : List α) : (vresize f n l).length = n := by simp [vresize]; omega

theorem vresize_get {α : Type} (f : ℕ → α) (n : ℕ) (l : List α) (m : ℕ) (x : α) (h : (vresize f n l)[m]? = some x) : l[m]? = some x ∨ (l.length ≤ m ∧ m < n ∧ x = f (m - l.length)) := by
  have hm : m < n := by
    by_contra hc
    rw [List.getElem?_eq_none (by rw [vresize_length]; omega)] at h
    simp at h
  unfold vresize at h
  by_cases hl : m < l.length
  · rw [List.getElem?_append_left (by simp; omega), List.getElem?_take_of_lt hm] at h
    exact .inl h
  · right
    rw [List.getElem?_append_right (by simp; omega)] at h
    rw [List.getElem?_map] at h
    obtain ⟨j, hj, rfl⟩ := Option.map_eq_some_iff.mp h
    have hmin : min n l.length = l.length := by omega
    simp only [List.length_take, hmin] at hj
    obtain ⟨hlt, e⟩ := List.getElem?_eq_some_iff.mp hj
    simp only [List.getElem_range] at e
    exact ⟨by omega, hm, by rw [e]⟩

theorem resizeOne_facts (dflt : G) (σ : St G) (n : ℕ) (l : List ℕ) :
    (resizeOne dflt σ n l).1.obj = σ.obj ∧ σ.next ≤ (resizeOne dflt σ n l).1.next ∧ (∀ a, a < σ.next → (resizeOne dflt σ n l).1.heap a = σ.heap a) ∧
      (resizeOne dflt σ n l).2.length = n ∧
      (∀ m a, (resizeOne dflt σ n l).2[m]? = some a → l[m]? = some a ∨ (σ.next ≤ a ∧ a < (resizeOne dflt σ n l).1.next ∧ a = σ.next + (m - l.length) ∧ l.length ≤ m)) := by
  refine ⟨rfl, by simp [resizeOne], ?_, vresize_length _ _ _, ?_⟩
  · intro a ha
    simp only [resizeOne]
    rw [if_neg (by omega)]
  · intro m a h
    rcases vresize_get _ _ _ _ _ h with h | ⟨h1, h2, h3⟩
    · exact .inl h
    · right
      simp only [resizeOne]
      omega

/-- an entry of a list of rows -/
def ent (rs : List (List ℕ)) (n m : ℕ) : Option ℕ := (rs[n]?).bind fun r => r[m]?

theorem resizeRows_facts (dflt : G) (m : ℕ) (rs : List (List ℕ)) : ∀ σ : St G,
    (resizeRows dflt m rs σ).1.obj = σ.obj ∧ σ.next ≤ (resizeRows dflt m rs σ).1.next ∧ (∀ a, a < σ.next → (resizeRows dflt m rs σ).1.heap a = σ.heap a) ∧
      (resizeRows dflt m rs σ).2.length = rs.length ∧ (∀ r ∈ (resizeRows dflt m rs σ).2, r.length = m) ∧
      (∀ p q a, ent (resizeRows dflt m rs σ).2 p q = some a → ent rs p q = some a ∨ (σ.next ≤ a ∧ a < (resizeRows dflt m rs σ).1.next)) ∧
      (∀ p q p' q' a, ent (resizeRows dflt m rs σ).2 p q = some a → ent (resizeRows dflt m rs σ).2 p' q' = some a → ent rs p q ≠ some a → ent rs p' q' ≠ some a → p = p' ∧ q = q') := by
  induction rs with
  | nil => intro σ; simp [resizeRows, ent]
  | cons r rs ih =>
    intro σ
    obtain ⟨a1, a2, a3, a4, a5⟩ := resizeOne_facts dflt σ m r
    obtain ⟨b1, b2, b3, b4, b5, b6, b7⟩ := ih (resizeOne dflt σ m r).1
    rw [resizeRows]
    simp only
    set p := resizeOne dflt σ m r
    set q := resizeRows dflt m rs p.1
    have e0 : ∀ (x : List ℕ) (xs : List (List ℕ)) (j : ℕ), ent (x :: xs) 0 j = x[j]? := fun _ _ _ => rfl
    have eS : ∀ (x : List ℕ) (xs : List (List ℕ)) (n j : ℕ), ent (x :: xs) (n + 1) j = ent xs n j := fun _ _ _ _ => rfl
    refine ⟨by rw [b1, a1], by omega, fun a ha => by rw [b3 a (by omega), a3 a ha], by simp [b4], ?_, ?_, ?_⟩
    · intro x hx
      rcases List.mem_cons.mp hx with rfl | hx
      · exact a4
      · exact b5 x hx
    · intro n j a h
      cases n with
      | zero =>
        rw [e0] at h ⊢
        rcases a5 j a h with h | ⟨h1, h2, -, -⟩
        · exact .inl h
        · exact .inr ⟨h1, by omega⟩
      | succ n =>
        rw [eS] at h ⊢
        rcases b6 n j a h with h | ⟨h1, h2⟩
        · exact .inl h
        · exact .inr ⟨by omega, h2⟩
    · intro n j n' j' a h h' g g'
      cases n with
      | zero =>
        rw [e0] at h g
        obtain ⟨h1, h2, h3, h4⟩ := (a5 j a h).resolve_left g
        cases n' with
        | zero =>
          rw [e0] at h' g'
          obtain ⟨h1', h2', h3', h4'⟩ := (a5 j' a h').resolve_left g'
          exact ⟨rfl, by omega⟩
        | succ n' =>
          rw [eS] at h' g'
          have := (b6 n' j' a h').resolve_left g'
          omega
      | succ n =>
        rw [eS] at h g
        have t := (b6 n j a h).resolve_left g
        cases n' with
        | zero =>
          rw [e0] at h' g'
          obtain ⟨h1', h2', h3', h4'⟩ := (a5 j' a h').resolve_left g'
          omega
        | succ n' =>
          rw [eS] at h' g'
          obtain ⟨e1, e2⟩ := b7 n j n' j' a h h' g g'
          exact ⟨by rw [e1], e2⟩

/-- the expression after the object on the left has been given a new structure: `σ1` differs from `σ` only in object `i` and in new
blocks -/
theorem assign_resized (op : Tag → G → G → Option G) (dflt : G) (i : ℕ) (e : Expr G) (σ σ1 : St G) (hr : (σ1.obj i).data.Rect)
    (hobj : ∀ j, j ≠ i → σ1.obj j = σ.obj j) (hheap : ∀ a, a < σ.next → σ1.heap a = σ.heap a)
    (hold : ∀ k a, (σ1.obj i).data.at? k = some a → (σ.obj i).data.at? k = some a ∨ σ.next ≤ a)
    (hfresh : ∀ k k' a, (σ1.obj i).data.at? k = some a → (σ1.obj i).data.at? k' = some a → σ.next ≤ a → k = k')
    (hlt : ∀ k a, (σ.obj i).data.at? k = some a → a < σ.next) (hltj : ∀ j ∈ e.leaves, ∀ k a, (σ.obj j).data.at? k = some a → a < σ.next)
    (hkeep : i ∈ e.leaves → (σ1.obj i).data = (σ.obj i).data)
    (hs : ∀ j ∈ e.leaves, (σ1.obj i).data.Same (σ.obj j).data)
    (hself : Apart (σ.obj i).data (σ.obj i).data) (hap : ∀ j ∈ e.leaves, Apart (σ.obj i).data (σ.obj j).data)
    (v : List ℕ → G) (hv : ∀ k ∈ (σ1.obj i).data.keys, e.value op (fun j => σ.blk dflt j k) = some (v k)) :
    ∃ σ', assignImpl op i e σ1 = .ok σ' ∧ (∀ k ∈ (σ1.obj i).data.keys, σ'.blk dflt i k = v k) ∧ (σ'.obj i).data = (σ1.obj i).data ∧ (σ'.obj i).names = e.names σ1 ∧
      (∀ j, j ≠ i → σ'.obj j = σ.obj j) ∧ (∀ a, a < σ.next → (∀ k, (σ.obj i).data.at? k ≠ some a) → σ'.heap a = σ.heap a) := by
  have hdat : ∀ j ∈ e.leaves, (σ1.obj j).data = (σ.obj j).data := by
    intro j hj
    by_cases e : j = i
    · subst e; exact hkeep hj
    · rw [hobj j e]
  obtain ⟨σ', h1, h2, h3, h4, h5, h6⟩ := assignImpl_ok op dflt i e σ1 hr (fun j hj => by rw [hdat j hj]; exact hs j hj) (by
      intro k k' a ha ha'
      by_cases hn : σ.next ≤ a
      · exact hfresh k k' a ha ha' hn
      · exact hself k k' a ((hold k a ha).resolve_right hn) ((hold k' a ha').resolve_right hn)) (by
      intro j hj k k' a ha ha'
      rw [hdat j hj] at ha'
      have := hltj j hj k' a ha'
      exact hap j hj k k' a ((hold k a ha).resolve_right (by omega)) ha') v (by
      intro k hk
      rw [← hv k hk]
      apply value_congr
      intro j hj
      simp only [St.blk, hdat j hj]
      cases hc : (σ.obj j).data.at? k with
      | none => rfl
      | some a => simp [hheap a (hltj j hj k a hc)])
  refine ⟨σ', h1, h2, h3, h4, fun j hj => by rw [h5 j hj, hobj j hj], ?_⟩
  intro a ha hna
  rw [h6 a, hheap a ha]
  intro k hk
  rcases hold k a hk with h | h
  · exact hna k h
  · omega

theorem leaves_ne (e : Expr G) : e.leaves ≠ [] := by
  induction e with
  | leaf => simp [Expr.leaves]
  | un f a ih => exact ih
  | node t a b iha ihb => simp [Expr.leaves, iha]

/-- the leftmost leaf provides the names -/
theorem names_leaf (e : Expr G) : ∃ j ∈ e.leaves, ∀ σ : St G, e.names σ = (σ.obj j).names := by
  induction e with
  | leaf j => exact ⟨j, by simp [Expr.leaves], fun _ => rfl⟩
  | un f a ih => exact ih
  | node t a b iha ihb => obtain ⟨j, hj, h⟩ := iha; exact ⟨j, by simp [Expr.leaves, hj], h⟩

/-- **C104.** Assignment of an expression to a `block_gf` of arity one: whatever it held before, it takes number, names and values of the
blocks of the expression, if all operands have the same number of blocks. -/
theorem C104_assign (op : Tag → G → G → Option G) (dflt : G) (i : ℕ) (e : Expr G) (σ : St G) (l : List ℕ) (nm : List Name) (ho : σ.obj i = ⟨[nm], .one l⟩) (hnm : nm.length = l.length)
    (n : ℕ) (hs : ∀ j ∈ e.leaves, ∃ l', (σ.obj j).data = .one l' ∧ l'.length = n)
    (hlt : ∀ j ∈ i :: e.leaves, ∀ k a, (σ.obj j).data.at? k = some a → a < σ.next)
    (hself : Apart (σ.obj i).data (σ.obj i).data) (hap : ∀ j ∈ e.leaves, Apart (σ.obj i).data (σ.obj j).data)
    (v : List ℕ → G) (hv : ∀ k < n, e.value op (fun j => σ.blk dflt j [k]) = some (v [k])) :
    ∃ σ', assign1 dflt op i e σ = .ok σ' ∧ (∃ l', (σ'.obj i).data = .one l' ∧ l'.length = n) ∧ (∀ k < n, σ'.blk dflt i [k] = v [k]) ∧ (σ'.obj i).names = e.names σ ∧
      (∀ j, j ≠ i → σ'.obj j = σ.obj j) ∧ (∀ a, a < σ.next → (∀ k, (σ.obj i).data.at? k ≠ some a) → σ'.heap a = σ.heap a) := by
  have hd : (σ.obj i).data = .one l := by rw [ho]
  have hs' : ∀ d : List ℕ, d.length = n → ∀ j ∈ e.leaves, (Data.one d).Same (σ.obj j).data := by
    intro d hdl j hj
    obtain ⟨l', h1, h2⟩ := hs j hj
    rw [h1]
    simp only [Data.Same]
    omega
  have hsz : e.size σ = some n := by
    rw [expr_size σ (.one (List.replicate n 0)) rfl e (hs' _ (by simp))]
    simp [Data.size]
  obtain ⟨a1, a2, a3, a4, a5⟩ := resizeOne_facts dflt σ n l
  set σ1 : St G := { (resizeOne dflt σ n l).1 with obj := Function.update (resizeOne dflt σ n l).1.obj i ⟨(σ.obj i).names.map (vresize (fun _ => []) n), .one (resizeOne dflt σ n l).2⟩ } with hσ1
  have h1i : (σ1.obj i).data = .one (resizeOne dflt σ n l).2 := by simp [hσ1]
  have hin : i ∈ e.leaves → l.length = n := by
    intro hi
    obtain ⟨l', h1, h2⟩ := hs i hi
    rw [hd] at h1
    rw [Data.one.inj h1, h2]
  have hrs : l.length = n → (resizeOne dflt σ n l).2 = l := by rintro rfl; exact vresize_self _ _
  have hkey : ∀ k ∈ (σ1.obj i).data.keys, ∃ m < n, k = [m] := by
    intro k hk
    rw [h1i] at hk
    simp only [Data.keys, List.mem_map, List.mem_range, a4] at hk
    obtain ⟨m, hm, rfl⟩ := hk
    exact ⟨m, hm, rfl⟩
  have hmem : ∀ m < n, [m] ∈ (σ1.obj i).data.keys := by
    intro m hm
    rw [h1i]
    simp only [Data.keys, List.mem_map, List.mem_range, a4]
    exact ⟨m, hm, rfl⟩
  obtain ⟨σ', g1, g2, g3, g4, g5, g6⟩ := assign_resized op dflt i e σ σ1 (by rw [h1i]; trivial) (fun j hj => by simp [hσ1, Function.update_of_ne hj, a1]) a3 (by
      intro k a hk
      rw [h1i] at hk
      match k, hk with
      | [m], hk =>
        rcases a5 m a hk with h | h
        · rw [hd]; exact .inl h
        · exact .inr h.1) (by
      intro k k' a hk hk' ha
      rw [h1i] at hk hk'
      match k, k', hk, hk' with
      | [m], [m'], hk, hk' =>
        have nold : ∀ m, l[m]? ≠ some a := fun m h => absurd (hlt i (by simp) [m] a (by rw [hd]; exact h)) (by omega)
        obtain ⟨-, -, t3, t4⟩ := (a5 m a hk).resolve_left (nold m)
        obtain ⟨-, -, t3', t4'⟩ := (a5 m' a hk').resolve_left (nold m')
        have : m = m' := by omega
        rw [this]) (hlt i (by simp)) (fun j hj => hlt j (by simp [hj])) (fun hi => by rw [h1i, hd, hrs (hin hi)]) (fun j hj => by rw [h1i]; exact hs' _ a4 j hj) hself hap v (by
      intro k hk
      obtain ⟨m, hm, rfl⟩ := hkey k hk
      exact hv m hm)
  refine ⟨σ', ?_, ⟨_, by rw [g3, h1i], a4⟩, fun m hm => g2 [m] (hmem m hm), ?_, g5, g6⟩
  · simp only [assign1, hd, hsz]
    exact g1
  · rw [g4]
    obtain ⟨j, hj, hname⟩ := names_leaf e
    rw [hname, hname]
    by_cases e1 : j = i
    · subst e1
      simp only [hσ1, Function.update_self]
      rw [ho]
      simp only [List.map_cons, List.map_nil]
      rw [← hin hj, ← hnm, vresize_self]
    · simp [hσ1, Function.update_of_ne e1, a1]

theorem at?_two (rs : List (List ℕ)) (k : List ℕ) (a : ℕ) (h : (Data.two rs).at? k = some a) : ∃ p q, k = [p, q] ∧ ent rs p q = some a := by
  match k, h with
  | [p, q], h => exact ⟨p, q, rfl, h⟩

theorem expr_size1 (σ : St G) (n : ℕ) (e : Expr G) (h : ∀ j ∈ e.leaves, (σ.obj j).data.size1 = n) : e.size1 σ = n := by
  induction e with
  | leaf j => exact h j (by simp [Expr.leaves])
  | un f a ih => exact ih h
  | node t a b iha ihb =>
    rw [Expr.size1, iha fun j hj => h j (by simp [Expr.leaves, hj]), ihb fun j hj => h j (by simp [Expr.leaves, hj])]
    simp

theorem expr_size2 (σ : St G) (n : ℕ) (e : Expr G) (h : ∀ j ∈ e.leaves, (σ.obj j).data.size2 = some n) : e.size2 σ = some n := by
  induction e with
  | leaf j => exact h j (by simp [Expr.leaves])
  | un f a ih => exact ih h
  | node t a b iha ihb =>
    rw [Expr.size2, iha fun j hj => h j (by simp [Expr.leaves, hj]), ihb fun j hj => h j (by simp [Expr.leaves, hj])]
    simp

theorem rows_same (rs : List (List ℕ)) (n : ℕ) (h : ∀ r ∈ rs, r.length = n) : rs.map List.length = List.replicate rs.length n := by
  rw [List.eq_replicate_iff]
  simpa using h

theorem resizeRows_self (dflt : G) (m : ℕ) (rs : List (List ℕ)) (h : ∀ r ∈ rs, r.length = m) (σ : St G) : (resizeRows dflt m rs σ).2 = rs := by
  induction rs generalizing σ with
  | nil => rfl
  | cons r rs ih =>
    simp only [resizeRows]
    rw [ih fun r hr => h r (by simp [hr])]
    congr 1
    rw [← h r (by simp)]
    exact vresize_self _ _

/-- **C104.** The same for arity two, if there is at least one row. -/
theorem C104_assign2 (op : Tag → G → G → Option G) (dflt : G) (i : ℕ) (e : Expr G) (σ : St G) (l : List (List ℕ)) (n1 n2 : List Name) (ho : σ.obj i = ⟨[n1, n2], .two l⟩)
    (hnm : i ∈ e.leaves → ∀ r ∈ l, n1.length = l.length ∧ n2.length = r.length)
    (p q : ℕ) (hp : 0 < p) (hs : ∀ j ∈ e.leaves, ∃ l', (σ.obj j).data = .two l' ∧ l'.length = p ∧ ∀ r ∈ l', r.length = q)
    (hlt : ∀ j ∈ i :: e.leaves, ∀ k a, (σ.obj j).data.at? k = some a → a < σ.next)
    (hself : Apart (σ.obj i).data (σ.obj i).data) (hap : ∀ j ∈ e.leaves, Apart (σ.obj i).data (σ.obj j).data)
    (v : List ℕ → G) (hv : ∀ a < p, ∀ b < q, e.value op (fun j => σ.blk dflt j [a, b]) = some (v [a, b])) :
    ∃ σ', assign2 dflt op i e σ = .ok σ' ∧ (∃ l', (σ'.obj i).data = .two l' ∧ l'.length = p ∧ ∀ r ∈ l', r.length = q) ∧ (∀ a < p, ∀ b < q, σ'.blk dflt i [a, b] = v [a, b]) ∧ (σ'.obj i).names = e.names σ ∧
      (∀ j, j ≠ i → σ'.obj j = σ.obj j) ∧ (∀ a, a < σ.next → (∀ k, (σ.obj i).data.at? k ≠ some a) → σ'.heap a = σ.heap a) := by
  have hd : (σ.obj i).data = .two l := by rw [ho]
  have hin : i ∈ e.leaves → l.length = p ∧ ∀ r ∈ l, r.length = q := by
    intro hi
    obtain ⟨l', h1, h2⟩ := hs i hi
    rw [hd] at h1
    rw [Data.two.inj h1]
    exact h2
  have hz1 : ∀ τ : St G, (∀ j ∈ e.leaves, (τ.obj j).data = (σ.obj j).data) → e.size1 τ = p ∧ e.size2 τ = some q := by
    intro τ hτ
    constructor
    · apply expr_size1
      intro j hj
      obtain ⟨l', h1, h2, h3⟩ := hs j hj
      rw [hτ j hj, h1]
      exact h2
    · apply expr_size2
      intro j hj
      obtain ⟨l', h1, h2, h3⟩ := hs j hj
      rw [hτ j hj, h1]
      have h0 : 0 < l'.length := by omega
      simp only [Data.size2, List.getElem?_eq_getElem h0, Option.map_some]
      rw [h3 _ (List.getElem_mem h0)]
  have hsize1 := (hz1 σ fun _ _ => rfl).1
  have hl1 : i ∈ e.leaves → vresize (fun _ => []) p l = l := by
    intro hi
    rw [← (hin hi).1]; exact vresize_self _ _
  set l1 := vresize (fun _ => ([] : List ℕ)) p l with hl1def
  set σ1 : St G := { σ with obj := Function.update σ.obj i ⟨vresize (fun _ => []) 2 (σ.obj i).names, .two l1⟩ } with hσ1
  have hd1 : ∀ j ∈ e.leaves, (σ1.obj j).data = (σ.obj j).data := by
    intro j hj
    by_cases e1 : j = i
    · subst e1
      simp only [hσ1, Function.update_self]
      rw [hl1 hj, hd]
    · simp [hσ1, Function.update_of_ne e1]
  obtain ⟨a1, a2, a3, a4, a5, a6, a7⟩ := resizeRows_facts dflt q l1 σ1
  have hlen1 : l1.length = p := vresize_length _ _ _
  set rr := resizeRows dflt q l1 σ1 with hrr
  set σ2 : St G := { rr.1 with obj := Function.update rr.1.obj i ⟨(rr.1.obj i).names, .two rr.2⟩ } with hσ2
  have hrs : i ∈ e.leaves → rr.2 = l := by
    intro hi
    rw [hrr, resizeRows_self dflt q l1 (by rw [hl1 hi]; exact (hin hi).2), hl1 hi]
  have hd2 : ∀ j ∈ e.leaves, (σ2.obj j).data = (σ.obj j).data := by
    intro j hj
    by_cases e1 : j = i
    · subst e1
      simp only [hσ2, Function.update_self]
      rw [hrs hj, hd]
    · simp only [hσ2]
      rw [Function.update_of_ne e1, a1]
      exact hd1 j hj
  set σ3 : St G := { σ2 with obj := Function.update σ2.obj i ⟨[vresize (fun _ => []) (e.size1 σ2) ((σ2.obj i).names.getD 0 []),
        vresize (fun _ => []) ((e.size2 σ2).getD 0) ((σ2.obj i).names.getD 1 [])], .two rr.2⟩ } with hσ3
  have h3i : (σ3.obj i).data = .two rr.2 := by simp [hσ3]
  have hrow : ∀ x y a, ent l1 x y = some a → ent l x y = some a := by
    intro x y a h
    unfold ent at h ⊢
    obtain ⟨r, hr, h⟩ := Option.bind_eq_some_iff.mp h
    rcases vresize_get _ _ _ _ _ hr with h' | ⟨-, -, h'⟩
    · rw [h']; exact h
    · rw [h'] at h; simp at h
  have holt : ∀ x y a, ent l1 x y = some a → a < σ.next := fun x y a h => hlt i (by simp) [x, y] a (by rw [hd]; exact hrow x y a h)
  have hnext : σ1.next = σ.next := rfl
  have hobj3 : ∀ j, j ≠ i → σ3.obj j = σ.obj j := by
    intro j hj
    simp only [hσ3, hσ2]
    rw [Function.update_of_ne hj, Function.update_of_ne hj, a1]
    simp [hσ1, Function.update_of_ne hj]
  have hkeys : (σ3.obj i).data.keys = (List.range p).flatMap fun n => (List.range q).map fun m => [n, m] := by
    rw [h3i]
    have h0 : 0 < rr.2.length := by omega
    simp only [Data.keys, Data.size2, List.getElem?_eq_getElem h0, Option.map_some, Option.getD_some]
    rw [a5 _ (List.getElem_mem h0), a4, hlen1]
  obtain ⟨σ', g1, g2, g3, g4, g5, g6⟩ := assign_resized op dflt i e σ σ3 (by rw [h3i]; exact ⟨q, a5⟩) hobj3 (fun a ha => a3 a ha) (by
      intro k a hk
      rw [h3i] at hk
      obtain ⟨x, y, rfl, h⟩ := at?_two _ _ _ hk
      rcases a6 x y a h with h | h
      · rw [hd]; exact .inl (hrow x y a h)
      · exact .inr h.1) (by
      intro k k' a hk hk' ha
      rw [h3i] at hk hk'
      obtain ⟨x, y, rfl, h⟩ := at?_two _ _ _ hk
      obtain ⟨x', y', rfl, h'⟩ := at?_two _ _ _ hk'
      obtain ⟨e1, e2⟩ := a7 x y x' y' a h h' (fun t => absurd (holt x y a t) (by omega)) (fun t => absurd (holt x' y' a t) (by omega))
      rw [e1, e2]) (hlt i (by simp)) (fun j hj => hlt j (by simp [hj])) (fun hi => by rw [h3i, hd, hrs hi]) (fun j hj => by
      obtain ⟨l', t1, t2, t3⟩ := hs j hj
      rw [h3i, t1]
      simp only [Data.Same]
      rw [rows_same _ q a5, rows_same _ q t3, a4, hlen1, t2]) hself hap v (by
      intro k hk
      rw [hkeys] at hk
      simp only [List.mem_flatMap, List.mem_map, List.mem_range] at hk
      obtain ⟨x, hx, y, hy, rfl⟩ := hk
      exact hv x hx y hy)
  refine ⟨σ', ?_, ⟨rr.2, by rw [g3, h3i], by rw [a4, hlen1], a5⟩, ?_, ?_, g5, g6⟩
  · simp only [assign2, hd, hsize1]
    rw [(hz1 σ1 hd1).2]
    exact g1
  · intro x hx y hy
    refine g2 [x, y] ?_
    rw [hkeys]
    simp only [List.mem_flatMap, List.mem_map, List.mem_range]
    exact ⟨x, hx, y, hy, rfl⟩
  · rw [g4]
    obtain ⟨j, hj, hname⟩ := names_leaf e
    rw [hname, hname]
    by_cases e1 : j = i
    · subst e1
      have hz2 := hz1 σ2 hd2
      have h0 : 0 < l.length := by rw [(hin hj).1]; exact hp
      have hn := hnm hj _ (List.getElem_mem h0)
      have hq := (hin hj).2 _ (List.getElem_mem h0)
      have hnames2 : (σ2.obj j).names = [n1, n2] := by
        simp only [hσ2, Function.update_self]
        rw [a1]
        simp only [hσ1, Function.update_self]
        rw [ho]
        rfl
      simp only [hσ3, Function.update_self]
      rw [hz2.1, hz2.2, hnames2, ho]
      simp only [List.getD_cons_zero, List.getD_cons_succ, Option.getD_some]
      rw [← (hin hj).1, ← hn.1, vresize_self, ← hq, ← hn.2, vresize_self]
    · rw [hobj3 j e1]

end

/-- a state with given objects; the blocks are numbers -/
def ex (objs : List Blk) : St ℤ := ⟨fun a => 10 * a, 100, fun i => objs.getD i ⟨[[]], .one []⟩⟩

/-- addition and subtraction of numbers -/
def exOp : Tag → ℤ → ℤ → Option ℤ
  | .plus, x, y => some (x + y)
  | .minus, x, y => some (x - y)
  | .multiplies, x, y => some (x * y)
  | .divides, x, y => some (x / y)

def Out.get? {α : Type} : Out α → Option α
  | .ok x => some x
  | _ => none

/-- **C104** does not hold if an operand has fewer blocks: the sum of two block functions with two blocks and one block is not rejected
but read outside of the vector. -/
theorem C104_sizes : viewAssign exOp 0 (.node .plus (.leaf 0) (.leaf 1)) (ex [⟨[[['a'], ['b']]], .one [0, 1]⟩, ⟨[[['a']]], .one [2]⟩]) = .undef ∧
    assign1 0 exOp 0 (.node .plus (.leaf 0) (.leaf 1)) (ex [⟨[[['a'], ['b']]], .one [0, 1]⟩, ⟨[[['a']]], .one [2]⟩]) = .undef := ⟨rfl, rfl⟩

/-- For arity two only the product of the numbers of rows and columns is compared: a two by three block function is accepted for a
three by two view, and read outside of its rows. -/
theorem C104_shape : (ex [⟨[], .two [[0, 1], [2, 3], [4, 5]]⟩, ⟨[], .two [[6, 7, 8], [9, 10, 11]]⟩]).obj 0 ≠ (ex [⟨[], .two [[0, 1], [2, 3], [4, 5]]⟩, ⟨[], .two [[6, 7, 8], [9, 10, 11]]⟩]).obj 1 ∧
    viewAssign exOp 0 (.leaf 1) (ex [⟨[], .two [[0, 1], [2, 3], [4, 5]]⟩, ⟨[], .two [[6, 7, 8], [9, 10, 11]]⟩]) = .undef := ⟨by decide, rfl⟩

/-- Views that share blocks at different places: exchanging two blocks copies one of them. -/
theorem C104_exchange : ∃ σ', viewAssign exOp 0 (.leaf 1) (ex [⟨[[['a'], ['b']]], .one [1, 2]⟩, ⟨[[['a'], ['b']]], .one [2, 1]⟩]) = .ok σ' ∧ σ'.heap 1 = 20 ∧ σ'.heap 2 = 20 := ⟨_, rfl, by decide, by decide⟩

/-- Copy assignment between views does not compare sizes: a view of two blocks gets three names. -/
theorem C104_copy : ∃ σ', viewCopy exOp 0 1 (ex [⟨[[['a'], ['b']]], .one [1, 2]⟩, ⟨[[['a'], ['b'], ['c']]], .one [3, 4, 5]⟩]) = .ok σ' ∧ (σ'.obj 0).names = [[['a'], ['b'], ['c']]] ∧ (σ'.obj 0).data = .one [1, 2] := ⟨_, rfl, rfl, rfl⟩

/-- Assignment through a view of a block function changes the names of the view, not those of the block function. -/
theorem C104_names : ∃ σ', viewAssign exOp 1 (.leaf 2) (ex [⟨[[['a'], ['b']]], .one [1, 2]⟩, ⟨[[['a'], ['b']]], .one [1, 2]⟩, ⟨[[['u'], ['d']]], .one [3, 4]⟩]) = .ok σ' ∧
    σ'.heap 1 = 30 ∧ (σ'.obj 1).names = [[['u'], ['d']]] ∧ (σ'.obj 0).names = [[['a'], ['b']]] := ⟨_, rfl, by decide, rfl, rfl⟩

/-- `b = b - c` -/
example : ∃ σ', assign1 0 exOp 0 (.node .minus (.leaf 0) (.leaf 1)) (ex [⟨[[['a'], ['b']]], .one [0, 1]⟩, ⟨[[['u'], ['d']]], .one [2, 3]⟩]) = .ok σ' ∧ σ'.heap 0 = -20 ∧ σ'.heap 1 = -20 ∧
    σ'.obj 0 = ⟨[[['a'], ['b']]], .one [0, 1]⟩ := ⟨_, rfl, by decide, by decide, rfl⟩

/-- a function with more blocks than the target: the target grows -/
example : ∃ σ', assign1 0 exOp 0 (.leaf 1) (ex [⟨[[['a']]], .one [0]⟩, ⟨[[['u'], ['d']]], .one [2, 3]⟩]) = .ok σ' ∧ (σ'.obj 0) = ⟨[[['u'], ['d']]], .one [0, 100]⟩ ∧ σ'.heap 0 = 20 ∧ σ'.heap 100 = 30 :=
  ⟨_, rfl, rfl, by decide, by decide⟩

section
variable {G : Type}

/-! ### Iteration, construction, map -/

/-- **C106.** Iterating over a block function of arity two visits the blocks row by row, each once; for arity one in order. -/
theorem C106_iterate (d : Data) (hr : d.Rect) (hsz : d.size.isSome) : iterate d = some (d.keys.map d.at?) := by
  cases d with
  | one l =>
    simp only [iterate, Data.size, Option.map_some, Data.keys, List.map_map, Option.some.injEq]
    rfl
  | two l =>
    obtain ⟨m, hm⟩ := hr
    cases l with
    | nil => simp [Data.size, Data.size2] at hsz
    | cons r rs =>
      have hs2 : (Data.two (r :: rs)).size2 = some m := by simp [Data.size2, hm r (by simp)]
      simp only [iterate, Data.size, hs2, Option.map_some, Data.keys, Option.getD_some, Option.some.injEq, List.map_flatMap, List.map_map]
      have key : ∀ n, (List.range (n * m)).map (iterAt (.two (r :: rs))) = (List.range n).flatMap fun a => (List.range m).map ((Data.two (r :: rs)).at? ∘ fun b => [a, b]) := by
        intro n
        induction n with
        | zero => simp
        | succ n ih =>
          rw [List.range_succ, List.flatMap_append, ← ih, Nat.succ_mul, List.range_add, List.map_append]
          congr 1
          simp only [List.flatMap_cons, List.flatMap_nil, List.append_nil, List.map_map]
          apply List.map_congr_left
          intro b hb
          rw [List.mem_range] at hb
          simp only [Function.comp, iterAt, hs2, Option.bind_some]
          congr 2
          · rw [Nat.mul_comm, Nat.mul_add_div (by omega), Nat.div_eq_of_lt hb]; simp
          · rw [Nat.mul_comm, Nat.mul_add_mod, Nat.mod_eq_of_lt hb]
      exact key _

/-- The blocks visited exist. -/
theorem C106_defined (d : Data) (hr : d.Rect) (l : List (Option ℕ)) (h : iterate d = some l) : ∀ x ∈ l, x.isSome := by
  have hsz : d.size.isSome := by
    cases hs : d.size with
    | none => simp [iterate, hs] at h
    | some => rfl
  rw [C106_iterate d hr hsz] at h
  rw [← Option.some.inj h]
  intro x hx
  obtain ⟨k, hk, rfl⟩ := List.mem_map.mp hx
  exact at?_isSome d hr k hk

/-- The constructor looks only at the first row: rows of different lengths are accepted, and the iteration leaves the vector. -/
theorem C106_jagged : checkNames [[['a'], ['b']], [['c'], ['d']]] (.two [[0, 1], [2]]) = some true ∧ iterate (.two [[0, 1], [2]]) = some [some 0, some 1, some 2, none] := by decide

/-- The factory `make_block2_gf` compares all rows. -/
theorem C106_make2 (n1 n2 : List Name) (vv : List (List ℕ)) (h : checkNames2 n1 n2 vv = true) : (Data.two vv).Rect ∧ checkNames [n1, n2] (.two vv) = some true := by
  simp only [checkNames2, Bool.and_eq_true, beq_iff_eq, List.all_eq_true] at h
  refine ⟨⟨n2.length, fun r hr => (h.2 r hr).symm⟩, ?_⟩
  cases vv with
  | nil => have := h.1; simp [checkNames, List.length_eq_zero_iff.mp this]
  | cons r rs =>
    have := h.2 r (by simp)
    simp [checkNames, h.1, this]

theorem foldl_push {α β : Type} (f : α → β) (l : List α) (acc : List β) : l.foldl (fun r x => r ++ [f x]) acc = acc ++ l.map f := by
  induction l generalizing acc with
  | nil => simp
  | cons x l ih => simp [ih]

/-- **C106.** `map_block_gf` applies the function to every block and keeps the names. -/
theorem C106_map {H : Type} (f : G → H) (names : List Name) (gs : List G) (h : names.length = gs.length) : mapBlocks f names gs = some (names, gs.map f) := by
  simp only [mapBlocks, foldl_push, List.nil_append, List.length_map, h, if_true]

/-- **C106.** The default names of the blocks are pairwise different. -/
theorem C106_names (n : ℕ) : (makeBlockNames1 n).Nodup ∧ (makeBlockNames1 n).length = n := by
  refine ⟨List.nodup_range.map ?_, by simp [makeBlockNames1]⟩
  intro a b h
  have h' : (toString a).toList = (toString b).toList := h
  have : toString a = toString b := String.toList_injective h'
  exact Nat.repr_injective this

/-! ### Archives -/

theorem bn_ne : ("block_names1".toList : Name) ≠ "block_names2".toList := by decide

theorem write_self (a : Arch G) (k : Name) (x : Node G) : Arch.write a k x k = some x := if_pos rfl

theorem write_ne (a : Arch G) (x : Node G) {k k' : Name} (h : k' ≠ k) : Arch.write a k x k' = a k' := if_neg h

theorem writeBlocks_of_notMem (a : Arch G) (ps : List (Name × G)) (k : Name) (h : ∀ p ∈ ps, p.1 ≠ k) : writeBlocks a ps k = a k := by
  induction ps generalizing a with
  | nil => rfl
  | cons p ps ih =>
    rw [writeBlocks, ih _ fun q hq => h q (by simp [hq])]
    simp only [Arch.write]
    rw [if_neg fun e => h p (by simp) e.symm]

theorem writeBlocks_of_mem (a : Arch G) (ps : List (Name × G)) (hn : (ps.map Prod.fst).Nodup) (p : Name × G) (hp : p ∈ ps) : writeBlocks a ps p.1 = some (.gf p.2) := by
  induction ps generalizing a with
  | nil => simp at hp
  | cons q ps ih =>
    simp only [List.map_cons, List.nodup_cons] at hn
    rw [writeBlocks]
    rcases List.mem_cons.mp hp with rfl | hp
    · rw [writeBlocks_of_notMem _ _ _ fun x hx e => hn.1 (List.mem_map.mpr ⟨x, hx, e⟩)]
      simp [Arch.write]
    · exact ih _ hn.2 hp

/-- what is found under a name is what was written last -/
theorem writeBlocks_cases (a : Arch G) (ps : List (Name × G)) (k : Name) : writeBlocks a ps k = a k ∨ ∃ p ∈ ps, p.1 = k ∧ writeBlocks a ps k = some (.gf p.2) := by
  induction ps generalizing a with
  | nil => exact .inl rfl
  | cons q ps ih =>
    rw [writeBlocks]
    rcases ih (Arch.write a q.1 (.gf q.2)) with h | ⟨p, hp, h1, h2⟩
    · by_cases e : k = q.1
      · right
        exact ⟨q, by simp, e.symm, by rw [h]; simp [Arch.write, e]⟩
      · left
        rw [h]; simp [Arch.write, e]
    · exact .inr ⟨p, by simp [hp], h1, h2⟩

theorem mapM_some {α β : Type} (f : α → Option β) (l : List α) (g : List β) : l.mapM f = some g ↔ l.map f = g.map some := by
  induction l generalizing g with
  | nil => cases g <;> simp
  | cons x l ih =>
    cases g with
    | nil =>
      simp only [List.mapM_cons, List.map_cons, List.map_nil, reduceCtorEq, iff_false]
      cases f x <;> cases l.mapM f <;> simp
    | cons y g =>
      simp only [List.mapM_cons, List.map_cons, List.cons.injEq, ← ih g]
      cases hx : f x <;> cases hl : l.mapM f <;> simp

/-- **C105.** Writing a block function of arity one to an archive and reading it back gives the same names and blocks, if the names are
pairwise different and none of them is `block_names`. -/
theorem C105_round_trip (names : List Name) (gs : List G) (hl : names.length = gs.length) (hn : names.Nodup) (hb : "block_names".toList ∉ names) :
    h5Read1 (h5Write1 names gs) = some (names, gs) := by
  have hfst : (names.zip gs).map Prod.fst = names := List.map_fst_zip (by omega)
  have h1 : readNames (h5Write1 names gs) "block_names".toList = some names := by
    unfold readNames h5Write1
    rw [writeBlocks_of_notMem]
    · simp [Arch.write]
    · intro p hp e
      apply hb
      rw [← e, ← hfst]
      exact List.mem_map_of_mem hp
  rw [h5Read1, h1, Option.bind_some]
  have h2 : names.mapM (readGf (h5Write1 names gs)) = some gs := by
    rw [mapM_some]
    apply List.ext_getElem (by simp [hl])
    intro j h1 h2
    simp only [List.getElem_map]
    simp only [List.length_map] at h1 h2
    have hp : (names[j], gs[j]) ∈ names.zip gs := by
      have : (names.zip gs)[j]'(by simp [List.length_zip]; omega) = (names[j], gs[j]) := List.getElem_zip
      rw [← this]; exact List.getElem_mem _
    have := writeBlocks_of_mem (Arch.write (fun _ => none) "block_names".toList (.strs names)) (names.zip gs) (by rw [hfst]; exact hn) _ hp
    simp only [readGf, h5Write1]
    simp only at this
    rw [this]
  rw [h2]; rfl

/-- **C105.** These conditions are necessary: for other names there are blocks that are not recovered. -/
theorem C105_necessary (g g' : G) (hg : g ≠ g') (names : List Name) (h : ∀ gs : List G, names.length = gs.length → h5Read1 (h5Write1 names gs) = some (names, gs)) :
    names.Nodup ∧ "block_names".toList ∉ names := by
  constructor
  · rw [List.nodup_iff_injective_getElem]
    intro x y hxy
    by_contra hne
    have := h ((List.range names.length).map fun j => if j = x.1 then g else g') (by simp)
    unfold h5Read1 at this
    obtain ⟨ns, h1, h2⟩ := Option.bind_eq_some_iff.mp this
    obtain ⟨gs, h3, h4⟩ := Option.map_eq_some_iff.mp h2
    simp only [Prod.mk.injEq] at h4
    obtain ⟨rfl, rfl⟩ := h4
    rw [mapM_some] at h3
    have ex := congrArg (fun l => l[x.1]?) h3
    have ey := congrArg (fun l => l[y.1]?) h3
    simp only [List.getElem?_map, List.getElem?_eq_getElem x.2, List.getElem?_eq_getElem y.2, List.getElem?_range x.2, List.getElem?_range y.2, Option.map_some, Option.some.injEq] at ex ey
    simp only at hxy
    rw [hxy, ey] at ex
    have hyx : ¬ (y.1 = x.1) := fun e => hne (Fin.ext e.symm)
    simp [hyx] at ex
    exact hg ex.symm
  · intro hm
    obtain ⟨j, hj, e⟩ := List.getElem_of_mem hm
    have := h (List.replicate names.length g) (by simp)
    unfold h5Read1 at this
    obtain ⟨ns, h1, -⟩ := Option.bind_eq_some_iff.mp this
    unfold readNames h5Write1 at h1
    have hmem : ("block_names".toList, g) ∈ names.zip (List.replicate names.length g) := by
      have : (names.zip (List.replicate names.length g))[j]'(by simp [List.length_zip]; omega) = (names[j], (List.replicate names.length g)[j]'(by simp; omega)) := List.getElem_zip
      rw [← e]
      have e2 : (List.replicate names.length g)[j]'(by simp; omega) = g := by simp
      rw [e2] at this
      rw [← this]; exact List.getElem_mem _
    have hw : ∃ x, writeBlocks (Arch.write (fun _ => none) "block_names".toList (.strs names)) (names.zip (List.replicate names.length g)) "block_names".toList = some (.gf x) := by
      have aux : ∀ (a : Arch G) (ps : List (Name × G)), ("block_names".toList, g) ∈ ps → ∃ x, writeBlocks a ps "block_names".toList = some (.gf x) := by
        intro a ps
        induction ps generalizing a with
        | nil => simp
        | cons q ps ih =>
          intro hq
          rw [writeBlocks]
          by_cases hin : ("block_names".toList, g) ∈ ps
          · exact ih _ hin
          · have e1 : q = ("block_names".toList, g) := ((List.mem_cons.mp hq).resolve_right hin).symm
            rcases writeBlocks_cases (Arch.write a q.1 (.gf q.2)) ps "block_names".toList with h | ⟨p, _, _, h⟩
            · exact ⟨g, by rw [h, e1]; simp [Arch.write]⟩
            · exact ⟨_, h⟩
      exact aux _ _ hmem
    obtain ⟨x, hx⟩ := hw
    rw [hx] at h1
    simp at h1

theorem mem_joinNames {n1 n2 : List Name} {k : Name} : k ∈ joinNames n1 n2 ↔ ∃ a ∈ n1, ∃ b ∈ n2, joinName a b = k := by simp [joinNames]

theorem zip_flat (n1 n2 : List Name) (gs : List (List G)) (h1 : n1.length = gs.length) (h2 : ∀ r ∈ gs, r.length = n2.length) :
    ((n1.zip gs).flatMap fun p => (n2.zip p.2).map fun q => (joinName p.1 q.1, q.2)).map Prod.fst = joinNames n1 n2 := by
  induction n1 generalizing gs with
  | nil => simp [joinNames]
  | cons a n1 ih =>
    cases gs with
    | nil => simp at h1
    | cons r gs =>
      have := ih gs (by simpa using h1) fun r hr => h2 r (by simp [hr])
      simp only [joinNames, List.zip_cons_cons, List.flatMap_cons, List.map_append, List.map_map] at this ⊢
      rw [this]
      congr 1
      have hr := h2 r (by simp)
      have e : (n2.zip r).map Prod.fst = n2 := List.map_fst_zip (by omega)
      conv_rhs => rw [← e]
      rw [List.map_map]
      rfl

/-- **C105.** For arity two the joined names have to be pairwise different and different from those of the lists of names. -/
theorem C105_round_trip2 (n1 n2 : List Name) (gs : List (List G)) (h1 : n1.length = gs.length) (h2 : ∀ r ∈ gs, r.length = n2.length) (hn : (joinNames n1 n2).Nodup)
    (hb1 : "block_names1".toList ∉ joinNames n1 n2) (hb2 : "block_names2".toList ∉ joinNames n1 n2) : h5Read2 (h5Write2 n1 n2 gs) = some (n1, n2, gs) := by
  have hz := zip_flat n1 n2 gs h1 h2
  have r1 : readNames (h5Write2 n1 n2 gs) "block_names1".toList = some n1 := by
    unfold readNames h5Write2
    rw [writeBlocks_of_notMem]
    · rw [write_ne _ _ bn_ne, write_self]
    · intro p hp e
      apply hb1
      rw [← e, ← hz]
      exact List.mem_map_of_mem hp
  have r2 : readNames (h5Write2 n1 n2 gs) "block_names2".toList = some n2 := by
    unfold readNames h5Write2
    rw [writeBlocks_of_notMem]
    · rw [write_self]
    · intro p hp e
      apply hb2
      rw [← e, ← hz]
      exact List.mem_map_of_mem hp
  rw [h5Read2, r1, Option.bind_some, r2, Option.bind_some]
  have r3 : (n1.mapM fun x => n2.mapM fun y => readGf (h5Write2 n1 n2 gs) (joinName x y)) = some gs := by
    rw [mapM_some]
    apply List.ext_getElem (by simp [h1])
    intro i hi hi'
    simp only [List.length_map] at hi hi'
    simp only [List.getElem_map]
    rw [mapM_some]
    have hlen := h2 _ (List.getElem_mem hi')
    apply List.ext_getElem (by simp [hlen])
    intro j hj hj'
    simp only [List.length_map] at hj hj'
    simp only [List.getElem_map]
    have hp : (joinName n1[i] n2[j], gs[i][j]) ∈ (n1.zip gs).flatMap fun p => (n2.zip p.2).map fun q => (joinName p.1 q.1, q.2) := by
      rw [List.mem_flatMap]
      refine ⟨(n1[i], gs[i]), ?_, ?_⟩
      · have : (n1.zip gs)[i]'(by simp [List.length_zip]; omega) = (n1[i], gs[i]) := List.getElem_zip
        rw [← this]; exact List.getElem_mem _
      · rw [List.mem_map]
        refine ⟨(n2[j], gs[i][j]), ?_, rfl⟩
        have : (n2.zip gs[i])[j]'(by simp [List.length_zip]; omega) = (n2[j], gs[i][j]) := List.getElem_zip
        simp only
        rw [← this]; exact List.getElem_mem _
    have := writeBlocks_of_mem (Arch.write (Arch.write (fun _ => none) "block_names1".toList (.strs n1)) "block_names2".toList (.strs n2)) _ (by rw [hz]; exact hn) _ hp
    simp only [readGf, h5Write2]
    simp only at this
    rw [this]
  rw [r3]; rfl

theorem joinName_inj {a b a' b' : Name} (ha : '_' ∉ a) (ha' : '_' ∉ a') (h : joinName a b = joinName a' b') : a = a' ∧ b = b' := by
  induction a generalizing a' with
  | nil =>
    cases a' with
    | nil => simpa [joinName] using h
    | cons c a' =>
      simp only [joinName, List.nil_append, List.cons_append, List.cons.injEq] at h
      exact absurd (by simp [← h.1]) ha'
  | cons c a ih =>
    cases a' with
    | nil =>
      simp only [joinName, List.nil_append, List.cons_append, List.cons.injEq] at h
      exact absurd (by simp [h.1]) ha
    | cons c' a' =>
      simp only [joinName, List.cons_append, List.cons.injEq] at h
      obtain ⟨h1, h2⟩ := ih (fun h => ha (by simp [h])) (fun h => ha' (by simp [h])) h.2
      exact ⟨by rw [h.1, h1], h2⟩

/-- **C105.** A sufficient condition: pairwise different names of rows without underscore, pairwise different names of columns. -/
theorem C105_plain (n1 n2 : List Name) (hu : ∀ a ∈ n1, '_' ∉ a) (h1 : n1.Nodup) (h2 : n2.Nodup) : (joinNames n1 n2).Nodup := by
  unfold joinNames
  rw [List.nodup_flatMap]
  refine ⟨fun a _ => h2.map fun b b' h => ?_, ?_⟩
  · simpa [joinName] using h
  · refine h1.imp_of_mem ?_
    intro a a' ha ha' hne
    simp only [Function.onFun, List.disjoint_left, List.mem_map, not_exists, not_and]
    rintro x ⟨b, _, rfl⟩ b' _ h
    exact hne (joinName_inj (hu a' ha') (hu a ha) h).1.symm

end

/-- **C105** does not hold for all names: with rows and columns named `x` and `x_x`, two of the four blocks are stored under the same
name; the first one is lost. -/
theorem C105_collision : (["x".toList, "x_x".toList] : List Name).Nodup ∧
    h5Read2 (h5Write2 ["x".toList, "x_x".toList] ["x".toList, "x_x".toList] [[1, 2], [3, 4]]) = some (["x".toList, "x_x".toList], ["x".toList, "x_x".toList], [[1, 3], [3, 4]]) := by
  decide +kernel

/-- A block named `block_names` makes the archive unreadable. -/
theorem C105_reserved : h5Read1 (h5Write1 ["up".toList, "block_names".toList] [1, 2]) = none := by decide +kernel

example : h5Read1 (h5Write1 ["up".toList, "dn".toList] [1, 2]) = some (["up".toList, "dn".toList], [1, 2]) := by decide +kernel
example : h5Read2 (h5Write2 ["up".toList, "dn".toList] ["0".toList] [[1], [2]]) = some (["up".toList, "dn".toList], ["0".toList], [[1], [2]]) := by decide +kernel

/-- `mpi_broadcast` sends the blocks but not their names. -/
theorem C104_broadcast : ∃ ranks : ℕ → List Name × List ℤ, (∀ r, (ranks r).1.length = (ranks r).2.length) ∧ (mpiBroadcast 0 ranks 1).2 = (ranks 0).2 ∧
    (mpiBroadcast 0 ranks 1).1.length ≠ (mpiBroadcast 0 ranks 1).2.length :=
  ⟨fun r => if r = 0 then (["u".toList, "d".toList], [1, 2]) else ([], []), fun r => by dsimp only; split <;> rfl, rfl, by decide⟩

end Verif.BlockGf
