import Mathlib.Algebra.Star.Basic
import Mathlib.Data.List.GetD
import Mathlib.NumberTheory.Zsqrtd.GaussianInt
import Mathlib.Tactic.Linarith
import Std.Data.String.ToNat

/-!
# Property C162: construction, copies, assignment and pickles of Green functions in Python

Sources: `/repo/python/triqs/gf/gf.py` (the constructor 107-176, `copy`, `copy_from`, `__lshift__`, `transpose`, `conjugate`,
the pickling 722-746), `/repo/python/triqs/gf/mesh_product.py`, `/repo/c++/triqs/gfs/functions/imfreq.hpp`
(`make_gf_from_real_gf`), `/repo/python/triqs/gf/wrapped_aux_desc.py` (155-156).

Objects: the meshes of one variable and the numpy arrays live in a memory and are referred to by numbers; a Green function
holds references to its mesh (for a product: to the components) and to its array. A new object gets the first free number.

Simplifications: elements of an array are elements of a type `K`; `re` is the real part;
`kind` is the class of a mesh and `pars` its other parameters (the inverse temperature etc.); arrays are given as they are and
are not views of other arrays. Python runs without `-O`. Meshes are pickled through their archive, which gives an equal mesh
(C43 and the other archives).
-/

namespace Verif.PyGf

/-! ## Model -/

/-- a mesh of one variable; `pos`: only positive frequencies -/
structure Comp where
  kind : String
  pars : ℕ
  size : ℕ
  pos : Bool
  boson : Bool
deriving DecidableEq

/-- an array of real (`isReal`) or complex numbers -/
structure Arr (K : Type) where
  isReal : Bool
  shape : List ℕ
  el : List ℕ → K

/-- the memory: `comps i` for `i < nc` and `arrs i` for `i < na` exist -/
structure Mem (K : Type) where
  comps : ℕ → Comp
  nc : ℕ
  arrs : ℕ → Arr K
  na : ℕ

/-- `isProd`: the mesh is a `MeshProduct`; otherwise `mesh` has one element -/
structure Gf where
  isProd : Bool
  mesh : List ℕ
  data : ℕ
  name : String
deriving DecidableEq

inductive Err where
  | assertion | index | type | attribute
deriving DecidableEq

variable {K : Type}

def Mem.sizes (s : Mem K) (m : List ℕ) : List ℕ := m.map fun i => (s.comps i).size

/-- a new array -/
def Mem.newArr (s : Mem K) (a : Arr K) : Mem K × ℕ := ({ s with arrs := fun i => if i = s.na then a else s.arrs i, na := s.na + 1 }, s.na)

/-- new meshes with the given values -/
def Mem.newComps (s : Mem K) (cs : List Comp) : Mem K × List ℕ :=
  ({ s with comps := fun i => if s.nc ≤ i then (cs[i - s.nc]?).getD (s.comps i) else s.comps i, nc := s.nc + cs.length },
    (List.range cs.length).map (s.nc + ·))

/-- the argument `indices`: a list whose first element is a list or a range, with the lengths of its elements, or another one -/
inductive Indices where
  | nested (lens : List ℕ)
  | flat (n : ℕ)

/-- lines 131-138; `indices[0]` of an empty list is an `IndexError` -/
def Indices.shape : Indices → Except Err (List ℕ)
  | .nested [] => .error .index
  | .nested l => .ok l
  | .flat 0 => .error .index
  | .flat n => .ok [n, n]

/-- the arguments of the constructor besides the mesh -/
structure Args where
  data : Option ℕ := none
  targetShape : Option (List ℤ) := none
  name : String := ""
  isReal : Bool := false
  indices : Option Indices := none

/-- the constructor, gf.py:111-174. `shape` is the target shape after the arguments `target_shape` and `indices` were looked at. `rank` and `target_rank` (154-155) are those of the mesh. The proxy for calls (166-171) is left out; `__check_invariants` (178-183) tests nothing more. -/
def construct [Zero K] (s : Mem K) (isProd : Bool) (mesh : List ℕ) (a : Args) : Except Err (Mem K × Gf) :=
  if a.targetShape.isSome && a.data.isSome then .error .assertion
  else if a.data.isSome && a.isReal then .error .assertion
  else if (a.targetShape.getD []).any (fun i => decide (i ≤ 0)) then .error .assertion
  else
    let shape : Except Err (Option (List ℕ)) := match a.indices with
      | none => .ok (a.targetShape.map fun l => l.map Int.toNat)
      | some ix => if a.targetShape.isSome then .error .assertion else ix.shape.map some
    match shape with
    | .error e => .error e
    | .ok sh =>
      let l := s.sizes mesh
      match a.data with
      | none =>
        match sh with
        | none => .error .assertion
        | some t =>
          let r := s.newArr ⟨a.isReal, l ++ t, fun _ => 0⟩
          .ok (r.1, ⟨isProd, mesh, r.2, a.name⟩)
      | some d =>
        if (s.arrs d).shape.take l.length = l then
          match sh with
          | none => .ok (s, ⟨isProd, mesh, d, a.name⟩)
          | some t => if t = (s.arrs d).shape.drop l.length then .ok (s, ⟨isProd, mesh, d, a.name⟩) else .error .assertion
        else .error .assertion

/-- `copy`, gf.py:250-260 with `MeshProduct.copy`, mesh_product.py:85-89 -/
def copy [Zero K] (s : Mem K) (g : Gf) : Except Err (Mem K × Gf) :=
  let r := s.newComps (g.mesh.map s.comps)
  let q := r.1.newArr (s.arrs g.data)
  construct q.1 g.isProd r.2 { data := some q.2, name := g.name }

/-- `copy_from` of a mesh of one variable: the object `i` gets the value of `j`; for another class a `TypeError` -/
def compCopyFrom (s : Mem K) (i j : ℕ) : Mem K × Option Err :=
  if (s.comps i).kind = (s.comps j).kind then ({ s with comps := fun k => if k = i then s.comps j else s.comps k }, none)
  else (s, some .type)

/-- the loop of mesh_product.py:96 -/
def compsCopyFrom (s : Mem K) : List (ℕ × ℕ) → Mem K × Option Err
  | [] => (s, none)
  | (i, j) :: l =>
    match compCopyFrom s i j with
    | (s', none) => compsCopyFrom s' l
    | (s', some e) => (s', some e)

/-- `copy_from` of meshes: of one variable, or mesh_product.py:91-96. A mesh of one variable has no attribute `rank`. -/
def meshCopyFrom (s : Mem K) (g h : Gf) : Mem K × Option Err :=
  match g.isProd, h.isProd with
  | false, false => compsCopyFrom s (g.mesh.zip h.mesh)
  | false, true => (s, some .type)
  | true, false => (s, some .attribute)
  | true, true => if g.mesh.length = h.mesh.length then compsCopyFrom s (g.mesh.zip h.mesh) else (s, some .assertion)

/-- `x[:] = y[:]` for arrays of the same shape: numpy keeps the type of `x` and drops imaginary parts with a warning -/
def write (re : K → K) (x y : Arr K) : Arr K := ⟨x.isReal, x.shape, fun i => if x.isReal && !y.isReal then re (y.el i) else y.el i⟩

/-- `Gf.copy_from`, gf.py:262-267: first the mesh, then the test of the shapes, then the data -/
def copyFrom (re : K → K) (s : Mem K) (g h : Gf) : Mem K × Option Err :=
  match meshCopyFrom s g h with
  | (s', some e) => (s', some e)
  | (s', none) =>
    if (s'.arrs g.data).shape = (s'.arrs h.data).shape then
      ({ s' with arrs := fun k => if k = g.data then write re (s'.arrs g.data) (s'.arrs h.data) else s'.arrs k }, none)
    else (s', some .assertion)

/-- `==` of the meshes: of one variable the values are compared (C50); `MeshProduct.__eq__`, mesh_product.py:73-77, compares the tuples
and raises an `AttributeError` for a mesh of one variable. The C++ comparison with an object of another class gives `False`. -/
def meshEq (s : Mem K) (g h : Gf) : Except Err Bool :=
  match g.isProd, h.isProd with
  | true, false => .error .attribute
  | false, true => .ok false
  | _, _ => .ok (decide (g.mesh.map s.comps = h.mesh.map s.comps))

/-- `g << h` for a Green function `h`, gf.py:387-390; two functions of the same objects and name count as one here, for which the
copy changes nothing -/
def assign (re : K → K) (s : Mem K) (g h : Gf) : Mem K × Option Err :=
  if g = h then (s, none)
  else match meshEq s g h with
    | .error e => (s, some e)
    | .ok false => (s, some .assertion)
    | .ok true => copyFrom re s g h

/-- `transpose`, gf.py:620-643 -/
def transpose [Zero K] (s : Mem K) (g : Gf) : Except Err (Mem K × Gf) :=
  if g.mesh.length ≠ 1 then .error .assertion
  else if (s.arrs g.data).shape.length ≠ g.mesh.length + 2 then .error .assertion
  else
    let a := s.arrs g.data
    let sw : List ℕ → List ℕ := fun i => [i.getD 0 0, i.getD 2 0, i.getD 1 0]
    let r := s.newArr ⟨a.isReal, sw a.shape, fun i => a.el (sw i)⟩
    construct r.1 g.isProd g.mesh { data := some r.2 }

/-- `conjugate`, gf.py:645-653 -/
def conjugate [Zero K] [Star K] (s : Mem K) (g : Gf) : Except Err (Mem K × Gf) :=
  let r := s.newArr ⟨(s.arrs g.data).isReal, (s.arrs g.data).shape, fun i => star ((s.arrs g.data).el i)⟩
  construct r.1 g.isProd g.mesh { data := some r.2 }

/-- the data of `make_gf_from_real_gf`, imfreq.hpp:35-46, from those with `L` rows -/
def unfold [Star K] (boson : Bool) (L : ℕ) (a : Arr K) : Arr K :=
  let b := if boson then 1 else 0
  ⟨false, (2 * L - b) :: a.shape.tail, fun i =>
    let d := i.headD 0
    if L - b ≤ d then a.el ((d - (L - b)) :: i.tail) else star (a.el ((L - 1 - d) :: i.tail))⟩

/-- What is pickled or written, gf.py:725-727: the values of the mesh and of the data. `other`: names of further entries of
a file. -/
structure Dict (K : Type) where
  isProd : Bool
  mesh : List Comp
  data : Arr K
  other : List String := []

/-- `__reduce_to_dict__`, gf.py:725-727 -/
def toDict (s : Mem K) (g : Gf) : Dict K := ⟨g.isProd, g.mesh.map s.comps, s.arrs g.data, []⟩

/-- `__factory_from_dict__`, gf.py:731-746. An entry other than `singularity` and `indices` is an unknown keyword of the
constructor. The unfolding is wrapped for matrix-valued functions of complex numbers only (wrapped_aux_desc.py:155-156) and gives a function
without a name. -/
def ofDict [Zero K] [Star K] (s : Mem K) (name : String) (d : Dict K) : Except Err (Mem K × Gf) :=
  if d.other.all (fun k => decide (k = "singularity" ∨ k = "indices")) then
    let r := s.newComps d.mesh
    let q := r.1.newArr d.data
    match construct q.1 d.isProd r.2 { data := some q.2, name := name } with
    | .error e => .error e
    | .ok (s', g) =>
      match d.isProd, d.mesh with
      | false, [c] =>
        if c.kind = "MeshImFreq" ∧ c.pos = true then
          if d.data.shape.length = 3 ∧ d.data.isReal = false then
            let a := unfold c.boson c.size d.data
            let r2 := s'.newComps [{ c with pos := false, size := 2 * c.size - if c.boson then 1 else 0 }]
            let q2 := r2.1.newArr a
            construct q2.1 false r2.2 { data := some q2.2 }
          else .error .type
        else .ok (s', g)
      | _, _ => .ok (s', g)
  else .error .type

/-- pickling and unpickling, gf.py:722-723 -/
def pickle [Zero K] [Star K] (s : Mem K) (g : Gf) : Except Err (Mem K × Gf) := ofDict s g.name (toDict s g)

/-- the dictionary of a product, mesh_product.py:116-117 -/
def prodDict {α : Type} (l : List α) : List (String × α) := l.mapIdx fun i m => ("MeshComponent" ++ toString i, m)

/-- `__factory_from_dict__` of a product, mesh_product.py:123-125, from a dictionary in any order -/
def ofProdDict {α : Type} (d : List (String × α)) : Option (List α) :=
  (List.range d.length).mapM fun i => d.lookup ("MeshComponent" ++ toString i)

/-! ## Specification -/

/-- the references exist -/
def Mem.Refs (s : Mem K) (g : Gf) : Prop := (∀ i ∈ g.mesh, i < s.nc) ∧ g.data < s.na

/-- the first dimensions of the data are the sizes of the mesh -/
def Valid (s : Mem K) (g : Gf) : Prop :=
  (g.isProd = false → g.mesh.length = 1) ∧ (s.arrs g.data).shape.take g.mesh.length = s.sizes g.mesh

/-- what a user sees of a function: mesh and data -/
def content (s : Mem K) (g : Gf) : Bool × List Comp × Bool × List ℕ × (List ℕ → K) :=
  (g.isProd, g.mesh.map s.comps, (s.arrs g.data).isReal, (s.arrs g.data).shape, (s.arrs g.data).el)

/-- everything that existed is as it was -/
def Keeps (s s' : Mem K) : Prop :=
  s.nc ≤ s'.nc ∧ s.na ≤ s'.na ∧ (∀ i < s.nc, s'.comps i = s.comps i) ∧ ∀ i < s.na, s'.arrs i = s.arrs i

/-! ## Proofs -/

theorem Keeps.refl (s : Mem K) : Keeps s s := ⟨le_rfl, le_rfl, fun _ _ => rfl, fun _ _ => rfl⟩

theorem Keeps.trans {s t u : Mem K} (h : Keeps s t) (k : Keeps t u) : Keeps s u :=
  ⟨h.1.trans k.1, h.2.1.trans k.2.1, fun i hi => (k.2.2.1 i (hi.trans_le h.1)).trans (h.2.2.1 i hi),
    fun i hi => (k.2.2.2 i (hi.trans_le h.2.1)).trans (h.2.2.2 i hi)⟩

theorem keeps_newArr (s : Mem K) (a : Arr K) : Keeps s (s.newArr a).1 := by
  refine ⟨le_rfl, Nat.le_succ _, fun _ _ => rfl, fun i hi => ?_⟩
  simp [Mem.newArr, hi.ne]

theorem keeps_newComps (s : Mem K) (cs : List Comp) : Keeps s (s.newComps cs).1 := by
  refine ⟨Nat.le_add_right _ _, le_rfl, fun i hi => ?_, fun _ _ => rfl⟩
  simp [Mem.newComps, hi.not_ge]

theorem newComps_values (s : Mem K) (cs : List Comp) : (s.newComps cs).2.map (s.newComps cs).1.comps = cs := by
  apply List.ext_getElem?
  intro n
  simp only [Mem.newComps, List.map_map, List.getElem?_map]
  by_cases h : n < cs.length
  · simp [h]
  · simp [h]

theorem content_keeps {s s' : Mem K} (h : Keeps s s') {g : Gf} (hg : s.Refs g) : content s' g = content s g := by
  unfold content
  rw [h.2.2.2 _ hg.2]
  congr 2
  exact List.map_congr_left fun i hi => h.2.2.1 i (hg.1 i hi)

/-- **C162, construction.** A constructor call that succeeds gives a function on the mesh object of the argument whose data have the sizes of
the mesh in front; given data are used and not copied, otherwise the data are a new array of zeros with the target shape asked for; and no
object is modified. -/
theorem C162_construct [Zero K] (s s' : Mem K) (isProd : Bool) (mesh : List ℕ) (a : Args) (g : Gf)
    (h1 : isProd = false → mesh.length = 1) (h : construct s isProd mesh a = .ok (s', g)) :
    Valid s' g ∧ g.isProd = isProd ∧ g.mesh = mesh ∧ g.name = a.name ∧ Keeps s s' ∧
    (∀ d, a.data = some d → g.data = d ∧ s' = s) ∧
    (a.data = none → g.data = s.na ∧ s'.na = s.na + 1 ∧ ∃ t, (s'.arrs g.data) = ⟨a.isReal, s.sizes mesh ++ t, fun _ => 0⟩ ∧
      ∀ ts, a.targetShape = some ts → t.map Int.ofNat = ts ∧ ∀ i ∈ ts, 0 < i) := by
  have hlen : (s.sizes mesh).length = mesh.length := by simp [Mem.sizes]
  unfold construct at h
  split at h
  · cases h
  split at h
  · cases h
  split at h
  · cases h
  rename_i hA hB hC
  have hpos : ∀ ts, a.targetShape = some ts → ∀ i ∈ ts, 0 < i := by
    intro ts hts i hi
    rw [hts] at hC
    simp only [Option.getD_some, List.any_eq_true, not_exists, not_and, decide_eq_true_eq] at hC
    have := hC i hi
    omega
  simp only at h
  split at h
  · cases h
  rename_i sh hsh
  split at h
  · rename_i hd
    split at h
    · cases h
    · rename_i t
      cases h
      refine ⟨⟨h1, ?_⟩, rfl, rfl, rfl, keeps_newArr _ _, ?_, ?_⟩
      · simp [Mem.newArr, Mem.sizes]
      · intro d hd'; rw [hd] at hd'; cases hd'
      · intro _
        refine ⟨rfl, rfl, t, by simp [Mem.newArr], fun ts hts => ⟨?_, hpos ts hts⟩⟩
        rw [hts] at hsh
        cases hix : a.indices with
        | some ix => simp [hix] at hsh
        | none =>
          simp only [hix, Option.map_some, Except.ok.injEq, Option.some.injEq] at hsh
          rw [← hsh, List.map_map]
          conv_rhs => rw [← List.map_id ts]
          apply List.map_congr_left
          intro i hi
          have := hpos ts hts i hi
          simp; omega
  · rename_i d hd
    split at h
    · rename_i htake
      have key : s' = s ∧ g = ⟨isProd, mesh, d, a.name⟩ := by
        split at h
        · cases h; exact ⟨rfl, rfl⟩
        · split at h
          · cases h; exact ⟨rfl, rfl⟩
          · cases h
      obtain ⟨rfl, rfl⟩ := key
      refine ⟨⟨h1, by rw [hlen] at htake; exact htake⟩, rfl, rfl, rfl, Keeps.refl _, ?_, ?_⟩
      · intro d' hd'; rw [hd] at hd'; cases hd'; exact ⟨rfl, rfl⟩
      · intro hn; rw [hd] at hn; cases hn
    · cases h

/-- **C162, construction** from the argument `indices` alone: a list of lists gives the target shape of their lengths, a list of `n > 0` other
things the shape `n × n`, and an empty list is refused with an `IndexError`. -/
theorem C162_construct_indices [Zero K] (s : Mem K) (isProd : Bool) (mesh : List ℕ) (name : String) (isReal : Bool) :
    (∀ ix : Indices, ix = .nested [] ∨ ix = .flat 0 →
      construct s isProd mesh { indices := some ix, name := name, isReal := isReal } = .error .index) ∧
    (∀ (ix : Indices) (t : List ℕ), (t ≠ [] ∧ ix = .nested t) ∨ (∃ n, 0 < n ∧ ix = .flat n ∧ t = [n, n]) →
      ∃ s' g, construct s isProd mesh { indices := some ix, name := name, isReal := isReal } = .ok (s', g) ∧
        s'.arrs g.data = ⟨isReal, s.sizes mesh ++ t, fun _ => 0⟩ ∧ g.mesh = mesh ∧ g.name = name) := by
  constructor
  · rintro ix (rfl | rfl) <;> simp [construct, Indices.shape, Except.map]
  · rintro ix t (⟨ht, rfl⟩ | ⟨n, hn, rfl, rfl⟩)
    · obtain ⟨a, l, rfl⟩ := List.exists_cons_of_ne_nil ht
      simp [construct, Indices.shape, Except.map, Mem.newArr]
    · obtain ⟨m, rfl⟩ : ∃ m, n = m + 1 := ⟨n - 1, by omega⟩
      simp [construct, Indices.shape, Except.map, Mem.newArr]

/-- **C162, construction** from data alone: succeeds exactly if the sizes of the mesh are in front of the shape. -/
theorem C162_construct_data [Zero K] (s : Mem K) (isProd : Bool) (mesh : List ℕ) (d : ℕ) (name : String) :
    construct s isProd mesh { data := some d, name := name } =
      if (s.arrs d).shape.take mesh.length = s.sizes mesh then .ok (s, ⟨isProd, mesh, d, name⟩) else .error .assertion := by
  have hlen : (s.sizes mesh).length = mesh.length := by simp [Mem.sizes]
  simp [construct, hlen]

/-- **C162, construction** from a target shape of positive numbers always succeeds (and from others never, `C162_construct`). -/
theorem C162_construct_shape [Zero K] (s : Mem K) (isProd : Bool) (mesh : List ℕ) (ts : List ℤ) (hts : ∀ i ∈ ts, 0 < i) (name : String) (isReal : Bool) :
    ∃ s' g, construct s isProd mesh { targetShape := some ts, name := name, isReal := isReal } = .ok (s', g) := by
  have h : ¬ ts.any (fun i => decide (i ≤ 0)) = true := by
    simp only [List.any_eq_true, decide_eq_true_eq, not_exists, not_and]
    intro i hi
    have := hts i hi
    omega
  unfold construct
  simp only [Option.isSome_none, Option.isSome_some, Bool.and_false, Bool.false_and, Bool.false_eq_true, if_false, Option.getD_some, if_neg h]
  exact ⟨_, _, rfl⟩

/-- the two steps that make new objects from values -/
theorem fresh_spec [Zero K] (s : Mem K) (isProd : Bool) (cs : List Comp) (a : Arr K) (name : String)
    (hv : a.shape.take cs.length = cs.map Comp.size) :
    ∃ s' g, construct ((s.newComps cs).1.newArr a).1 isProd (s.newComps cs).2 { data := some ((s.newComps cs).1.newArr a).2, name := name } =
      .ok (s', g) ∧ Keeps s s' ∧ s'.Refs g ∧ g.name = name ∧ content s' g = (isProd, cs, a.isReal, a.shape, a.el) ∧
      (∀ i ∈ g.mesh, s.nc ≤ i) ∧ s.na ≤ g.data ∧ g.isProd = isProd ∧ g.mesh.length = cs.length := by
  have hval := newComps_values s cs
  have hl : (s.newComps cs).2.length = cs.length := by simp [Mem.newComps]
  have hc : ((s.newComps cs).1.newArr a).1.comps = (s.newComps cs).1.comps := rfl
  have ha : ((s.newComps cs).1.newArr a).1.arrs ((s.newComps cs).1.newArr a).2 = a := by simp [Mem.newArr]
  refine ⟨((s.newComps cs).1.newArr a).1, ⟨isProd, (s.newComps cs).2, ((s.newComps cs).1.newArr a).2, name⟩, ?_,
    (keeps_newComps s cs).trans (keeps_newArr _ _), ?_, rfl, ?_, ?_, le_rfl, rfl, hl⟩
  · rw [C162_construct_data, if_pos]
    rw [ha, hl, hv]
    unfold Mem.sizes
    rw [hc]
    conv_lhs => rw [← hval]
    rw [List.map_map]
    rfl
  · constructor
    · intro i hi
      simp only [Mem.newComps, List.mem_map, List.mem_range] at hi
      obtain ⟨k, hk, rfl⟩ := hi
      simp [Mem.newArr, Mem.newComps, hk]
    · simp [Mem.newArr]
  · unfold content
    simp only
    rw [hc, hval, ha]
  · intro i hi
    simp only [Mem.newComps, List.mem_map, List.mem_range] at hi
    obtain ⟨k, hk, rfl⟩ := hi
    omega

/-- **C162, copies.** `copy` succeeds and gives a function with the same mesh, data and name, made of objects that did not exist
before; everything else is as before. -/
theorem C162_copy [Zero K] (s : Mem K) (g : Gf) (hv : Valid s g) :
    ∃ s' c, copy s g = .ok (s', c) ∧ Keeps s s' ∧ s'.Refs c ∧ c.name = g.name ∧ content s' c = content s g ∧
      (∀ i ∈ c.mesh, s.nc ≤ i) ∧ s.na ≤ c.data := by
  obtain ⟨s', c, h1, h2, h3, h4, h5, h6, h7, -, -⟩ := fresh_spec s g.isProd (g.mesh.map s.comps) (s.arrs g.data) g.name
    (by rw [List.length_map, hv.2]; simp [Mem.sizes])
  exact ⟨s', c, h1, h2, h3, h4, h5, h6, h7⟩

/-! ### Assignment -/

theorem compsCopyFrom_frame (l : List (ℕ × ℕ)) : ∀ s : Mem K, (compsCopyFrom s l).1.arrs = s.arrs ∧ (compsCopyFrom s l).1.nc = s.nc ∧
    (compsCopyFrom s l).1.na = s.na ∧ ∀ k, k ∉ l.map Prod.fst → (compsCopyFrom s l).1.comps k = s.comps k := by
  induction l with
  | nil => intro s; exact ⟨rfl, rfl, rfl, fun _ _ => rfl⟩
  | cons p l ih =>
    intro s
    obtain ⟨i, j⟩ := p
    rw [compsCopyFrom]
    by_cases hk : (s.comps i).kind = (s.comps j).kind
    · simp only [compCopyFrom, if_pos hk]
      obtain ⟨a, b, c, d⟩ := ih { s with comps := fun k => if k = i then s.comps j else s.comps k }
      refine ⟨a, b, c, fun k hk' => ?_⟩
      simp only [List.map_cons, List.mem_cons, not_or] at hk'
      rw [d k hk'.2]
      simp [hk'.1]
    · simp [compCopyFrom, if_neg hk]

theorem meshCopyFrom_frame (s : Mem K) (g h : Gf) : (meshCopyFrom s g h).1.arrs = s.arrs ∧ (meshCopyFrom s g h).1.nc = s.nc ∧
    (meshCopyFrom s g h).1.na = s.na ∧ ∀ k, k ∉ g.mesh → (meshCopyFrom s g h).1.comps k = s.comps k := by
  have hz : ∀ k, k ∉ g.mesh → k ∉ (g.mesh.zip h.mesh).map Prod.fst := by
    intro k hk hm
    obtain ⟨p, hp, rfl⟩ := List.mem_map.mp hm
    exact hk (List.of_mem_zip hp).1
  have hf := compsCopyFrom_frame (g.mesh.zip h.mesh) s
  unfold meshCopyFrom
  split
  · exact ⟨hf.1, hf.2.1, hf.2.2.1, fun k hk => hf.2.2.2 k (hz k hk)⟩
  · exact ⟨rfl, rfl, rfl, fun _ _ => rfl⟩
  · exact ⟨rfl, rfl, rfl, fun _ _ => rfl⟩
  · split
    · exact ⟨hf.1, hf.2.1, hf.2.2.1, fun k hk => hf.2.2.2 k (hz k hk)⟩
    · exact ⟨rfl, rfl, rfl, fun _ _ => rfl⟩

theorem copyFrom_frame (re : K → K) (s : Mem K) (g h : Gf) : (copyFrom re s g h).1.nc = s.nc ∧ (copyFrom re s g h).1.na = s.na ∧
    (∀ k, k ∉ g.mesh → (copyFrom re s g h).1.comps k = s.comps k) ∧ ∀ k, k ≠ g.data → (copyFrom re s g h).1.arrs k = s.arrs k := by
  obtain ⟨a, b, c, d⟩ := meshCopyFrom_frame s g h
  unfold copyFrom
  rcases hm : meshCopyFrom s g h with ⟨s', e⟩
  rw [hm] at a b c d
  rcases e with _ | e
  · simp only
    split
    · refine ⟨b, c, d, fun k hk => ?_⟩
      simp only [if_neg hk]
      rw [← a]
    · exact ⟨b, c, d, fun k _ => by rw [← a]⟩
  · exact ⟨b, c, d, fun k _ => by rw [← a]⟩

/-- **C162, independence.** `copy_from`, however it ends, leaves every function alone that shares neither a mesh object nor the array with
its target; in particular a copy and its original do not influence each other (`C162_copy`). -/
theorem C162_frame (re : K → K) (s : Mem K) (g h f : Gf) (hm : ∀ i ∈ f.mesh, i ∉ g.mesh) (hd : f.data ≠ g.data) :
    content (copyFrom re s g h).1 f = content s f := by
  obtain ⟨-, -, c, d⟩ := copyFrom_frame re s g h
  unfold content
  rw [d _ hd]
  congr 2
  exact List.map_congr_left fun i hi => c i (hm i hi)

theorem compsCopyFrom_same (l : List (ℕ × ℕ)) : ∀ s : Mem K, (∀ p ∈ l, s.comps p.1 = s.comps p.2) → compsCopyFrom s l = (s, none) := by
  induction l with
  | nil => intro s _; rfl
  | cons p l ih =>
    intro s hp
    obtain ⟨i, j⟩ := p
    have hij : s.comps i = s.comps j := hp (i, j) (by simp)
    have hs : ({ s with comps := fun k => if k = i then s.comps j else s.comps k } : Mem K) = s := by
      have : (fun k => if k = i then s.comps j else s.comps k) = s.comps := by
        funext k
        by_cases hk : k = i
        · subst hk; simp [hij]
        · simp [hk]
      rw [this]
    rw [compsCopyFrom]
    simp only [compCopyFrom, hij, if_true]
    rw [hs]
    exact ih s fun p hp' => hp p (List.mem_cons_of_mem _ hp')

theorem zip_eq {α β : Type} (f : α → β) : ∀ (l m : List α), l.map f = m.map f → ∀ p ∈ l.zip m, f p.1 = f p.2
  | [], _, _, p, hp => by simp at hp
  | a :: l, [], h, _, _ => by simp at h
  | a :: l, b :: m, h, p, hp => by
    rw [List.map_cons, List.map_cons, List.cons.injEq] at h
    rw [List.zip_cons_cons, List.mem_cons] at hp
    rcases hp with rfl | hp
    · exact h.1
    · exact zip_eq f l m h.2 p hp

/-- **C162, `<<`.** The assignment of a function succeeds exactly if the meshes are of the same sort and equal and the shapes are equal (or for an
assignment to itself). Then the data are those of the source (the real parts, if the target is real and the source is not) and nothing else has changed; when it fails nothing has
changed at all. -/
theorem C162_assign (re : K → K) (s : Mem K) (g h : Gf) (hne : g ≠ h) :
    ((assign re s g h).2 = none ↔ g.isProd = h.isProd ∧ g.mesh.map s.comps = h.mesh.map s.comps ∧ (s.arrs g.data).shape = (s.arrs h.data).shape) ∧
    ((assign re s g h).2 = none → (assign re s g h).1.comps = s.comps ∧ (∀ k, k ≠ g.data → (assign re s g h).1.arrs k = s.arrs k) ∧
      ((assign re s g h).1.arrs g.data).shape = (s.arrs h.data).shape ∧ ((assign re s g h).1.arrs g.data).isReal = (s.arrs g.data).isReal ∧
      ∀ i, ((assign re s g h).1.arrs g.data).el i =
        if (s.arrs g.data).isReal = true ∧ (s.arrs h.data).isReal = false then re ((s.arrs h.data).el i) else (s.arrs h.data).el i) ∧
    ((assign re s g h).2 ≠ none → (assign re s g h).1 = s) := by
  have main : g.isProd = h.isProd → g.mesh.map s.comps = h.mesh.map s.comps → meshCopyFrom s g h = (s, none) := by
    intro hp hm
    have hl : g.mesh.length = h.mesh.length := by simpa using congrArg List.length hm
    have := compsCopyFrom_same (g.mesh.zip h.mesh) s (zip_eq s.comps _ _ hm)
    unfold meshCopyFrom
    rw [hp]
    cases h.isProd <;> simp [hl, this]
  unfold assign
  rw [if_neg hne]
  by_cases hp : g.isProd = h.isProd
  · have he : meshEq s g h = .ok (decide (g.mesh.map s.comps = h.mesh.map s.comps)) := by
      unfold meshEq
      rw [hp]
      cases h.isProd <;> rfl
    rw [he]
    by_cases hm : g.mesh.map s.comps = h.mesh.map s.comps
    · simp only [hm, decide_true]
      unfold copyFrom
      rw [main hp hm]
      by_cases hs : (s.arrs g.data).shape = (s.arrs h.data).shape
      · simp +contextual [hs, hp, write]
      · simp [hs]
    · simp [hm]
  · have : ∃ e, (match meshEq s g h with
      | .error e => (s, some e)
      | .ok false => (s, some Err.assertion)
      | .ok true => copyFrom re s g h) = (s, some e) := by
      unfold meshEq
      cases h1 : g.isProd <;> cases h2 : h.isProd <;> simp_all
    obtain ⟨e, he⟩ := this
    rw [he]
    simp [hp]

/-- **C162 fails for `copy_from`**: the mesh is overwritten before the shapes are compared. For two functions of one variable of the same
class of mesh with different shapes the call fails, the data stay, and the target as well as every function that shares its
mesh object has the mesh of the source. -/
theorem C162_copy_from_mesh (re : K → K) (s : Mem K) (g h f : Gf) (i j : ℕ) (hg : g.isProd = false) (hh : h.isProd = false) (hgm : g.mesh = [i])
    (hhm : h.mesh = [j]) (hf : f.mesh = [i]) (hk : (s.comps i).kind = (s.comps j).kind)
    (hs : (s.arrs g.data).shape ≠ (s.arrs h.data).shape) :
    (copyFrom re s g h).2 = some .assertion ∧ (copyFrom re s g h).1.arrs = s.arrs ∧ f.mesh.map (copyFrom re s g h).1.comps = [s.comps j] := by
  have hm : meshCopyFrom s g h = ({ s with comps := fun k => if k = i then s.comps j else s.comps k }, none) := by
    simp [meshCopyFrom, hg, hh, hgm, hhm, compsCopyFrom, compCopyFrom, hk]
  unfold copyFrom
  rw [hm]
  simp [hs, hf]

/-! ### Transpose and conjugate -/

/-- **C162, transpose.** Defined for matrix-valued functions of one variable: a new array whose elements are the transposed ones, on the same mesh
object, without a name. -/
theorem C162_transpose [Zero K] (s : Mem K) (g : Gf) (i n a b : ℕ) (hm : g.mesh = [i]) (hs : (s.arrs g.data).shape = [n, a, b])
    (hn : (s.comps i).size = n) :
    ∃ s' t, transpose s g = .ok (s', t) ∧ Keeps s s' ∧ t.mesh = g.mesh ∧ t.isProd = g.isProd ∧ t.data = s.na ∧ t.name = "" ∧
      (s'.arrs t.data).isReal = (s.arrs g.data).isReal ∧ (s'.arrs t.data).shape = [n, b, a] ∧ ∀ x y z, (s'.arrs t.data).el [x, y, z] = (s.arrs g.data).el [x, z, y] := by
  refine ⟨_, ⟨g.isProd, g.mesh, s.na, ""⟩, ?_, keeps_newArr s ⟨(s.arrs g.data).isReal, [n, b, a], fun x => (s.arrs g.data).el [x.getD 0 0, x.getD 2 0, x.getD 1 0]⟩, rfl, rfl, rfl, rfl, by simp [Mem.newArr], ?_, ?_⟩
  · unfold transpose
    simp only [hm, hs, List.length_cons, List.length_nil, ne_eq, not_true_eq_false, if_false]
    rw [C162_construct_data, if_pos]
    · rfl
    · simp [Mem.newArr, Mem.sizes, hn]
  · simp [Mem.newArr]
  · intro x y z; simp [Mem.newArr]

/-- **C162, conjugate.** On valid functions: a new array of the conjugate elements on the same mesh object, without a name. -/
theorem C162_conjugate [Zero K] [Star K] (s : Mem K) (g : Gf) (hv : Valid s g) :
    ∃ s' t, conjugate s g = .ok (s', t) ∧ Keeps s s' ∧ t.mesh = g.mesh ∧ t.isProd = g.isProd ∧ t.data = s.na ∧ t.name = "" ∧
      (s'.arrs t.data).isReal = (s.arrs g.data).isReal ∧ (s'.arrs t.data).shape = (s.arrs g.data).shape ∧ ∀ x, (s'.arrs t.data).el x = star ((s.arrs g.data).el x) := by
  refine ⟨_, ⟨g.isProd, g.mesh, s.na, ""⟩, ?_, keeps_newArr s ⟨(s.arrs g.data).isReal, (s.arrs g.data).shape, fun i => star ((s.arrs g.data).el i)⟩, rfl, rfl, rfl, rfl, by simp [Mem.newArr], ?_, ?_⟩
  · unfold conjugate
    simp only
    rw [C162_construct_data, if_pos]
    · rfl
    · simpa [Mem.newArr, Mem.sizes] using hv.2
  · simp [Mem.newArr]
  · intro x; simp [Mem.newArr]

/-! ### Pickles -/

theorem unfold_el [Star K] (b : Bool) (L : ℕ) (a : Arr K) (d : ℕ) (t : List ℕ) :
    (unfold b L a).el (d :: t) = if L - (if b then 1 else 0) ≤ d then a.el ((d - (L - if b then 1 else 0)) :: t) else star (a.el ((L - 1 - d) :: t)) := rfl

/-- a function of Matsubara frequencies on positive frequencies only -/
def Positive (s : Mem K) (g : Gf) : Prop := ∃ i, g.isProd = false ∧ g.mesh = [i] ∧ (s.comps i).kind = "MeshImFreq" ∧ (s.comps i).pos = true

/-- **C162, pickles.** Pickling and unpickling (also `copy.deepcopy` and the broadcast over processes) gives a function with the same mesh,
data and name made of new objects, for all functions but those on positive Matsubara frequencies only. The same holds for a file, whose further entries `singularity` and
`indices` are ignored, with the name of the group as name. -/
theorem C162_pickle [Zero K] [Star K] (s : Mem K) (g : Gf) (hv : Valid s g) (hp : ¬ Positive s g) (name : String) (other : List String)
    (ho : ∀ k ∈ other, k = "singularity" ∨ k = "indices") :
    ∃ s' c, ofDict s name { toDict s g with other := other } = .ok (s', c) ∧ Keeps s s' ∧ s'.Refs c ∧ c.name = name ∧ content s' c = content s g ∧
      (∀ i ∈ c.mesh, s.nc ≤ i) ∧ s.na ≤ c.data := by
  obtain ⟨s', c, h1, h2, h3, h4, h5, h6, h7, -, -⟩ := fresh_spec s g.isProd (g.mesh.map s.comps) (s.arrs g.data) name
    (by rw [List.length_map, hv.2]; simp [Mem.sizes])
  refine ⟨s', c, ?_, h2, h3, h4, h5, h6, h7⟩
  unfold ofDict
  rw [if_pos (by simpa using ho)]
  simp only [toDict]
  rw [h1]
  simp only
  split
  · rename_i c' hprod hmesh
    rw [if_neg]
    rintro ⟨hk, hpos⟩
    obtain ⟨i, hi⟩ : ∃ i, g.mesh = [i] := by
      match hgm : g.mesh with
      | [] => rw [hgm] at hmesh; simp at hmesh
      | [i] => exact ⟨i, rfl⟩
      | _ :: _ :: _ => rw [hgm] at hmesh; simp at hmesh
    rw [hi] at hmesh
    simp only [List.map_cons, List.map_nil, List.cons.injEq, and_true] at hmesh
    exact hp ⟨i, hprod, hi, by rw [hmesh]; exact hk, by rw [hmesh]; exact hpos⟩
  · rfl

/-- **C162 fails on positive frequencies**: a matrix-valued function on `n ≥ 1` positive Matsubara frequencies comes back on the full mesh,
without its name; the rows of the non-negative frequencies are the old ones, and the others their conjugates. -/
theorem C162_pickle_positive [Zero K] [Star K] (s : Mem K) (g : Gf) (i n a b : ℕ) (hg : g.isProd = false) (hm : g.mesh = [i])
    (hk : (s.comps i).kind = "MeshImFreq") (hpos : (s.comps i).pos = true) (hn : (s.comps i).size = n) (h1 : 1 ≤ n)
    (hs : (s.arrs g.data).shape = [n, a, b]) (hr : (s.arrs g.data).isReal = false) :
    ∃ s' c, pickle s g = .ok (s', c) ∧ Keeps s s' ∧ c.name = "" ∧
      c.mesh.map s'.comps = [{ s.comps i with pos := false, size := 2 * n - if (s.comps i).boson then 1 else 0 }] ∧
      (s'.arrs c.data).shape = [2 * n - if (s.comps i).boson then 1 else 0, a, b] ∧
      ∀ k x y, k < n →
        (s'.arrs c.data).el [n - (if (s.comps i).boson then 1 else 0) + k, x, y] = (s.arrs g.data).el [k, x, y] ∧
        ((s.comps i).boson = false ∨ k ≠ 0 → (s'.arrs c.data).el [n - 1 - k, x, y] = star ((s.arrs g.data).el [k, x, y])) := by
  obtain ⟨s1, g1, e1, k1, r1, n1, c1, -, -, -, -⟩ := fresh_spec s g.isProd (g.mesh.map s.comps) (s.arrs g.data) g.name
    (by rw [hm, hs]; simp [hn])
  obtain ⟨s2, g2, e2, k2, r2, n2, c2, -, -, -, -⟩ := fresh_spec s1 false
    [{ s.comps i with pos := false, size := 2 * n - if (s.comps i).boson then 1 else 0 }] (unfold (s.comps i).boson n (s.arrs g.data)) ""
    (by simp [unfold])
  have hcon : (g2.isProd, g2.mesh.map s2.comps, (s2.arrs g2.data).isReal, (s2.arrs g2.data).shape, (s2.arrs g2.data).el) = _ := c2
  simp only [Prod.mk.injEq] at hcon
  refine ⟨s2, g2, ?_, k1.trans k2, n2, hcon.2.1, ?_, ?_⟩
  · unfold pickle ofDict
    rw [if_pos (by simp [toDict])]
    simp only [toDict]
    rw [e1]
    have hc : (s.comps i).kind = "MeshImFreq" ∧ (s.comps i).pos = true := ⟨hk, hpos⟩
    simp only [hg, hm, List.map_cons, List.map_nil, if_pos hc, hs, hr, and_self, List.length_cons, List.length_nil, hn, if_true]
    rw [← e2]
  · rw [hcon.2.2.2.1]
    simp [unfold, hs]
  · intro k x y hkn
    rw [hcon.2.2.2.2]
    rw [unfold_el, unfold_el]
    constructor
    · rw [if_pos (Nat.le_add_right _ _), Nat.add_sub_cancel_left]
    · intro h
      have h2 : ¬ n - (if (s.comps i).boson then 1 else 0) ≤ n - 1 - k := by
        rcases h with h | h
        · rw [h]; simp only [Bool.false_eq_true, if_false]; omega
        · split <;> omega
      have h3 : n - 1 - (n - 1 - k) = k := by omega
      rw [if_neg h2, h3]

/-- **C162 fails on positive frequencies**: functions which are not matrix-valued, or real, cannot be unpickled at all. -/
theorem C162_pickle_scalar [Zero K] [Star K] (s : Mem K) (g : Gf) (hv : Valid s g) (hp : Positive s g) 
    (hs : (s.arrs g.data).shape.length ≠ 3 ∨ (s.arrs g.data).isReal = true) :
    pickle s g = .error .type := by
  obtain ⟨i, hg, hm, hk, hpos⟩ := hp
  obtain ⟨s1, g1, e1, -, -, -, -, -, -, -, -⟩ := fresh_spec s g.isProd (g.mesh.map s.comps) (s.arrs g.data) g.name
    (by rw [List.length_map, hv.2]; simp [Mem.sizes])
  unfold pickle ofDict
  rw [if_pos (by simp [toDict])]
  simp only [toDict]
  rw [e1]
  have hs' : ¬ ((s.arrs g.data).shape.length = 3 ∧ (s.arrs g.data).isReal = false) := by
    rcases hs with h | h <;> simp [h]
  simp only [hg, hm, List.map_cons, List.map_nil, hk, hpos, and_self, if_true, if_neg hs']

/-- **C162, products.** A product of any number of meshes comes back from its dictionary with its components in their order, whatever the order of the
entries in the dictionary. -/
theorem C162_product {α : Type} (l : List α) (d : List (String × α)) (hd : d.Perm (prodDict l)) : ofProdDict d = some l := by
  have hkey : ∀ i j : ℕ, "MeshComponent" ++ toString i = "MeshComponent" ++ toString j → i = j := by
    intro i j h
    have h2 : toString i = toString j := by
      have := congrArg String.toList h
      simp only [String.toList_append, List.append_cancel_left_eq] at this
      exact String.toList_inj.mp this
    exact Nat.repr_injective h2
  have hnd : (d.map Prod.fst).Nodup := by
    rw [(hd.map Prod.fst).nodup_iff]
    unfold prodDict
    rw [List.nodup_iff_injective_getElem]
    intro a b hab
    simp only [List.getElem_map, List.getElem_mapIdx] at hab
    exact Fin.ext (hkey _ _ hab)
  have hlook : ∀ (e : List (String × α)) (k : String) (v : α), (e.map Prod.fst).Nodup → (k, v) ∈ e → e.lookup k = some v := by
    intro e k v
    induction e with
    | nil => intro _ h; simp at h
    | cons p e ih =>
      intro h1 h2
      obtain ⟨k', v'⟩ := p
      rw [List.map_cons, List.nodup_cons] at h1
      rcases List.mem_cons.mp h2 with h3 | h3
      · cases h3; simp [List.lookup]
      · have hne : k ≠ k' := by
          rintro rfl
          exact h1.1 (List.mem_map.mpr ⟨_, h3, rfl⟩)
        rw [List.lookup_cons, show (k == k') = false from by simpa using hne]
        exact ih h1.2 h3
  have hlen : d.length = l.length := by rw [hd.length_eq]; simp [prodDict]
  unfold ofProdDict
  rw [hlen]
  have hget : ∀ i (hi : i < l.length), d.lookup ("MeshComponent" ++ toString i) = some l[i] := by
    intro i hi
    apply hlook d _ _ hnd
    rw [hd.mem_iff]
    unfold prodDict
    rw [List.mem_iff_getElem]
    exact ⟨i, by simpa using hi, by simp⟩
  have hm : ∀ (k : List ℕ) (hk : ∀ i ∈ k, i < l.length), k.mapM (fun i => d.lookup ("MeshComponent" ++ toString i)) = some (k.attach.map fun i => l[i.1]'(hk i.1 i.2)) := by
    intro k
    induction k with
    | nil => intro _; rfl
    | cons i k ih =>
      intro hk
      rw [List.mapM_cons, hget i (hk i (by simp)), ih fun j hj => hk j (by simp [hj])]
      simp
  rw [hm _ fun i hi => List.mem_range.mp hi]
  congr 1
  apply List.ext_getElem
  · simp
  · intro i h1 h2
    simp

/-! ### Examples -/

def exC : Comp := ⟨"MeshImFreq", 10, 2, false, false⟩
def exD : Comp := ⟨"MeshImFreq", 20, 3, false, false⟩
def exP : Comp := ⟨"MeshImFreq", 10, 2, true, true⟩
def exMem : Mem GaussianInt := ⟨fun i => if i = 0 then exC else if i = 1 then exD else exP, 3,
  fun i => if i = 0 then ⟨false, [2, 1, 1], fun x => ⟨x.getD 0 0, 1⟩⟩ else if i = 1 then ⟨false, [3, 1, 1], fun _ => ⟨0, 5⟩⟩ else ⟨false, [2, 1, 1], fun x => ⟨x.getD 0 0, 7⟩⟩, 3⟩
def exG : Gf := ⟨false, [0], 0, "G"⟩
def exH : Gf := ⟨false, [1], 1, "H"⟩
def exQ : Gf := ⟨false, [2], 2, "Q"⟩

/-- a constructor with a target shape, one with a wrong one, and one with data of the wrong size -/
example : (match construct exMem false [0] { targetShape := some [2, 2] } with | .ok (s, g) => some ((s.arrs g.data).shape, g.data) | _ => none) = some ([2, 2, 2], 3) ∧
    (match construct exMem false [0] { targetShape := some [2, 0] } with | .error e => some e | _ => none) = some .assertion ∧
    (match construct exMem false [0] { data := some 1 } with | .error e => some e | _ => none) = some .assertion := by decide +kernel

/-- a failed `copy_from` leaves `G` with three frequencies and two rows of data: it is not valid any more -/
example : (copyFrom (fun z => ⟨z.re, 0⟩) exMem exG exH).2 = some .assertion ∧ ((copyFrom (fun z => ⟨z.re, 0⟩) exMem exG exH).1.comps 0).size = 3 ∧
    ((copyFrom (fun z => ⟨z.re, 0⟩) exMem exG exH).1.arrs 0).shape = [2, 1, 1] ∧ ¬ Valid (copyFrom (fun z => ⟨z.re, 0⟩) exMem exG exH).1 exG ∧ (assign (fun z => ⟨z.re, 0⟩) exMem exG exH).2 = some .assertion := by
  refine ⟨by decide +kernel, by decide +kernel, by decide +kernel, ?_, by decide +kernel⟩
  intro h
  exact absurd h.2 (by decide +kernel)

/-- pickling `G` keeps everything; `Q` on two positive bosonic frequencies comes back with three rows and no name -/
example : (match pickle exMem exG with | .ok (s, g) => some (g.name, (s.arrs g.data).shape, g.mesh.map s.comps) | _ => none) = some ("G", [2, 1, 1], [exC]) ∧
    (match pickle exMem exQ with | .ok (s, g) => some (g.name, (s.arrs g.data).shape, (s.arrs g.data).el [0, 0, 0], (s.arrs g.data).el [2, 0, 0]) | _ => none) =
      some ("", [3, 1, 1], ⟨1, -7⟩, ⟨1, 7⟩) := by decide +kernel

example : ofProdDict [("MeshComponent1", 5), ("MeshComponent0", 4)] = some [4, 5] := by decide +kernel

end Verif.PyGf
