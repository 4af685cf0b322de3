import Mathlib.Data.Int.Init
import Mathlib.Tactic.Set
import Mathlib.Tactic.ByContra
import Mathlib.Data.List.Basic
import Mathlib.Tactic.Ring
import Std.Data.String.ToNat

/-!
# Archives of meshes

`h5_write` and `h5_read` of all meshes, of the lattices in them, and of products of meshes.

Sources: `/repo/c++/triqs/mesh/imfreq.hpp`, `imtime.hpp`, `bases/linear.hpp`, `refreq.hpp`, `retime.hpp`, `legendre.hpp`, `discrete.hpp`, `brzone.hpp`,
`cyclat.hpp`, `dlr.hpp`, `dlr_imtime.hpp`, `dlr_imfreq.hpp`, `prod.hpp`, `/repo/c++/triqs/lattice/bravais_lattice.cpp`, `brillouin_zone.cpp`.

Numbers are opaque values of a type `K`, which an archive keeps as they are; what the constructors compute from them (`Num`) is any function.
So nothing depends on the rounding of floating-point numbers. The objects `imtime_ops`, `imfreq_ops` of cppdlr have own archive functions, which are
assumed to give the same objects back. `std::hash` is any function into 64-bit numbers. `none` stands for an exception, a failed precondition or undefined
behaviour.
-/

namespace Verif.MeshArchive

/-! ## Model -/

inductive Stat where
  | fermion
  | boson
deriving DecidableEq, Repr

/-- what is in an archive: groups with the attribute `Format` (absent: `none`), and data sets -/
inductive H5 (K T F : Type) where
  | group (format : Option String) (kids : List (String × H5 K T F))
  | num (x : K)
  | int (n : Int)
  | str (s : String)
  | dims (d : Int × Int × Int)
  | imat (m : List (List Int))
  | mat (m : List (List K))
  | vec (v : List K)
  | strs (l : List String)
  | imt (t : T)
  | imf (f : F)

/-- the computations of the constructors -/
structure Num (K T F : Type) where
  one : K
  zero : K
  /-- linear.hpp:51 -/
  delta : K → K → Int → K
  /-- linear.hpp:52 -/
  deltaInv : K → K → Int → K
  /-- the rows after the first `ndim` ones, bravais_lattice.cpp:44-82; `none`: `TRIQS_RUNTIME_ERROR` -/
  complete : List (List K) → Option (List (List K))
  /-- `inverse` of nda; `none`: a singular matrix -/
  inverse : List (List K) → Option (List (List K))
  /-- `2 * M_PI * inverse(transpose(Units))`, brillouin_zone.cpp:34-35 -/
  recip : List (List K) → Option (List (List K))
  /-- `inverse(1.0 * nda::diag(dims)) * bz.units()`, brzone.hpp:73 -/
  scale : Int × Int × Int → List (List K) → Option (List (List K))
  /-- `sum` of a vector -/
  sum : List K → K
  hd : K → BitVec 64
  hl : Int → BitVec 64
  hs : Stat → BitVec 64
  ho : Bool → BitVec 64
  itnodes : T → List K
  ifnodes : F → List Int

variable {K T F : Type}

/-- data sets and groups inside of a group -/
def kid (name : String) : H5 K T F → Option (H5 K T F)
  | .group _ l => l.lookup name
  | _ => none

def getNum (a : H5 K T F) (n : String) : Option K := match kid n a with
  | some (.num x) => some x
  | _ => none

def getInt (a : H5 K T F) (n : String) : Option Int := match kid n a with
  | some (.int x) => some x
  | _ => none

def getStr (a : H5 K T F) (n : String) : Option String := match kid n a with
  | some (.str x) => some x
  | _ => none

def getVec (a : H5 K T F) (n : String) : Option (List K) := match kid n a with
  | some (.vec x) => some x
  | _ => none

def getMat (a : H5 K T F) (n : String) : Option (List (List K)) := match kid n a with
  | some (.mat x) => some x
  | _ => none

def getStrs (a : H5 K T F) (n : String) : Option (List String) := match kid n a with
  | some (.strs x) => some x
  | _ => none

def getImt (a : H5 K T F) (n : String) : Option T := match kid n a with
  | some (.imt x) => some x
  | _ => none

def getImf (a : H5 K T F) (n : String) : Option F := match kid n a with
  | some (.imf x) => some x
  | _ => none

def hasKey (a : H5 K T F) (n : String) : Bool := (kid n a).isSome

/-- `open_group` -/
def openGroup (a : H5 K T F) (n : String) : Option (H5 K T F) := match kid n a with
  | some (.group f l) => some (.group f l)
  | _ => none

/-- `assert_hdf5_format(gr, m, true)`: a group without format is accepted. -/
def formatOk (expected : String) : H5 K T F → Bool
  | .group none _ => true
  | .group (some f) _ => f == expected
  | _ => false

/-- `(statistic == Fermion ? "F" : "B")` and back -/
def Stat.code : Stat → String
  | .fermion => "F"
  | .boson => "B"

def Stat.ofCode (s : String) : Stat := if s = "F" then .fermion else .boson

/-- imfreq.hpp:55-61 -/
structure Imfreq (K : Type) where
  beta : K
  stat : Stat
  nIw : Int
  positiveOnly : Bool
  last : Int
  first : Int
  hash : BitVec 64
deriving DecidableEq

/-- constructor, imfreq.hpp:77-80, with the member initialisers 59-60 -/
def Imfreq.new (N : Num K T F) (beta : K) (s : Stat) (n : Int) (pos : Bool) : Imfreq K :=
  { beta, stat := s, nIw := n, positiveOnly := pos, last := n - 1,
    first := if pos then 0 else -(n - 1 + (if s = .fermion then 1 else 0)), hash := N.hd beta + N.hs s + N.hl n + N.ho pos }

/-- default constructor, imfreq.hpp:66 -/
def Imfreq.default (N : Num K T F) : Imfreq K := { Imfreq.new N N.one .fermion 0 false with hash := 0 }

/-- imfreq.hpp:173 -/
def Imfreq.size (m : Imfreq K) : Int := m.last - m.first + 1

/-- imfreq.hpp:113: four members -/
def Imfreq.eq [DecidableEq K] (a b : Imfreq K) : Bool := decide ((a.beta, a.stat, a.nIw, a.positiveOnly) = (b.beta, b.stat, b.nIw, b.positiveOnly))

/-- imfreq.hpp:261-269 -/
def Imfreq.write (m : Imfreq K) : H5 K T F := .group (some "MeshImFreq")
  [("beta", .num m.beta), ("statistic", .str m.stat.code), ("size", .int m.size), ("positive_freq_only", .int (if m.positiveOnly then 1 else 0))]

/-- the place of `beta` and `statistic`: the group, or `domain` in it in old archives, imfreq.hpp:284, imtime.hpp:101, legendre.hpp:158 -/
def domain (a : H5 K T F) : Option (H5 K T F) := if hasKey a "domain" then openGroup a "domain" else some a

/-- imfreq.hpp:276-278 -/
def posFreq (a : H5 K T F) : Option Int :=
  match (if hasKey a "positive_freq_only" then getInt a "positive_freq_only" else some 0) with
  | some p => if hasKey a "start_at_0" then getInt a "start_at_0" else some p
  | none => none

/-- imfreq.hpp:272-289; `/` of C++ rounds towards zero -/
def Imfreq.read (N : Num K T F) (a : H5 K T F) : Option (Imfreq K) :=
  if formatOk "MeshImFreq" a then
    match posFreq a, getInt a "size", domain a with
    | some p, some L, some d => match getNum d "beta", getStr d "statistic" with
      | some b, some s => some (Imfreq.new N b (Stat.ofCode s) (if p ≠ 0 then L else (L + 1).tdiv 2) (p == 1))
      | _, _ => none
    | _, _, _ => none
  else none

/-- members of `linear`, linear.hpp:40-43 -/
structure Lin (K : Type) where
  L : Int
  xmin : K
  xmax : K
  delta : K
  deltaInv : K
  hash : BitVec 64
deriving DecidableEq

/-- linear.hpp:47-55 -/
def Lin.new (N : Num K T F) (a b : K) (n : Int) : Lin K :=
  { L := n, xmin := a, xmax := b, delta := N.delta a b n, deltaInv := N.deltaInv a b n, hash := N.hl n + N.hd a + N.hd b }

/-- linear.hpp:198-204 -/
def Lin.write (format : String) (m : Lin K) : H5 K T F := .group (some format) [("min", .num m.xmin), ("max", .num m.xmax), ("size", .int m.L)]

/-- linear.hpp:207-215 -/
def Lin.read (N : Num K T F) (format : String) (a : H5 K T F) : Option (Lin K) :=
  if formatOk format a then
    match getNum a "min", getNum a "max", getInt a "size" with
    | some x, some y, some L => some (Lin.new N x y L)
    | _, _, _ => none
  else none

/-- imtime.hpp:36-42 -/
structure Imtime (K : Type) where
  lin : Lin K
  beta : K
  stat : Stat
deriving DecidableEq

/-- imtime.hpp:55 -/
def Imtime.new (N : Num K T F) (beta : K) (s : Stat) (n : Int) : Imtime K := ⟨Lin.new N N.zero beta n, beta, s⟩

/-- imtime.hpp:85-92 -/
def Imtime.write (m : Imtime K) : H5 K T F := .group (some "MeshImTime")
  [("beta", .num m.beta), ("statistic", .str m.stat.code), ("n_tau", .int m.lin.L)]

/-- imtime.hpp:94-106 -/
def Imtime.read (N : Num K T F) (a : H5 K T F) : Option (Imtime K) :=
  if formatOk "MeshImTime" a then
    match (if hasKey a "n_tau" then getInt a "n_tau" else getInt a "size"), domain a with
    | some n, some d => match getNum d "beta", getStr d "statistic" with
      | some b, some s => some (Imtime.new N b (Stat.ofCode s) n)
      | _, _ => none
    | _, _ => none
  else none

/-- legendre.hpp:35-38 -/
structure Legendre (K : Type) where
  beta : K
  stat : Stat
  maxN : Int
  hash : BitVec 64
deriving DecidableEq

/-- legendre.hpp:51-52 -/
def Legendre.new (N : Num K T F) (beta : K) (s : Stat) (n : Int) : Legendre K := ⟨beta, s, n, N.hd beta + N.hs s + N.hl n⟩

/-- default constructor, legendre.hpp:42: the hash is zero. -/
def Legendre.default (N : Num K T F) : Legendre K := ⟨N.one, .fermion, 0, 0⟩

/-- legendre.hpp:145-152 -/
def Legendre.write (m : Legendre K) : H5 K T F := .group (some "MeshLegendre")
  [("beta", .num m.beta), ("statistic", .str m.stat.code), ("max_n", .int m.maxN)]

/-- legendre.hpp:154-166: all of it is in `domain` in old archives. -/
def Legendre.read (N : Num K T F) (a : H5 K T F) : Option (Legendre K) :=
  if formatOk "MeshLegendre" a then
    match domain a with
    | some d => match getNum d "beta", getStr d "statistic", (if hasKey d "max_n" then getInt d "max_n" else getInt d "n_max") with
      | some b, some s, some n => some (Legendre.new N b (Stat.ofCode s) n)
      | _, _, _ => none
    | none => none
  else none

/-- discrete.hpp:29-30 -/
structure Discrete where
  L : Int
  hash : BitVec 64
deriving DecidableEq

/-- discrete.hpp:34 -/
def Discrete.new (L : Int) : Discrete := ⟨L, BitVec.ofInt 64 L⟩

/-- discrete.hpp:126-130 -/
def Discrete.write (m : Discrete) : H5 K T F := .group (some "MeshIndex") [("size", .int m.L)]

/-- discrete.hpp:132-137 -/
def Discrete.read (a : H5 K T F) : Option Discrete :=
  if formatOk "MeshIndex" a then (getInt a "size").map Discrete.new else none

/-- bravais_lattice.hpp:141-145 -/
structure Bravais (K : Type) where
  units : List (List K)
  unitsInv : List (List K)
  pos : List (List K)
  names : List String
  ndim : Nat
deriving DecidableEq

/-- `m(range(d), range(d))` -/
def block (d : Nat) (m : List (List K)) : List (List K) := (m.take d).map (·.take d)

/-- constructor, bravais_lattice.cpp:29-84: the block of the matrix given, filled up with zeros, and the rows that complete the basis -/
def Bravais.new (N : Num K T F) (u : List (List K)) (pos : List (List K)) (names : List String) : Option (Bravais K) :=
  let names := if names.isEmpty then List.replicate pos.length "" else names
  let d := u.length
  if pos.length = names.length ∧ 1 ≤ d ∧ d ≤ 3 ∧ ∀ r ∈ u, d ≤ r.length then
    let first := (block d u).map (· ++ List.replicate (3 - d) N.zero)
    match N.complete first with
    | some rest => match N.inverse (first ++ rest) with
      | some inv => some ⟨first ++ rest, inv, pos, names, d⟩
      | none => none
    | none => none
  else none

/-- bravais_lattice.cpp:88-95; the positions are a matrix with one row for each orbital -/
def Bravais.write (b : Bravais K) : H5 K T F := .group (some "bravais_lattice")
  [("units", .mat (block b.ndim b.units)), ("atom_orb_pos", .mat b.pos), ("atom_orb_name", .strs b.names)]

/-- bravais_lattice.cpp:98-110: no test of the format -/
def Bravais.read (N : Num K T F) (a : H5 K T F) : Option (Bravais K) :=
  match getMat a "units" with
  | some u =>
    match (if hasKey a "atom_orb_pos" then getMat a "atom_orb_pos" else some [[N.zero, N.zero, N.zero]]) with
    | some pos =>
      match (if hasKey a "atom_orb_name" then getStrs a "atom_orb_name" else some (List.replicate pos.length "")) with
      | some names => Bravais.new N u pos names
      | none => none
    | none => none
  | none => none

/-- brillouin_zone.hpp:107-109 -/
structure Bz (K : Type) where
  lattice : Bravais K
  recip : List (List K)
  recipInv : List (List K)
deriving DecidableEq

/-- brillouin_zone.cpp:29-37 -/
def Bz.new (N : Num K T F) (bl : Bravais K) : Option (Bz K) :=
  match N.recip bl.units with
  | some r => match N.inverse r with
    | some i => some ⟨bl, r, i⟩
    | none => none
  | none => none

def eye (N : Num K T F) : List (List K) := [[N.one, N.zero, N.zero], [N.zero, N.one, N.zero], [N.zero, N.zero, N.one]]

/-- default constructor, brillouin_zone.hpp:34-37 and bravais_lattice.hpp:45: the reciprocal matrix is one, without the factor `2 π`. -/
def Bz.default (N : Num K T F) : Option (Bz K) := (Bravais.new N (eye N) [[N.zero, N.zero, N.zero]] []).map fun bl => ⟨bl, eye N, eye N⟩

/-- brillouin_zone.cpp:41-45 -/
def Bz.write (b : Bz K) : H5 K T F := .group (some "brillouin_zone") [("bravais_lattice", b.lattice.write)]

/-- brillouin_zone.cpp:47-52 -/
def Bz.read (N : Num K T F) (a : H5 K T F) : Option (Bz K) :=
  match openGroup a "bravais_lattice" with
  | some g => match Bravais.read N g with
    | some bl => Bz.new N bl
    | none => none
  | none => none

/-- brzone.hpp:43-49 and cyclat.hpp:38-44; `B` is the type of `bz_`, `bl_`. -/
structure Lat (B K : Type) where
  base : B
  dims : Int × Int × Int
  size : Int
  stride1 : Int
  stride0 : Int
  units : List (List K)
  unitsInv : List (List K)
  hash : BitVec 64
deriving DecidableEq

/-- `hash(sum(units), dims[0], dims[1], dims[2])` -/
def latHash (N : Num K T F) (u : List (List K)) (d : Int × Int × Int) : BitVec 64 := N.hd (N.sum u.flatten) + N.hl d.1 + N.hl d.2.1 + N.hl d.2.2

/-- brzone.hpp:67-75 -/
def brzoneNew (N : Num K T F) (bz : Bz K) (d : Int × Int × Int) : Option (Lat (Bz K) K) :=
  match N.scale d bz.recip with
  | some u => match N.inverse u with
    | some i => some ⟨bz, d, d.1 * d.2.1 * d.2.2, d.2.2, d.2.1 * d.2.2, u, i, latHash N bz.recip d⟩
    | none => none
  | none => none

/-- cyclat.hpp:54-62 -/
def cyclatNew (N : Num K T F) (bl : Bravais K) (d : Int × Int × Int) : Option (Lat (Bravais K) K) :=
  match N.inverse bl.units with
  | some i => some ⟨bl, d, d.1 * d.2.1 * d.2.2, d.2.2, d.2.1 * d.2.2, bl.units, i, latHash N bl.units d⟩
  | none => none

/-- default constructor, brzone.hpp:53 with 43-49 -/
def brzoneDefault (N : Num K T F) (bz : Bz K) : Lat (Bz K) K := ⟨bz, (0, 0, 0), 0, 1, 1, eye N, eye N, 0⟩

/-- brzone.hpp:313-319 -/
def brzoneWrite (m : Lat (Bz K) K) : H5 K T F := .group (some "MeshBrillouinZone") [("dims", .dims m.dims), ("brillouin_zone", m.base.write)]

/-- cyclat.hpp:215-221 -/
def cyclatWrite (m : Lat (Bravais K) K) : H5 K T F := .group (some "MeshCyclicLattice") [("dims", .dims m.dims), ("bravais_lattice", m.base.write)]

/-- brzone.hpp:325-331, cyclat.hpp:227-233: the diagonal of the periodization matrix in old archives -/
def readDims (a : H5 K T F) : Option (Int × Int × Int) :=
  if hasKey a "dims" then match kid "dims" a with
    | some (.dims d) => some d
    | _ => none
  else match kid "periodization_matrix" a with
    | some (.imat m) => match m with
      | [[a, _, _], [_, b, _], [_, _, c]] => some (a, b, c)
      | _ => none
    | _ => none

/-- brzone.hpp:321-343 -/
def brzoneRead (N : Num K T F) (a : H5 K T F) : Option (Lat (Bz K) K) :=
  if formatOk "MeshBrillouinZone" a then
    match readDims a with
    | some d =>
      match (if hasKey a "brillouin_zone" then (openGroup a "brillouin_zone").bind (Bz.read N)
          else if hasKey a "bz" then (openGroup a "bz").bind (Bz.read N) else Bz.default N) with
      | some bz => brzoneNew N bz d
      | none => none
    | none => none
  else none

/-- cyclat.hpp:223-243 -/
def cyclatRead (N : Num K T F) (a : H5 K T F) : Option (Lat (Bravais K) K) :=
  if formatOk "MeshCyclicLattice" a then
    match readDims a with
    | some d =>
      match (openGroup a (if hasKey a "bravais_lattice" then "bravais_lattice" else "bl")).bind (Bravais.read N) with
      | some bl => cyclatNew N bl d
      | none => none
    | none => none
  else none

inductive DlrKind where
  | coeffs
  | imtime
  | imfreq
deriving DecidableEq, Repr

/-- `dlr_ops`, dlr.hpp:30-34 -/
structure DlrOps (K T F : Type) where
  freq : List K
  imt : T
  imf : F
deriving DecidableEq

/-- members of the three meshes, dlr.hpp:45-50; no `ops`: the empty pointer of the default constructor -/
structure Dlr (K T F : Type) where
  beta : K
  stat : Stat
  wMax : K
  eps : K
  hash : BitVec 64
  ops : Option (DlrOps K T F)
deriving DecidableEq

/-- dlr.hpp:83 and 95, dlr_imtime.hpp:77 and 89, dlr_imfreq.hpp:78 and 90 -/
def dlrHash (N : Num K T F) (k : DlrKind) (beta : K) (s : Stat) (w eps : K) (o : DlrOps K T F) : BitVec 64 := match k with
  | .coeffs => N.hd beta + N.hs s + N.hd w + N.hd eps + N.hd (N.sum o.freq)
  | .imtime => N.hd beta + N.hd w + N.hd eps + N.hd (N.sum (N.itnodes o.imt))
  | .imfreq => N.hd beta + N.hs s + N.hd w + N.hd eps + N.hl (N.ifnodes o.imf).sum

/-- dlr.hpp:78-84, dlr_imtime.hpp:72-78, dlr_imfreq.hpp:73-79; all constructors except the default one end here or give the same members. -/
def Dlr.new (N : Num K T F) (k : DlrKind) (beta : K) (s : Stat) (w eps : K) (o : DlrOps K T F) : Dlr K T F :=
  ⟨beta, s, w, eps, dlrHash N k beta s w eps o, some o⟩

/-- construction from another of the three meshes, dlr.hpp:90-96, dlr_imtime.hpp:84-90, dlr_imfreq.hpp:85-91. The constructors with the template
are for meshes of all three kinds, and copies keep the hash. -/
def Dlr.convert (N : Num K T F) (k k' : DlrKind) (m : Dlr K T F) : Option (Dlr K T F) :=
  if k = k' then some m
  else m.ops.map fun o => { m with hash := dlrHash N k' m.beta m.stat m.wMax m.eps o }

/-- dlr.hpp:216, dlr_imtime.hpp:216, dlr_imfreq.hpp:211 -/
def DlrKind.format : DlrKind → String
  | .coeffs => "MeshDLR"
  | .imtime => "MeshDLRImTime"
  | .imfreq => "MeshDLRImFreq"

/-- dlr.hpp:219-230, dlr_imtime.hpp:219-230, dlr_imfreq.hpp:214-225; without `ops` the empty pointer is dereferenced. -/
def Dlr.write (k : DlrKind) (m : Dlr K T F) : Option (H5 K T F) := m.ops.map fun o => .group (some k.format)
  [("beta", .num m.beta), ("statistic", .str m.stat.code), ("w_max", .num m.wMax), ("eps", .num m.eps), ("dlr_freq", .vec o.freq), ("dlr_it", .imt o.imt),
    ("dlr_if", .imf o.imf)]

/-- dlr.hpp:233-245, dlr_imtime.hpp:233-245, dlr_imfreq.hpp:228-240 -/
def Dlr.read (N : Num K T F) (k : DlrKind) (a : H5 K T F) : Option (Dlr K T F) :=
  if formatOk k.format a then
    match getNum a "beta", getStr a "statistic", getNum a "w_max", getNum a "eps", getVec a "dlr_freq", getImt a "dlr_it", getImf a "dlr_if" with
    | some b, some s, some w, some e, some fr, some t, some f => some (Dlr.new N k b (Stat.ofCode s) w e ⟨fr, t, f⟩)
    | _, _, _, _, _, _, _ => none
  else none

/-- a mesh of one variable -/
inductive Mesh (K T F : Type) where
  | imfreq (m : Imfreq K)
  | imtime (m : Imtime K)
  | refreq (m : Lin K)
  | retime (m : Lin K)
  | legendre (m : Legendre K)
  | discrete (m : Discrete)
  | brzone (m : Lat (Bz K) K)
  | cyclat (m : Lat (Bravais K) K)
  | dlr (k : DlrKind) (m : Dlr K T F)
deriving DecidableEq

/-- the C++ types of meshes -/
inductive Kind where
  | imfreq
  | imtime
  | refreq
  | retime
  | legendre
  | discrete
  | brzone
  | cyclat
  | dlr (k : DlrKind)
deriving DecidableEq, Repr

def Mesh.kind : Mesh K T F → Kind
  | .imfreq _ => .imfreq
  | .imtime _ => .imtime
  | .refreq _ => .refreq
  | .retime _ => .retime
  | .legendre _ => .legendre
  | .discrete _ => .discrete
  | .brzone _ => .brzone
  | .cyclat _ => .cyclat
  | .dlr k _ => .dlr k

/-- `h5_write` of each type; refreq.hpp:58 and retime.hpp:58 for the real axes -/
def write : Mesh K T F → Option (H5 K T F)
  | .imfreq m => some m.write
  | .imtime m => some m.write
  | .refreq m => some (m.write "MeshReFreq")
  | .retime m => some (m.write "MeshReTime")
  | .legendre m => some m.write
  | .discrete m => some m.write
  | .brzone m => some (brzoneWrite m)
  | .cyclat m => some (cyclatWrite m)
  | .dlr k m => m.write k

/-- `h5_read` of each type; refreq.hpp:60 and retime.hpp:61 for the real axes -/
def read (N : Num K T F) : Kind → H5 K T F → Option (Mesh K T F)
  | .imfreq, a => (Imfreq.read N a).map .imfreq
  | .imtime, a => (Imtime.read N a).map .imtime
  | .refreq, a => (Lin.read N "MeshReFreq" a).map .refreq
  | .retime, a => (Lin.read N "MeshReTime" a).map .retime
  | .legendre, a => (Legendre.read N a).map .legendre
  | .discrete, a => (Discrete.read a).map .discrete
  | .brzone, a => (brzoneRead N a).map .brzone
  | .cyclat, a => (cyclatRead N a).map .cyclat
  | .dlr k, a => (Dlr.read N k a).map (.dlr k)

/-- `"MeshComponent" + std::to_string(N)`, prod.hpp:185 and 193 -/
def component (i : Nat) : String := "MeshComponent" ++ toString i

def writeFrom : Nat → List (Mesh K T F) → Option (List (String × H5 K T F))
  | _, [] => some []
  | i, m :: ms => match write m, writeFrom (i + 1) ms with
    | some a, some l => some ((component i, a) :: l)
    | _, _ => none

/-- `h5_write` of a product, prod.hpp:182-187 -/
def writeProd (ms : List (Mesh K T F)) : Option (H5 K T F) := (writeFrom 0 ms).map (.group (some "MeshProduct"))

/-- the loop over the components of the target, prod.hpp:193-194: the target after it, and whether it came to its end -/
def readFrom (N : Num K T F) (a : H5 K T F) : Nat → List (Mesh K T F) → List (Mesh K T F) × Bool
  | _, [] => ([], true)
  | i, t :: ts => match (openGroup a (component i)).bind (read N t.kind) with
    | some m => (m :: (readFrom N a (i + 1) ts).1, (readFrom N a (i + 1) ts).2)
    | none => (t :: ts, false)

/-- `h5_read` of a product into a target, prod.hpp:190-195 -/
def readProd (N : Num K T F) (a : H5 K T F) (target : List (Mesh K T F)) : List (Mesh K T F) × Bool :=
  if formatOk "MeshProduct" a then readFrom N a 0 target else (target, false)

/-! ## Specification -/

/-- Meshes that the constructors with parameters give. For Matsubara frequencies the number of frequencies is not negative. -/
inductive Built (N : Num K T F) : Mesh K T F → Prop
  | imfreq (b : K) (s : Stat) (n : Int) (p : Bool) (h : 0 ≤ n) : Built N (.imfreq (Imfreq.new N b s n p))
  | imtime (b : K) (s : Stat) (n : Int) : Built N (.imtime (Imtime.new N b s n))
  | refreq (x y : K) (n : Int) : Built N (.refreq (Lin.new N x y n))
  | retime (x y : K) (n : Int) : Built N (.retime (Lin.new N x y n))
  | legendre (b : K) (s : Stat) (n : Int) : Built N (.legendre (Legendre.new N b s n))
  | discrete (n : Int) : Built N (.discrete (Discrete.new n))
  | brzone (u pos : List (List K)) (names : List String) (d : Int × Int × Int) (bl : Bravais K) (bz : Bz K) (m : Lat (Bz K) K)
      (h : Bravais.new N u pos names = some bl) (h' : Bz.new N bl = some bz) (h'' : brzoneNew N bz d = some m) : Built N (.brzone m)
  | cyclat (u pos : List (List K)) (names : List String) (d : Int × Int × Int) (bl : Bravais K) (m : Lat (Bravais K) K)
      (h : Bravais.new N u pos names = some bl) (h' : cyclatNew N bl d = some m) : Built N (.cyclat m)
  | dlr (k : DlrKind) (b : K) (s : Stat) (w e : K) (o : DlrOps K T F) : Built N (.dlr k (Dlr.new N k b s w e o))
  | convert (k k' : DlrKind) (m m' : Dlr K T F) (h : Built N (.dlr k m)) (h' : Dlr.convert N k k' m = some m') : Built N (.dlr k' m')

/-! ## Proofs -/

variable (N : Num K T F)

theorem Stat.ofCode_code (s : Stat) : Stat.ofCode s.code = s := by cases s <;> simp [Stat.ofCode, Stat.code]

theorem imfreq_round (b : K) (s : Stat) (n : Int) (p : Bool) (h : 0 ≤ n ∨ s = .boson ∨ p = true) :
    Imfreq.read N ((Imfreq.new N b s n p).write : H5 K T F) = some (Imfreq.new N b s n p) := by
  have key : (if p then (1 : Int) else 0) ≠ 0 ∧ p = true ∨ (if p then (1 : Int) else 0) = 0 ∧ p = false := by cases p <;> simp
  rcases key with ⟨h1, rfl⟩ | ⟨h1, rfl⟩
  · simp [Imfreq.read, Imfreq.write, formatOk, posFreq, hasKey, kid, getInt, domain, getNum, getStr, Stat.ofCode_code, Imfreq.size, List.lookup]
    simp [Imfreq.new, Stat.ofCode_code]
  · have hs : ((Imfreq.new N b s n false).size + 1).tdiv 2 = n := by
      simp only [Imfreq.size, Imfreq.new, Bool.false_eq_true, if_false]
      cases s
      · have : 0 ≤ n := by rcases h with h | h | h <;> simp_all
        simp only [if_true]
        rw [Int.tdiv_eq_ediv_of_nonneg (by omega)]
        omega
      · simp only [reduceCtorEq, if_false]
        have e : n - 1 - -(n - 1 + 0) + 1 + 1 = n * 2 := by omega
        rw [e, Int.mul_tdiv_cancel _ (by decide)]
    simp [Imfreq.read, Imfreq.write, formatOk, posFreq, hasKey, kid, getInt, domain, getNum, getStr, List.lookup]
    rw [hs]
    simp [Imfreq.new, Stat.ofCode_code]

theorem imtime_round (b : K) (s : Stat) (n : Int) : Imtime.read N ((Imtime.new N b s n).write : H5 K T F) = some (Imtime.new N b s n) := by
  simp [Imtime.read, Imtime.write, Imtime.new, Lin.new, formatOk, hasKey, kid, getInt, domain, getNum, getStr, Stat.ofCode_code, List.lookup]

theorem lin_round (f : String) (x y : K) (n : Int) : Lin.read N f ((Lin.new N x y n).write f : H5 K T F) = some (Lin.new N x y n) := by
  simp [Lin.read, Lin.write, Lin.new, formatOk, kid, getInt, getNum, List.lookup]

theorem legendre_round (b : K) (s : Stat) (n : Int) : Legendre.read N ((Legendre.new N b s n).write : H5 K T F) = some (Legendre.new N b s n) := by
  simp [Legendre.read, Legendre.write, Legendre.new, formatOk, hasKey, kid, getInt, domain, getNum, getStr, Stat.ofCode_code, List.lookup]

theorem discrete_round (n : Int) : Discrete.read ((Discrete.new n).write : H5 K T F) = some (Discrete.new n) := by
  simp [Discrete.read, Discrete.write, Discrete.new, formatOk, kid, getInt, List.lookup]

theorem block_first (d : Nat) (u rest : List (List K)) (z : List K) (hd : u.length = d) (h : ∀ r ∈ u, d ≤ r.length) :
    block d ((block d u).map (· ++ z) ++ rest) = block d u := by
  have hl : ((block d u).map (· ++ z)).length = d := by simp [block, hd]
  unfold block at *
  rw [List.take_append_of_le_length (by omega), List.take_of_length_le (by omega)]
  rw [List.map_map]
  have : u.take d = u := List.take_of_length_le (by omega)
  rw [this, List.map_map]
  apply List.map_congr_left
  intro r hr
  have := h r hr
  simp only [Function.comp_apply]
  rw [List.take_append_of_le_length (by simp; omega), List.take_take, Nat.min_self]

theorem block_block (d : Nat) (u : List (List K)) : block d (block d u) = block d u := by
  simp only [block, ← List.map_take, List.take_take, Nat.min_self, List.map_map]
  apply List.map_congr_left
  intro r _
  simp [List.take_take]

theorem bravais_round (u pos : List (List K)) (names : List String) (b : Bravais K) (h : Bravais.new N u pos names = some b) :
    Bravais.read N (b.write : H5 K T F) = some b := by
  unfold Bravais.new at h
  dsimp only at h
  generalize hnm : (if names.isEmpty = true then List.replicate pos.length "" else names) = nm at h
  split at h
  case isFalse => simp at h
  case isTrue hc =>
  obtain ⟨h1, h2, h3, h4⟩ := hc
  split at h
  case h_2 => simp at h
  case h_1 rest hr =>
  split at h
  case h_2 => simp at h
  case h_1 inv hi =>
  simp only [Option.some.injEq] at h
  subst h
  simp only [Bravais.read, Bravais.write, getMat, kid, hasKey, getStrs, List.lookup, String.reduceBEq, Option.isSome_some, if_true]
  rw [block_first _ _ _ _ rfl h4]
  have hlen : (block u.length u).length = u.length := by simp [block]
  unfold Bravais.new
  simp only [hlen]
  have hn : (if nm.isEmpty then List.replicate pos.length "" else nm) = nm := by
    by_cases e : nm.isEmpty
    · have e' : nm = [] := by simpa using e
      rw [e'] at h1
      simp only [e, if_true, e']
      simp [h1]
    · rw [if_neg e]
  rw [hn, block_block, hr]
  have h5 : ∀ r ∈ block u.length u, u.length ≤ r.length := by
    intro r hr
    simp only [block, List.mem_map] at hr
    obtain ⟨q, hq, rfl⟩ := hr
    have := h4 q (List.mem_of_mem_take hq)
    simp
    omega
  rw [if_pos ⟨h1, h2, h3, h5⟩]
  simp only [hi]

theorem bz_round (u pos : List (List K)) (names : List String) (bl : Bravais K) (bz : Bz K) (h : Bravais.new N u pos names = some bl)
    (h' : Bz.new N bl = some bz) : Bz.read N (bz.write : H5 K T F) = some bz := by
  have e : bz.lattice = bl := by
    unfold Bz.new at h'
    repeat' split at h' <;> try simp at h'
    rw [← h']
  have hb := bravais_round N u pos names bl h
  have ho : openGroup (bz.write : H5 K T F) "bravais_lattice" = some bl.write := by
    simp [openGroup, Bz.write, kid, List.lookup, e, Bravais.write]
  simp only [Bz.read, ho, hb, h']

theorem brzone_round (u pos : List (List K)) (names : List String) (d : Int × Int × Int) (bl : Bravais K) (bz : Bz K) (m : Lat (Bz K) K)
    (h : Bravais.new N u pos names = some bl) (h' : Bz.new N bl = some bz) (h'' : brzoneNew N bz d = some m) :
    brzoneRead N (brzoneWrite m : H5 K T F) = some m := by
  have e : m.base = bz ∧ m.dims = d := by
    unfold brzoneNew at h''
    repeat' split at h'' <;> try simp at h''
    rw [← h'']
    exact ⟨rfl, rfl⟩
  have hb := bz_round N u pos names bl bz h h'
  have ho : openGroup (brzoneWrite m : H5 K T F) "brillouin_zone" = some bz.write := by
    simp [openGroup, brzoneWrite, kid, List.lookup, e, Bz.write]
  have hd : readDims (brzoneWrite m : H5 K T F) = some d := by
    simp [readDims, brzoneWrite, hasKey, kid, List.lookup, e]
  have hk : hasKey (brzoneWrite m : H5 K T F) "brillouin_zone" = true := by simp [hasKey, brzoneWrite, kid, List.lookup]
  have hf : formatOk "MeshBrillouinZone" (brzoneWrite m : H5 K T F) = true := by simp [formatOk, brzoneWrite]
  simp only [brzoneRead, hf, hd, hk, ho, if_true, Option.bind_some, hb, h'']

theorem cyclat_round (u pos : List (List K)) (names : List String) (d : Int × Int × Int) (bl : Bravais K) (m : Lat (Bravais K) K)
    (h : Bravais.new N u pos names = some bl) (h' : cyclatNew N bl d = some m) : cyclatRead N (cyclatWrite m : H5 K T F) = some m := by
  have e : m.base = bl ∧ m.dims = d := by
    unfold cyclatNew at h'
    repeat' split at h' <;> try simp at h'
    rw [← h']
    exact ⟨rfl, rfl⟩
  have hb := bravais_round N u pos names bl h
  have ho : openGroup (cyclatWrite m : H5 K T F) "bravais_lattice" = some bl.write := by
    simp [openGroup, cyclatWrite, kid, List.lookup, e, Bravais.write]
  have hd : readDims (cyclatWrite m : H5 K T F) = some d := by
    simp [readDims, cyclatWrite, hasKey, kid, List.lookup, e]
  have hk : hasKey (cyclatWrite m : H5 K T F) "bravais_lattice" = true := by simp [hasKey, cyclatWrite, kid, List.lookup]
  have hf : formatOk "MeshCyclicLattice" (cyclatWrite m : H5 K T F) = true := by simp [formatOk, cyclatWrite]
  simp only [cyclatRead, hf, hd, hk, ho, if_true, Option.bind_some, hb, h']

theorem dlr_round (k : DlrKind) (b : K) (s : Stat) (w e : K) (o : DlrOps K T F) :
    ((Dlr.new N k b s w e o).write k).bind (Dlr.read N k) = some (Dlr.new N k b s w e o) := by
  simp [Dlr.read, Dlr.write, Dlr.new, formatOk, kid, getNum, getStr, getVec, getImt, getImf, Stat.ofCode_code, List.lookup]

theorem built_dlr (m : Mesh K T F) (h : Built N m) : ∀ k d, m = .dlr k d → ∃ b s w e o, d = Dlr.new N k b s w e o := by
  induction h with
  | dlr k b s w e o =>
    intro k' d hd
    simp only [Mesh.dlr.injEq] at hd
    obtain ⟨rfl, rfl⟩ := hd
    exact ⟨b, s, w, e, o, rfl⟩
  | convert k k' m m' _ h' ih =>
    intro k'' d hd
    simp only [Mesh.dlr.injEq] at hd
    obtain ⟨rfl, rfl⟩ := hd
    obtain ⟨b, s, w, e, o, rfl⟩ := ih k m rfl
    unfold Dlr.convert at h'
    split at h'
    case isTrue hk => subst hk; simp only [Option.some.injEq] at h'; exact ⟨b, s, w, e, o, h'.symm⟩
    case isFalse =>
      simp only [Dlr.new, Option.map_some, Option.some.injEq] at h'
      exact ⟨b, s, w, e, o, h'.symm⟩
  | _ => intro k d hd; simp at hd

/-- **C169** A mesh of any type that a constructor with parameters made can be written to an archive, and reading gives the mesh with all members,
the derived ones and the hash included. -/
theorem C169_round_trip (m : Mesh K T F) (h : Built N m) : ∃ a, write m = some a ∧ read N m.kind a = some m := by
  have hd := built_dlr N m h
  cases h with
  | imfreq b s n p h => exact ⟨_, rfl, by simp [read, Mesh.kind, imfreq_round N b s n p (.inl h)]⟩
  | imtime b s n => exact ⟨_, rfl, by simp [read, Mesh.kind, imtime_round]⟩
  | refreq x y n => exact ⟨_, rfl, by simp [read, Mesh.kind, lin_round]⟩
  | retime x y n => exact ⟨_, rfl, by simp [read, Mesh.kind, lin_round]⟩
  | legendre b s n => exact ⟨_, rfl, by simp [read, Mesh.kind, legendre_round]⟩
  | discrete n => exact ⟨_, rfl, by simp [read, Mesh.kind, discrete_round]⟩
  | brzone u pos names d bl bz m h h' h'' => exact ⟨_, rfl, by simp [read, Mesh.kind, brzone_round N u pos names d bl bz m h h' h'']⟩
  | cyclat u pos names d bl m h h' => exact ⟨_, rfl, by simp [read, Mesh.kind, cyclat_round N u pos names d bl m h h']⟩
  | dlr k b s w e o =>
    have := dlr_round N k b s w e o
    cases hw : (Dlr.new N k b s w e o).write k with
    | none => simp [hw] at this
    | some a => rw [hw] at this; exact ⟨a, hw, by simpa [read, Mesh.kind] using this⟩
  | convert k k' m m' h h' =>
    obtain ⟨b, s, w, e, o, rfl⟩ := hd k' m' rfl
    have := dlr_round N k' b s w e o
    cases hw : (Dlr.new N k' b s w e o).write k' with
    | none => simp [hw] at this
    | some a => rw [hw] at this; exact ⟨a, hw, by simpa [read, Mesh.kind] using this⟩

def Kind.format : Kind → String
  | .imfreq => "MeshImFreq"
  | .imtime => "MeshImTime"
  | .refreq => "MeshReFreq"
  | .retime => "MeshReTime"
  | .legendre => "MeshLegendre"
  | .discrete => "MeshIndex"
  | .brzone => "MeshBrillouinZone"
  | .cyclat => "MeshCyclicLattice"
  | .dlr k => k.format

theorem write_group (m : Mesh K T F) (a : H5 K T F) (h : write m = some a) : ∃ l, a = .group (some m.kind.format) l := by
  cases m <;> simp only [write, Option.some.injEq] at h
  case dlr k m =>
    unfold Dlr.write at h
    cases ho : m.ops with
    | none => simp [ho] at h
    | some o => simp only [ho, Option.map_some, Option.some.injEq] at h; exact ⟨_, h.symm⟩
  all_goals exact ⟨_, h.symm⟩

theorem read_format (k : Kind) (f : String) (l : List (String × H5 K T F)) (m : Mesh K T F) (h : read N k (.group (some f) l) = some m) :
    f = k.format ∧ m.kind = k := by
  have key : ∀ e : String, ¬ f = e → formatOk e (.group (some f) l : H5 K T F) = false := by
    intro e he; simp [formatOk, he]
  cases k <;>
    (simp only [read, Option.map_eq_some_iff] at h
     obtain ⟨x, hx, rfl⟩ := h
     refine ⟨?_, rfl⟩
     by_contra hne)
  case imfreq => simp [Imfreq.read, key "MeshImFreq" hne] at hx
  case imtime => simp [Imtime.read, key "MeshImTime" hne] at hx
  case refreq => simp [Lin.read, key "MeshReFreq" hne] at hx
  case retime => simp [Lin.read, key "MeshReTime" hne] at hx
  case legendre => simp [Legendre.read, key "MeshLegendre" hne] at hx
  case discrete => simp [Discrete.read, key "MeshIndex" hne] at hx
  case brzone => simp [brzoneRead, key "MeshBrillouinZone" hne] at hx
  case cyclat => simp [cyclatRead, key "MeshCyclicLattice" hne] at hx
  case dlr k => simp [Dlr.read, key k.format hne] at hx

/-- **C169** A mesh is never read from the archive of a mesh of another type: this raises an exception. -/
theorem C169_types (m m' : Mesh K T F) (a : H5 K T F) (k : Kind) (h : write m = some a) (h' : read N k a = some m') : k = m.kind ∧ m'.kind = m.kind := by
  obtain ⟨l, rfl⟩ := write_group m a h
  have := read_format N k _ l m' h'
  have e : k = m.kind := by
    have := this.1
    revert this
    generalize m.kind = q
    cases k <;> cases q <;> (try simp [Kind.format]) <;> (rename_i x; cases x) <;> (try simp [Kind.format, DlrKind.format]) <;>
      (rename_i y; cases y) <;> simp
  exact ⟨e, by rw [this.2, e]⟩

/-- **C169** What the size in the archive says for a fermionic mesh of all frequencies whose number of frequencies is negative: there is one more after
reading, so that the condition of `Built` is needed. -/
theorem C169_negative (b : K) (n : Int) (h : n < 0) :
    Imfreq.read N ((Imfreq.new N b .fermion n false).write : H5 K T F) = some (Imfreq.new N b .fermion (n + 1) false) := by
  have hs : ((Imfreq.new N b .fermion n false).size + 1).tdiv 2 = n + 1 := by
    simp only [Imfreq.size, Imfreq.new, Bool.false_eq_true, if_false, if_true]
    have e : n - 1 - -(n - 1 + 1) + 1 + 1 = -(2 * (-n - 1) + 1) := by omega
    rw [e, Int.neg_tdiv, Int.tdiv_eq_ediv_of_nonneg (by omega)]
    omega
  simp [Imfreq.read, Imfreq.write, formatOk, posFreq, hasKey, kid, getInt, domain, getNum, getStr, List.lookup]
  rw [hs]
  simp [Imfreq.new, Stat.ofCode_code]

/-- **C169** Default constructed meshes: for Matsubara frequencies, reading gives an equal mesh (with another hash); for Legendre coefficients it gives a mesh
which is not equal if the hash of the parameters is not zero, since the comparison of all members includes the hash; the meshes of the
discrete Lehmann representation cannot be written. -/
theorem C169_defaults [DecidableEq K] :
    (∃ m, read N .imfreq ((Imfreq.default N).write : H5 K T F) = some (.imfreq m) ∧ Imfreq.eq m (Imfreq.default N) = true ∧
      m.hash = N.hd N.one + N.hs .fermion + N.hl 0 + N.ho false) ∧
    (N.hd N.one + N.hs .fermion + N.hl 0 ≠ 0 →
      ∃ m, read N .legendre ((Legendre.default N).write : H5 K T F) = some (.legendre m) ∧ m ≠ Legendre.default N) ∧
    (∀ k (m : Dlr K T F), m.ops = none → write (.dlr k m) = none) := by
  refine ⟨⟨Imfreq.new N N.one .fermion 0 false, ?_, ?_, rfl⟩, ?_, ?_⟩
  · have := imfreq_round N N.one .fermion 0 false (.inl (Int.le_refl 0))
    have e : ((Imfreq.default N).write : H5 K T F) = (Imfreq.new N N.one .fermion 0 false).write := rfl
    rw [e]
    simp [read, this]
  · simp [Imfreq.eq, Imfreq.default, Imfreq.new]
  · intro h
    refine ⟨Legendre.new N N.one .fermion 0, ?_, ?_⟩
    · have := legendre_round N N.one .fermion 0
      have e : ((Legendre.default N).write : H5 K T F) = (Legendre.new N N.one .fermion 0).write := rfl
      rw [e]
      simp [read, this]
    · simpa [Legendre.default, Legendre.new] using h
  · intro k m h
    simp [write, Dlr.write, h]

/-- **C169** Default constructed Brillouin zones: the zone read back has the reciprocal lattice that the constructor computes for the cubic lattice, which is
another one unless that is the unit matrix; and the archive of a default constructed mesh of a zone cannot be read when the diagonal matrix of three
zeros has no inverse. -/
theorem C169_default_zone (bz : Bz K) (h : Bz.default N = some bz) (r : List (List K)) (hr : N.recip bz.lattice.units = some r) (hne : r ≠ eye N) :
    Bz.read N (bz.write : H5 K T F) ≠ some bz ∧
    ((∀ u, N.scale (0, 0, 0) u = none) → ∃ a, write (.brzone (brzoneDefault N bz) : Mesh K T F) = some a ∧ read N .brzone a = none) := by
  constructor
  · intro hb
    unfold Bz.default at h
    simp only [Option.map_eq_some_iff] at h
    obtain ⟨bl, hbl, rfl⟩ := h
    have h1 := bravais_round N _ _ _ bl hbl
    have ho : openGroup ((⟨bl, eye N, eye N⟩ : Bz K).write : H5 K T F) "bravais_lattice" = some bl.write := by
      simp [openGroup, Bz.write, kid, List.lookup, Bravais.write]
    simp only [Bz.read, ho, h1, Bz.new, hr] at hb
    split at hb
    · simp only [Option.some.injEq, Bz.mk.injEq] at hb
      exact hne hb.2.1
    · simp at hb
  · intro hz
    refine ⟨_, rfl, ?_⟩
    have : brzoneRead N (brzoneWrite (brzoneDefault N bz) : H5 K T F) = none := by
      have hd : readDims (brzoneWrite (brzoneDefault N bz) : H5 K T F) = some (0, 0, 0) := by
        simp [readDims, brzoneWrite, hasKey, kid, List.lookup, brzoneDefault]
      unfold brzoneRead
      simp only [hd]
      split
      · split
        · simp [brzoneNew, hz]
        · rfl
      · rfl
    simp [read, this]

/-- **C169** Archives of older versions. Inverse temperature and statistic are in the group `domain`; the option of Matsubara frequencies has the name
`start_at_0`; the number of times has the name `size`; the largest degree of Legendre polynomials is `n_max` in `domain`; lattice meshes have a
periodization matrix and the names `bz` and `bl`; groups have no format. They are read as what they were written for. -/
theorem C169_old_archives (b : K) (s : Stat) (f f' : Option String) (n : Int) :
    (∀ p : Bool, 0 ≤ n → (f = none ∨ f = some "MeshImFreq") →
      read N .imfreq (.group f [("domain", .group f' [("beta", .num b), ("statistic", .str s.code)]), ("size", .int (Imfreq.new N b s n p).size),
        ("start_at_0", .int (if p then 1 else 0))]) = some (.imfreq (Imfreq.new N b s n p))) ∧
    (f = none ∨ f = some "MeshImTime" →
      read N .imtime (.group f [("domain", .group f' [("beta", .num b), ("statistic", .str s.code)]), ("size", .int n)]) =
        some (.imtime (Imtime.new N b s n))) ∧
    (f = none ∨ f = some "MeshLegendre" →
      read N .legendre (.group f [("domain", .group f' [("beta", .num b), ("statistic", .str s.code), ("n_max", .int n)])]) =
        some (.legendre (Legendre.new N b s n))) ∧
    (∀ (bl : Bravais K) (u pos : List (List K)) (names : List String) (d : Int × Int × Int) (m : Lat (Bravais K) K),
      Bravais.new N u pos names = some bl → cyclatNew N bl d = some m → (f = none ∨ f = some "MeshCyclicLattice") →
      read N .cyclat (.group f [("bl", bl.write), ("periodization_matrix", .imat [[d.1, 0, 0], [0, d.2.1, 0], [0, 0, d.2.2]])]) = some (.cyclat m)) ∧
    (∀ (bl : Bravais K) (bz : Bz K) (u pos : List (List K)) (names : List String) (d : Int × Int × Int) (m : Lat (Bz K) K),
      Bravais.new N u pos names = some bl → Bz.new N bl = some bz → brzoneNew N bz d = some m → (f = none ∨ f = some "MeshBrillouinZone") →
      read N .brzone (.group f [("bz", bz.write), ("periodization_matrix", .imat [[d.1, 0, 0], [0, d.2.1, 0], [0, 0, d.2.2]])]) = some (.brzone m)) := by
  refine ⟨?_, ?_, ?_, ?_, ?_⟩
  · intro p h hf
    have hfo : ∀ l, formatOk "MeshImFreq" (.group f l : H5 K T F) = true := by intro l; rcases hf with rfl | rfl <;> simp [formatOk]
    simp only [read, Imfreq.read, hfo, if_true]
    cases p
    · have hs : ((Imfreq.new N b s n false).size + 1).tdiv 2 = n := by
        simp only [Imfreq.size, Imfreq.new, Bool.false_eq_true, if_false]
        cases s
        · simp only [if_true]; rw [Int.tdiv_eq_ediv_of_nonneg (by omega)]; omega
        · simp only [reduceCtorEq, if_false]; rw [Int.tdiv_eq_ediv_of_nonneg (by omega)]; omega
      simp [posFreq, hasKey, kid, getInt, domain, openGroup, getNum, getStr, List.lookup, hs, Stat.ofCode_code]
    · simp [posFreq, hasKey, kid, getInt, domain, openGroup, getNum, getStr, List.lookup, Stat.ofCode_code, Imfreq.size]
      simp [Imfreq.new]
  · intro hf
    have hfo : ∀ l, formatOk "MeshImTime" (.group f l : H5 K T F) = true := by intro l; rcases hf with rfl | rfl <;> simp [formatOk]
    simp [read, Imtime.read, hfo, hasKey, kid, getInt, domain, openGroup, getNum, getStr, List.lookup, Stat.ofCode_code]
  · intro hf
    have hfo : ∀ l, formatOk "MeshLegendre" (.group f l : H5 K T F) = true := by intro l; rcases hf with rfl | rfl <;> simp [formatOk]
    simp [read, Legendre.read, hfo, hasKey, kid, getInt, domain, openGroup, getNum, getStr, List.lookup, Stat.ofCode_code]
  · intro bl u pos names d m h h' hf
    have hfo : ∀ l, formatOk "MeshCyclicLattice" (.group f l : H5 K T F) = true := by intro l; rcases hf with rfl | rfl <;> simp [formatOk]
    have hb := bravais_round N u pos names bl h
    have ho : ∀ x : H5 K T F, openGroup (.group f [("bl", bl.write), ("periodization_matrix", x)] : H5 K T F) "bl" = some bl.write := by
      intro x; simp [openGroup, kid, List.lookup, Bravais.write]
    have hk : ∀ x : H5 K T F, hasKey (.group f [("bl", bl.write), ("periodization_matrix", x)] : H5 K T F) "bravais_lattice" = false := by
      intro x; simp [hasKey, kid, List.lookup]
    have hd : readDims (.group f [("bl", bl.write), ("periodization_matrix", .imat [[d.1, 0, 0], [0, d.2.1, 0], [0, 0, d.2.2]])] : H5 K T F) = some d := by
      simp [readDims, hasKey, kid, List.lookup]
    simp [read, cyclatRead, hfo, hd, hk, ho, hb, h']
  · intro bl bz u pos names d m h h' h'' hf
    have hfo : ∀ l, formatOk "MeshBrillouinZone" (.group f l : H5 K T F) = true := by intro l; rcases hf with rfl | rfl <;> simp [formatOk]
    have hb := bz_round N u pos names bl bz h h'
    have ho : ∀ x : H5 K T F, openGroup (.group f [("bz", bz.write), ("periodization_matrix", x)] : H5 K T F) "bz" = some bz.write := by
      intro x; simp [openGroup, kid, List.lookup, Bz.write]
    have hk : ∀ x : H5 K T F, hasKey (.group f [("bz", bz.write), ("periodization_matrix", x)] : H5 K T F) "brillouin_zone" = false ∧
        hasKey (.group f [("bz", bz.write), ("periodization_matrix", x)] : H5 K T F) "bz" = true := by
      intro x; simp [hasKey, kid, List.lookup]
    have hd : readDims (.group f [("bz", bz.write), ("periodization_matrix", .imat [[d.1, 0, 0], [0, d.2.1, 0], [0, 0, d.2.2]])] : H5 K T F) = some d := by
      simp [readDims, hasKey, kid, List.lookup]
    simp [read, brzoneRead, hfo, hd, hk, ho, hb, h'']

theorem component_inj (i j : Nat) (h : component i = component j) : i = j := by
  have : (component i).toList = (component j).toList := by rw [h]
  simp only [component, String.toList_append] at this
  have := List.append_cancel_left this
  exact Nat.repr_injective (String.toList_inj.mp this)

theorem write_lookup : ∀ (ms : List (Mesh K T F)) (i : Nat) (l : List (String × H5 K T F)), writeFrom i ms = some l →
    ∀ j (hj : j < ms.length), ∃ a, write ms[j] = some a ∧ l.lookup (component (i + j)) = some a
  | [], _, _, _, j, hj => by simp at hj
  | m :: ms, i, l, h, j, hj => by
    unfold writeFrom at h
    cases hm : write m with
    | none => simp [hm] at h
    | some a =>
      cases hr : writeFrom (i + 1) ms with
      | none => simp [hm, hr] at h
      | some r =>
        simp only [hm, hr, Option.some.injEq] at h
        subst h
        cases j with
        | zero => exact ⟨a, hm, by simp [List.lookup]⟩
        | succ j =>
          obtain ⟨b, hb, hl⟩ := write_lookup ms (i + 1) r hr j (by simpa using hj)
          refine ⟨b, by simpa using hb, ?_⟩
          have hne : (component (i + (j + 1)) == component i) = false := by
            simp only [beq_eq_false_iff_ne]
            intro e
            have := component_inj _ _ e
            omega
          rw [List.lookup, hne]
          have : i + (j + 1) = i + 1 + j := by omega
          rw [this]
          exact hl

theorem write_total : ∀ (ms : List (Mesh K T F)) (i : Nat), (∀ m ∈ ms, ∃ a, write m = some a) → ∃ l, writeFrom i ms = some l
  | [], _, _ => ⟨[], rfl⟩
  | m :: ms, i, h => by
    obtain ⟨a, ha⟩ := h m (by simp)
    obtain ⟨l, hl⟩ := write_total ms (i + 1) (fun x hx => h x (by simp [hx]))
    exact ⟨(component i, a) :: l, by simp [writeFrom, ha, hl]⟩

theorem openGroup_write (m : Mesh K T F) (a : H5 K T F) (h : write m = some a) (f : Option String) (l : List (String × H5 K T F)) (n : String)
    (hl : l.lookup n = some a) : openGroup (.group f l) n = some a := by
  obtain ⟨k, rfl⟩ := write_group m a h
  simp [openGroup, kid, hl]

theorem readFrom_round (a : H5 K T F) : ∀ (ms ts : List (Mesh K T F)) (i : Nat), ts.map Mesh.kind = ms.map Mesh.kind →
    (∀ j (hj : j < ms.length), (openGroup a (component (i + j))).bind (read N ms[j].kind) = some ms[j]) → readFrom N a i ts = (ms, true)
  | [], [], _, _, _ => rfl
  | [], _ :: _, _, h, _ => by simp at h
  | _ :: _, [], _, h, _ => by simp at h
  | m :: ms, t :: ts, i, h, hr => by
    simp only [List.map_cons, List.cons.injEq] at h
    have h0 := hr 0 (by simp)
    simp only [Nat.add_zero, List.getElem_cons_zero] at h0
    have ih := readFrom_round a ms ts (i + 1) h.2 (fun j hj => by
      have := hr (j + 1) (by simpa using hj)
      have e : i + (j + 1) = i + 1 + j := by omega
      rw [e] at this
      simpa using this)
    simp [readFrom, h.1, h0, ih]

/-- **C169** Products of meshes, for any number of variables: reading into a product of the same type gives the components. The archive may have more components
than the product that is read: they are not looked at. -/
theorem C169_products (ms more target : List (Mesh K T F)) (h : ∀ m ∈ ms ++ more, Built N m) (hk : target.map Mesh.kind = ms.map Mesh.kind) :
    ∃ a, writeProd (ms ++ more) = some a ∧ readProd N a target = (ms, true) := by
  obtain ⟨l, hl⟩ := write_total (ms ++ more) 0 (fun m hm => by obtain ⟨a, ha, -⟩ := C169_round_trip N m (h m hm); exact ⟨a, ha⟩)
  refine ⟨.group (some "MeshProduct") l, by simp [writeProd, hl], ?_⟩
  simp only [readProd, formatOk, beq_self_eq_true, if_true]
  refine readFrom_round N _ ms target 0 hk (fun j hj => ?_)
  have hj' : j < (ms ++ more).length := by simp; omega
  obtain ⟨a, ha, hlk⟩ := write_lookup (ms ++ more) 0 l hl j hj'
  have e : (ms ++ more)[j] = ms[j] := List.getElem_append_left hj
  rw [e] at ha
  obtain ⟨b, hb, hr⟩ := C169_round_trip N ms[j] (h _ (by simp [List.getElem_mem hj]))
  have : a = b := by rw [ha] at hb; simpa using hb
  subst this
  rw [openGroup_write ms[j] a ha _ l _ hlk]
  exact hr

/-- **C169** When a component cannot be read, the components before it have been assigned and those from there on are as they were. -/
theorem C169_products_failure (a : H5 K T F) : ∀ (i : Nat) (target result : List (Mesh K T F)), readFrom N a i target = (result, false) →
    ∃ n, n < target.length ∧ result.length = target.length ∧ result.drop n = target.drop n ∧
      (∀ j (hj : j < n) (h1 : j < target.length) (h2 : j < result.length),
        (openGroup a (component (i + j))).bind (read N target[j].kind) = some result[j]) ∧
      ∀ t, target[n]? = some t → (openGroup a (component (i + n))).bind (read N t.kind) = none
  | i, [], result, h => by simp [readFrom] at h
  | i, t :: ts, result, h => by
    unfold readFrom at h
    cases ho : (openGroup a (component i)).bind (read N t.kind) with
    | none =>
      simp only [ho, Prod.mk.injEq, and_true] at h
      subst h
      refine ⟨0, by simp, rfl, rfl, fun j hj => absurd hj (by omega), ?_⟩
      intro t' ht'
      simp only [List.getElem?_cons_zero, Option.some.injEq] at ht'
      subst ht'
      simpa using ho
    | some m =>
      simp only [ho, Prod.mk.injEq] at h
      obtain ⟨h1, h2⟩ := h
      obtain ⟨n, hn, hl, hd, hb, hx⟩ := C169_products_failure a (i + 1) ts (readFrom N a (i + 1) ts).1 (by rw [← h2])
      subst h1
      refine ⟨n + 1, by simpa using hn, by simpa using hl, by simpa using hd, ?_, ?_⟩
      · intro j hj h1 h2
        cases j with
        | zero => simpa using ho
        | succ j =>
          have := hb j (by omega) (by simpa using h1) (by simpa using h2)
          have e : i + (j + 1) = i + 1 + j := by omega
          rw [e]
          simpa using this
      · intro t' ht'
        have e : i + (n + 1) = i + 1 + n := by omega
        rw [e]
        exact hx t' (by simpa using ht')

/-- **C169, derived members** of the meshes on lattices: the point with the largest indices has the last data index. -/
theorem C169_last_point (N : Num K T F) (d : Int × Int × Int) :
    (∀ bz m, brzoneNew N bz d = some m → (d.1 - 1) * m.stride0 + (d.2.1 - 1) * m.stride1 + (d.2.2 - 1) = m.size - 1) ∧
    (∀ bl m, cyclatNew N bl d = some m → (d.1 - 1) * m.stride0 + (d.2.1 - 1) * m.stride1 + (d.2.2 - 1) = m.size - 1) := by
  constructor
  · intro bz m h
    unfold brzoneNew at h
    split at h
    · split at h
      · cases h; ring
      · cases h
    · cases h
  · intro bl m h
    unfold cyclatNew at h
    split at h
    · cases h; ring
    · cases h

/-- **C169, the hash of a DLR mesh**, by which meshes are compared (dlr.hpp:100, dlr_imfreq.hpp:95; on imaginary times, dlr_imtime.hpp:94, together with the
statistic): two inverse temperatures, cut-offs or precisions are told apart whenever
`std::hash` does; so are the statistics, except on the mesh of imaginary times, where the statistic does not enter. -/
theorem C169_dlr_hash (N : Num K T F) (k : DlrKind) (beta beta' w w' eps eps' : K) (s s' : Stat) (o : DlrOps K T F) :
    (dlrHash N k beta s w eps o = dlrHash N k beta' s w eps o ↔ N.hd beta = N.hd beta') ∧
    (dlrHash N k beta s w eps o = dlrHash N k beta s w' eps o ↔ N.hd w = N.hd w') ∧
    (dlrHash N k beta s w eps o = dlrHash N k beta s w eps' o ↔ N.hd eps = N.hd eps') ∧
    (k ≠ .imtime → (dlrHash N k beta s w eps o = dlrHash N k beta s' w eps o ↔ N.hs s = N.hs s')) ∧
    (k = .imtime → dlrHash N k beta s w eps o = dlrHash N k beta s' w eps o) := by
  cases k <;> simp [dlrHash]

/-! ### Examples -/

/-- numbers are integers here, and the computations of the constructors simple -/
def exNum : Num Int Unit (List Int) where
  one := 1
  zero := 0
  delta a b n := if n = 1 then 0 else (b - a) / (n - 1)
  deltaInv a b n := if n = 1 then 0 else n - 1
  complete m := some ([[0, 0, 1], [0, 1, 0]].take (3 - m.length))
  inverse m := some (m.map (·.map (fun x => -x)))
  recip m := some (m.map (·.map (fun x => 6 * x)))
  scale d m := if d.1 * d.2.1 * d.2.2 = 0 then none else some m
  sum l := l.sum
  hd x := BitVec.ofInt 64 x
  hl x := BitVec.ofInt 64 x
  hs s := if s = .fermion then 1 else 0
  ho b := if b then 1 else 0
  itnodes _ := [1, 2]
  ifnodes l := l

example : Built exNum (.imfreq (Imfreq.new exNum 10 .boson 5 false)) ∧ (Imfreq.new exNum 10 .boson 5 false).size = 9 := ⟨.imfreq _ _ _ _ (by decide), by decide⟩

example : (write (.imfreq (Imfreq.new exNum 10 .boson 5 false))).bind (read exNum .imfreq) = some (.imfreq (Imfreq.new exNum 10 .boson 5 false)) := by
  decide +kernel

example : (write (.imfreq (Imfreq.new exNum 10 .boson 5 false))).bind (read exNum .imtime) = none := by decide +kernel

def exBl : Bravais Int := ⟨[[2, 1, 0], [0, 3, 0], [0, 0, 1]], [[-2, -1, 0], [0, -3, 0], [0, 0, -1]], [[0, 0, 0], [1, 1, 0]], ["a", "b"], 2⟩

example : Bravais.new exNum [[2, 1, 7], [0, 3, 7]] [[0, 0, 0], [1, 1, 0]] ["a", "b"] = some exBl := by decide +kernel

example : Bravais.read exNum exBl.write = some exBl := by decide +kernel

example : ((cyclatNew exNum exBl (4, 3, 1)).bind fun m => (write (.cyclat m)).bind (read exNum .cyclat)) = (cyclatNew exNum exBl (4, 3, 1)).map .cyclat ∧
    (cyclatNew exNum exBl (4, 3, 1)).isSome := by decide +kernel

/-- a product of three meshes read into a product of two: the third one is lost without a notice -/
example : ((writeProd [.discrete (Discrete.new 3), .legendre (Legendre.new exNum 5 .fermion 7), .discrete (Discrete.new 2)]).map
    fun a => readProd exNum a [.discrete (Discrete.new 0), .legendre (Legendre.new exNum 1 .boson 0)]) =
    some ([.discrete (Discrete.new 3), .legendre (Legendre.new exNum 5 .fermion 7)], true) := by decide +kernel

/-- the second component has another type: the first one has been replaced when the exception is thrown -/
example : ((writeProd [.discrete (Discrete.new 3), .legendre (Legendre.new exNum 5 .fermion 7)]).map
    fun a => readProd exNum a [.discrete (Discrete.new 0), .discrete (Discrete.new 1)]) =
    some ([.discrete (Discrete.new 3), .discrete (Discrete.new 1)], false) := by decide +kernel

example : exNum.hd exNum.one + exNum.hs .fermion + exNum.hl 0 ≠ 0 := by decide

example : ∃ bz r, Bz.default exNum = some bz ∧ exNum.recip bz.lattice.units = some r ∧ r ≠ eye exNum ∧ ∀ u, exNum.scale (0, 0, 0) u = none :=
  ⟨_, _, rfl, rfl, by decide +kernel, fun _ => rfl⟩

end Verif.MeshArchive
