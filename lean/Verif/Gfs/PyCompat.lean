import Verif.Gfs.PyGf

/-!
# Property C171: the constructors for one kind of mesh in Python

Sources: `/repo/python/triqs/gf/backwd_compat/gf_imfreq.py`, `gf_imtime.py`, `gf_legendre.py`, `gf_refreq.py`, `gf_retime.py` (the inner
function `delegate` of each), `/repo/python/triqs/gf/meshes_desc.py` (the constructors of the meshes),
`/repo/c++/triqs/cpp2py_converters/mesh.hpp` (the statistic as a string), `/repo/c++/triqs/mesh/imfreq.hpp`, `legendre.hpp`,
`bases/linear.hpp` (the sizes of the meshes).

`GfImFreq(beta = 10, n_points = 100, target_shape = [2, 2])` makes the mesh and then the function as `Gf` does; that constructor is
`Verif.PyGf.construct` of C162.

Simplifications: numbers are elements of a type `F`; the parameters of a mesh are turned into the number which C162 stores for them by a
function `code`; the checks `a <= b` of the C++ meshes, which are compiled out of releases, are left out. The numbers of points fit into a C++ `int`.
-/

namespace Verif.PyCompat

open Verif.PyGf

/-! ## Model -/

/-- the five classes -/
inductive Kind where
  | imFreq | imTime | legendre | reFreq | reTime
deriving DecidableEq

/-- the class of the mesh -/
def Kind.mesh : Kind → String
  | .imFreq => "MeshImFreq"
  | .imTime => "MeshImTime"
  | .legendre => "MeshLegendre"
  | .reFreq => "MeshReFreq"
  | .reTime => "MeshReTime"

/-- the default of `n_points`: gf_imfreq.py:57, gf_imtime.py:57, gf_legendre.py:57, gf_refreq.py:57, gf_retime.py:57 -/
def Kind.points : Kind → ℤ
  | .imFreq => 1025
  | .imTime => 10000
  | .legendre => 30
  | .reFreq => 10000
  | .reTime => 10000

/-- `delegate` has the parameters `beta` and `statistic` and not `window` -/
def Kind.thermal : Kind → Bool
  | .imFreq => true
  | .imTime => true
  | .legendre => true
  | .reFreq => false
  | .reTime => false

/-- a Python value as `isinstance(x, int)` and `isinstance(x, (int, float))` see it; a numpy number of single precision or `None` is `other` -/
inductive Num (F : Type) where
  | int (n : ℤ)
  | float (x : F)
  | other

/-- the parameters of the C++ mesh besides the number of points -/
inductive Pars (F : Type) where
  | thermal (beta : F) (boson : Bool)
  | window (a b : F)

/-- the keyword arguments of a call; `none`: not given. `others` are the names of arguments besides those of the fields. -/
structure Kw (F : Type) where
  mesh : Option (Bool × List ℕ) := none
  data : Option ℕ := none
  targetShape : Option (List ℤ) := none
  name : Option String := none
  nPoints : Option (Num F) := none
  beta : Option (Num F) := none
  statistic : Option String := none
  window : Option (F × F) := none
  indices : Option Indices := none
  others : List String := []

variable {F K : Type}

/-- a keyword which `delegate` does not have -/
def unexpected (k : Kind) (kw : Kw F) : Bool :=
  !kw.others.isEmpty || (if k.thermal then kw.window.isSome else kw.beta.isSome || kw.statistic.isSome)

/-- the conversion of the statistic, cpp2py_converters/mesh.hpp:55-73: `true` for bosons; another string fits no constructor -/
def isBoson (s : String) : Except Err Bool := if s = "Fermion" then .ok false else if s = "Boson" then .ok true else .error .type

/-- the number of points: imfreq.hpp:59-60 and 173, legendre.hpp:119, bases/linear.hpp:48 -/
def size (k : Kind) (boson : Bool) (n : ℕ) : ℕ := match k with
  | .imFreq =>
    let last : ℤ := (n : ℤ) - 1
    let first : ℤ := -(last + if boson then 0 else 1)
    (last - first + 1).toNat
  | _ => n

/-- the constructor of the mesh, with all frequencies -/
def newMesh (code : Pars F → ℕ) (k : Kind) (p : Pars F) (n : ℕ) : Comp :=
  let boson := match p with
    | .thermal _ b => b
    | .window _ _ => false
  ⟨k.mesh, code p, size k boson n, false, boson⟩

/-- `isinstance(n_points, int) and n_points > 0` -/
def checkPoints : Num F → Except Err ℕ
  | .int n => if 0 < n then .ok n.toNat else .error .assertion
  | _ => .error .assertion

/-- `isinstance(beta, (int, float))` -/
def checkBeta (ofInt : ℤ → F) : Num F → Except Err F
  | .int n => .ok (ofInt n)
  | .float x => .ok x
  | .other => .error .assertion

/-- the mesh if none is given: gf_imfreq.py:58-61 and the same lines of gf_imtime.py and gf_legendre.py; gf_refreq.py:58-60 and the same lines of
gf_retime.py. `window[0]` of the default `None` is a `TypeError`. -/
def makeMesh (ofInt : ℤ → F) (code : Pars F → ℕ) (k : Kind) (kw : Kw F) : Except Err Comp :=
  let pts := kw.nPoints.getD (.int k.points)
  if k.thermal then
    match checkBeta ofInt (kw.beta.getD .other) with
    | .error e => .error e
    | .ok b =>
      match checkPoints pts with
      | .error e => .error e
      | .ok n =>
        match isBoson (kw.statistic.getD "Fermion") with
        | .error e => .error e
        | .ok s => .ok (newMesh code k (.thermal b s) n)
  else
    match checkPoints pts with
    | .error e => .error e
    | .ok n =>
      match kw.window with
      | none => .error .type
      | some (x, y) => .ok (newMesh code k (.window x y) n)

/-- `isinstance(mesh, MeshX)` -/
def isMesh (k : Kind) (s : Mem K) (m : Bool × List ℕ) : Bool :=
  !m.1 && match m.2 with
    | [i] => (s.comps i).kind == k.mesh
    | _ => false

/-- the arguments for the constructor of `Gf`, gf_imfreq.py:64-69 -/
def Kw.args (kw : Kw F) : Args := { data := kw.data, targetShape := kw.targetShape, name := kw.name.getD "", indices := kw.indices }

/-- a call of one of the five classes: gf_imfreq.py:57-71, gf_imtime.py:57-70, gf_legendre.py:57-71, gf_refreq.py:57-69, gf_retime.py:57-69 -/
def make [Zero K] (ofInt : ℤ → F) (code : Pars F → ℕ) (k : Kind) (s : Mem K) (kw : Kw F) : Except Err (Mem K × Gf) :=
  if unexpected k kw then .error .type
  else match kw.mesh with
    | some m => if isMesh k s m then construct s m.1 m.2 kw.args else .error .assertion
    | none =>
      match makeMesh ofInt code k kw with
      | .error e => .error e
      | .ok c => construct (s.newComps [c]).1 false (s.newComps [c]).2 kw.args

/-! ## Specification -/

/-- the number of points asked for -/
def Asked (k : Kind) (kw : Kw F) (n : ℕ) : Prop := 0 < n ∧ (kw.nPoints = some (.int n) ∨ kw.nPoints = none ∧ (n : ℤ) = k.points)

/-- the inverse temperature asked for -/
def AskedBeta (ofInt : ℤ → F) (kw : Kw F) (b : F) : Prop := kw.beta = some (.float b) ∨ ∃ z, kw.beta = some (.int z) ∧ b = ofInt z

/-- the statistic asked for -/
def AskedStat (kw : Kw F) (boson : Bool) : Prop :=
  (boson = false ∧ (kw.statistic = none ∨ kw.statistic = some "Fermion")) ∨ (boson = true ∧ kw.statistic = some "Boson")

/-- the mesh described by the arguments: its class, its parameters, its number of points and its statistic -/
def Described (ofInt : ℤ → F) (code : Pars F → ℕ) (k : Kind) (kw : Kw F) (c : Comp) : Prop :=
  ∃ n, Asked k kw n ∧
    ((k = .imFreq ∧ ∃ b f, AskedBeta ofInt kw b ∧ AskedStat kw f ∧ c = ⟨"MeshImFreq", code (.thermal b f), if f then 2 * n - 1 else 2 * n, false, f⟩) ∨
     (k = .imTime ∧ ∃ b f, AskedBeta ofInt kw b ∧ AskedStat kw f ∧ c = ⟨"MeshImTime", code (.thermal b f), n, false, f⟩) ∨
     (k = .legendre ∧ ∃ b f, AskedBeta ofInt kw b ∧ AskedStat kw f ∧ c = ⟨"MeshLegendre", code (.thermal b f), n, false, f⟩) ∨
     (k = .reFreq ∧ ∃ x y, kw.window = some (x, y) ∧ c = ⟨"MeshReFreq", code (.window x y), n, false, false⟩) ∨
     (k = .reTime ∧ ∃ x y, kw.window = some (x, y) ∧ c = ⟨"MeshReTime", code (.window x y), n, false, false⟩))

/-- keywords which are not for this class -/
def Foreign (k : Kind) (kw : Kw F) : Prop :=
  kw.others ≠ [] ∨ ((k = .imFreq ∨ k = .imTime ∨ k = .legendre) ∧ kw.window ≠ none) ∨ ((k = .reFreq ∨ k = .reTime) ∧ (kw.beta ≠ none ∨ kw.statistic ≠ none))

/-! ## Proofs -/

theorem unexpected_iff (k : Kind) (kw : Kw F) : unexpected k kw = true ↔ Foreign k kw := by
  unfold unexpected Foreign
  cases k <;> cases hw : kw.window <;> cases hb : kw.beta <;> cases hs : kw.statistic <;> cases ho : kw.others <;> simp [Kind.thermal]

theorem size_imFreq (b : Bool) (n : ℕ) : size .imFreq b n = if b then 2 * n - 1 else 2 * n := by
  unfold size
  cases b <;> simp <;> omega

theorem checkPoints_iff (k : Kind) (kw : Kw F) (n : ℕ) : checkPoints (kw.nPoints.getD (.int k.points)) = .ok n ↔ Asked k kw n := by
  unfold Asked
  cases h : kw.nPoints with
  | none =>
    simp only [Option.getD_none, checkPoints, reduceCtorEq, false_or, true_and]
    cases k <;> simp [Kind.points] <;> omega
  | some v =>
    simp only [Option.getD_some, Option.some.injEq, reduceCtorEq, false_and, or_false]
    cases v with
    | int z =>
      simp only [checkPoints, Num.int.injEq]
      split
      · simp only [Except.ok.injEq]; omega
      · simp only [reduceCtorEq, false_iff]; omega
    | float x => simp [checkPoints]
    | other => simp [checkPoints]

theorem checkBeta_iff (ofInt : ℤ → F) (kw : Kw F) (b : F) : checkBeta ofInt (kw.beta.getD .other) = .ok b ↔ AskedBeta ofInt kw b := by
  unfold AskedBeta
  cases h : kw.beta with
  | none => simp [checkBeta]
  | some v => cases v <;> simp [checkBeta, eq_comm]

theorem isBoson_iff (kw : Kw F) (f : Bool) : isBoson (kw.statistic.getD "Fermion") = .ok f ↔ AskedStat kw f := by
  unfold AskedStat isBoson
  cases h : kw.statistic with
  | none => cases f <;> simp
  | some v =>
    simp only [Option.getD_some, Option.some.injEq, reduceCtorEq, false_or]
    by_cases h1 : v = "Fermion"
    · subst h1; cases f <;> simp
    · rw [if_neg h1]
      by_cases h2 : v = "Boson"
      · subst h2; cases f <;> simp
      · rw [if_neg h2]; simp [h1, h2]

/-- The mesh that is made is the one described by the arguments, and it is made whenever they describe one. -/
theorem makeMesh_iff (ofInt : ℤ → F) (code : Pars F → ℕ) (k : Kind) (kw : Kw F) (c : Comp) :
    makeMesh ofInt code k kw = .ok c ↔ Described ofInt code k kw c := by
  have hp := checkPoints_iff k kw
  have hb := checkBeta_iff ofInt kw
  have hs := isBoson_iff kw
  have thermal : k.thermal = true → (makeMesh ofInt code k kw = .ok c ↔
      ∃ n b f, Asked k kw n ∧ AskedBeta ofInt kw b ∧ AskedStat kw f ∧ newMesh code k (.thermal b f) n = c) := by
    intro hk
    unfold makeMesh
    simp only [hk, if_true]
    cases e1 : checkBeta ofInt (kw.beta.getD .other) with
    | error e =>
      simp only [reduceCtorEq, false_iff]
      rintro ⟨n, b, f, _, h2, _⟩
      rw [← hb, e1] at h2; cases h2
    | ok b =>
      cases e2 : checkPoints (kw.nPoints.getD (.int k.points)) with
      | error e =>
        simp only [reduceCtorEq, false_iff]
        rintro ⟨n, b, f, h1, _⟩
        rw [← hp, e2] at h1; cases h1
      | ok n =>
        cases e3 : isBoson (kw.statistic.getD "Fermion") with
        | error e =>
          simp only [reduceCtorEq, false_iff]
          rintro ⟨n, b, f, _, _, h3, _⟩
          rw [← hs, e3] at h3; cases h3
        | ok f =>
          simp only [Except.ok.injEq]
          constructor
          · intro h; exact ⟨n, b, f, (hp n).1 e2, (hb b).1 e1, (hs f).1 e3, h⟩
          · rintro ⟨n', b', f', h1, h2, h3, h4⟩
            rw [← hp, e2] at h1; rw [← hb, e1] at h2; rw [← hs, e3] at h3
            cases h1; cases h2; cases h3; exact h4
  have real : k.thermal = false → (makeMesh ofInt code k kw = .ok c ↔
      ∃ n x y, Asked k kw n ∧ kw.window = some (x, y) ∧ newMesh code k (.window x y) n = c) := by
    intro hk
    unfold makeMesh
    simp only [hk, Bool.false_eq_true, if_false]
    cases e2 : checkPoints (kw.nPoints.getD (.int k.points)) with
    | error e =>
      simp only [reduceCtorEq, false_iff]
      rintro ⟨n, x, y, h1, _⟩
      rw [← hp, e2] at h1; cases h1
    | ok n =>
      cases e3 : kw.window with
      | none => simp
      | some w =>
        obtain ⟨x, y⟩ := w
        simp only [Except.ok.injEq, Option.some.injEq, Prod.mk.injEq]
        constructor
        · intro h; exact ⟨n, x, y, (hp n).1 e2, ⟨rfl, rfl⟩, h⟩
        · rintro ⟨n', x', y', h1, ⟨rfl, rfl⟩, h4⟩
          rw [← hp, e2] at h1
          cases h1; exact h4
  unfold Described
  cases k with
  | imFreq =>
    rw [thermal rfl]
    simp only [newMesh, size_imFreq, Kind.mesh, true_and, reduceCtorEq, false_and, or_false]
    constructor
    · rintro ⟨n, b, f, h1, h2, h3, rfl⟩; exact ⟨n, h1, b, f, h2, h3, rfl⟩
    · rintro ⟨n, h1, b, f, h2, h3, rfl⟩; exact ⟨n, b, f, h1, h2, h3, rfl⟩
  | imTime =>
    rw [thermal rfl]
    simp only [newMesh, size, Kind.mesh, true_and, reduceCtorEq, false_and, or_false, false_or]
    constructor
    · rintro ⟨n, b, f, h1, h2, h3, rfl⟩; exact ⟨n, h1, b, f, h2, h3, rfl⟩
    · rintro ⟨n, h1, b, f, h2, h3, rfl⟩; exact ⟨n, b, f, h1, h2, h3, rfl⟩
  | legendre =>
    rw [thermal rfl]
    simp only [newMesh, size, Kind.mesh, true_and, reduceCtorEq, false_and, or_false, false_or]
    constructor
    · rintro ⟨n, b, f, h1, h2, h3, rfl⟩; exact ⟨n, h1, b, f, h2, h3, rfl⟩
    · rintro ⟨n, h1, b, f, h2, h3, rfl⟩; exact ⟨n, b, f, h1, h2, h3, rfl⟩
  | reFreq =>
    rw [real rfl]
    simp only [newMesh, size, Kind.mesh, true_and, reduceCtorEq, false_and, or_false, false_or]
    constructor
    · rintro ⟨n, x, y, h1, h2, rfl⟩; exact ⟨n, h1, x, y, h2, rfl⟩
    · rintro ⟨n, h1, x, y, h2, rfl⟩; exact ⟨n, x, y, h1, h2, rfl⟩
  | reTime =>
    rw [real rfl]
    simp only [newMesh, size, Kind.mesh, true_and, reduceCtorEq, false_and, or_false, false_or]
    constructor
    · rintro ⟨n, x, y, h1, h2, rfl⟩; exact ⟨n, h1, x, y, h2, rfl⟩
    · rintro ⟨n, h1, x, y, h2, rfl⟩; exact ⟨n, x, y, h1, h2, rfl⟩

/-- **C171, the mesh is made.** A call without a mesh whose arguments describe one does what `Gf` does with a new mesh object of that description:
the same function, the same new array and the same refusals. -/
theorem C171_new_mesh [Zero K] (ofInt : ℤ → F) (code : Pars F → ℕ) (k : Kind) (s : Mem K) (kw : Kw F) (c : Comp)
    (hm : kw.mesh = none) (hf : ¬ Foreign k kw) (hd : Described ofInt code k kw c) :
    make ofInt code k s kw = construct (s.newComps [c]).1 false [s.nc]
        { data := kw.data, targetShape := kw.targetShape, name := kw.name.getD "", isReal := false, indices := kw.indices } ∧
      (s.newComps [c]).1.comps s.nc = c ∧ (s.newComps [c]).1.nc = s.nc + 1 := by
  have hu : unexpected k kw = false := by rw [← Bool.not_eq_true, unexpected_iff]; exact hf
  refine ⟨?_, by simp [Mem.newComps], by simp [Mem.newComps]⟩
  unfold make
  simp only [hu, Bool.false_eq_true, if_false, hm]
  rw [(makeMesh_iff ofInt code k kw c).2 hd]
  simp [Mem.newComps, Kw.args]

/-- **C171, a successful call** without a mesh: the arguments describe a mesh, the function has a new mesh object with that value, the data are new
complex zeros with the sizes asked for or the given array whose first size is the number of points, and nothing that existed is changed. -/
theorem C171_success [Zero K] (ofInt : ℤ → F) (code : Pars F → ℕ) (k : Kind) (s s' : Mem K) (kw : Kw F) (g : Gf)
    (hm : kw.mesh = none) (h : make ofInt code k s kw = .ok (s', g)) :
    ∃ c, Described ofInt code k kw c ∧ ¬ Foreign k kw ∧ g.isProd = false ∧ g.mesh = [s.nc] ∧ s'.comps s.nc = c ∧ Keeps s s' ∧ g.name = kw.name.getD "" ∧
      (∀ d, kw.data = some d → g.data = d ∧ (s'.arrs d).shape.head? = some c.size) ∧
      (kw.data = none → s.na ≤ g.data ∧ ∃ t, s'.arrs g.data = ⟨false, c.size :: t, fun _ => 0⟩ ∧ ∀ ts, kw.targetShape = some ts → t.map Int.ofNat = ts) := by
  have hu : unexpected k kw = false := by
    by_contra hc
    rw [Bool.not_eq_false] at hc
    unfold make at h
    rw [if_pos hc] at h
    cases h
  have hf : ¬ Foreign k kw := by rw [← unexpected_iff, hu]; simp
  cases hmk : makeMesh ofInt code k kw with
  | error e =>
    unfold make at h
    simp only [hu, Bool.false_eq_true, if_false, hm, hmk] at h
    cases h
  | ok c =>
    have hd := (makeMesh_iff ofInt code k kw c).1 hmk
    obtain ⟨he, hc, hn⟩ := C171_new_mesh ofInt code k s kw c hm hf hd
    rw [he] at h
    have key := C162_construct _ _ _ _ _ _ (fun _ => rfl) h
    obtain ⟨hv, h1, h2, h3, h4, h5, h6⟩ := key
    have hk : Keeps s s' := (keeps_newComps s [c]).trans h4
    have hsz : (s.newComps [c]).1.sizes [s.nc] = [c.size] := by simp [Mem.sizes, hc]
    have hcomp : s'.comps s.nc = c := by rw [h4.2.2.1 s.nc (by omega), hc]
    refine ⟨c, hd, hf, h1, h2, hcomp, hk, h3, ?_, ?_⟩
    · intro d hdat
      obtain ⟨hgd, _⟩ := h5 d hdat
      refine ⟨hgd, ?_⟩
      have hsh := hv.2
      rw [h2, hgd] at hsh
      simp only [Mem.sizes, List.map_cons, List.map_nil, hcomp, List.length_cons, List.length_nil] at hsh
      cases hl : (s'.arrs d).shape with
      | nil => rw [hl] at hsh; simp at hsh
      | cons a l => rw [hl] at hsh; simp at hsh; simp [hsh]
    · intro hdat
      obtain ⟨hgd, _, t, ht, hts⟩ := h6 hdat
      refine ⟨?_, t, ?_, fun ts h => (hts ts h).1⟩
      · rw [hgd]; exact (keeps_newComps s [c]).2.1
      · rw [ht, hsz]; rfl

/-- **C171, a given mesh** of the right class is the mesh of the function, which is then the one that `Gf` makes; `beta`, `n_points`, `statistic` and
`window` are not looked at. A mesh of another class and a product are refused. -/
theorem C171_given_mesh [Zero K] (ofInt : ℤ → F) (code : Pars F → ℕ) (k : Kind) (s : Mem K) (kw : Kw F) (isProd : Bool) (m : List ℕ)
    (hm : kw.mesh = some (isProd, m)) (hf : ¬ Foreign k kw) :
    (∀ i, isProd = false → m = [i] → (s.comps i).kind = k.mesh → make ofInt code k s kw = construct s false [i]
        { data := kw.data, targetShape := kw.targetShape, name := kw.name.getD "", isReal := false, indices := kw.indices }) ∧
    ((isProd = true ∨ ∃ i, m = [i] ∧ (s.comps i).kind ≠ k.mesh) → make ofInt code k s kw = .error .assertion) := by
  have hu : unexpected k kw = false := by rw [← Bool.not_eq_true, unexpected_iff]; exact hf
  constructor
  · rintro i rfl rfl hi
    unfold make
    simp [hu, hm, isMesh, hi, Kw.args]
  · rintro (rfl | ⟨i, rfl, hi⟩)
    · unfold make
      simp [hu, hm, isMesh]
    · unfold make
      simp [hu, hm, isMesh, hi]

/-- **C171, refusals.** A keyword which the class does not know is a `TypeError` whatever else is given: the argument `is_real` of the
documentation is one. Without a mesh, a missing inverse temperature and a number of points which is not a positive `int` violate assertions, and a
missing window and a statistic other than the two strings are `TypeError`s. -/
theorem C171_refusals [Zero K] (ofInt : ℤ → F) (code : Pars F → ℕ) (k : Kind) (s : Mem K) (kw : Kw F) :
    (Foreign k kw → make ofInt code k s kw = .error .type) ∧
    ("is_real" ∈ kw.others → make ofInt code k s kw = .error .type) ∧
    (¬ Foreign k kw → kw.mesh = none →
      ((k = .imFreq ∨ k = .imTime ∨ k = .legendre) → (kw.beta = none ∨ kw.beta = some .other) → make ofInt code k s kw = .error .assertion) ∧
      ((k = .imFreq ∨ k = .imTime ∨ k = .legendre) → ∀ b st n, AskedBeta ofInt kw b → Asked k kw n → kw.statistic = some st → st ≠ "Fermion" → st ≠ "Boson" →
        make ofInt code k s kw = .error .type) ∧
      ((∃ z, kw.nPoints = some (.int z) ∧ z ≤ 0) ∨ (∃ x, kw.nPoints = some (.float x)) ∨ kw.nPoints = some .other → make ofInt code k s kw = .error .assertion) ∧
      ((k = .reFreq ∨ k = .reTime) → kw.window = none → ∀ n, Asked k kw n → make ofInt code k s kw = .error .type)) := by
  have hF : Foreign k kw → make ofInt code k s kw = .error .type := by
    intro h
    unfold make
    rw [if_pos ((unexpected_iff k kw).2 h)]
  refine ⟨hF, fun h => hF (Or.inl (List.ne_nil_of_mem h)), ?_⟩
  intro hf hm
  have hu : unexpected k kw = false := by rw [← Bool.not_eq_true, unexpected_iff]; exact hf
  have hmk : ∀ e, makeMesh ofInt code k kw = .error e → make ofInt code k s kw = .error e := by
    intro e he
    unfold make
    simp [hu, hm, he]
  have hth : (k = .imFreq ∨ k = .imTime ∨ k = .legendre) → k.thermal = true := by rintro (rfl | rfl | rfl) <;> rfl
  refine ⟨?_, ?_, ?_, ?_⟩
  · intro hk hb
    apply hmk
    unfold makeMesh
    rcases hb with hb | hb <;> simp [hth hk, hb, checkBeta]
  · intro hk b st n hb hn hst h1 h2
    apply hmk
    unfold makeMesh
    simp [hth hk, (checkBeta_iff ofInt kw b).2 hb, (checkPoints_iff k kw n).2 hn, isBoson, hst, h1, h2]
  · intro hn
    have hp : checkPoints (kw.nPoints.getD (.int k.points)) = .error .assertion := by
      rcases hn with ⟨z, hz, hz0⟩ | ⟨x, hx⟩ | hx
      · rw [hz]; simp [checkPoints, hz0]
      · rw [hx]; rfl
      · rw [hx]; rfl
    apply hmk
    unfold makeMesh
    cases hk : k.thermal with
    | true =>
      simp only [if_true]
      cases hb : checkBeta ofInt (kw.beta.getD .other) with
      | error e =>
        have : e = .assertion := by
          cases hv : kw.beta.getD .other <;> rw [hv] at hb <;> simp [checkBeta] at hb
          exact hb.symm
        rw [this]
      | ok b => simp [hp]
    | false => simp [hp]
  · intro hk hw n hn
    apply hmk
    have ht : k.thermal = false := by rcases hk with rfl | rfl <;> rfl
    unfold makeMesh
    simp [ht, (checkPoints_iff k kw n).2 hn, hw]

/-- **C171, numbers of points** which nothing was said about: 2050 Matsubara frequencies of fermions (2049 of bosons), 10000 times or real frequencies,
and 30 Legendre coefficients, of the degrees below 30. -/
theorem C171_default_points (ofInt : ℤ → F) (code : Pars F → ℕ) (k : Kind) (kw : Kw F) (c : Comp) (hn : kw.nPoints = none)
    (hd : Described ofInt code k kw c) :
    (k = .imFreq → c.size = if kw.statistic = some "Boson" then 2049 else 2050) ∧ (k = .imTime → c.size = 10000) ∧ (k = .legendre → c.size = 30) ∧
    (k = .reFreq → c.size = 10000) ∧ (k = .reTime → c.size = 10000) := by
  obtain ⟨n, ⟨_, hp⟩, h⟩ := hd
  rw [hn] at hp
  simp only [reduceCtorEq, true_and, false_or] at hp
  rcases h with ⟨rfl, b, f, _, hs, rfl⟩ | ⟨rfl, b, f, _, hs, rfl⟩ | ⟨rfl, b, f, _, hs, rfl⟩ | ⟨rfl, x, y, _, rfl⟩ | ⟨rfl, x, y, _, rfl⟩ <;>
    simp only [Kind.points, reduceCtorEq, false_imp_iff, true_imp_iff, true_and, and_true] at hp ⊢
  · rcases hs with ⟨rfl, h | h⟩ | ⟨rfl, h⟩ <;> simp [h] <;> omega
  all_goals omega

/-! ### Examples -/

def exM : Mem GaussianInt := exMem
def exCode : Pars ℤ → ℕ
  | .thermal b f => (2 * b + if f then 1 else 0).toNat
  | .window a b => (a + 100 * b).toNat

/-- `GfImFreq(beta = 10, n_points = 3, statistic = 'Boson', target_shape = [2, 1])` has five frequencies -/
example : (match make id exCode .imFreq exM { beta := some (.int 10), nPoints := some (.int 3), statistic := some "Boson", targetShape := some [2, 1] } with
    | .ok (s, g) => (s.arrs g.data).shape = [5, 2, 1] ∧ g.data = 3 ∧ g.mesh = [3] ∧ s.comps 3 = ⟨"MeshImFreq", 21, 5, false, true⟩
    | .error _ => False) := by
  simp [make, unexpected, makeMesh, checkBeta, checkPoints, isBoson, newMesh, size, construct, Kind.thermal, Kw.args, Mem.newComps, Mem.newArr, Mem.sizes, exM, exMem,
    Kind.mesh, exCode]

/-- `GfImTime(beta = 10, is_real = True, target_shape = [1, 1])` is a `TypeError`, `GfReFreq(n_points = 5, target_shape = [1, 1])` too;
`GfLegendre(beta = 1, n_points = 0, target_shape = [])` fails an assertion -/
example : (make id exCode .imTime exM { beta := some (.int 10), targetShape := some [1, 1], others := ["is_real"] } matches .error .type) ∧
    (make id exCode .reFreq exM { nPoints := some (.int 5), targetShape := some [1, 1] } matches .error .type) ∧
    (make id exCode .legendre exM { beta := some (.int 1), nPoints := some (.int 0), targetShape := some [] } matches .error .assertion) ∧
    (make id exCode .reTime exM { beta := some (.int 1), window := some (0, 1), targetShape := some [] } matches .error .type) := by decide +kernel

/-- a given mesh wins over the other arguments: two frequencies and not ten -/
example : (match make id exCode .imFreq exM { mesh := some (false, [0]), beta := some (.int 7), nPoints := some (.int 5), data := some 0 } with
    | .ok (_, g) => decide (g = ⟨false, [0], 0, ""⟩)
    | .error _ => false) = true ∧ (make id exCode .imTime exM { mesh := some (false, [0]), data := some 0 } matches .error .assertion) := by decide +kernel

end Verif.PyCompat
