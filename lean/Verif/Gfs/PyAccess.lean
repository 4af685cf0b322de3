import Mathlib.Data.Complex.Basic
import Mathlib.Data.List.Forall2
import Mathlib.Tactic.Ring
import Mathlib.Tactic.NormNum
import Mathlib.Tactic.Linarith

/-!
# Property C145: elements, slices and views of Green functions in Python

Source: `/repo/python/triqs/gf/gf.py` (`__getitem__` 290-349, `__setitem__` 351-363, `_to_data_index` 278-286, `copy_from`
262-267, `__lshift__` 382-390), `/repo/python/triqs/gf/mesh_product.py` (98-101), and `to_data_index` of the meshes
(`/repo/c++/triqs/mesh/imfreq.hpp`:191, `/repo/c++/triqs/mesh/bases/linear.hpp`:119-122, `/repo/c++/triqs/mesh/discrete.hpp`:71-74).

A numpy array is a view: its shape and the address of each element in a memory. The rules of numpy used here: an integer
selects one entry of an axis and removes the axis, negative integers count from the end, other ones raise `IndexError`; a
slice without step is clipped to the axis; axes without key are kept; too many keys raise `IndexError`.

Simplifications: the index of a mesh is one integer (no lattice meshes); slices have no step; `EXPECTS` is off, as in
a release build; complex numbers are exact; values are arrays or other Green functions (lazy expressions are property C140).
-/

namespace Verif.PyAccess

/-! ## Model -/

/-- a numpy array: shape and address of the element with a given index -/
structure View where
  shape : List ℕ
  addr : List ℕ → ℕ

/-- one argument of the bracket of a numpy array -/
inductive NKey where
  | int (i : ℤ)
  | slice (a b : Option ℤ)
deriving DecidableEq

/-- the bound of a slice on an axis with `d` entries -/
def clip (d : ℕ) (x : Option ℤ) (dflt : ℕ) : ℕ :=
  match x with
  | none => dflt
  | some i => (max 0 (min (d : ℤ) (if i < 0 then i + d else i))).toNat

/-- the position of an integer key on an axis with `d` entries -/
def position (d : ℕ) (i : ℤ) : Option ℕ :=
  if -(d : ℤ) ≤ i ∧ i < d then some (if i < 0 then i + d else i).toNat else none

/-- numpy basic indexing: the new shape, and the index in the old array of an index of the new one -/
def sub : List NKey → List ℕ → Option (List ℕ × (List ℕ → List ℕ))
  | [], s => some (s, id)
  | _ :: _, [] => none
  | .int i :: ks, d :: s =>
    match position d i with
    | none => none
    | some j => (sub ks s).map fun p => (p.1, fun idx => j :: p.2 idx)
  | .slice a b :: ks, d :: s =>
    (sub ks s).map fun p => ((clip d b d - clip d a 0) :: p.1, fun idx => (clip d a 0 + idx.headD 0) :: p.2 idx.tail)

def View.sub (v : View) (ks : List NKey) : Option View := (PyAccess.sub ks v.shape).map fun p => ⟨p.1, fun idx => v.addr (p.2 idx)⟩

/-- one mesh: index of the first point, number of points, hash -/
structure Comp where
  first : ℤ
  size : ℕ
  hash : ℕ
deriving DecidableEq

/-- imfreq.hpp:191 (linear.hpp:119 and discrete.hpp:71 with `first = 0`); the range is not tested -/
def Comp.toDataIndex (m : Comp) (n : ℤ) : ℤ := n - m.first

inductive Mesh where
  | one (m : Comp)
  | prod (ms : List Comp)
deriving DecidableEq

def Mesh.comps : Mesh → List Comp
  | .one m => [m]
  | .prod ms => ms

/-- the arguments of the bracket of a Green function: a mesh point, `Idx` of one or of several numbers, a slice, an `int`,
a `str`, anything else (e.g. a numpy integer) -/
inductive Key where
  | point (dataIndex : ℤ) (hash : ℕ)
  | idx (n : ℤ)
  | idxs (ns : List ℤ)
  | slice (a b : Option ℤ)
  | int (i : ℤ)
  | str
  | other
deriving DecidableEq

/-- `isinstance(x, (MeshPoint, Idx))` -/
def Key.onMesh : Key → Bool
  | .point _ _ => true
  | .idx _ => true
  | .idxs _ => true
  | _ => false

/-- what stands in the bracket -/
inductive Arg where
  | single (k : Key)
  | tuple (ks : List Key)
deriving DecidableEq

inductive Err where
  | assertion
  | index
  | attribute
  | type
  | runtime
  | notImplemented
  | value
deriving DecidableEq

structure Gf where
  mesh : Mesh
  data : View

/-- gf.py:154-155 -/
def Gf.rank (g : Gf) : ℕ := g.mesh.comps.length
def Gf.target (g : Gf) : List ℕ := g.data.shape.drop g.rank
def Gf.targetRank (g : Gf) : ℕ := g.data.shape.length - g.rank

/-- the invariant of the constructor, gf.py:145-149 -/
def Gf.Valid (g : Gf) : Prop := g.data.shape = g.mesh.comps.map Comp.size ++ g.target

/-- `_to_data_index` (278-286) for one mesh, as a key of numpy -/
def toData (m : Comp) : Key → Except Err NKey
  | .point d h => if h = m.hash then .ok (.int d) else .error .assertion
  | .idx n => .ok (.int (m.toDataIndex n))
  | .idxs _ => .error .type
  | .slice a b => .ok (.slice a b)
  | .int i => .ok (.int i)
  | _ => .error .type

/-- `_to_data_index(key, self._mesh)` for a key that is not in a tuple (299): a product mesh has no hash, and its
`to_data_index` (mesh_product.py:98-101) gives a generator, which numpy refuses, or fails on a number -/
def toDataMesh (m : Mesh) (k : Key) : Except Err NKey :=
  match m with
  | .one c => toData c k
  | .prod _ =>
    match k with
    | .point _ _ => .error .attribute
    | .idxs _ => .error .index
    | _ => .error .type

def toDataList : List Comp → List Key → Except Err (List NKey)
  | m :: ms, k :: ks =>
    match toData m k with
    | .error e => .error e
    | .ok x =>
      match toDataList ms ks with
      | .error e => .error e
      | .ok xs => .ok (x :: xs)
  | _, _ => .ok []

def bracket (v : View) (ks : List NKey) : Except Err View :=
  match v.sub ks with
  | none => .error .index
  | some w => .ok w

inductive Res where
  | data (v : View)
  | gf (g : Gf)

/-- `isinstance(x, slice)` -/
def Key.isSlice : Key → Bool
  | .slice _ _ => true
  | _ => false

def Key.isInt : Key → Bool
  | .int _ => true
  | _ => false

def Key.isStr : Key → Bool
  | .str => true
  | _ => false

def fullKey : Key := .slice none none

/-- the key for numpy of a slice or an integer -/
def Key.numpy : Key → NKey
  | .slice a b => .slice a b
  | .int i => .int i
  | _ => .slice none none

/-- the numpy keys of a mixture of points and slices (316): `_to_data_index` forwards slices -/
def mixedKeys (ms : List Comp) (ks : List Key) (targetRank : ℕ) : Except Err (List NKey) :=
  match toDataList ms ks with
  | .error e => .error e
  | .ok xs => .ok (xs ++ List.replicate targetRank (.slice (some 0) none))

/-- the meshes of the keys that are slices (319) -/
def remaining (ms : List Comp) (ks : List Key) : List Comp := ((ms.zip ks).filter fun p => !p.2.onMesh).map Prod.fst

/-- `MeshProduct(*mlist) if len(mlist) > 1 else mlist[0]` (321) -/
def meshOf (ms : List Comp) : Mesh :=
  match ms with
  | [m] => .one m
  | _ => .prod ms

/-- the cases of lines 302-349 for a tuple of keys -/
def getTuple (g : Gf) (ks : List Key) : Except Err Res :=
  if ks.all Key.onMesh then
    if ks.length ≠ g.rank then .error .assertion
    else
      match g.mesh with
      | .one _ => .error .attribute
      | .prod ms =>
        match toDataList ms ks with
        | .error e => .error e
        | .ok xs => (bracket g.data xs).map .data
  else if ks.any Key.onMesh then
    if ks.length ≠ g.rank then .error .assertion
    else if ks.all (fun k => k.onMesh || k.isSlice) = false then .error .assertion
    else if g.rank ≤ 1 then .error .assertion
    else if ks.any (fun k => k.isSlice && (k != fullKey)) then .error .notImplemented
    else
      match mixedKeys g.mesh.comps ks g.targetRank with
      | .error e => .error e
      | .ok xs => (bracket g.data xs).map fun v => .gf ⟨meshOf (remaining g.mesh.comps ks), v⟩
  else if ks.length ≠ g.targetRank then .error .assertion
  else if ks.all Key.isSlice || ks.all Key.isInt then
    (bracket g.data (List.replicate g.rank (.slice (some 0) none) ++ ks.map Key.numpy)).map fun v => .gf ⟨g.mesh, v⟩
  else if ks.any Key.isStr then .error .runtime
  else .error .notImplemented

/-- `__getitem__`, gf.py:290-349 -/
def getItem (g : Gf) : Arg → Except Err Res
  | .single k =>
    if k = fullKey then .ok (.gf g)
    else if k.onMesh then
      match toDataMesh g.mesh k with
      | .error e => .error e
      | .ok x => (bracket g.data [x]).map .data
    else getTuple g [k]
  | .tuple ks => getTuple g ks

/-- all indices of an array, first axis slowest -/
def indices : List ℕ → List (List ℕ)
  | [] => [[]]
  | d :: s => (List.range d).flatMap fun i => (indices s).map fun r => i :: r

abbrev Mem := ℕ → ℂ

/-- `v[...] = f`, element by element -/
def write (mem : Mem) (v : View) (f : List ℕ → ℂ) : Mem :=
  (indices v.shape).foldl (fun m i => Function.update m (v.addr i) (f i)) mem

def read (mem : Mem) (v : View) (i : List ℕ) : ℂ := mem (v.addr i)

/-- what is assigned: an array (numpy broadcasts it if its shape fits), or another Green function -/
inductive Rhs where
  | arr (shape : List ℕ) (el : List ℕ → ℂ)
  | gf (g : Gf)

/-- numpy: can an array of shape `s` be broadcast to the shape `t` -/
def fits (s t : List ℕ) : Bool :=
  decide (s.length ≤ t.length) && (List.zipWith (fun a b => a == b || a == 1) s (t.drop (t.length - s.length))).all id

/-- the index of the element used for the index `idx` of the larger array -/
def pick (s : List ℕ) (idx : List ℕ) : List ℕ :=
  List.zipWith (fun d i => if d = 1 then 0 else i) s (idx.drop (idx.length - s.length))

/-- assignment of `rhs` to what the bracket returned: `data[...] = val` (355, 360), or `self[key] << val` (363): another
Green function on an equal mesh (389) with data of equal shape (265) is copied; an array is neither a Green function, an
expression nor a scalar, so that 404 raises (`raise NotImplemented` is a `TypeError`) -/
def assignTo (mem : Mem) : Res → Rhs → Except Err Mem
  | .data v, .arr s el => if fits s v.shape then .ok (write mem v fun i => el (pick s i)) else .error .value
  | .data _, .gf _ => .error .type
  | .gf _, .arr _ _ => .error .type
  | .gf g, .gf h =>
    if g.mesh ≠ h.mesh then .error .assertion
    else if g.data.shape ≠ h.data.shape then .error .assertion
    else .ok (write mem g.data fun i => read mem h.data i)

/-- `__setitem__`, gf.py:351-363 -/
def setItem (mem : Mem) (g : Gf) (a : Arg) (r : Rhs) : Except Err Mem :=
  match getItem g a with
  | .error e => .error e
  | .ok x => assignTo mem x r

/-! ## Specification -/

/-- `idx` is an index of an array of shape `s` -/
def InRange (s idx : List ℕ) : Prop := List.Forall₂ (fun i d => i < d) idx s

/-- different elements have different addresses -/
def View.Inj (v : View) : Prop := ∀ i j, InRange v.shape i → InRange v.shape j → v.addr i = v.addr j → i = j

/-- the addresses of a view -/
def View.Occupies (v : View) (a : ℕ) : Prop := ∃ i, InRange v.shape i ∧ v.addr i = a

/-- the target indices reached through slices `[a, b)` of the axes -/
def shift (lo idx : List ℕ) : List ℕ := List.zipWith (· + ·) lo idx

/-! ## Proofs -/

theorem inRange_nil (idx : List ℕ) : InRange [] idx ↔ idx = [] := by
  unfold InRange
  constructor
  · intro h; cases h; rfl
  · rintro rfl; exact List.Forall₂.nil

theorem inRange_cons (d : ℕ) (s idx : List ℕ) : InRange (d :: s) idx ↔ ∃ i r, idx = i :: r ∧ i < d ∧ InRange s r := by
  unfold InRange
  constructor
  · intro h
    cases h with
    | cons h1 h2 => exact ⟨_, _, rfl, h1, h2⟩
  · rintro ⟨i, r, rfl, h1, h2⟩
    exact List.Forall₂.cons h1 h2

theorem inRange_append (s t i j : List ℕ) (h1 : InRange s i) (h2 : InRange t j) : InRange (s ++ t) (i ++ j) := by
  induction s generalizing i with
  | nil => rw [inRange_nil] at h1; subst h1; simpa using h2
  | cons d s ih =>
    obtain ⟨a, r, rfl, ha, hr⟩ := (inRange_cons d s i).mp h1
    simp only [List.cons_append]
    exact (inRange_cons _ _ _).mpr ⟨a, r ++ j, rfl, ha, ih r hr⟩

theorem inRange_length {s i : List ℕ} (h : InRange s i) : i.length = s.length := List.Forall₂.length_eq h

theorem mem_indices (s idx : List ℕ) : idx ∈ indices s ↔ InRange s idx := by
  induction s generalizing idx with
  | nil => simp [indices, inRange_nil]
  | cons d s ih =>
    rw [inRange_cons]
    simp only [indices, List.mem_flatMap, List.mem_range, List.mem_map]
    constructor
    · rintro ⟨i, hi, r, hr, rfl⟩
      exact ⟨i, r, rfl, hi, (ih r).mp hr⟩
    · rintro ⟨i, r, rfl, hi, hr⟩
      exact ⟨i, hi, r, (ih r).mpr hr, rfl⟩

theorem foldl_off (l : List (List ℕ)) (addr : List ℕ → ℕ) (f : List ℕ → ℂ) (mem : Mem) (a : ℕ)
    (h : ∀ i ∈ l, addr i ≠ a) : l.foldl (fun m i => Function.update m (addr i) (f i)) mem a = mem a := by
  induction l generalizing mem with
  | nil => rfl
  | cons x l ih =>
    simp only [List.foldl_cons]
    rw [ih _ (fun i hi => h i (List.mem_cons_of_mem _ hi))]
    exact Function.update_of_ne (fun he => h x List.mem_cons_self he.symm) _ _

theorem foldl_at (l : List (List ℕ)) (addr : List ℕ → ℕ) (f : List ℕ → ℂ) (mem : Mem) (i : List ℕ) (hi : i ∈ l)
    (h : ∀ j ∈ l, addr j = addr i → j = i) : l.foldl (fun m i => Function.update m (addr i) (f i)) mem (addr i) = f i := by
  induction l generalizing mem with
  | nil => exact absurd hi (List.not_mem_nil)
  | cons x l ih =>
    simp only [List.foldl_cons]
    by_cases hl : i ∈ l
    · exact ih _ hl (fun j hj => h j (List.mem_cons_of_mem _ hj))
    · have hx : x = i := by
        rcases List.mem_cons.mp hi with h1 | h1
        · exact h1.symm
        · exact absurd h1 hl
      subst hx
      rw [foldl_off]
      · exact Function.update_self _ _ _
      · intro j hj he
        exact hl (h j (List.mem_cons_of_mem _ hj) he ▸ hj)

theorem write_at (mem : Mem) (v : View) (f : List ℕ → ℂ) (hv : v.Inj) (i : List ℕ) (hi : InRange v.shape i) :
    write mem v f (v.addr i) = f i :=
  foldl_at _ _ _ _ _ ((mem_indices _ _).mpr hi) (fun j hj he => hv j i ((mem_indices _ _).mp hj) hi he)

theorem write_off (mem : Mem) (v : View) (f : List ℕ → ℂ) (a : ℕ) (ha : ¬ v.Occupies a) : write mem v f a = mem a :=
  foldl_off _ _ _ _ _ (fun i hi he => ha ⟨i, (mem_indices _ _).mp hi, he⟩)

theorem clip_le (d : ℕ) (x : Option ℤ) (dflt : ℕ) (h : dflt ≤ d) : clip d x dflt ≤ d := by
  unfold clip
  cases x with
  | none => exact h
  | some i => simp only; omega

theorem position_lt {d : ℕ} {i : ℤ} {j : ℕ} (h : position d i = some j) : j < d := by
  unfold position at h
  split at h
  · rename_i h1
    cases h
    split <;> omega
  · cases h

/-- basic indexing stays inside of the array, and different indices of the part are different indices of the whole -/
theorem sub_spec (ks : List NKey) (s s' : List ℕ) (f : List ℕ → List ℕ) (h : sub ks s = some (s', f)) :
    (∀ i, InRange s' i → InRange s (f i)) ∧ (∀ i j, InRange s' i → InRange s' j → f i = f j → i = j) := by
  induction ks generalizing s s' f with
  | nil => cases h; exact ⟨fun i hi => hi, fun i j _ _ he => he⟩
  | cons k ks ih =>
    cases s with
    | nil => cases k <;> exact absurd h (by simp [sub])
    | cons d s =>
      cases k with
      | int i =>
        simp only [sub] at h
        cases hp : position d i with
        | none => rw [hp] at h; cases h
        | some j =>
          rw [hp] at h
          simp only at h
          cases hs : sub ks s with
          | none => rw [hs] at h; cases h
          | some p =>
            rw [hs] at h
            obtain ⟨h1, h2⟩ := ih s p.1 p.2 (by rw [hs])
            cases h
            refine ⟨fun a ha => (inRange_cons _ _ _).mpr ⟨j, _, rfl, position_lt hp, h1 a ha⟩, fun a b ha hb he => ?_⟩
            simp only [List.cons.injEq, true_and] at he
            exact h2 a b ha hb he
      | slice a b =>
        simp only [sub] at h
        cases hs : sub ks s with
        | none => rw [hs] at h; cases h
        | some p =>
          rw [hs] at h
          obtain ⟨h1, h2⟩ := ih s p.1 p.2 (by rw [hs])
          cases h
          have hb := clip_le d b d le_rfl
          refine ⟨fun x hx => ?_, fun x y hx hy he => ?_⟩
          · obtain ⟨i, r, rfl, hi, hr⟩ := (inRange_cons _ _ _).mp hx
            exact (inRange_cons _ _ _).mpr ⟨_, _, rfl, by simp only [List.headD_cons]; omega, h1 r hr⟩
          · obtain ⟨i, r, rfl, hi, hr⟩ := (inRange_cons _ _ _).mp hx
            obtain ⟨i', r', rfl, hi', hr'⟩ := (inRange_cons _ _ _).mp hy
            simp only [List.headD_cons, List.tail_cons, List.cons.injEq] at he
            rw [h2 r r' hr hr' he.2, show i = i' by omega]

theorem View.sub_inj {v w : View} {ks : List NKey} (hv : v.Inj) (h : v.sub ks = some w) : w.Inj := by
  unfold View.sub at h
  cases hs : PyAccess.sub ks v.shape with
  | none => rw [hs] at h; cases h
  | some p =>
    rw [hs] at h
    obtain ⟨h1, h2⟩ := sub_spec ks v.shape p.1 p.2 (by rw [hs])
    cases h
    intro i j hi hj he
    exact h2 i j hi hj (hv _ _ (h1 i hi) (h1 j hj) he)

theorem View.sub_occupies {v w : View} {ks : List NKey} (h : v.sub ks = some w) (a : ℕ) (ha : w.Occupies a) : v.Occupies a := by
  unfold View.sub at h
  cases hs : PyAccess.sub ks v.shape with
  | none => rw [hs] at h; cases h
  | some p =>
    rw [hs] at h
    obtain ⟨h1, h2⟩ := sub_spec ks v.shape p.1 p.2 (by rw [hs])
    cases h
    obtain ⟨i, hi, rfl⟩ := ha
    exact ⟨_, h1 i hi, rfl⟩

/-- integers in range and whole axes: the shape and the place of the elements -/
theorem sub_full (s : List ℕ) (ks : List NKey) (r : List ℕ) :
    sub (List.replicate s.length (.slice (some 0) none) ++ ks) (s ++ r) =
      (sub ks r).map fun p => (s ++ p.1, fun idx => (idx.take s.length ++ List.replicate (s.length - idx.length) 0) ++ p.2 (idx.drop s.length)) := by
  induction s with
  | nil =>
    simp only [List.length_nil, List.replicate_zero, List.nil_append]
    cases sub ks r with
    | none => rfl
    | some p => simp
  | cons d s ih =>
    simp only [List.length_cons, List.replicate_succ, List.cons_append, sub, ih]
    cases sub ks r with
    | none => rfl
    | some p =>
      simp only [Option.map_some, Option.some.injEq, Prod.mk.injEq, List.cons.injEq, and_true]
      constructor
      · simp [clip]
      · funext idx
        cases idx with
        | nil => simp [clip, List.replicate_succ]
        | cons i idx => simp [clip]

theorem position_nat {d j : ℕ} (h : j < d) : position d (j : ℤ) = some j := by
  unfold position
  rw [if_pos (by omega), if_neg (by omega)]
  simp

theorem bracket_ok {v w : View} {ks : List NKey} : bracket v ks = .ok w ↔ v.sub ks = some w := by
  unfold bracket
  cases v.sub ks with
  | none => simp
  | some x => simp

theorem valid_one {g : Gf} {m : Comp} (hm : g.mesh = .one m) (hg : g.Valid) : g.data.shape = m.size :: g.target := by
  have := hg
  unfold Gf.Valid at this
  rw [hm] at this
  simpa [Mesh.comps] using this

/-- a point of the mesh of `g` gives a view of the values at that point -/
theorem C145_point (g : Gf) (m : Comp) (hm : g.mesh = .one m) (hg : g.Valid) (d : ℕ) (hd : d < m.size) :
    ∃ v, getItem g (.single (.point d m.hash)) = .ok (.data v) ∧ v.shape = g.target ∧
      ∀ idx, v.addr idx = g.data.addr (d :: idx) := by
  refine ⟨⟨g.target, fun idx => g.data.addr (d :: idx)⟩, ?_, rfl, fun _ => rfl⟩
  have hs : g.data.sub [.int d] = some ⟨g.target, fun idx => g.data.addr (d :: idx)⟩ := by
    unfold View.sub
    rw [valid_one hm hg]
    simp [sub, position_nat hd]
  simp [getItem, fullKey, Key.onMesh, toDataMesh, hm, toData, bracket, hs, Except.map]

/-- a point of a mesh with another hash is refused -/
theorem C145_point_other (g : Gf) (m : Comp) (hm : g.mesh = .one m) (d : ℤ) (h : ℕ) (hh : h ≠ m.hash) :
    getItem g (.single (.point d h)) = .error .assertion := by
  simp [getItem, fullKey, Key.onMesh, toDataMesh, hm, toData, hh]

/-- `g[Idx(n)]`: valid indices give the values at `n`; indices up to `size` below the first one are not refused, and give the
values at `n + size`; all others raise `IndexError` -/
theorem C145_idx (g : Gf) (m : Comp) (hm : g.mesh = .one m) (hg : g.Valid) (n : ℤ) :
    (m.first ≤ n ∧ n < m.first + m.size → ∃ v, getItem g (.single (.idx n)) = .ok (.data v) ∧ v.shape = g.target ∧
      ∀ idx, v.addr idx = g.data.addr ((n - m.first).toNat :: idx)) ∧
    (m.first - m.size ≤ n ∧ n < m.first → getItem g (.single (.idx n)) = getItem g (.single (.idx (n + m.size)))) ∧
    (n < m.first - m.size ∨ m.first + m.size ≤ n → getItem g (.single (.idx n)) = .error .index) := by
  have key : ∀ k : ℤ, getItem g (.single (.idx k)) = (bracket g.data [.int (k - m.first)]).map .data := by
    intro k
    simp [getItem, fullKey, Key.onMesh, toDataMesh, hm, toData, Comp.toDataIndex]
  have hsh := valid_one hm hg
  refine ⟨fun h => ?_, fun h => ?_, fun h => ?_⟩
  · refine ⟨⟨g.target, fun idx => g.data.addr ((n - m.first).toNat :: idx)⟩, ?_, rfl, fun _ => rfl⟩
    have hs : g.data.sub [.int (n - m.first)] = some ⟨g.target, fun idx => g.data.addr ((n - m.first).toNat :: idx)⟩ := by
      unfold View.sub
      rw [hsh]
      have hp : position m.size (n - m.first) = some (n - m.first).toNat := by
        unfold position
        rw [if_pos (by omega), if_neg (by omega)]
      simp [sub, hp]
    rw [key, bracket, hs]
    rfl
  · rw [key, key]
    have hp : position m.size (n - m.first) = position m.size (n + m.size - m.first) := by
      unfold position
      rw [if_pos (by omega), if_pos (by omega), if_pos (by omega), if_neg (by omega)]
      congr 1
      omega
    have : g.data.sub [.int (n - m.first)] = g.data.sub [.int (n + m.size - m.first)] := by
      unfold View.sub
      rw [hsh]
      simp [sub, hp]
    rw [bracket, bracket, this]
  · rw [key]
    have hp : position m.size (n - m.first) = none := by
      unfold position
      rw [if_neg (by omega)]
    have : g.data.sub [.int (n - m.first)] = none := by
      unfold View.sub
      rw [hsh]
      simp [sub, hp]
    rw [bracket, this]
    rfl

/-- on a product mesh a bracket with a single point or `Idx` never works -/
theorem C145_product_single (g : Gf) (ms : List Comp) (hm : g.mesh = .prod ms) (k : Key) (hk : k.onMesh = true) :
    ∃ e, getItem g (.single k) = .error e := by
  have h1 : k ≠ fullKey := by rintro rfl; simp [fullKey, Key.onMesh] at hk
  simp only [getItem, h1, if_false, hk, if_true, toDataMesh, hm]
  cases k <;> simp_all [Key.onMesh]

/-- on a single mesh a tuple with one point never works -/
theorem C145_tuple_of_one (g : Gf) (m : Comp) (hm : g.mesh = .one m) (k : Key) (hk : k.onMesh = true) :
    getItem g (.tuple [k]) = .error .attribute := by
  simp [getItem, getTuple, hk, Gf.rank, hm, Mesh.comps]

/-- the keys of a choice of points: `some d` the point `d`, `none` the whole axis -/
def keysOf (ms : List Comp) (c : List (Option ℕ)) : List Key :=
  List.zipWith (fun (m : Comp) (x : Option ℕ) => match x with | some d => Key.point d m.hash | none => fullKey) ms c

/-- the choice fits the meshes -/
def Fits (ms : List Comp) (c : List (Option ℕ)) : Prop := List.Forall₂ (fun (m : Comp) x => ∀ d, x = some d → d < m.size) ms c

/-- the index of the whole function that belongs to the index `x` of the part -/
def fill : List (Option ℕ) → List ℕ → List ℕ
  | [], x => x
  | some d :: c, x => d :: fill c x
  | none :: c, x => x.headD 0 :: fill c x.tail

/-- the sizes of the remaining axes -/
def restSizes (ms : List Comp) (c : List (Option ℕ)) : List ℕ := ((ms.zip c).filter fun p => p.2.isNone).map fun p => p.1.size

def nkeys (c : List (Option ℕ)) : List NKey := c.map fun x => match x with | some d => .int (d : ℤ) | none => .slice none none

theorem toDataList_keysOf (ms : List Comp) (c : List (Option ℕ)) (h : Fits ms c) : toDataList ms (keysOf ms c) = .ok (nkeys c) := by
  induction h with
  | nil => rfl
  | @cons m x ms c h1 h2 ih =>
    unfold keysOf at ih ⊢
    cases x with
    | none =>
      have hf : toData m fullKey = .ok (.slice none none) := rfl
      simp only [List.zipWith_cons_cons, toDataList, hf, ih]
      rfl
    | some d => simp [toDataList, toData, nkeys, ih]

theorem sub_nkeys (ms : List Comp) (c : List (Option ℕ)) (h : Fits ms c) (ks : List NKey) (t : List ℕ) (p : List ℕ × (List ℕ → List ℕ))
    (hp : sub ks t = some p) (hid : p.2 = id) :
    sub (nkeys c ++ ks) (ms.map Comp.size ++ t) = some (restSizes ms c ++ p.1, fill c) := by
  induction h with
  | nil =>
    simp only [nkeys, List.map_nil, List.nil_append, restSizes, List.zip_nil_left, List.filter_nil]
    rw [hp, show fill ([] : List (Option ℕ)) = p.2 from by rw [hid]; funext x; rfl]
  | @cons m x ms c h1 h2 ih =>
    unfold nkeys restSizes at ih ⊢
    cases x with
    | none =>
      simp only [List.map_cons, List.cons_append, sub, ih, Option.map_some, List.zip_cons_cons]
      simp only [Option.isNone_none, List.filter_cons_of_pos, List.map_cons, List.cons_append, Option.some.injEq, Prod.mk.injEq,
        List.cons.injEq, and_true]
      refine ⟨by simp [clip], ?_⟩
      funext idx
      simp [clip, fill]
    | some d =>
      simp only [List.map_cons, List.cons_append, sub, position_nat (h1 d rfl), ih, Option.map_some, List.zip_cons_cons]
      simp only [Option.isNone_some, Bool.false_eq_true, not_false_eq_true, List.filter_cons_of_neg, Option.some.injEq,
        Prod.mk.injEq, true_and]
      funext idx
      simp [fill]

theorem nkeys_length (c : List (Option ℕ)) : (nkeys c).length = c.length := by simp [nkeys]

theorem keysOf_length (ms : List Comp) (c : List (Option ℕ)) (h : Fits ms c) : (keysOf ms c).length = ms.length := by
  unfold keysOf
  rw [List.length_zipWith, List.Forall₂.length_eq h, min_self]

theorem sub_slices0 (t : List ℕ) : ∃ p, sub (List.replicate t.length (.slice (some 0) none)) t = some p ∧ p.1 = t ∧
    ∀ x, InRange t x → p.2 x = x := by
  have := sub_full t [] []
  simp only [List.append_nil, sub, Option.map_some] at this
  refine ⟨_, this, rfl, fun x hx => ?_⟩
  have hl := inRange_length hx
  simp only [id]
  rw [← hl]
  simp

theorem keysOf_all (ms : List Comp) (c : List (Option ℕ)) (h : Fits ms c) :
    ((keysOf ms c).all Key.onMesh = true ↔ none ∉ c) ∧ ((keysOf ms c).any Key.onMesh = true ↔ ∃ d, some d ∈ c) ∧
      (keysOf ms c).all (fun k => k.onMesh || k.isSlice) = true ∧
      (keysOf ms c).any (fun k => k.isSlice && (k != fullKey)) = false := by
  induction h with
  | nil => simp [keysOf]
  | @cons m x ms c h1 h2 ih =>
    obtain ⟨a1, a2, a3, a4⟩ := ih
    unfold keysOf at a1 a2 a3 a4 ⊢
    cases x with
    | none =>
      simp only [List.zipWith_cons_cons, List.all_cons, List.any_cons, a3, a4]
      refine ⟨by simp [fullKey, Key.onMesh], ?_, by simp [fullKey, Key.isSlice], by simp⟩
      rw [show fullKey.onMesh = false from rfl, Bool.false_or, a2]
      simp
    | some d =>
      simp only [List.zipWith_cons_cons, List.all_cons, List.any_cons, a3, a4]
      refine ⟨?_, by simp [Key.onMesh], by simp [Key.onMesh], by simp [Key.isSlice]⟩
      rw [show (Key.point (d : ℤ) m.hash).onMesh = true from rfl, Bool.true_and, a1]
      simp

/-- one point of every mesh gives a view of the values there -/
theorem C145_points (g : Gf) (ms : List Comp) (hm : g.mesh = .prod ms) (hg : g.Valid) (c : List (Option ℕ)) (hc : Fits ms c)
    (hn : none ∉ c) :
    ∃ v, getItem g (.tuple (keysOf ms c)) = .ok (.data v) ∧ v.shape = g.target ∧ ∀ idx, v.addr idx = g.data.addr (fill c idx) := by
  have hsh : g.data.shape = ms.map Comp.size ++ g.target := by
    have := hg; unfold Gf.Valid at this; rw [hm] at this; exact this
  have hr : restSizes ms c = [] := by
    unfold restSizes
    rw [List.map_eq_nil_iff, List.filter_eq_nil_iff]
    intro p hp
    have : p.2 ∈ c := (List.of_mem_zip hp).2
    cases h2 : p.2 with
    | none => exact absurd (h2 ▸ this) hn
    | some d => simp
  have hs : g.data.sub (nkeys c) = some ⟨g.target, fun idx => g.data.addr (fill c idx)⟩ := by
    unfold View.sub
    rw [hsh]
    have := sub_nkeys ms c hc [] g.target (g.target, id) rfl rfl
    rw [List.append_nil, hr] at this
    rw [this]
    rfl
  refine ⟨⟨g.target, fun idx => g.data.addr (fill c idx)⟩, ?_, rfl, fun _ => rfl⟩
  have h1 : (keysOf ms c).all Key.onMesh = true := (keysOf_all ms c hc).1.mpr hn
  have h2 : (keysOf ms c).length = g.rank := by rw [keysOf_length ms c hc, Gf.rank, hm]; rfl
  simp only [getItem, getTuple, h1, if_true, h2, ne_eq, not_true_eq_false, if_false, hm, toDataList_keysOf ms c hc, bracket, hs]
  rfl

theorem fill_append (c : List (Option ℕ)) (x t : List ℕ) (h : x.length = (c.filter Option.isNone).length) :
    fill c (x ++ t) = fill c x ++ t := by
  induction c generalizing x with
  | nil =>
    simp only [List.filter_nil, List.length_nil] at h
    have hx : x = [] := List.length_eq_zero_iff.mp h
    subst hx
    rfl
  | cons a c ih =>
    cases a with
    | some d =>
      simp only [fill, List.cons_append]
      rw [ih x (by simpa using h)]
    | none =>
      cases x with
      | nil => simp at h
      | cons i x =>
        simp only [fill, List.cons_append, List.headD_cons, List.tail_cons]
        rw [ih x (by simpa using h)]

theorem remaining_keysOf (ms : List Comp) (c : List (Option ℕ)) (h : Fits ms c) :
    (remaining ms (keysOf ms c)).map Comp.size = restSizes ms c := by
  induction h with
  | nil => rfl
  | @cons m x ms c h1 h2 ih =>
    unfold remaining keysOf restSizes at ih ⊢
    cases x with
    | none => simpa [fullKey, Key.onMesh] using ih
    | some d => simpa [Key.onMesh] using ih

theorem meshOf_comps (l : List Comp) : (meshOf l).comps = l := by
  unfold meshOf
  split
  · rfl
  · rfl

theorem targetRank_valid (g : Gf) (hg : g.Valid) : g.targetRank = g.target.length := by
  unfold Gf.targetRank Gf.target
  rw [List.length_drop]

theorem sub_nkeys_slices (ms : List Comp) (c : List (Option ℕ)) (h : Fits ms c) (t : List ℕ) :
    ∃ f, sub (nkeys c ++ List.replicate t.length (.slice (some 0) none)) (ms.map Comp.size ++ t) = some (restSizes ms c ++ t, f) ∧
      ∀ x y, x.length = (restSizes ms c).length → InRange t y → f (x ++ y) = fill c x ++ y := by
  induction h with
  | nil =>
    obtain ⟨p, h1, h2, h3⟩ := sub_slices0 t
    refine ⟨p.2, ?_, fun x y hx hy => ?_⟩
    · simp only [nkeys, List.map_nil, List.nil_append, restSizes, List.zip_nil_left, List.filter_nil]
      rw [h1, ← h2]
    · have hx0 : x = [] := List.length_eq_zero_iff.mp (by simpa [restSizes] using hx)
      subst hx0
      simpa [fill] using h3 y hy
  | @cons m x ms c h1 h2 ih =>
    obtain ⟨f, h3, h4⟩ := ih
    unfold nkeys at h3 ⊢
    unfold restSizes at h3 h4 ⊢
    cases x with
    | none =>
      refine ⟨fun idx => (clip m.size none 0 + idx.headD 0) :: f idx.tail, ?_, fun x y hx hy => ?_⟩
      · simp only [List.map_cons, List.cons_append, sub, h3, Option.map_some, List.zip_cons_cons, Option.isNone_none,
          List.filter_cons_of_pos]
        simp [clip]
      · cases x with
        | nil => simp at hx
        | cons i x =>
          simp only [List.cons_append, List.headD_cons, List.tail_cons, fill]
          rw [h4 x y (by simpa using hx) hy]
          simp [clip]
    | some d =>
      refine ⟨fun idx => d :: f idx, ?_, fun x y hx hy => ?_⟩
      · simp only [List.map_cons, List.cons_append, sub, position_nat (h1 d rfl), h3, Option.map_some, List.zip_cons_cons]
        simp
      · simp only [fill, List.cons_append]
        rw [h4 x y (by simpa using hx) hy]

/-- points of some meshes and whole axes of others give a Green function on the remaining meshes that shows the values with
the chosen points filled in -/
theorem C145_mixed (g : Gf) (hg : g.Valid) (hr : 1 < g.rank) (c : List (Option ℕ)) (hc : Fits g.mesh.comps c)
    (hn : none ∈ c) (hd : ∃ d, some d ∈ c) :
    ∃ r, getItem g (.tuple (keysOf g.mesh.comps c)) = .ok (.gf r) ∧ r.Valid ∧
      r.mesh.comps = remaining g.mesh.comps (keysOf g.mesh.comps c) ∧ r.target = g.target ∧
      ∀ x t, x.length = r.rank → InRange g.target t → r.data.addr (x ++ t) = g.data.addr (fill c x ++ t) := by
  obtain ⟨f, h1, h2⟩ := sub_nkeys_slices g.mesh.comps c hc g.target
  have hlen : (remaining g.mesh.comps (keysOf g.mesh.comps c)).length = (restSizes g.mesh.comps c).length := by
    rw [← remaining_keysOf g.mesh.comps c hc, List.length_map]
  have hs : g.data.sub (nkeys c ++ List.replicate g.targetRank (.slice (some 0) none)) =
      some ⟨restSizes g.mesh.comps c ++ g.target, fun idx => g.data.addr (f idx)⟩ := by
    unfold View.sub
    rw [hg, targetRank_valid g hg, h1]
    rfl
  have ht : (⟨meshOf (remaining g.mesh.comps (keysOf g.mesh.comps c)),
      ⟨restSizes g.mesh.comps c ++ g.target, fun idx => g.data.addr (f idx)⟩⟩ : Gf).target = g.target := by
    unfold Gf.target Gf.rank
    simp only [meshOf_comps]
    rw [hlen, List.drop_left]
  refine ⟨⟨meshOf (remaining g.mesh.comps (keysOf g.mesh.comps c)), ⟨restSizes g.mesh.comps c ++ g.target,
    fun idx => g.data.addr (f idx)⟩⟩, ?_, ?_, meshOf_comps _, ht, ?_⟩
  · obtain ⟨a1, a2, a3, a4⟩ := keysOf_all g.mesh.comps c hc
    have b1 : (keysOf g.mesh.comps c).all Key.onMesh = false := by
      rw [Bool.eq_false_iff, ne_eq, a1]
      exact fun h => h hn
    have b2 : (keysOf g.mesh.comps c).length = g.rank := keysOf_length _ _ hc
    simp only [getItem, getTuple, b1, Bool.false_eq_true, if_false, a2.mpr hd, if_true, b2, ne_eq, not_true_eq_false, a3, a4,
      not_le.mpr hr, mixedKeys, toDataList_keysOf _ _ hc, bracket, hs]
    rfl
  · unfold Gf.Valid
    rw [ht]
    simp only [meshOf_comps, remaining_keysOf _ _ hc]
  · intro x t hx hy
    have hx' : x.length = (restSizes g.mesh.comps c).length := by
      rw [hx, ← hlen]
      unfold Gf.rank
      simp only [meshOf_comps]
    simp only [h2 x t hx' hy]

/-- the keys `lo:hi` -/
def sliceKeys (c : List (ℕ × ℕ)) : List Key := c.map fun p => .slice (some p.1) (some p.2)

/-- integer keys -/
def intKeys (c : List ℕ) : List Key := c.map fun (i : ℕ) => .int (i : ℤ)

theorem clip_nat {d i e : ℕ} (h : i ≤ d) : clip d (some (i : ℤ)) e = i := by
  simp only [clip]
  rw [if_neg (by omega)]
  omega

theorem sub_slices (c : List (ℕ × ℕ)) (t : List ℕ) (h : List.Forall₂ (fun (p : ℕ × ℕ) (d : ℕ) => p.1 ≤ p.2 ∧ p.2 ≤ d) c t) :
    ∃ f, sub ((sliceKeys c).map Key.numpy) t = some (c.map (fun p => p.2 - p.1), f) ∧
      ∀ x, x.length = c.length → f x = shift (c.map Prod.fst) x := by
  induction h with
  | nil => exact ⟨id, rfl, fun x hx => by rw [List.length_eq_zero_iff.mp hx]; rfl⟩
  | @cons p d c t h1 h2 ih =>
    obtain ⟨f, h3, h4⟩ := ih
    unfold sliceKeys at h3 ⊢
    refine ⟨fun idx => (clip d (some (p.1 : ℤ)) 0 + idx.headD 0) :: f idx.tail, ?_, fun x hx => ?_⟩
    · simp only [List.map_cons, Key.numpy, sub, h3, Option.map_some]
      rw [clip_nat (i := p.2) h1.2, clip_nat (i := p.1) (by omega)]
    · cases x with
      | nil => simp at hx
      | cons i x =>
        simp only [List.headD_cons, List.tail_cons, List.map_cons, shift, List.zipWith_cons_cons]
        rw [h4 x (by simpa using hx), clip_nat (by omega)]
        rfl

theorem sub_ints (c : List ℕ) (t : List ℕ) (h : InRange t c) :
    ∃ f, sub ((intKeys c).map Key.numpy) t = some ([], f) ∧ f [] = c := by
  induction t generalizing c with
  | nil => rw [inRange_nil] at h; subst h; exact ⟨id, rfl, rfl⟩
  | cons d t ih =>
    obtain ⟨i, r, rfl, h1, h2⟩ := (inRange_cons d t c).mp h
    obtain ⟨f, h3, h4⟩ := ih r h2
    unfold intKeys at h3 ⊢
    refine ⟨fun idx => i :: f idx, ?_, by simp only [h4]⟩
    simp only [List.map_cons, Key.numpy, sub, position_nat h1, h3, Option.map_some]

/-- the part of a target after whole axes of the meshes -/
theorem target_sub (g : Gf) (hg : g.Valid) (ks : List NKey) (s' : List ℕ) (f : List ℕ → List ℕ) (h : sub ks g.target = some (s', f)) :
    ∃ w, g.data.sub (List.replicate g.rank (.slice (some 0) none) ++ ks) = some w ∧ w.shape = g.mesh.comps.map Comp.size ++ s' ∧
      ∀ x t, x.length = g.rank → w.addr (x ++ t) = g.data.addr (x ++ f t) := by
  have hl : (g.mesh.comps.map Comp.size).length = g.rank := by simp [Gf.rank]
  have hs := sub_full (g.mesh.comps.map Comp.size) ks g.target
  rw [h, hl] at hs
  refine ⟨⟨g.mesh.comps.map Comp.size ++ s', fun idx => g.data.addr
    ((idx.take g.rank ++ List.replicate (g.rank - idx.length) 0) ++ f (idx.drop g.rank))⟩, ?_, rfl, ?_⟩
  · unfold View.sub
    rw [hg, hs]
    rfl
  · intro x t hx
    simp only
    rw [List.take_left' hx, List.drop_left' hx, List.length_append]
    congr 1
    have : g.rank - (x.length + t.length) = 0 := by omega
    rw [this]
    simp

theorem onMesh_slices (c : List (ℕ × ℕ)) (hc : c ≠ []) : (sliceKeys c).all Key.onMesh = false ∧ (sliceKeys c).any Key.onMesh = false ∧
    (sliceKeys c).all Key.isSlice = true := by
  unfold sliceKeys
  refine ⟨?_, ?_, ?_⟩
  · cases c with
    | nil => exact absurd rfl hc
    | cons a c => simp [Key.onMesh]
  · simp [Key.onMesh]
  · simp [Key.isSlice]

theorem onMesh_ints (c : List ℕ) (hc : c ≠ []) : (intKeys c).all Key.onMesh = false ∧ (intKeys c).any Key.onMesh = false ∧
    (intKeys c).all Key.isInt = true := by
  unfold intKeys
  refine ⟨?_, ?_, ?_⟩
  · cases c with
    | nil => exact absurd rfl hc
    | cons a c => simp [Key.onMesh]
  · simp [Key.onMesh]
  · simp [Key.isInt]

/-- slices of the target give a Green function on the same mesh that shows the selected part -/
theorem C145_slices (g : Gf) (hg : g.Valid) (c : List (ℕ × ℕ)) (hc : c ≠ [])
    (h : List.Forall₂ (fun (p : ℕ × ℕ) (d : ℕ) => p.1 ≤ p.2 ∧ p.2 ≤ d) c g.target) :
    ∃ r, getItem g (.tuple (sliceKeys c)) = .ok (.gf r) ∧ r.Valid ∧ r.mesh = g.mesh ∧ r.target = c.map (fun p => p.2 - p.1) ∧
      ∀ x t, x.length = g.rank → t.length = c.length →
        r.data.addr (x ++ t) = g.data.addr (x ++ shift (c.map Prod.fst) t) := by
  obtain ⟨f, h1, h2⟩ := sub_slices c g.target h
  obtain ⟨w, h3, h4, h5⟩ := target_sub g hg _ _ f h1
  obtain ⟨a1, a2, a3⟩ := onMesh_slices c hc
  have hlen : (sliceKeys c).length = g.targetRank := by
    rw [targetRank_valid g hg, ← List.Forall₂.length_eq h]; simp [sliceKeys]
  have ht : (⟨g.mesh, w⟩ : Gf).target = c.map (fun p => p.2 - p.1) := by
    unfold Gf.target Gf.rank
    rw [h4]
    exact List.drop_left' (by simp)
  refine ⟨⟨g.mesh, w⟩, ?_, ?_, rfl, ht, fun x t hx ht => ?_⟩
  · simp only [getItem, getTuple, a1, Bool.false_eq_true, if_false, a2, hlen, ne_eq, not_true_eq_false, a3, Bool.true_or, if_true,
      bracket, h3]
    rfl
  · unfold Gf.Valid
    rw [ht]
    exact h4
  · rw [← h2 t ht]
    exact h5 x t hx

/-- integers give the scalar function of that element -/
theorem C145_ints (g : Gf) (hg : g.Valid) (c : List ℕ) (hc : c ≠ []) (h : InRange g.target c) :
    ∃ r, getItem g (.tuple (intKeys c)) = .ok (.gf r) ∧ r.Valid ∧ r.mesh = g.mesh ∧ r.target = [] ∧
      ∀ x, x.length = g.rank → r.data.addr x = g.data.addr (x ++ c) := by
  obtain ⟨f, h1, h2⟩ := sub_ints c g.target h
  obtain ⟨w, h3, h4, h5⟩ := target_sub g hg _ _ f h1
  obtain ⟨a1, a2, a3⟩ := onMesh_ints c hc
  have hlen : (intKeys c).length = g.targetRank := by
    rw [targetRank_valid g hg, ← inRange_length h]; simp [intKeys]
  have ht : (⟨g.mesh, w⟩ : Gf).target = [] := by
    unfold Gf.target Gf.rank
    rw [h4]
    exact List.drop_left' (by simp)
  refine ⟨⟨g.mesh, w⟩, ?_, ?_, rfl, ht, fun x hx => ?_⟩
  · simp only [getItem, getTuple, a1, Bool.false_eq_true, if_false, a2, hlen, ne_eq, not_true_eq_false, a3, Bool.or_true, if_true,
      bracket, h3]
    rfl
  · unfold Gf.Valid
    rw [ht]
    exact h4
  · have := h5 x [] hx
    rw [List.append_nil, h2] at this
    exact this

theorem position_isSome (d : ℕ) (i : ℤ) : (position d i).isSome ↔ -(d : ℤ) ≤ i ∧ i < d := by
  unfold position
  split <;> simp_all

theorem sub_slice_isSome (ks : List Key) (t : List ℕ) (hl : ks.length = t.length) (hk : ks.all Key.isSlice = true) :
    ∃ p, sub (ks.map Key.numpy) t = some p := by
  induction ks generalizing t with
  | nil => exact ⟨_, rfl⟩
  | cons k ks ih =>
    cases t with
    | nil => simp at hl
    | cons d t =>
      simp only [List.all_cons, Bool.and_eq_true] at hk
      obtain ⟨p, hp⟩ := ih t (by simpa using hl) hk.2
      cases k with
      | slice a b => exact ⟨_, by simp only [List.map_cons, Key.numpy, sub, hp, Option.map_some]; rfl⟩
      | _ => simp [Key.isSlice] at hk

/-- the integer keys are positions of the axes, counted from either end -/
def IntsValid (ks : List Key) (t : List ℕ) : Prop :=
  List.Forall₂ (fun (k : Key) (d : ℕ) => ∃ i, k = .int i ∧ -(d : ℤ) ≤ i ∧ i < d) ks t

theorem sub_int_isSome (ks : List Key) (t : List ℕ) (hl : ks.length = t.length) (hk : ks.all Key.isInt = true) :
    (∃ p, sub (ks.map Key.numpy) t = some p) ↔ IntsValid ks t := by
  induction ks generalizing t with
  | nil =>
    cases t with
    | nil => exact ⟨fun _ => List.Forall₂.nil, fun _ => ⟨_, rfl⟩⟩
    | cons d t => simp at hl
  | cons k ks ih =>
    cases t with
    | nil => simp at hl
    | cons d t =>
      simp only [List.all_cons, Bool.and_eq_true] at hk
      have := ih t (by simpa using hl) hk.2
      cases k with
      | int i =>
        simp only [List.map_cons, Key.numpy, sub]
        constructor
        · rintro ⟨p, hp⟩
          cases hq : position d i with
          | none => rw [hq] at hp; cases hp
          | some j =>
            rw [hq] at hp
            simp only at hp
            cases hs : sub (ks.map Key.numpy) t with
            | none => rw [hs] at hp; cases hp
            | some q =>
              exact List.Forall₂.cons ⟨i, rfl, (position_isSome d i).mp (by rw [hq]; rfl)⟩ (this.mp ⟨q, hs⟩)
        · intro h
          cases h with
          | cons h1 h2 =>
            obtain ⟨i', he, h3⟩ := h1
            cases he
            obtain ⟨q, hq⟩ := this.mpr h2
            obtain ⟨j, hj⟩ := Option.isSome_iff_exists.mp ((position_isSome d i).mpr h3)
            exact ⟨_, by rw [hj]; simp only [hq, Option.map_some]; rfl⟩
      | _ => simp [Key.isInt] at hk

/-- exactly which brackets without mesh points work: one key per axis of the target, all slices or all integers, the
integers within the axes -/
theorem C145_target_iff (g : Gf) (hg : g.Valid) (ks : List Key) (hne : ks ≠ []) (hk : ks.any Key.onMesh = false) :
    (∃ r, getItem g (.tuple ks) = .ok r) ↔
      ks.length = g.target.length ∧ (ks.all Key.isSlice = true ∨ IntsValid ks g.target) := by
  have h0 : ks.all Key.onMesh = false := by
    cases ks with
    | nil => exact absurd rfl hne
    | cons k ks =>
      simp only [List.any_cons, Bool.or_eq_false_iff] at hk
      simp [hk.1]
  have hex : (ks.length = g.target.length) → ((∃ r, (bracket g.data (List.replicate g.rank (.slice (some 0) none) ++ ks.map Key.numpy)).map
      (fun v => Res.gf ⟨g.mesh, v⟩) = .ok r) ↔ ∃ p, sub (ks.map Key.numpy) g.target = some p) := by
    intro hl
    constructor
    · rintro ⟨r, hr⟩
      cases hs : sub (ks.map Key.numpy) g.target with
      | some p => exact ⟨p, rfl⟩
      | none =>
        have hf := sub_full (g.mesh.comps.map Comp.size) (ks.map Key.numpy) g.target
        rw [hs, show (g.mesh.comps.map Comp.size).length = g.rank from by simp [Gf.rank]] at hf
        have : g.data.sub (List.replicate g.rank (.slice (some 0) none) ++ ks.map Key.numpy) = none := by
          unfold View.sub
          rw [hg, hf]
          rfl
        rw [bracket, this] at hr
        cases hr
    · rintro ⟨p, hp⟩
      obtain ⟨w, hw, _, _⟩ := target_sub g hg _ p.1 p.2 hp
      exact ⟨_, by rw [bracket, hw]; rfl⟩
  have hints : IntsValid ks g.target → ks.all Key.isInt = true := by
    intro h
    rw [List.all_eq_true]
    intro k hkm
    have : ∀ (l : List Key) (t : List ℕ), IntsValid l t → ∀ k ∈ l, k.isInt = true := by
      intro l t hlt
      induction hlt with
      | nil => intro k hk; exact absurd hk List.not_mem_nil
      | cons h1 h2 ih =>
        intro k hk
        rcases List.mem_cons.mp hk with rfl | h
        · obtain ⟨i, rfl, _⟩ := h1; rfl
        · exact ih k h
    exact this ks _ h k hkm
  simp only [getItem, getTuple, h0, hk, Bool.false_eq_true, if_false, targetRank_valid g hg]
  by_cases hl : ks.length = g.target.length
  · rw [if_neg (by simpa using hl)]
    by_cases hs : ks.all Key.isSlice = true
    · rw [if_pos (by simp [hs]), hex hl]
      exact ⟨fun _ => ⟨hl, Or.inl hs⟩, fun _ => sub_slice_isSome ks _ hl hs⟩
    · by_cases hi : ks.all Key.isInt = true
      · rw [if_pos (by simp [hi]), hex hl, sub_int_isSome ks _ hl hi]
        exact ⟨fun h => ⟨hl, Or.inr h⟩, fun h => h.2.resolve_left hs⟩
      · rw [if_neg (by simp only [Bool.or_eq_true]; tauto)]
        constructor
        · rintro ⟨r, hr⟩
          split at hr <;> cases hr
        · rintro ⟨_, h | h⟩
          · exact absurd h hs
          · exact absurd (hints h) hi
  · rw [if_pos (by simpa using hl)]
    constructor
    · rintro ⟨r, hr⟩; cases hr
    · rintro ⟨h, _⟩; exact absurd h hl

/-- the storage behind a result -/
def Res.view : Res → View
  | .data v => v
  | .gf g => g.data

theorem map_data_view {x : Except Err View} {F : View → Res} {r : Res} (hF : ∀ v, (F v).view = v) (h : x.map F = .ok r) :
    x = .ok r.view := by
  cases x with
  | error e => cases h
  | ok v => cases h; rw [hF]

/-- every result is a view of the storage of `g` -/
theorem getTuple_view (g : Gf) (ks : List Key) (r : Res) (h : getTuple g ks = .ok r) : ∃ nk, g.data.sub nk = some r.view := by
  unfold getTuple at h
  split at h
  · split at h
    · cases h
    · split at h
      · cases h
      · split at h
        · cases h
        · exact ⟨_, bracket_ok.mp (map_data_view (fun _ => rfl) h)⟩
  · split at h
    · split at h
      · cases h
      · split at h
        · cases h
        · split at h
          · cases h
          · split at h
            · cases h
            · split at h
              · cases h
              · exact ⟨_, bracket_ok.mp (map_data_view (fun _ => rfl) h)⟩
    · split at h
      · cases h
      · split at h
        · exact ⟨_, bracket_ok.mp (map_data_view (fun _ => rfl) h)⟩
        · split at h <;> cases h

theorem View.sub_nil (v : View) : v.sub [] = some v := by
  unfold View.sub
  simp [PyAccess.sub]

theorem C145_view (g : Gf) (a : Arg) (r : Res) (h : getItem g a = .ok r) : ∃ nk, g.data.sub nk = some r.view := by
  cases a with
  | tuple ks => exact getTuple_view g ks r h
  | single k =>
    simp only [getItem] at h
    split at h
    · cases h; exact ⟨[], View.sub_nil _⟩
    · split at h
      · split at h
        · cases h
        · exact ⟨_, bracket_ok.mp (map_data_view (fun _ => rfl) h)⟩
      · exact getTuple_view g [k] r h

theorem pick_self (s idx : List ℕ) (h : InRange s idx) : pick s idx = idx := by
  unfold pick
  rw [inRange_length h, Nat.sub_self, List.drop_zero]
  induction s generalizing idx with
  | nil => rw [inRange_nil] at h; subst h; rfl
  | cons d s ih =>
    obtain ⟨i, r, rfl, h1, h2⟩ := (inRange_cons d s idx).mp h
    simp only [List.zipWith_cons_cons]
    rw [ih r h2]
    split
    · congr 1; omega
    · rfl

theorem fits_self (s : List ℕ) : fits s s = true := by
  unfold fits
  simp only [le_refl, decide_true, Nat.sub_self, List.drop_zero, Bool.true_and]
  induction s with
  | nil => rfl
  | cons d s ih => simp [ih]

/-- assignment of an array of the right shape: the elements shown by the bracket get the values, all other memory is kept -/
theorem C145_assign (mem : Mem) (g : Gf) (hg : g.data.Inj) (a : Arg) (v : View) (h : getItem g a = .ok (.data v)) (el : List ℕ → ℂ) :
    ∃ mem', setItem mem g a (.arr v.shape el) = .ok mem' ∧ (∀ i, InRange v.shape i → read mem' v i = el i) ∧
      ∀ p, ¬ v.Occupies p → mem' p = mem p := by
  obtain ⟨nk, hnk⟩ := C145_view g a _ h
  have hv : v.Inj := View.sub_inj hg hnk
  refine ⟨write mem v fun i => el (pick v.shape i), by simp only [setItem, h, assignTo, fits_self, if_true], fun i hi => ?_, fun p hp => write_off _ _ _ _ hp⟩
  unfold read
  rw [write_at _ _ _ hv i hi, pick_self _ _ hi]

/-- assignment at a mesh point: values at this point are set, values at all other points are kept -/
theorem C145_assign_point (mem : Mem) (g : Gf) (hi : g.data.Inj) (m : Comp) (hm : g.mesh = .one m) (hg : g.Valid) (d : ℕ)
    (hd : d < m.size) (el : List ℕ → ℂ) :
    ∃ mem', setItem mem g (.single (.point d m.hash)) (.arr g.target el) = .ok mem' ∧
      ∀ d' t, d' < m.size → InRange g.target t →
        read mem' g.data (d' :: t) = if d' = d then el t else read mem g.data (d' :: t) := by
  obtain ⟨v, h1, h2, h3⟩ := C145_point g m hm hg d hd
  obtain ⟨mem', h4, h5, h6⟩ := C145_assign mem g hi _ v h1 el
  rw [h2] at h4 h5
  refine ⟨mem', h4, fun d' t hd' ht => ?_⟩
  split
  · subst d'
    have := h5 t ht
    unfold read at this ⊢
    rwa [h3] at this
  · rename_i hne
    unfold read
    apply h6
    rintro ⟨i, hi1, hi2⟩
    rw [h3] at hi2
    rw [h2] at hi1
    have := hi _ _ (by rw [valid_one hm hg]; exact (inRange_cons _ _ _).mpr ⟨d, i, rfl, hd, hi1⟩)
      (by rw [valid_one hm hg]; exact (inRange_cons _ _ _).mpr ⟨d', t, rfl, hd', ht⟩) hi2
    exact hne (List.cons.inj this).1.symm

/-- assignment of a Green function to a part of the target: the part gets the values `h` had before, even if `h` shows the
same storage, and all other memory is kept; different meshes and shapes are refused -/
theorem C145_assign_gf (mem : Mem) (g h : Gf) (hg : g.data.Inj) (a : Arg) (r : Gf) (hr : getItem g a = .ok (.gf r)) :
    ((∃ mem', setItem mem g a (.gf h) = .ok mem') ↔ r.mesh = h.mesh ∧ r.data.shape = h.data.shape) ∧
    ∀ mem', setItem mem g a (.gf h) = .ok mem' →
      (∀ i, InRange r.data.shape i → read mem' r.data i = read mem h.data i) ∧ ∀ p, ¬ r.data.Occupies p → mem' p = mem p := by
  obtain ⟨nk, hnk⟩ := C145_view g a _ hr
  have hv : r.data.Inj := View.sub_inj hg hnk
  simp only [setItem, hr, assignTo]
  constructor
  · split
    · simp_all
    · split
      · simp_all
      · simp_all
  · intro mem' hm
    split at hm
    · cases hm
    · split at hm
      · cases hm
      · cases hm
        refine ⟨fun i hi => ?_, fun p hp => write_off _ _ _ _ hp⟩
        unfold read
        exact write_at _ _ _ hv i hi

/-- an array cannot be assigned to a part of the target -/
theorem C145_assign_array (mem : Mem) (g r : Gf) (a : Arg) (hr : getItem g a = .ok (.gf r)) (s : List ℕ) (el : List ℕ → ℂ) :
    setItem mem g a (.arr s el) = .error .type := by
  simp [setItem, hr, assignTo]

/-- numpy: an array of shape `s` can be assigned to one of shape `t` -/
theorem fits_iff (s t : List ℕ) : fits s t = true ↔
    s.length ≤ t.length ∧ ∀ (k a b : ℕ), s[k]? = some a → t[t.length - s.length + k]? = some b → a = b ∨ a = 1 := by
  unfold fits
  rw [Bool.and_eq_true, decide_eq_true_eq]
  refine and_congr_right fun hl => ?_
  rw [List.all_eq_true]
  constructor
  · intro h k a b ha hb
    have := h (a == b || a == 1) (List.mem_of_getElem? (i := k) (by
      rw [List.getElem?_zipWith, ha, List.getElem?_drop, hb]))
    simpa using this
  · intro h x hx
    obtain ⟨k, hk⟩ := List.mem_iff_getElem?.mp hx
    rw [List.getElem?_zipWith] at hk
    cases ha : s[k]? with
    | none => simp [ha] at hk
    | some a =>
      rw [List.getElem?_drop] at hk
      cases hb : t[t.length - s.length + k]? with
      | none => simp [ha, hb] at hk
      | some b =>
        simp only [ha, hb, Option.some.injEq] at hk
        subst hk
        simpa using h k a b ha hb

/-- exactly the arrays that can be broadcast are accepted: compared from the last extent on, every extent is that of the data or one -/
theorem C145_assign_shape (mem : Mem) (g : Gf) (a : Arg) (v : View) (h : getItem g a = .ok (.data v)) (s : List ℕ) (el : List ℕ → ℂ) :
    (∃ mem', setItem mem g a (.arr s el) = .ok mem') ↔
      s.length ≤ v.shape.length ∧ ∀ (k x y : ℕ), s[k]? = some x → v.shape[v.shape.length - s.length + k]? = some y → x = y ∨ x = 1 := by
  rw [← fits_iff]
  simp only [setItem, h, assignTo]
  split
  · rename_i hf
    exact ⟨fun _ => hf, fun _ => ⟨_, rfl⟩⟩
  · rename_i hf
    exact ⟨fun ⟨_, hm⟩ => by simp at hm, fun hf' => absurd hf' hf⟩

/-- among points of meshes only full slices are accepted -/
theorem C145_partial_slice (g : Gf) (ks : List Key) (k : Key) (hk : k ∈ ks) (hm : k.onMesh = true) (a b : Option ℤ)
    (hs : Key.slice a b ∈ ks) (hne : a ≠ none ∨ b ≠ none) : ∃ e, getItem g (.tuple ks) = .error e := by
  have h1 : ¬ (ks.all Key.onMesh = true) := fun h => by
    have := List.all_eq_true.mp h _ hs
    simp [Key.onMesh] at this
  have h2 : ks.any Key.onMesh = true := List.any_eq_true.mpr ⟨k, hk, hm⟩
  have h3 : ks.any (fun k => k.isSlice && (k != fullKey)) = true := List.any_eq_true.mpr ⟨_, hs, by
    simp only [Key.isSlice, Bool.true_and, bne_iff_ne, ne_eq, fullKey, Key.slice.injEq, not_and_or]
    exact hne⟩
  simp only [getItem, getTuple, if_neg h1, h2, h3, if_true]
  split
  · exact ⟨_, rfl⟩
  · split
    · exact ⟨_, rfl⟩
    · split
      · exact ⟨_, rfl⟩
      · exact ⟨_, rfl⟩

/-! ### Examples -/

/-- four Matsubara frequencies -2..1 of a function with values 2 by 2, row-major -/
def exG : Gf := ⟨.one ⟨-2, 4, 7⟩, ⟨[4, 2, 2], fun i => i.getD 0 0 * 4 + i.getD 1 0 * 2 + i.getD 2 0⟩⟩

theorem exG_valid : exG.Valid := by simp [Gf.Valid, exG, Gf.target, Gf.rank, Mesh.comps]

theorem exG_inj : exG.data.Inj := by
  intro i j hi hj h
  obtain ⟨a, r, rfl, ha, hr⟩ := (inRange_cons _ _ _).mp hi
  obtain ⟨b, r', rfl, hb, hr'⟩ := (inRange_cons _ _ _).mp hr
  obtain ⟨c, r'', rfl, hc, hr''⟩ := (inRange_cons _ _ _).mp hr'
  obtain ⟨a2, q, rfl, ha2, hq⟩ := (inRange_cons _ _ _).mp hj
  obtain ⟨b2, q', rfl, hb2, hq'⟩ := (inRange_cons _ _ _).mp hq
  obtain ⟨c2, q'', rfl, hc2, hq''⟩ := (inRange_cons _ _ _).mp hq'
  rw [inRange_nil] at hr'' hq''
  subst hr'' hq''
  simp only [exG, List.getD_cons_zero, List.getD_cons_succ] at h
  have h1 : a = a2 := by omega
  have h2 : b = b2 := by omega
  have h3 : c = c2 := by omega
  subst h1 h2 h3
  rfl

/-- the frequency with index -3 is not on the mesh, but the value at the index 1 is returned -/
theorem C145_wrong_frequency : getItem exG (.single (.idx (-3))) = getItem exG (.single (.idx 1)) ∧
    ∃ v, getItem exG (.single (.idx (-3))) = .ok (.data v) ∧ v.addr [0, 1] = exG.data.addr [3, 0, 1] := by
  have h := C145_idx exG ⟨-2, 4, 7⟩ rfl exG_valid (-3)
  have h1 := h.2.1 (by norm_num)
  obtain ⟨v, h2, _, h3⟩ := (C145_idx exG ⟨-2, 4, 7⟩ rfl exG_valid 1).1 (by norm_num)
  refine ⟨h1, v, ?_, h3 _⟩
  rw [h1]
  exact h2

/-- the hypotheses of the theorems above can be met -/
example : (∃ r, getItem exG (.tuple (sliceKeys [(0, 1), (1, 2)])) = .ok (.gf r) ∧ r.target = [1, 1] ∧
    r.data.addr [3, 0, 0] = exG.data.addr [3, 0, 1]) := by
  obtain ⟨r, h1, _, _, h2, h3⟩ := C145_slices exG exG_valid [(0, 1), (1, 2)] (by simp)
    (List.Forall₂.cons (by norm_num) (List.Forall₂.cons (by norm_num) List.Forall₂.nil))
  exact ⟨r, h1, h2, h3 [3] [0, 0] rfl rfl⟩

example : ∃ mem', setItem (fun _ => 0) exG (.single (.point 2 7)) (.arr [2, 2] fun _ => 5) = .ok mem' ∧ read mem' exG.data [2, 1, 0] = 5 ∧
    read mem' exG.data [1, 1, 0] = 0 := by
  obtain ⟨mem', h1, h2⟩ := C145_assign_point (fun _ => 0) exG exG_inj ⟨-2, 4, 7⟩ rfl exG_valid 2 (by norm_num) (fun _ => 5)
  have hr : InRange exG.target [1, 0] :=
    List.Forall₂.cons (by norm_num) (List.Forall₂.cons (by norm_num) List.Forall₂.nil)
  exact ⟨mem', h1, by rw [h2 2 [1, 0] (by norm_num) hr]; rfl, by rw [h2 1 [1, 0] (by norm_num) hr]; simp [read]⟩

/-- a function of two variables -/
def exP : Gf := ⟨.prod [⟨-1, 2, 1⟩, ⟨0, 3, 2⟩], ⟨[2, 3], fun i => i.getD 0 0 * 3 + i.getD 1 0⟩⟩

example : ∃ r, getItem exP (.tuple [.slice none none, .point 2 2]) = .ok (.gf r) ∧ r.mesh.comps = [⟨-1, 2, 1⟩] ∧
    r.data.addr [1] = exP.data.addr [1, 2] := by
  obtain ⟨r, h1, _, h2, _, h4⟩ := C145_mixed exP (by simp [Gf.Valid, exP, Gf.target, Gf.rank, Mesh.comps]) (by simp [exP, Gf.rank, Mesh.comps])
    [none, some 2] (List.Forall₂.cons (by simp) (List.Forall₂.cons (by simp) List.Forall₂.nil)) (by simp) ⟨2, by simp⟩
  refine ⟨r, h1, h2, ?_⟩
  have := h4 [1] [] (by rw [Gf.rank, h2]; rfl) (by exact List.Forall₂.nil)
  simpa [fill] using this

example : getItem exG (.tuple [.str, .int 0]) = .error .runtime := by
  simp [getItem, getTuple, Key.onMesh, Gf.targetRank, exG, Gf.rank, Mesh.comps, Key.isSlice, Key.isInt, Key.isStr]

/-- a part of the points of the first mesh at a point of the second is refused -/
example : ∃ e, getItem exP (.tuple [.slice (some 0) (some 1), .point 2 2]) = .error e :=
  C145_partial_slice exP _ (.point 2 2) (by simp) rfl (some 0) (some 1) (by simp) (by simp)

/-- a row is broadcast to the matrix at a point, three numbers are not -/
example : fits [2] [2, 2] = true ∧ fits [1, 2] [2, 2] = true ∧ fits [3] [2, 2] = false ∧ fits [1, 2, 2] [2, 2] = false := by decide

end Verif.PyAccess
