import Verif.Mesh.Archive

/-!
# Archives of Green functions

`h5_write` and `h5_read` of `gf`: the format, the data, the mesh, and the completion of functions of positive Matsubara frequencies after reading.

Sources: `/repo/c++/triqs/gfs/gf/_gf_view_common.hpp` (157-172), `/repo/c++/triqs/gfs/h5.hpp` (46-91), `/repo/c++/triqs/gfs/functions/imfreq.hpp` (28-48),
and the archives of meshes in `Verif.Mesh.Archive`.

The data are the list of their rows along the first dimension; a row is a value of any type `X` with a conjugation. `h5::read` of the data gives what was
written. Objects that are read into own their data (`gf`, not views).
-/

namespace Verif.GfArchive

open MeshArchive

/-! ## Model -/

/-- the mesh of a function of one or of several variables -/
inductive GMesh (K T F : Type) where
  | one (m : Mesh K T F)
  | prod (ms : List (Mesh K T F))
deriving DecidableEq

structure Gf (K T F X : Type) where
  mesh : GMesh K T F
  data : List X
deriving DecidableEq

/-- the group of a Green function -/
structure Arch (K T F X : Type) where
  format : Option String
  data : Option (List X)
  mesh : Option (H5 K T F)

variable {K T F X : Type}

/-- `h5_write`, _gf_view_common.hpp:158-162 and h5.hpp:76-84. The format is `Gf`. -/
def write (g : Gf K T F X) : Option (Arch K T F X) :=
  match (match g.mesh with
    | .one m => MeshArchive.write m
    | .prod ms => writeProd ms) with
  | some h => some ⟨some "Gf", some g.data, some h⟩
  | none => none

/-- `new_data(k, ...) = x` -/
def put (k : Nat) (x : X) (a : Nat → Option X) : Nat → Option X := fun i => if i = k then some x else a i

/-- the loop over `u` from `isB` on, imfreq.hpp:43-46, after `m` passages -/
def loop (conj : X → X) (dat : List X) (isB L1 : Nat) (a : Nat → Option X) : Nat → Nat → Option X
  | 0 => a
  | m + 1 =>
    let u := isB + m
    match dat[u]? with
    | some x => put (dat.length - 1 - u) (conj x) (put (L1 + u) x (loop conj dat isB L1 a m))
    | none => loop conj dat isB L1 a m

/-- collect the rows; `none`: a row has not been assigned. -/
def rows (a : Nat → Option X) : Nat → Option (List X)
  | 0 => some []
  | n + 1 => match rows a n, a n with
    | some l, some x => some (l ++ [x])
    | _, _ => none

/-- the data of `make_gf_from_real_gf`, imfreq.hpp:34-46; `none`: an array of negative extent -/
def unfoldData (conj : X → X) (s : Stat) (dat : List X) : Option (List X) :=
  let L := dat.length
  match s with
  | .boson => match dat with
    | [] => none
    | x :: _ => rows (loop conj dat 1 (L - 1) (put (L - 1) x fun _ => none) (L - 1)) (2 * L - 1)
  | .fermion => rows (loop conj dat 0 L (fun _ => none) L) (2 * L)

/-- `gf_h5_after_read`, h5.hpp:51-60, with imfreq.hpp:47 for the mesh -/
def afterRead (N : Num K T F) (conj : X → X) (g : Gf K T F X) : Gf K T F X × Bool := match g.mesh with
  | .one (.imfreq m) =>
    if m.positiveOnly then match unfoldData conj m.stat g.data with
      | some d => (⟨.one (.imfreq (Imfreq.new N m.beta m.stat g.data.length false)), d⟩, true)
      | none => (g, false)
    else (g, true)
  | _ => (g, true)

/-- `h5_read` of the mesh into the mesh of the target: the target after it, and whether it came to its end -/
def readMesh (N : Num K T F) (h : Option (H5 K T F)) (t : GMesh K T F) : GMesh K T F × Bool := match h with
  | none => (t, false)
  | some a => match t with
    | .one m => match MeshArchive.read N m.kind a with
      | some m' => (.one m', true)
      | none => (t, false)
    | .prod ms => (.prod (readProd N a ms).1, (readProd N a ms).2)

/-- `h5_read` into `g`, _gf_view_common.hpp:165-172 and h5.hpp:86-90: the function `g` after it, and whether it came to its end without exception -/
def read (N : Num K T F) (conj : X → X) (a : Arch K T F X) (g : Gf K T F X) : Gf K T F X × Bool :=
  if (a.format.getD "").toList.take 2 = ['G', 'f'] then
    match a.data with
    | none => (g, false)
    | some d => match readMesh N a.mesh g.mesh with
      | (m, true) => afterRead N conj ⟨m, d⟩
      | (m, false) => (⟨m, d⟩, false)
  else (g, false)

/-! ## Specification -/

/-- made by constructors with parameters -/
def GBuilt (N : Num K T F) : GMesh K T F → Prop
  | .one m => Built N m
  | .prod ms => ∀ m ∈ ms, Built N m

/-- of the same C++ type -/
def SameType : GMesh K T F → GMesh K T F → Prop
  | .one m, .one m' => m.kind = m'.kind
  | .prod ms, .prod ms' => ms.map Mesh.kind = ms'.map Mesh.kind
  | _, _ => False

/-- a function of one Matsubara frequency with positive frequencies only -/
def positive : GMesh K T F → Bool
  | .one (.imfreq m) => m.positiveOnly
  | _ => false

/-- value at the Matsubara frequency with index `i` -/
def value (m : Imfreq K) (d : List X) (i : Int) : Option X := if m.first ≤ i then d[(i - m.first).toNat]? else none

/-! ## Proofs -/

variable (N : Num K T F) (conj : X → X)

theorem write_some (g : Gf K T F X) (h : GBuilt N g.mesh) : ∃ a, write g = some ⟨some "Gf", some g.data, some a⟩ ∧
    (∀ t, SameType t g.mesh → readMesh N (some a) t = (g.mesh, true)) ∧
    (∀ m, g.mesh = .one m → MeshArchive.write m = some a) := by
  obtain ⟨mesh, data⟩ := g
  cases mesh with
  | one m =>
    obtain ⟨a, ha, hr⟩ := C169_round_trip N m h
    refine ⟨a, by simp [write, ha], ?_, fun m' hm' => by simp only [GMesh.one.injEq] at hm'; rw [← hm']; exact ha⟩
    intro t ht
    cases t with
    | one m' => simp only [SameType] at ht; simp [readMesh, ht, hr]
    | prod _ => simp [SameType] at ht
  | prod ms =>
    obtain ⟨a, ha, -⟩ := C169_products N ms [] ms (by simpa [GBuilt] using h) rfl
    refine ⟨a, by simp only [List.append_nil] at ha; simp [write, ha], ?_, fun m' hm' => by simp at hm'⟩
    intro t ht
    cases t with
    | one m' => simp [SameType] at ht
    | prod ms' =>
      simp only [SameType] at ht
      obtain ⟨b, hb, hr⟩ := C169_products N ms [] ms' (by simpa [GBuilt] using h) ht
      rw [ha] at hb
      simp only [Option.some.injEq] at hb
      subst hb
      simp [readMesh, hr]

theorem gf_tag : ("Gf".toList.take 2 = ['G', 'f']) := by decide

/-- **C170** Reading the archive of a Green function into any function of the same type gives its data and its mesh, whatever that function was. Only functions of one
Matsubara frequency with positive frequencies are excluded; in functions of several variables such meshes stay as they are. -/
theorem C170_round_trip (g t : Gf K T F X) (h : GBuilt N g.mesh) (ht : SameType t.mesh g.mesh) (hp : positive g.mesh = false) :
    ∃ a, write g = some a ∧ read N conj a t = (g, true) := by
  obtain ⟨a, ha, hr, -⟩ := write_some N g h
  refine ⟨_, ha, ?_⟩
  simp only [read, Option.getD_some, gf_tag, if_true, hr t.mesh ht]
  obtain ⟨mesh, data⟩ := g
  unfold afterRead
  split
  · rename_i m hm
    simp only at hm
    subst hm
    simp only [positive] at hp
    simp [hp]
  · rfl

theorem loop_spec (dat : List X) (isB L1 : Nat) (a : Nat → Option X) (hL : dat.length = L1 + isB) : ∀ m, isB + m ≤ dat.length → ∀ k,
    loop conj dat isB L1 a m k =
      if L1 + isB ≤ k ∧ k < L1 + isB + m then dat[k - L1]?
      else if dat.length - isB - m ≤ k ∧ k < dat.length - isB then (dat[dat.length - 1 - k]?).map conj
      else a k
  | 0, _, k => by
    rw [if_neg (by omega), if_neg (by omega)]
    rfl
  | m + 1, hm, k => by
    have ih := loop_spec dat isB L1 a hL m (by omega)
    have hu : isB + m < dat.length := by omega
    simp only [loop, List.getElem?_eq_getElem hu, put]
    by_cases h1 : k = dat.length - 1 - (isB + m)
    · rw [if_pos h1, if_neg (by omega), if_pos (by omega)]
      have : dat.length - 1 - k = isB + m := by omega
      rw [this, List.getElem?_eq_getElem hu]
      rfl
    · rw [if_neg h1]
      by_cases h2 : k = L1 + (isB + m)
      · rw [if_pos h2, if_pos (by omega)]
        have : k - L1 = isB + m := by omega
        rw [this, List.getElem?_eq_getElem hu]
      · rw [if_neg h2, ih k]
        by_cases h3 : L1 + isB ≤ k ∧ k < L1 + isB + m
        · rw [if_pos h3, if_pos (by omega)]
        · by_cases h4 : dat.length - isB - m ≤ k ∧ k < dat.length - isB
          · rw [if_neg h3, if_pos h4, if_neg (by omega), if_pos (by omega)]
          · rw [if_neg h3, if_neg h4, if_neg (by omega), if_neg (by omega)]

theorem rows_spec (a : Nat → Option X) : ∀ n, (∀ k < n, (a k).isSome) → ∃ l, rows a n = some l ∧ l.length = n ∧ ∀ k < n, l[k]? = a k
  | 0, _ => ⟨[], rfl, rfl, by simp⟩
  | n + 1, h => by
    obtain ⟨l, hl, hn, hk⟩ := rows_spec a n (fun k hk => h k (by omega))
    obtain ⟨x, hx⟩ := Option.isSome_iff_exists.mp (h n (by omega))
    refine ⟨l ++ [x], by simp [rows, hl, hx], by simp [hn], ?_⟩
    intro k hk'
    by_cases e : k = n
    · subst e; rw [List.getElem?_append_right (by omega)]; simp [hn, hx]
    · rw [List.getElem?_append_left (by omega)]; exact hk k (by omega)

theorem unfold_fermion (dat : List X) : ∃ l, unfoldData conj .fermion dat = some l ∧ l.length = 2 * dat.length ∧
    ∀ k < 2 * dat.length, l[k]? = if dat.length ≤ k then dat[k - dat.length]? else (dat[dat.length - 1 - k]?).map conj := by
  have hs := loop_spec conj dat 0 dat.length (fun _ => none) rfl dat.length (by omega)
  obtain ⟨l, h1, h2, h3⟩ := rows_spec (loop conj dat 0 dat.length (fun _ => none) dat.length) (2 * dat.length) (by
    intro k hk
    rw [hs k]
    by_cases e : dat.length ≤ k
    · rw [if_pos (by omega), List.getElem?_eq_getElem (by omega)]; rfl
    · rw [if_neg (by omega), if_pos (by omega), List.getElem?_eq_getElem (by omega)]; rfl)
  refine ⟨l, h1, h2, ?_⟩
  intro k hk
  rw [h3 k hk, hs k]
  by_cases e : dat.length ≤ k
  · rw [if_pos (by omega), if_pos e]
  · rw [if_neg (by omega), if_pos (by omega), if_neg e]

theorem unfold_boson (dat : List X) (hd : dat ≠ []) : ∃ l, unfoldData conj .boson dat = some l ∧ l.length = 2 * dat.length - 1 ∧
    ∀ k < 2 * dat.length - 1, l[k]? = if dat.length - 1 ≤ k then dat[k - (dat.length - 1)]? else (dat[dat.length - 1 - k]?).map conj := by
  have hl : 0 < dat.length := List.length_pos_of_ne_nil hd
  obtain ⟨x, r, hx⟩ := List.exists_cons_of_ne_nil hd
  have h0 : dat[0]? = some x := by rw [hx]; rfl
  have hs := loop_spec conj dat 1 (dat.length - 1) (put (dat.length - 1) x fun _ => none) (by omega) (dat.length - 1) (by omega)
  have hs' : ∀ k < 2 * dat.length - 1, loop conj dat 1 (dat.length - 1) (put (dat.length - 1) x fun _ => none) (dat.length - 1) k =
      if dat.length - 1 ≤ k then dat[k - (dat.length - 1)]? else (dat[dat.length - 1 - k]?).map conj := by
    intro k hk
    rw [hs k]
    by_cases e : dat.length ≤ k
    · rw [if_pos (by omega), if_pos (by omega)]
    · by_cases e' : k = dat.length - 1
      · rw [if_neg (by omega), if_neg (by omega), if_pos (by omega)]
        simp [put, e', h0]
      · rw [if_neg (by omega), if_pos (by omega), if_neg (by omega)]
  obtain ⟨l, h1, h2, h3⟩ := rows_spec (loop conj dat 1 (dat.length - 1) (put (dat.length - 1) x fun _ => none) (dat.length - 1)) (2 * dat.length - 1) (by
    intro k hk
    rw [hs' k hk]
    by_cases e : dat.length - 1 ≤ k
    · rw [if_pos e, List.getElem?_eq_getElem (by omega)]; rfl
    · rw [if_neg e, List.getElem?_eq_getElem (by omega)]; rfl)
  refine ⟨l, ?_, h2, fun k hk => by rw [h3 k hk, hs' k hk]⟩
  subst hx
  exact h1

/-- **C170** A function of positive Matsubara frequencies is completed by reading: it is a function of all frequencies then, with the old values at the positive ones and
their conjugates at the negative ones, `G(-iω) = G(iω)*`. For bosons there must be a frequency. -/
theorem C170_positive (b : K) (s : Stat) (d : List X) (t : Gf K T F X) (hs : s = .fermion ∨ d ≠ []) (t' : Mesh K T F) (ht : t.mesh = .one t')
    (hk : t'.kind = .imfreq) :
    ∃ a d', write (⟨.one (.imfreq (Imfreq.new N b s d.length true)), d⟩ : Gf K T F X) = some a ∧
      read N conj a t = (⟨.one (.imfreq (Imfreq.new N b s d.length false)), d'⟩, true) ∧
      (d'.length : Int) = (Imfreq.new N b s d.length false).size ∧
      ∀ i : Int, (Imfreq.new N b s d.length false).first ≤ i → i ≤ (Imfreq.new N b s d.length false).last →
        value (Imfreq.new N b s d.length false) d' i =
          if 0 ≤ i then value (Imfreq.new N b s d.length true) d i
          else (value (Imfreq.new N b s d.length true) d (-i - (if s = .fermion then 1 else 0))).map conj := by
  obtain ⟨a, ha, hr, -⟩ := write_some N (⟨.one (.imfreq (Imfreq.new N b s d.length true)), d⟩ : Gf K T F X) (.imfreq b s d.length true (by omega))
  have hst : SameType t.mesh (.one (.imfreq (Imfreq.new N b s d.length true)) : GMesh K T F) := by rw [ht]; exact hk
  have hrd : ∀ d', unfoldData conj s d = some d' → read N conj ⟨some "Gf", some d, some a⟩ t =
      (⟨.one (.imfreq (Imfreq.new N b s d.length false)), d'⟩, true) := by
    intro d' h'
    simp only [read, Option.getD_some, gf_tag, if_true, hr t.mesh hst, afterRead]
    simp only [Imfreq.new, if_true, h']
  cases s with
  | fermion =>
    obtain ⟨l, h1, h2, h3⟩ := unfold_fermion conj d
    refine ⟨_, l, ha, hrd l h1, ?_, ?_⟩
    · simp only [Imfreq.size, Imfreq.new, Bool.false_eq_true, if_false, if_true, h2]; omega
    · intro i hi hi'
      simp only [Imfreq.new, Bool.false_eq_true, if_false, if_true] at hi hi'
      simp only [value, Imfreq.new, Bool.false_eq_true, if_false, if_true]
      rw [if_pos hi, h3 _ (by omega)]
      by_cases e : 0 ≤ i
      · rw [if_pos (by omega), if_pos e, if_pos e]
        congr 1; omega
      · rw [if_neg (by omega), if_neg e, if_pos (by omega)]
        congr 2; omega
  | boson =>
    have hd : d ≠ [] := by rcases hs with h | h <;> simp_all
    have hl : 0 < d.length := List.length_pos_of_ne_nil hd
    obtain ⟨l, h1, h2, h3⟩ := unfold_boson conj d hd
    refine ⟨_, l, ha, hrd l h1, ?_, ?_⟩
    · simp only [Imfreq.size, Imfreq.new, Bool.false_eq_true, if_false, reduceCtorEq, h2]; omega
    · intro i hi hi'
      simp only [Imfreq.new, Bool.false_eq_true, if_false, reduceCtorEq] at hi hi'
      simp only [value, Imfreq.new, Bool.false_eq_true, if_false, reduceCtorEq, if_true]
      rw [if_pos hi, h3 _ (by omega)]
      by_cases e : 0 ≤ i
      · rw [if_pos (by omega), if_pos e, if_pos e]
        congr 1; omega
      · rw [if_neg (by omega), if_neg e, if_pos (by omega)]
        congr 2; omega

/-- **C170** For a function of bosonic frequencies without frequencies, reading asks for an array of negative extent. -/
theorem C170_positive_empty (b : K) (t : Gf K T F X) (t' : Mesh K T F) (ht : t.mesh = .one t') (hk : t'.kind = .imfreq) :
    ∃ a, write (⟨.one (.imfreq (Imfreq.new N b .boson 0 true)), []⟩ : Gf K T F X) = some a ∧ (read N conj a t).2 = false := by
  obtain ⟨a, ha, hr, -⟩ := write_some N (⟨.one (.imfreq (Imfreq.new N b .boson 0 true)), []⟩ : Gf K T F X) (.imfreq b .boson 0 true (by omega))
  have hst : SameType t.mesh (.one (.imfreq (Imfreq.new N b .boson 0 true)) : GMesh K T F) := by rw [ht]; exact hk
  refine ⟨_, ha, ?_⟩
  simp only [read, Option.getD_some, gf_tag, if_true, hr t.mesh hst, afterRead]
  simp [Imfreq.new, unfoldData]

/-- **C170** An archive with a mesh of another type: there is an exception, but the function that should be read has the data of the archive with its old mesh. -/
theorem C170_other_type (g t : Gf K T F X) (m m' : Mesh K T F) (h : GBuilt N g.mesh) (hg : g.mesh = .one m) (ht : t.mesh = .one m') (hne : m'.kind ≠ m.kind) :
    ∃ a, write g = some a ∧ read N conj a t = (⟨t.mesh, g.data⟩, false) := by
  obtain ⟨a, ha, -, hw⟩ := write_some N g h
  refine ⟨_, ha, ?_⟩
  have hm : MeshArchive.read N m'.kind a = none := by
    cases e : MeshArchive.read N m'.kind a with
    | none => rfl
    | some x => exact absurd (C169_types N m x a m'.kind (hw m hg) e).1 hne
  simp [read, gf_tag, readMesh, ht, hm]

/-- **C170** Formats: what has another format than `Gf...`, like block Green functions, or none, is not read and nothing changes; what has such a format, like the formats
`GfImFreq` of old archives, is read in the same way. -/
theorem C170_formats (a : Arch K T F X) (t : Gf K T F X) :
    ((∀ f, a.format = some f → ¬ ∃ r, f.toList = 'G' :: 'f' :: r) → read N conj a t = (t, false)) ∧
    (∀ f r, f.toList = 'G' :: 'f' :: r → read N conj { a with format := some f } t = read N conj { a with format := some "Gf" } t) := by
  constructor
  · intro h
    have : ¬ (a.format.getD "").toList.take 2 = ['G', 'f'] := by
      cases hf : a.format with
      | none => simp
      | some f =>
        intro e
        apply h f hf
        simp only [Option.getD_some] at e
        refine ⟨f.toList.drop 2, ?_⟩
        have := List.take_append_drop 2 f.toList
        rw [e] at this
        exact this.symm
    simp only [read, if_neg this]
  · intro f r hf
    have h1 : f.toList.take 2 = ['G', 'f'] := by rw [hf]; rfl
    simp only [read, Option.getD_some, h1, gf_tag, if_true]

/-! ### Examples -/

/-- conjugation of pairs of integers -/
def exConj (x : Int × Int) : Int × Int := (x.1, -x.2)

def exGf : Gf Int Unit (List Int) (Int × Int) := ⟨.one (.imfreq (Imfreq.new exNum 10 .boson 3 true)), [(1, 0), (2, 5), (3, 6)]⟩

def exTarget : Gf Int Unit (List Int) (Int × Int) := ⟨.one (.imfreq (Imfreq.new exNum 1 .fermion 1 false)), [(0, 0), (7, 7)]⟩

example : (write exGf).map (fun a => read exNum exConj a exTarget) =
    some (⟨.one (.imfreq (Imfreq.new exNum 10 .boson 3 false)), [(3, -6), (2, -5), (1, 0), (2, 5), (3, 6)]⟩, true) := by decide +kernel

example : (write exTarget).map (fun a => read exNum exConj a exGf) = some (exTarget, true) := by decide +kernel

/-- five rows of data with a mesh of two points afterwards -/
example : (write (⟨.one (.discrete (Discrete.new 5)), [(1, 0), (2, 0), (3, 0), (4, 0), (5, 0)]⟩ : Gf Int Unit (List Int) (Int × Int))).map
    (fun a => read exNum exConj a exTarget) = some (⟨exTarget.mesh, [(1, 0), (2, 0), (3, 0), (4, 0), (5, 0)]⟩, false) := by decide +kernel

/-- positive frequencies in a function of two variables are not completed -/
example : (write (⟨.prod [.imfreq (Imfreq.new exNum 10 .boson 3 true), .discrete (Discrete.new 1)], [(1, 0), (2, 5), (3, 6)]⟩ : Gf Int Unit (List Int) (Int × Int))).map
    (fun a => (read exNum exConj a ⟨.prod [.imfreq (Imfreq.new exNum 1 .boson 1 false), .discrete (Discrete.new 0)], []⟩).1.data) =
    some [(1, 0), (2, 5), (3, 6)] := by decide +kernel

example : ¬ ∃ r, "BlockGf".toList = 'G' :: 'f' :: r := by rintro ⟨r, h⟩; simp at h

end Verif.GfArchive
