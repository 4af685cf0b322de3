import Mathlib.Data.List.Basic
import Mathlib.Data.List.GetD
import Mathlib.Data.List.Nodup
import Mathlib.Data.List.TakeWhile
import Mathlib.Data.Nat.Digits.Defs
import Std.Data.String.ToNat

/-!
# Archives of diagonalised atoms

Source: `/repo/c++/triqs/atom_diag/impl/atom_diag.cpp:185-248`, `atom_diag.hpp:95-104`, `/repo/c++/triqs/hilbert_space/hilbert_space.hpp:170-178, 206-218,
264-289`.

An archive of an `atom_diag` is a list of named entries. Operators, matrices and numbers are opaque values that HDF5 gives back as they were written (the
operators: see `Verif/Operators/Archive.lean`). An empty matrix, which is also the value of a default constructed one, is `none`.
-/

namespace Verif.AtomDiag.AdArchive

/-! ## Model -/

/-- `sub_hilbert_space`: index, list of Fock states, `flat_map` from the states to their positions, hilbert_space.hpp:245-255 -/
structure Sub where
  index : Int
  states : List Nat
  pos : List (Nat × Nat)
deriving DecidableEq

/-- `find` in the map -/
def look (m : List (Nat × Nat)) (f : Nat) : Option Nat := m.lookup f

/-- `insert` in the map: nothing happens if the key is there. The order in which the map stores its keys plays no role here. -/
def mapInsert (m : List (Nat × Nat)) (f i : Nat) : List (Nat × Nat) := if (look m f).isSome then m else m ++ [(f, i)]

/-- constructor, hilbert_space.hpp:155 -/
def Sub.new (i : Int) : Sub := ⟨i, [], []⟩

/-- `add_fock_state`, hilbert_space.hpp:174-178 -/
def Sub.add (s : Sub) (f : Nat) : Sub := { s with states := s.states ++ [f], pos := mapInsert s.pos f s.states.length }

/-- `h5_write`, hilbert_space.hpp:270-274 -/
def Sub.write (s : Sub) : Int × List Nat := (s.index, s.states)

/-- `h5_read`, hilbert_space.hpp:282-289 -/
def Sub.read (w : Int × List Nat) : Sub := ⟨w.1, w.2, w.2.foldl (fun m f => mapInsert m f m.length) []⟩

/-- matrices with `extent(0)`, `extent(1)` -/
structure Conn (X : Type) where
  rows : Nat
  cols : Nat
  data : X
deriving DecidableEq

/-- members of `atom_diag`, atom_diag.hpp:315-330. An eigensystem is the list of its eigenvalues and the unitary matrix, atom_diag.hpp:75-80. -/
structure AD (X M : Type) where
  h : X
  fops : X
  fullHs : X
  subs : List Sub
  eig : List (List X × X)
  creation : Conn X
  annihilation : Conn X
  cdag : List (List (Option M))
  c : List (List (Option M))
  gs : X
  vacIndex : X
  vacuum : X
  qn : X
  first : List Nat
deriving DecidableEq

inductive Val (X M : Type) where
  | x (v : X)
  | subs (l : List (Int × List Nat))
  | eig (l : List (List X × X))
  | conn (c : Conn X)
  | group (l : List (List Char × M))
deriving DecidableEq

/-- the group of an `atom_diag`; the attribute `fops` is treated like an entry -/
abbrev Arch (X M : Type) := List (String × Val X M)

variable {X M : Type}

/-- `std::to_string(i) + ' ' + std::to_string(j)`, atom_diag.cpp:202 -/
def dsName (i j : Nat) : List Char := (toString i).toList ++ ' ' :: (toString j).toList

def writeRow (i : Nat) : Nat → List (Option M) → List (List Char × M)
  | _, [] => []
  | j, none :: r => writeRow i (j + 1) r
  | j, some m :: r => (dsName i j, m) :: writeRow i (j + 1) r

/-- `write_sparse`, atom_diag.cpp:198-203, from row `i` on -/
def writeSparse : Nat → List (List (Option M)) → List (List Char × M)
  | _, [] => []
  | i, r :: rs => writeRow i 0 r ++ writeSparse (i + 1) rs

/-- `std::stoi` on a name without blanks and signs in front: the digits at the beginning; `none`: an exception -/
def stoi (l : List Char) : Option Nat :=
  let d := l.takeWhile Char.isDigit
  if d = [] then none else some (Nat.ofDigitChars 10 d 0)

/-- `getline` with `' '`: the item, and what is left -/
def getline (l : List Char) : List Char × List Char := (l.takeWhile (· ≠ ' '), (l.dropWhile (· ≠ ' ')).drop 1)

/-- atom_diag.cpp:231-235 -/
def parse (l : List Char) : Option (Nat × Nat) :=
  let a := getline l
  let b := getline a.2
  match stoi a.1, stoi b.1 with
  | some i, some j => some (i, j)
  | _, _ => none

/-- `Mvv.resize(n, std::vector<matrix_t>(k))`: rows that are there stay as they are, atom_diag.cpp:228. -/
def resize (n k : Nat) (old : List (List (Option M))) : List (List (Option M)) :=
  old.take n ++ List.replicate (n - old.length) (List.replicate k none)

/-- `Mvv[i][j] = m`; `none`: outside of the vectors, undefined behaviour -/
def setAt (A : List (List (Option M))) (i j : Nat) (m : M) : Option (List (List (Option M))) :=
  match A[i]? with
  | some r => if j < r.length then some (A.set i (r.set j (some m))) else none
  | none => none

/-- the loop over the names of the data sets, atom_diag.cpp:230-237; `none`: an exception or undefined behaviour -/
def readLoop : List (List Char × M) → List (List (Option M)) → Option (List (List (Option M)))
  | [], A => some A
  | (s, m) :: ds, A => match parse s with
    | some (i, j) => match setAt A i j m with
      | some A' => readLoop ds A'
      | none => none
    | none => none

/-- `fill_first_eigenstate_of_subspace`, atom_diag.cpp:71-77, with `n_subspaces` and `get_subspace_dim`, atom_diag.hpp:173 and 179 -/
def firstFrom : Nat → List (List X × X) → List Nat
  | _, [] => []
  | n, e :: es => n :: firstFrom (n + e.1.length) es

/-- `h5_write`, atom_diag.cpp:185-212 -/
def write (a : AD X M) : Arch X M :=
  [("fops", .x a.fops), ("h_atomic", .x a.h), ("full_hs", .x a.fullHs), ("sub_hilbert_spaces", .subs (a.subs.map Sub.write)), ("eigensystems", .eig a.eig),
    ("creation_connection", .conn a.creation), ("annihilation_connection", .conn a.annihilation), ("c_matrices", .group (writeSparse 0 a.c)),
    ("cdag_matrices", .group (writeSparse 0 a.cdag)), ("gs_energy", .x a.gs), ("vacuum_subspace_index", .x a.vacIndex), ("vacuum", .x a.vacuum),
    ("quantum_numbers", .x a.qn)]

def getX (ar : Arch X M) (n : String) : Option X := match ar.lookup n with
  | some (.x v) => some v
  | _ => none

def getSubs (ar : Arch X M) (n : String) : Option (List (Int × List Nat)) := match ar.lookup n with
  | some (.subs v) => some v
  | _ => none

def getEig (ar : Arch X M) (n : String) : Option (List (List X × X)) := match ar.lookup n with
  | some (.eig v) => some v
  | _ => none

def getConn (ar : Arch X M) (n : String) : Option (Conn X) := match ar.lookup n with
  | some (.conn v) => some v
  | _ => none

def getGroup (ar : Arch X M) (n : String) : Option (List (List Char × M)) := match ar.lookup n with
  | some (.group v) => some v
  | _ => none

/-- `h5_read` into the object `o`, atom_diag.cpp:215-248. `order` is the order in which HDF5 gives the names of the data sets of a group. -/
def read (order : List (List Char × M) → List (List Char × M)) (ar : Arch X M) (o : AD X M) : Option (AD X M) :=
  match getX ar "fops", getX ar "full_hs", getSubs ar "sub_hilbert_spaces", getEig ar "eigensystems", getConn ar "creation_connection",
      getConn ar "annihilation_connection", getGroup ar "c_matrices", getGroup ar "cdag_matrices", getX ar "gs_energy",
      getX ar "vacuum_subspace_index", getX ar "vacuum" with
  | some fops, some fullHs, some subs, some eig, some cr, some an, some c, some cdag, some gs, some vi, some v =>
    match readLoop (order c) (resize cr.rows cr.cols o.c), readLoop (order cdag) (resize cr.rows cr.cols o.cdag) with
    | some c, some cdag => some
        { h := (getX ar "h_atomic").getD o.h, fops, fullHs, subs := subs.map Sub.read, eig, creation := cr, annihilation := an, cdag, c, gs,
          vacIndex := vi, vacuum := v, qn := (getX ar "quantum_numbers").getD o.qn, first := firstFrom 0 eig }
    | _, _ => none
  | _, _, _, _, _, _, _, _, _, _, _ => none

/-! ## Specification -/

/-- `A[i][j]`; empty outside -/
def ent (A : List (List (Option M))) (i j : Nat) : Option M := (A.getD i []).getD j none

/-- `n` rows of `k` matrices -/
def Shape (A : List (List (Option M))) (n k : Nat) : Prop := A.length = n ∧ ∀ r ∈ A, r.length = k

/-- a subspace with these states, added one after the other -/
def Sub.of (i : Int) (l : List Nat) : Sub := l.foldl Sub.add (Sub.new i)

/-- what the constructors of `atom_diag` guarantee: a matrix (or an empty one) for each operator and subspace, subspaces made of different Fock states,
positions of the first states (worker.cpp:340-370, atom_diag.cpp:37-67) -/
structure Good (a : AD X M) : Prop where
  c : Shape a.c a.creation.rows a.creation.cols
  cdag : Shape a.cdag a.creation.rows a.creation.cols
  subs : ∀ s ∈ a.subs, ∃ i l, l.Nodup ∧ s = Sub.of i l
  first : a.first = firstFrom 0 a.eig

/-! ## Proofs -/

theorem lookup_append (m m' : List (Nat × Nat)) (f : Nat) : (m ++ m').lookup f = (m.lookup f).or (m'.lookup f) := by
  induction m with
  | nil => simp
  | cons x m ih =>
    obtain ⟨a, b⟩ := x
    by_cases h : f = a
    · subst h; simp [List.lookup]
    · have : (f == a) = false := by simpa using h
      simp [List.lookup, this, ih]

theorem lookup_new (m : List (Nat × Nat)) (f : Nat) (h : f ∉ m.map Prod.fst) : m.lookup f = none := by
  induction m with
  | nil => rfl
  | cons x m ih =>
    obtain ⟨a, b⟩ := x
    simp only [List.map_cons, List.mem_cons, not_or] at h
    have : (f == a) = false := by simpa using h.1
    simp [List.lookup, this, ih h.2]

/-- different states: both maps are the states with their positions -/
theorem pos_of (l : List Nat) : ∀ (s : Sub) (_ : (s.states ++ l).Nodup) (_ : s.pos.map Prod.fst = s.states),
    (l.foldl Sub.add s).index = s.index ∧ (l.foldl Sub.add s).states = s.states ++ l ∧
    (l.foldl Sub.add s).pos = l.foldl (fun m f => mapInsert m f m.length) s.pos := by
  induction l with
  | nil => intro s _ _; simp
  | cons f l ih =>
    intro s hn hp
    have hf : f ∉ s.states := by
      intro hf
      have := List.nodup_append.1 hn
      exact this.2.2 f hf f (by simp) rfl
    have hl : s.pos.length = s.states.length := by rw [← hp, List.length_map]
    have hadd : (s.add f).pos = mapInsert s.pos f s.pos.length := by rw [hl]; rfl
    have hpos : (s.add f).pos.map Prod.fst = (s.add f).states := by
      simp [Sub.add, mapInsert, look, lookup_new _ _ (hp ▸ hf), hp]
    have := ih (s.add f) (by simpa [Sub.add] using hn) hpos
    simp only [List.foldl_cons]
    rw [this.1, this.2.1, this.2.2, hadd]
    simp [Sub.add]

theorem sub_back (i : Int) (l : List Nat) (h : l.Nodup) : Sub.read (Sub.of i l).write = Sub.of i l := by
  have := pos_of l (Sub.new i) (by simpa [Sub.new] using h) rfl
  have h3 : Sub.of i l = ⟨i, l, l.foldl (fun m f => mapInsert m f m.length) []⟩ := by
    cases hs : Sub.of i l
    simp only [Sub.of] at hs
    rw [hs] at this
    simpa [Sub.new] using this
  rw [h3]; rfl

/-- A subspace with different Fock states is read back as it was, with the same position for each state; the positions are those in the list. -/
theorem C168_subspace (i : Int) (l : List Nat) (h : l.Nodup) :
    Sub.read (Sub.of i l).write = Sub.of i l ∧ (Sub.of i l).index = i ∧ (Sub.of i l).states = l ∧
      (∀ (k : Nat) (hk : k < l.length), look (Sub.of i l).pos l[k] = some k) ∧ ∀ f ∉ l, look (Sub.of i l).pos f = none := by
  have h0 := pos_of l (Sub.new i) (by simpa [Sub.new] using h) rfl
  have key : ∀ (l : List Nat) (m : List (Nat × Nat)), (m.map Prod.fst ++ l).Nodup →
      (l.foldl (fun m f => mapInsert m f m.length) m).map Prod.fst = m.map Prod.fst ++ l ∧
        (∀ f, f ∈ m.map Prod.fst → look (l.foldl (fun m f => mapInsert m f m.length) m) f = look m f) ∧
        ∀ (k : Nat) (hk : k < l.length), look (l.foldl (fun m f => mapInsert m f m.length) m) l[k] = some (m.length + k) := by
    intro l
    induction l with
    | nil => intro m _; simp
    | cons f l ih =>
      intro m hn
      have hf : f ∉ m.map Prod.fst := by
        intro hf
        exact (List.nodup_append.1 hn).2.2 f hf f (by simp) rfl
      have hm : mapInsert m f m.length = m ++ [(f, m.length)] := by simp [mapInsert, look, lookup_new _ _ hf]
      have hn' : ((m ++ [(f, m.length)]).map Prod.fst ++ l).Nodup := by simpa using hn
      obtain ⟨h1, h2, h3⟩ := ih _ hn'
      simp only [List.foldl_cons, hm]
      refine ⟨by rw [h1]; simp, ?_, ?_⟩
      · intro g hg
        rw [h2 g (by simp only [List.map_append, List.mem_append]; exact Or.inl hg), look, look, lookup_append]
        have : m.lookup g ≠ none := by
          obtain ⟨x, hx, rfl⟩ := List.mem_map.1 hg
          intro hc
          rw [List.lookup_eq_none_iff] at hc
          have := hc x hx
          simp at this
        cases hx : m.lookup g with
        | none => exact absurd hx this
        | some v => simp
      · intro k hk
        cases k with
        | zero =>
          rw [List.getElem_cons_zero, h2 f (by simp), look, lookup_append, lookup_new _ _ hf]
          simp [List.lookup]
        | succ k =>
          rw [List.getElem_cons_succ, h3 k (by simpa using hk)]
          simp; omega
  obtain ⟨h1, -, h3⟩ := key l [] (by simpa using h)
  refine ⟨sub_back i l h, h0.1, by rw [Sub.of, h0.2.1]; rfl, ?_, ?_⟩
  · intro k hk
    rw [Sub.of, h0.2.2]
    have := h3 k hk
    simpa [Sub.new] using this
  · intro f hf
    rw [Sub.of, h0.2.2, look]
    apply lookup_new
    have h1' : (l.foldl (fun m f => mapInsert m f m.length) (Sub.new i).pos).map Prod.fst = l := by simpa [Sub.new] using h1
    rw [h1']; exact hf

theorem toString_digits (n : Nat) : (toString n).toList = Nat.toDigits 10 n := Nat.toList_repr

theorem digit_of (n : Nat) (c : Char) (h : c ∈ (toString n).toList) : c.isDigit = true := by
  rw [toString_digits] at h
  exact Nat.isDigit_of_mem_toDigits (by decide) (by decide) h

theorem ne_blank (n : Nat) (c : Char) (h : c ∈ (toString n).toList) : c ≠ ' ' := by
  rintro rfl; have := digit_of n _ h; revert this; decide

theorem stoi_toString (n : Nat) : stoi (toString n).toList = some n := by
  have h1 : (toString n).toList.takeWhile Char.isDigit = (toString n).toList := List.takeWhile_eq_self_iff.2 fun c hc => digit_of n c hc
  have h2 : (toString n).toList ≠ [] := by rw [toString_digits]; simp
  rw [stoi, h1]
  simp only [h2, if_false]
  rw [toString_digits, Nat.ofDigitChars_ten_toDigits]

theorem parse_dsName (i j : Nat) : parse (dsName i j) = some (i, j) := by
  have h1 : getline (dsName i j) = ((toString i).toList, (toString j).toList) := by
    rw [getline, dsName, List.takeWhile_append_of_pos (fun c hc => by simpa using ne_blank i c hc),
      List.dropWhile_append_of_pos (fun c hc => by simpa using ne_blank i c hc)]
    simp
  have h2 : (getline (toString j).toList).1 = (toString j).toList := List.takeWhile_eq_self_iff.2 fun c hc => by simpa using ne_blank j c hc
  rw [parse, h1]
  simp only [h2, stoi_toString]

theorem mem_writeRow (i : Nat) (r : List (Option M)) : ∀ (j : Nat) (s : List Char) (m : M),
    (s, m) ∈ writeRow i j r ↔ ∃ k, r.getD k none = some m ∧ s = dsName i (j + k) := by
  induction r with
  | nil => intro j s m; simp [writeRow]
  | cons x r ih =>
    intro j s m
    have shift : (∃ k, r.getD k none = some m ∧ s = dsName i (j + 1 + k)) ↔ ∃ k, (x :: r).getD (k + 1) none = some m ∧ s = dsName i (j + (k + 1)) := by
      constructor <;> rintro ⟨k, h1, h2⟩ <;> exact ⟨k, by simpa using h1, by rw [h2]; congr 1; omega⟩
    cases x with
    | none =>
      rw [writeRow, ih, shift]
      constructor
      · rintro ⟨k, h⟩; exact ⟨k + 1, h⟩
      · rintro ⟨k, h1, h2⟩
        cases k with
        | zero => simp at h1
        | succ k => exact ⟨k, h1, h2⟩
    | some v =>
      rw [writeRow, List.mem_cons, ih, shift]
      constructor
      · rintro (h | ⟨k, h⟩)
        · cases h; exact ⟨0, by simp, rfl⟩
        · exact ⟨k + 1, h⟩
      · rintro ⟨k, h1, h2⟩
        cases k with
        | zero => left; simp at h1; rw [h2, h1]; rfl
        | succ k => right; exact ⟨k, h1, h2⟩

theorem mem_writeSparse (A : List (List (Option M))) : ∀ (i : Nat) (s : List Char) (m : M),
    (s, m) ∈ writeSparse i A ↔ ∃ k j, ent A k j = some m ∧ s = dsName (i + k) j := by
  induction A with
  | nil => intro i s m; simp [writeSparse, ent]
  | cons r A ih =>
    intro i s m
    rw [writeSparse, List.mem_append, mem_writeRow, ih]
    constructor
    · rintro (⟨k, h1, h2⟩ | ⟨k, j, h1, h2⟩)
      · exact ⟨0, k, by simpa [ent] using h1, by simpa using h2⟩
      · exact ⟨k + 1, j, by simpa [ent] using h1, by rw [h2]; congr 1; omega⟩
    · rintro ⟨k, j, h1, h2⟩
      cases k with
      | zero => left; exact ⟨j, by simpa [ent] using h1, by simpa using h2⟩
      | succ k => right; exact ⟨k, j, by simpa [ent] using h1, by rw [h2]; congr 1; omega⟩

theorem ent_bounds (A : List (List (Option M))) (n k i j : Nat) (m : M) (hA : Shape A n k) (h : ent A i j = some m) : i < n ∧ j < k := by
  have hi : i < A.length := by
    by_contra hc
    rw [ent, List.getD_eq_default A _ (by omega)] at h
    simp at h
  have hj : j < (A.getD i []).length := by
    by_contra hc
    rw [ent, List.getD_eq_default _ _ (by omega)] at h
    simp at h
  rw [List.getD_eq_getElem _ _ hi, hA.2 _ (List.getElem_mem hi)] at hj
  exact ⟨hA.1 ▸ hi, hj⟩

theorem setAt_ok (A : List (List (Option M))) (n k i j : Nat) (m : M) (hA : Shape A n k) (hi : i < n) (hj : j < k) :
    ∃ B, setAt A i j m = some B ∧ Shape B n k ∧ ∀ i' j', ent B i' j' = if i' = i ∧ j' = j then some m else ent A i' j' := by
  have hi' : i < A.length := hA.1 ▸ hi
  have hr : (A[i]).length = k := hA.2 _ (List.getElem_mem hi')
  refine ⟨A.set i ((A[i]).set j (some m)), ?_, ⟨by simpa using hA.1, ?_⟩, ?_⟩
  · simp [setAt, List.getElem?_eq_getElem hi', hr, hj]
  · intro r hr'
    rcases List.mem_or_eq_of_mem_set hr' with h | h
    · exact hA.2 r h
    · rw [h]; simpa using hr
  · intro i' j'
    by_cases h1 : i' = i
    · subst h1
      have e1 : (A.set i' ((A[i']).set j (some m))).getD i' [] = (A[i']).set j (some m) := by
        rw [List.getD_eq_getElem _ _ (by simpa using hi')]; simp
      have e2 : A.getD i' [] = A[i'] := List.getD_eq_getElem _ _ hi'
      rw [ent, ent, e1, e2]
      by_cases h2 : j' = j
      · subst h2
        rw [List.getD_eq_getElem _ _ (by simpa [hr] using hj)]
        simp
      · simp [List.getD_eq_getElem?_getD, List.getElem?_set_ne (Ne.symm h2), h2]
    · have : (A.set i ((A[i]).set j (some m))).getD i' [] = A.getD i' [] := by
        simp [List.getD_eq_getElem?_getD, List.getElem?_set_ne (Ne.symm h1)]
      rw [ent, ent, this]; simp [h1]

open Classical in
theorem readLoop_ok (W : List (List (Option M))) (n k : Nat) (hW : Shape W n k) (ds : List (List Char × M)) :
    ∀ (A : List (List (Option M))), Shape A n k → (∀ x ∈ ds, x ∈ writeSparse 0 W) →
      ∃ B, readLoop ds A = some B ∧ Shape B n k ∧
        ∀ i j, ent B i j = if (∃ m, (dsName i j, m) ∈ ds) then ent W i j else ent A i j := by
  induction ds with
  | nil => intro A hA _; exact ⟨A, rfl, hA, by simp⟩
  | cons x ds ih =>
    intro A hA hds
    obtain ⟨s, m⟩ := x
    obtain ⟨i, j, hm, hs⟩ := (mem_writeSparse W 0 s m).1 (hds _ (by simp))
    rw [Nat.zero_add] at hs
    subst hs
    obtain ⟨hi, hj⟩ := ent_bounds W n k i j m hW hm
    obtain ⟨A', h1, h2, h3⟩ := setAt_ok A n k i j m hA hi hj
    obtain ⟨B, hB1, hB2, hB3⟩ := ih A' h2 fun y hy => hds y (List.mem_cons_of_mem _ hy)
    refine ⟨B, by rw [readLoop, parse_dsName]; simp only [h1]; exact hB1, hB2, ?_⟩
    intro i' j'
    rw [hB3, h3]
    by_cases hc : ∃ m', (dsName i' j', m') ∈ ds
    · rw [if_pos hc, if_pos (by obtain ⟨m', hm'⟩ := hc; exact ⟨m', List.mem_cons_of_mem _ hm'⟩)]
    · rw [if_neg hc]
      by_cases he : i' = i ∧ j' = j
      · obtain ⟨rfl, rfl⟩ := he
        rw [if_pos ⟨rfl, rfl⟩, if_pos ⟨m, by simp⟩, hm]
      · rw [if_neg he, if_neg]
        rintro ⟨m', hm'⟩
        rcases List.mem_cons.1 hm' with h | h
        · have := congrArg parse (Prod.mk.inj h).1
          rw [parse_dsName, parse_dsName] at this
          exact he (by simpa using this)
        · exact hc ⟨m', h⟩

/-- the matrices after reading: those that were written, and where the written ones were empty, those before -/
theorem sparse_read (W A : List (List (Option M))) (n k : Nat) (hW : Shape W n k) (hA : Shape A n k) (ds : List (List Char × M))
    (hds : ds.Perm (writeSparse 0 W)) :
    ∃ B, readLoop ds A = some B ∧ Shape B n k ∧ ∀ i j, ent B i j = (ent W i j).or (ent A i j) := by
  obtain ⟨B, h1, h2, h3⟩ := readLoop_ok W n k hW ds A hA fun x hx => hds.mem_iff.1 hx
  refine ⟨B, h1, h2, fun i j => ?_⟩
  rw [h3]
  have : (∃ m, (dsName i j, m) ∈ ds) ↔ ∃ m, ent W i j = some m := by
    constructor
    · rintro ⟨m, hm⟩
      obtain ⟨i', j', he, hn⟩ := (mem_writeSparse W 0 _ m).1 (hds.mem_iff.1 hm)
      have := congrArg parse hn
      rw [parse_dsName, parse_dsName] at this
      simp only [Nat.zero_add, Option.some.injEq, Prod.mk.injEq] at this
      exact ⟨m, by rw [this.1, this.2]; exact he⟩
    · rintro ⟨m, hm⟩
      exact ⟨m, hds.mem_iff.2 ((mem_writeSparse W 0 _ m).2 ⟨i, j, hm, by simp⟩)⟩
  cases hx : ent W i j with
  | none => rw [if_neg (by rw [this, hx]; simp)]; rfl
  | some m => rw [if_pos (this.2 ⟨m, hx⟩)]; rfl

theorem ext_ent (A B : List (List (Option M))) (n k : Nat) (hA : Shape A n k) (hB : Shape B n k) (h : ∀ i j, ent A i j = ent B i j) : A = B := by
  apply List.ext_getElem (hA.1.trans hB.1.symm)
  intro i h1 h2
  have l1 : (A[i]).length = k := hA.2 _ (List.getElem_mem h1)
  have l2 : (B[i]).length = k := hB.2 _ (List.getElem_mem h2)
  apply List.ext_getElem (l1.trans l2.symm)
  intro j h3 h4
  have := h i j
  rw [ent, ent, List.getD_eq_getElem A [] h1, List.getD_eq_getElem B [] h2, List.getD_eq_getElem _ _ h3, List.getD_eq_getElem _ _ h4] at this
  exact this

theorem resize_shape (n k : Nat) (old : List (List (Option M))) (h : ∀ r ∈ old.take n, r.length = k) : Shape (resize n k old) n k := by
  constructor
  · simp [resize]; omega
  · intro r hr
    rcases List.mem_append.1 hr with h1 | h1
    · exact h r h1
    · rw [List.eq_of_mem_replicate h1]; simp

theorem ent_empty (n k i j : Nat) : ent (resize n k ([] : List (List (Option M)))) i j = none := by
  simp only [resize, List.take_nil, List.nil_append, List.length_nil, Nat.sub_zero, ent]
  by_cases h : i < n
  · rw [List.getD_eq_getElem (List.replicate n (List.replicate k none)) [] (by simpa using h), List.getElem_replicate]
    by_cases hj : j < k
    · rw [List.getD_eq_getElem _ _ (by simpa using hj), List.getElem_replicate]
    · rw [List.getD_eq_default _ _ (by simpa using hj)]
  · rw [List.getD_eq_default (List.replicate n (List.replicate k none)) [] (by simpa using h)]; simp

/-- what is read: everything but the matrices as it was written, if reading the matrices works -/
theorem read_eq (order : List (List Char × M) → List (List Char × M)) (a o : AD X M) (hg : Good a) (c cdag : List (List (Option M)))
    (hc : readLoop (order (writeSparse 0 a.c)) (resize a.creation.rows a.creation.cols o.c) = some c)
    (hd : readLoop (order (writeSparse 0 a.cdag)) (resize a.creation.rows a.creation.cols o.cdag) = some cdag) :
    read order (write a) o = some { a with c := c, cdag := cdag } := by
  have hs : (a.subs.map Sub.write).map Sub.read = a.subs := by
    rw [List.map_map]
    conv_rhs => rw [← List.map_id a.subs]
    apply List.map_congr_left
    intro s hs
    obtain ⟨i, l, hl, rfl⟩ := hg.subs s hs
    exact sub_back i l hl
  simp only [read, write, getX, getSubs, getEig, getConn, getGroup, List.lookup, String.reduceBEq]
  simp only [hc, hd, hs, hg.first, Option.getD_some]

/-- An atom read into a new object is what was written, with every matrix and the position of each Fock state. -/
theorem C168_back (order : List (List Char × M) → List (List Char × M)) (horder : ∀ l, (order l).Perm l) (a o : AD X M) (hg : Good a)
    (hc : o.c = []) (hd : o.cdag = []) : read order (write a) o = some a := by
  have main : ∀ W : List (List (Option M)), Shape W a.creation.rows a.creation.cols →
      readLoop (order (writeSparse 0 W)) (resize a.creation.rows a.creation.cols []) = some W := by
    intro W hW
    obtain ⟨B, h1, h2, h3⟩ := sparse_read W _ _ _ hW (resize_shape _ _ [] (by simp)) _ (horder _)
    rw [h1, ext_ent B W _ _ h2 hW fun i j => by rw [h3, ent_empty]; simp]
  rw [read_eq order a o hg a.c a.cdag (by rw [hc]; exact main _ hg.c) (by rw [hd]; exact main _ hg.cdag)]

theorem ent_resize (n k : Nat) (old : List (List (Option M))) (i j : Nat) (h : i < n) : ent (resize n k old) i j = ent old i j := by
  by_cases hi : i < old.length
  · have : (resize n k old).getD i [] = old.getD i [] := by
      rw [List.getD_eq_getElem old [] hi, List.getD_eq_getElem (resize n k old) [] (by simp [resize]; omega)]
      simp only [resize]
      rw [List.getElem_append_left (by simp; omega), List.getElem_take]
    rw [ent, ent, this]
  · have : (resize n k old).getD i [] = List.replicate k none := by
      rw [List.getD_eq_getElem (resize n k old) [] (by simp [resize]; omega)]
      simp only [resize]
      rw [List.getElem_append_right (by simp; omega), List.getElem_replicate]
    rw [ent, ent, this, List.getD_eq_default old [] (by omega)]
    by_cases hj : j < k
    · rw [List.getD_eq_getElem (List.replicate k none) _ (by simpa using hj), List.getElem_replicate]; rfl
    · rw [List.getD_eq_default (List.replicate k none) _ (by simpa using hj)]; rfl

/-- An atom read into an object that has the same number of subspaces: everything is as written but the matrices that were empty, which are those
that the object had before. All others are those written. -/
theorem C168_over (order : List (List Char × M) → List (List Char × M)) (horder : ∀ l, (order l).Perm l) (a o : AD X M) (hg : Good a)
    (hc : ∀ r ∈ o.c, r.length = a.creation.cols) (hd : ∀ r ∈ o.cdag, r.length = a.creation.cols) :
    ∃ c cdag, read order (write a) o = some { a with c := c, cdag := cdag } ∧
      (∀ i < a.creation.rows, ∀ j, ent c i j = (ent a.c i j).or (ent o.c i j)) ∧
      ∀ i < a.creation.rows, ∀ j, ent cdag i j = (ent a.cdag i j).or (ent o.cdag i j) := by
  obtain ⟨c, h1, -, h3⟩ := sparse_read a.c _ _ _ hg.c (resize_shape a.creation.rows a.creation.cols o.c
    fun r hr => hc r (List.mem_of_mem_take hr)) _ (horder _)
  obtain ⟨d, g1, -, g3⟩ := sparse_read a.cdag _ _ _ hg.cdag (resize_shape a.creation.rows a.creation.cols o.cdag
    fun r hr => hd r (List.mem_of_mem_take hr)) _ (horder _)
  exact ⟨c, d, read_eq order a o hg c d h1 g1, fun i hi j => by rw [h3, ent_resize _ _ _ _ _ hi], fun i hi j => by rw [g3, ent_resize _ _ _ _ _ hi]⟩

/-! ### Examples -/

/-- one operator, two subspaces `{0}`, `{1}` of Fock states, as in the atom `c`, `c†` with one state -/
def a₀ : AD Nat Nat where
  h := 1
  fops := 2
  fullHs := 3
  subs := [Sub.of 0 [0], Sub.of 1 [1]]
  eig := [([0], 1), ([5], 1)]
  creation := ⟨1, 2, 10⟩
  annihilation := ⟨1, 2, 11⟩
  cdag := [[some 7, none]]
  c := [[none, some 8]]
  gs := 4
  vacIndex := 0
  vacuum := 6
  qn := 9
  first := [0, 1]

/-- a new object -/
def new₀ : AD Nat Nat := ⟨0, 0, 0, [], [], ⟨0, 0, 0⟩, ⟨0, 0, 0⟩, [], [], 0, 0, 0, 0, []⟩

example : Good a₀ := by
  refine ⟨by simp [Shape, a₀], by simp [Shape, a₀], ?_, rfl⟩
  intro s hs
  simp only [a₀, List.mem_cons, List.not_mem_nil, or_false] at hs
  rcases hs with rfl | rfl
  · exact ⟨0, [0], by simp, rfl⟩
  · exact ⟨1, [1], by simp, rfl⟩

example : read id (write a₀) new₀ = some a₀ := by decide +kernel
example : dsName 12 3 = "12 3".toList ∧ parse "12 3".toList = some (12, 3) := by decide +kernel
example : (Sub.of 3 [6, 5, 3]).pos = [(6, 0), (5, 1), (3, 2)] := by decide +kernel

/-- Read into an object that was used before, with the same numbers of operators and subspaces, the atom keeps matrices of the object: here the matrix of
`c` from a subspace which `c` does not connect to another one. -/
theorem C168_kept : ∃ o : AD Nat Nat, Good o ∧ (read id (write a₀) o).map AD.c = some [[some 99, some 8]] ∧ a₀.c = [[none, some 8]] := by
  refine ⟨{ a₀ with c := [[some 99, some 98]] }, ⟨by simp [Shape, a₀], by simp [Shape, a₀], ?_, rfl⟩, by decide +kernel, rfl⟩
  intro s hs
  simp only [a₀, List.mem_cons, List.not_mem_nil, or_false] at hs
  rcases hs with rfl | rfl
  · exact ⟨0, [0], by simp, rfl⟩
  · exact ⟨1, [1], by simp, rfl⟩

/-- Read into an object with the same number of operators and fewer subspaces the code writes outside of a vector. -/
theorem C168_undefined : ∃ o : AD Nat Nat, Shape o.c 1 1 ∧ Shape o.cdag 1 1 ∧ read id (write a₀) o = none :=
  ⟨{ new₀ with c := [[none]], cdag := [[none]] }, by simp [Shape], by simp [Shape], by decide +kernel⟩

/-- A subspace to which a Fock state was added twice has other positions after reading. -/
theorem C168_twice : look (Sub.of 0 [5, 5, 7]).pos 7 = some 2 ∧ look (Sub.read (Sub.of 0 [5, 5, 7]).write).pos 7 = some 1 := by decide +kernel

end Verif.AtomDiag.AdArchive
