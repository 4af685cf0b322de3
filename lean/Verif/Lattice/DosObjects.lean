import Mathlib.Algebra.Field.Basic
import Mathlib.Algebra.CharZero.Defs
import Mathlib.Data.Rat.Defs
import Mathlib.Algebra.Order.Field.Rat
import Mathlib.Data.List.GetD
import Mathlib.Tactic.FieldSimp
import Mathlib.Tactic.Ring
import Mathlib.Tactic.Linarith
import Mathlib.Tactic.IntervalCases
import Mathlib.Tactic.ByContra

/-!
# Property C173: densities of states: construction, copies, pickles and files

Source: `/repo/python/triqs/dos/dos.py` (41-88 and 108-190).

Simplifications: numbers are elements of a field. An argument of the constructor is a one-dimensional array or something else (`other`).
Strings of a file are split at white space; `numpy.fromfile(.., sep = ' ')` reads all numbers up to the first string which is none (and warns).
Python runs without `-O`.
-/

namespace Verif.DosObjects

/-! ## Model -/

variable {K : Type} [Field K]

/-- what can be turned into a numpy array: a one-dimensional one or another one, or what cannot -/
inductive Input (K : Type) where
  | oneDim (l : List K)
  | other

/-- the exceptions -/
inductive Err where
  | runtime | assertion | zeroDivision | value | type
deriving DecidableEq

/-- an object of the class `DOS` -/
structure Dos (K : Type) where
  eps : List K
  rho : List K
  name : String
deriving DecidableEq

/-- `DOS.__init__`, dos.py:53-64; `numpy.array` copies -/
def new (eps rho : Input K) (name : String) : Except Err (Dos K) := match eps, rho with
  | .other, _ => .error .runtime
  | .oneDim _, .other => .error .runtime
  | .oneDim e, .oneDim r => if e.length = r.length then .ok ⟨e, r, name⟩ else .error .assertion

/-- `pickle.loads(pickle.dumps(d))`, dos.py:69-70 -/
def pickle (d : Dos K) : Except Err (Dos K) := new (.oneDim d.eps) (.oneDim d.rho) d.name

/-- writing to an archive under the name `key` and reading, dos.py:72-77: the name of the object is not stored -/
def archive (key : String) (d : Dos K) : Except Err (Dos K) := new (.oneDim d.eps) (.oneDim d.rho) key

/-- `copy`, dos.py:84-85 -/
def copy (d : Dos K) : Except Err (Dos K) := new (.oneDim d.eps) (.oneDim d.rho) d.name

/-- the result of a call of the function: an exception, a number or an array with this number of elements -/
inductive Value (K : Type) where
  | raises
  | number (x : K)
  | array (n : ℕ)

/-- an object of the class `DOSFromFunction` -/
structure FDos (K : Type) where
  dos : Dos K
  f : K → Value K
  xmin : K
  xmax : K

/-- `numpy.array([function(e) for e in eps])`, dos.py:182: arrays of the same size make a matrix, numbers and arrays together make nothing -/
def values (f : K → Value K) (l : List K) : Except Err (Input K) :=
  if l.any (fun e => f e matches .raises) then .error .value
  else
    let nums := l.filterMap fun e => match f e with | .number x => some x | _ => none
    if nums.length = l.length then .ok (.oneDim nums)
    else
      let sizes := l.filterMap fun e => match f e with | .array n => some n | _ => none
      if sizes = List.replicate l.length (sizes.headD 0) then .ok .other else .error .value

/-- `__f`, dos.py:179-182 -/
def mesh (xmin xmax : K) (n : ℤ) : Except Err (List K) :=
  if n - 1 = 0 then .error .zeroDivision
  else
    let r := (xmax - xmin) / ((n - 1 : ℤ) : K)
    .ok ((List.range n.toNat).map fun (i : ℕ) => xmin + r * (i : K))

/-- `DOSFromFunction.__init__`, dos.py:162-170; the function is called at 0.001 first, and an exception there is a `RuntimeError` -/
def newF (f : K → Value K) (xmin xmax : K) (n : ℤ) (name : String) : Except Err (FDos K) :=
  match f (1 / 1000) with
  | .raises => .error .runtime
  | _ =>
    match mesh xmin xmax n with
    | .error e => .error e
    | .ok eps =>
      match values f eps with
      | .error e => .error e
      | .ok rho =>
        match new (.oneDim eps) rho name with
        | .error e => .error e
        | .ok d => .ok ⟨d, f, xmin, xmax⟩

/-- pickling of a `DOSFromFunction`, dos.py:174-175 -/
def pickleF (d : FDos K) : Except Err (FDos K) := newF d.f d.xmin d.xmax d.dos.eps.length d.dos.name

/-- the numbers that `numpy.fromfile` finds -/
def numbers (parse : String → Option K) : List String → List K
  | [] => []
  | t :: l => match parse t with
    | none => []
    | some x => x :: numbers parse l

/-- the column `j` of the reshaped array -/
def column (r : List K) (div j : ℕ) : List K := (List.range (r.length / div)).map fun (i : ℕ) => r.getD (i * div + j) 0

/-- the result of `dos_from_file`: one or a list -/
inductive Read (K : Type) where
  | one (d : Dos K)
  | many (l : List (Dos K))
deriving DecidableEq

/-- all of a list of results or the first exception -/
def collect {α : Type} : List (Except Err α) → Except Err (List α)
  | [] => .ok []
  | .error e :: _ => .error e
  | .ok a :: l => match collect l with
    | .error e => .error e
    | .ok b => .ok (a :: b)

/-- `dos_from_file`, dos.py:127-143, of a file with these lines -/
def fromFile (parse : String → Option K) (lines : List (List String)) (name : String) (single : Option ℤ) : Except Err (Read K) :=
  match lines.find? (fun l => !l.isEmpty) with
  | none => .error .assertion
  | some first =>
    let n := first.length - 1
    if n = 0 then .error .assertion
    else
      let r := numbers parse lines.flatten
      let div := n + 1
      if r.length % div ≠ 0 then .error .assertion
      else if single.getD 0 ≠ 0 then
        let s := single.getD 0
        if 0 < s ∧ s ≤ n then
          match new (.oneDim (column r div 0)) (.oneDim (column r div s.toNat)) name with
          | .error e => .error e
          | .ok d => .ok (.one d)
        else .error .assertion
      else match collect ((List.range n).map fun (i : ℕ) => new (.oneDim (column r div 0)) (.oneDim (column r div (i + 1))) name) with
        | .error e => .error e
        | .ok l => .ok (.many l)

/-! ## Specification -/

/-- the numbers in the column `j` of the lines that are not blank -/
def lineColumn (parse : String → Option K) (lines : List (List String)) (j : ℕ) : List K :=
  (lines.filter fun l => !l.isEmpty).map fun l => (parse (l.getD j "")).getD 0

/-! ## Proofs -/

/-- **C173, construction**: succeeds exactly for two one-dimensional arrays of the same length, which are the energies and the values. -/
theorem C173_construct (eps rho : Input K) (name : String) (d : Dos K) :
    new eps rho name = .ok d ↔ ∃ e r, eps = .oneDim e ∧ rho = .oneDim r ∧ e.length = r.length ∧ d = ⟨e, r, name⟩ := by
  cases eps <;> cases rho <;> simp [new]
  split
  · rename_i h; simp [h, eq_comm]
  · rename_i h; simp [h]

/-- **C173, copies and pickles** of anything that was constructed are equal to it; from an archive it comes back with the name of the entry instead of its
own. -/
theorem C173_copies (eps rho : Input K) (name key : String) (d : Dos K) (h : new eps rho name = .ok d) :
    copy d = .ok d ∧ pickle d = .ok d ∧ archive key d = .ok { d with name := key } := by
  obtain ⟨e, r, _, _, hl, rfl⟩ := (C173_construct eps rho name d).1 h
  simp [copy, pickle, archive, new, hl]

/-- the values of a function that is defined on all points -/
theorem values_ok (f : K → Value K) (g : K → K) : ∀ l : List K, (∀ e ∈ l, f e = .number (g e)) → values f l = .ok (.oneDim (l.map g)) := by
  intro l h
  have h1 : l.any (fun e => match f e with | .raises => true | _ => false) = false := by
    rw [← Bool.not_eq_true, List.any_eq_true]
    rintro ⟨e, he, hr⟩
    rw [h e he] at hr
    simp at hr
  have h2 : (l.filterMap fun e => match f e with | .number x => some x | _ => none) = l.map g := by
    clear h1
    induction l with
    | nil => rfl
    | cons a l ih =>
      rw [List.filterMap_cons, h a (by simp)]
      simp only [List.map_cons]
      rw [ih fun e he => h e (List.mem_cons_of_mem _ he)]
  unfold values
  rw [if_neg (by simpa using h1)]
  simp only [h2, List.length_map, if_true]

/-- **C173, from a function**: with at least two points the energies are equidistant from `x_min` to `x_max`, both included, and the values are those of
the function there, if it has numbers there as values and can be called at 0.001. -/
theorem C173_function [CharZero K] (f : K → Value K) (g : K → K) (xmin xmax : K) (n : ℕ) (hn : 2 ≤ n) (name : String) (h1 : f (1 / 1000) ≠ .raises)
    (hf : ∀ i < n, f (xmin + (xmax - xmin) / ((n - 1 : ℕ) : K) * (i : K)) = .number (g (xmin + (xmax - xmin) / ((n - 1 : ℕ) : K) * (i : K)))) :
    ∃ d, newF f xmin xmax n name = .ok d ∧ d.dos.name = name ∧ d.dos.eps.length = n ∧ d.dos.rho = d.dos.eps.map g ∧
      d.dos.eps.head? = some xmin ∧ d.dos.eps.getLast? = some xmax ∧
      (∀ i, i + 1 < n → d.dos.eps.getD (i + 1) 0 - d.dos.eps.getD i 0 = (xmax - xmin) / ((n - 1 : ℕ) : K)) ∧ pickleF d = .ok d ∧ copy d.dos = .ok d.dos := by
  obtain ⟨m, rfl⟩ : ∃ m, n = m + 2 := ⟨n - 2, by omega⟩
  have hne : (m : K) + 1 ≠ 0 := by exact_mod_cast Nat.succ_ne_zero m
  let eps : List K := (List.range (m + 2)).map fun (i : ℕ) => xmin + (xmax - xmin) / ((m : K) + 1) * (i : K)
  have hmesh : mesh xmin xmax ((m + 2 : ℕ) : ℤ) = .ok eps := by
    unfold mesh
    rw [if_neg (by push_cast; omega)]
    simp only [Int.toNat_natCast]
    push_cast
    rw [show (m : K) + 2 - 1 = (m : K) + 1 by ring]
  have hlen : eps.length = m + 2 := by simp [eps]
  have hnew : newF f xmin xmax ((m + 2 : ℕ) : ℤ) name = .ok ⟨⟨eps, eps.map g, name⟩, f, xmin, xmax⟩ := by
    have hall : ∀ e ∈ eps, f e = .number (g e) := by
      intro e he
      obtain ⟨i, hi, rfl⟩ := List.mem_map.1 he
      have := hf i (List.mem_range.1 hi)
      rw [show m + 2 - 1 = m + 1 from rfl] at this
      push_cast at this
      exact this
    unfold newF
    split
    · rename_i hr; exact absurd hr h1
    · simp only [hmesh, values_ok f g eps hall, new, List.length_map, if_true]
  refine ⟨⟨⟨eps, eps.map g, name⟩, f, xmin, xmax⟩, hnew, rfl, hlen, rfl, ?_, ?_, ?_, ?_, ?_⟩
  · simp [eps, List.range_succ_eq_map]
  · simp only [eps]
    rw [List.range_succ, List.map_append]
    simp only [List.map_cons, List.map_nil, List.getLast?_append, List.getLast?_singleton, Option.some_or, Option.some.injEq]
    push_cast
    field_simp
    ring
  · intro i hi
    have e1 : eps.getD (i + 1) 0 = xmin + (xmax - xmin) / ((m : K) + 1) * ((i + 1 : ℕ) : K) := by
      rw [List.getD_eq_getElem eps 0 (by rw [hlen]; omega)]
      simp [eps]
    have e2 : eps.getD i 0 = xmin + (xmax - xmin) / ((m : K) + 1) * (i : K) := by
      rw [List.getD_eq_getElem eps 0 (by rw [hlen]; omega)]
      simp [eps]
    rw [e1, e2, show m + 2 - 1 = m + 1 from rfl]
    push_cast
    ring
  · unfold pickleF
    simp only [hlen]
    exact hnew
  · simp [copy, new]

/-- **C173, refusals** of a `DOSFromFunction`: one point only, a function which raises at 0.001 although the points lie elsewhere, and a function
with arrays as values, which the documentation asks for. -/
theorem C173_function_refusals (f : K → Value K) (xmin xmax : K) (name : String) :
    (f (1 / 1000) ≠ .raises → newF f xmin xmax 1 name = .error .zeroDivision) ∧
    (∀ n, f (1 / 1000) = .raises → newF f xmin xmax n name = .error .runtime) ∧
    (∀ n k, 2 ≤ n → (∀ x, f x = .array k) → newF f xmin xmax n name = .error .runtime) := by
  refine ⟨?_, ?_, ?_⟩
  · intro h
    unfold newF
    split
    · rename_i hr; exact absurd hr h
    · simp [mesh]
  · intro n h
    simp only [newF, h]
  · intro n k hn h
    have hm : mesh xmin xmax n = .ok ((List.range n.toNat).map fun (i : ℕ) => xmin + (xmax - xmin) / ((n - 1 : ℤ) : K) * (i : K)) := by
      unfold mesh
      rw [if_neg (by omega)]
    have hv : ∀ l : List K, l ≠ [] → values f l = .ok .other := by
      intro l hl
      have hfm : ∀ l : List K, (l.filterMap fun e => match f e with | .array n => some n | _ => none) = List.replicate l.length k := by
        intro l
        induction l with
        | nil => rfl
        | cons a l ih => simp [List.filterMap_cons, h, ih, List.replicate_succ]
      have hnum : ∀ l : List K, (l.filterMap fun e => match f e with | .number x => some x | _ => none) = [] := by
        intro l
        induction l with
        | nil => rfl
        | cons a l ih => simp [List.filterMap_cons, h, ih]
      have hany : l.any (fun e => match f e with | .raises => true | _ => false) = false := by
        rw [← Bool.not_eq_true, List.any_eq_true]
        rintro ⟨e, _, hr⟩
        rw [h e] at hr
        simp at hr
      obtain ⟨a, t, rfl⟩ := List.exists_cons_of_ne_nil hl
      unfold values
      rw [if_neg (by simpa using hany)]
      simp only [hnum, List.length_nil, List.length_cons, Nat.add_eq_zero_iff]
      rw [if_neg (by omega), hfm]
      simp [List.replicate_succ]
    have hne : ((List.range n.toNat).map fun (i : ℕ) => xmin + (xmax - xmin) / ((n - 1 : ℤ) : K) * (i : K)) ≠ [] := by
      simp; omega
    simp only [newF, h, hm, hv _ hne, new]

theorem flatten_nonblank : ∀ lines : List (List String), (lines.filter fun l => !l.isEmpty).flatten = lines.flatten := by
  intro lines
  induction lines with
  | nil => rfl
  | cons a l ih => cases a <;> simp [ih]

theorem numbers_all (parse : String → Option K) : ∀ l : List String, (∀ t ∈ l, (parse t).isSome) → numbers parse l = l.map fun t => (parse t).getD 0 := by
  intro l
  induction l with
  | nil => intro _; rfl
  | cons a l ih =>
    intro h
    obtain ⟨x, hx⟩ := Option.isSome_iff_exists.1 (h a (by simp))
    rw [numbers, hx, ih fun t ht => h t (List.mem_cons_of_mem _ ht)]
    simp [hx]

/-- elements of rows of the same length -/
theorem flatten_getD {α : Type} (d : α) (m : ℕ) : ∀ (rows : List (List α)), (∀ r ∈ rows, r.length = m) → ∀ i j, i < rows.length → j < m →
    rows.flatten.getD (i * m + j) d = (rows.getD i []).getD j d := by
  intro rows
  induction rows with
  | nil => intro _ i j hi; simp at hi
  | cons a l ih =>
    intro h i j hi hj
    have ha : a.length = m := h a (by simp)
    cases i with
    | zero =>
      simp only [Nat.zero_mul, Nat.zero_add, List.flatten_cons, List.getD_cons_zero]
      rw [List.getD_append _ _ _ _ (by omega)]
    | succ i =>
      rw [List.flatten_cons, List.getD_append_right _ _ _ _ (by rw [ha]; nlinarith)]
      rw [List.getD_cons_succ, ← ih (fun r hr => h r (List.mem_cons_of_mem _ hr)) i j (by simpa using hi) hj]
      congr 1
      rw [ha, Nat.succ_mul]
      omega

theorem flatten_length {α : Type} (m : ℕ) : ∀ (rows : List (List α)), (∀ r ∈ rows, r.length = m) → rows.flatten.length = rows.length * m := by
  intro rows
  induction rows with
  | nil => intro _; simp
  | cons a l ih =>
    intro h
    rw [List.flatten_cons, List.length_append, h a (by simp), ih fun r hr => h r (List.mem_cons_of_mem _ hr), List.length_cons, Nat.succ_mul]
    omega

/-- the columns found are those of the lines -/
theorem column_eq (parse : String → Option K) (lines : List (List String)) (m : ℕ) (hm : 0 < m) (hl : ∀ l ∈ lines, l ≠ [] → l.length = m)
    (hp : ∀ l ∈ lines, ∀ t ∈ l, (parse t).isSome) (j : ℕ) (hj : j < m) :
    column (numbers parse lines.flatten) m j = lineColumn parse lines j ∧
    (numbers parse lines.flatten).length = (lines.filter fun l => !l.isEmpty).length * m := by
  have hnum : numbers parse lines.flatten = lines.flatten.map fun t => (parse t).getD 0 :=
    numbers_all parse _ (by
      intro t ht
      obtain ⟨l, hl, ht⟩ := List.mem_flatten.1 ht
      exact hp l hl t ht)
  have hrows : ∀ r ∈ lines.filter (fun l => !l.isEmpty), r.length = m := by
    intro r hr
    rw [List.mem_filter] at hr
    exact hl r hr.1 (by intro h; rw [h] at hr; simp at hr)
  have hflat := flatten_length m _ hrows
  rw [flatten_nonblank] at hflat
  have hlen : (numbers parse lines.flatten).length = (lines.filter fun l => !l.isEmpty).length * m := by rw [hnum, List.length_map, hflat]
  refine ⟨?_, hlen⟩
  unfold column lineColumn
  rw [hlen, Nat.mul_div_cancel _ hm]
  apply List.ext_getElem (by simp)
  intro i h1 h2
  simp only [List.length_map, List.length_range] at h1
  simp only [List.getElem_map, List.getElem_range]
  have hb : i * m + j < lines.flatten.length := by
    rw [hflat]
    calc i * m + j < i * m + m := by omega
      _ = (i + 1) * m := by ring
      _ ≤ _ := Nat.mul_le_mul_right m h1
  rw [hnum, List.getD_eq_getElem _ _ (by rw [List.length_map]; exact hb)]
  simp only [List.getElem_map]
  congr 2
  have := flatten_getD "" m _ hrows i j h1 hj
  rw [flatten_nonblank, List.getD_eq_getElem _ _ hb, List.getD_eq_getElem _ [] h1] at this
  exact this

theorem collect_ok {α β : Type} (g : α → β) : ∀ l : List α, collect (l.map fun a => (.ok (g a) : Except Err β)) = .ok (l.map g) := by
  intro l
  induction l with
  | nil => rfl
  | cons a l ih => simp [collect, ih]

/-- **C173, files.** A file whose lines, apart from blank ones, have `m + 1 ≥ 2` numbers each is read as `m` densities of states with the first column as
energies, or as the one that is asked for; a number of an orbital outside `1..m` is refused, but zero counts as no choice. -/
theorem C173_file (parse : String → Option K) (lines : List (List String)) (m : ℕ) (hm : 0 < m) (hl : ∀ l ∈ lines, l ≠ [] → l.length = m + 1)
    (hp : ∀ l ∈ lines, ∀ t ∈ l, (parse t).isSome) (hne : ∃ l ∈ lines, l ≠ []) (name : String) :
    (∀ single, single = none ∨ single = some 0 → fromFile parse lines name single =
      .ok (.many ((List.range m).map fun i => ⟨lineColumn parse lines 0, lineColumn parse lines (i + 1), name⟩))) ∧
    (∀ s : ℕ, 0 < s → s ≤ m → fromFile parse lines name (some s) = .ok (.one ⟨lineColumn parse lines 0, lineColumn parse lines s, name⟩)) ∧
    (∀ s : ℤ, s < 0 ∨ (m : ℤ) < s → fromFile parse lines name (some s) = .error .assertion) := by
  obtain ⟨first, hfirst, hfm, hf0⟩ : ∃ first, lines.find? (fun l => !l.isEmpty) = some first ∧ first ∈ lines ∧ first ≠ [] := by
    obtain ⟨l, hl1, hl2⟩ := hne
    cases hfd : lines.find? (fun l => !l.isEmpty) with
    | none =>
      rw [List.find?_eq_none] at hfd
      have := hfd l hl1
      simp [hl2] at this
    | some a =>
      refine ⟨a, rfl, List.mem_of_find?_eq_some hfd, ?_⟩
      have := List.find?_some hfd
      intro h
      rw [h] at this
      simp at this
  have hlen : first.length - 1 = m := by rw [hl first hfm hf0]; rfl
  have hcol : ∀ j, j < m + 1 → column (numbers parse lines.flatten) (m + 1) j = lineColumn parse lines j :=
    fun j hj => (column_eq parse lines (m + 1) (by omega) hl hp j hj).1
  have hmod : (numbers parse lines.flatten).length % (m + 1) = 0 := by
    rw [(column_eq parse lines (m + 1) (by omega) hl hp 0 (by omega)).2]
    simp
  have hsame : ∀ i j, (lineColumn parse lines i).length = (lineColumn parse lines j).length := by simp [lineColumn]
  refine ⟨?_, ?_, ?_⟩
  · intro single hs
    have hz : single.getD 0 = 0 := by rcases hs with rfl | rfl <;> rfl
    unfold fromFile
    simp only [hfirst, hlen]
    rw [if_neg (by omega), if_neg (by simpa using hmod), if_neg (by simpa using hz)]
    have : (List.range m).map (fun (i : ℕ) => new (.oneDim (column (numbers parse lines.flatten) (m + 1) 0))
        (.oneDim (column (numbers parse lines.flatten) (m + 1) (i + 1))) name) =
        (List.range m).map fun i => .ok ⟨lineColumn parse lines 0, lineColumn parse lines (i + 1), name⟩ := by
      apply List.map_congr_left
      intro i hi
      rw [List.mem_range] at hi
      rw [hcol 0 (by omega), hcol (i + 1) (by omega)]
      simp only [new]
      rw [if_pos (hsame _ _)]
    rw [this, collect_ok]
  · intro s h0 hs
    unfold fromFile
    simp only [hfirst, hlen, Option.getD_some]
    rw [if_neg (by omega), if_neg (by simpa using hmod), if_pos (by omega), if_pos (by omega), hcol 0 (by omega), Int.toNat_natCast, hcol s (by omega)]
    simp only [new]
    rw [if_pos (hsame _ _)]
  · intro s hs
    unfold fromFile
    simp only [hfirst, hlen, Option.getD_some]
    rw [if_neg (by omega), if_neg (by simpa using hmod), if_pos (by omega), if_neg (by omega)]

/-- **C173, a file with a headline** is read without an error as densities of states with no points, as many as the headline has words less one. -/
theorem C173_headline (parse : String → Option K) (t : String) (rest : List String) (hr : rest ≠ []) (ht : parse t = none) (lines : List (List String)) (name : String) :
    fromFile parse ((t :: rest) :: lines) name none = .ok (.many (List.replicate rest.length ⟨[], [], name⟩)) := by
  have hlen : 0 < rest.length := List.length_pos_iff.2 hr
  unfold fromFile
  simp only [List.find?_cons, List.isEmpty_cons, Bool.not_false, List.length_cons, Nat.add_sub_cancel, List.flatten_cons, List.cons_append, numbers, ht,
    List.length_nil, Nat.zero_mod, ne_eq, not_true_eq_false, if_false, Option.getD_none]
  rw [if_neg (by omega)]
  have : (List.range rest.length).map (fun (i : ℕ) => new (.oneDim (column ([] : List K) (rest.length + 1) 0))
      (.oneDim (column ([] : List K) (rest.length + 1) (i + 1))) name) = (List.range rest.length).map fun _ => .ok ⟨[], [], name⟩ := by
    apply List.map_congr_left
    intro i _
    simp [column, new]
  rw [this, collect_ok]
  simp [List.map_const']

/-- **C173, empty files** and files with one column are refused. -/
theorem C173_file_refusals (parse : String → Option K) (lines : List (List String)) (name : String) (single : Option ℤ) :
    ((∀ l ∈ lines, l = []) → fromFile parse lines name single = .error .assertion) ∧
    (∀ t l, lines = [t] :: l → fromFile parse lines name single = .error .assertion) := by
  constructor
  · intro h
    have : lines.find? (fun l => !l.isEmpty) = none := by
      rw [List.find?_eq_none]
      intro l hl
      simp [h l hl]
    simp [fromFile, this]
  · rintro t l rfl
    simp [fromFile]

/-! ### Examples -/

def exParse (s : String) : Option ℚ :=
  [("0", 0), ("1", 1), ("2", 2), ("3", 3), ("4", 4), ("5", 5), ("6", 6), ("7", 7), ("8", 8)].lookup s

/-- two orbitals and a blank line -/
example : fromFile exParse [["0", "1", "2"], [], ["3", "4", "5"]] "a" none = .ok (.many [⟨[0, 3], [1, 4], "a"⟩, ⟨[0, 3], [2, 5], "a"⟩]) ∧
    fromFile exParse [["0", "1", "2"], [], ["3", "4", "5"]] "a" (some 2) = .ok (.one ⟨[0, 3], [2, 5], "a"⟩) ∧
    fromFile exParse [["0", "1", "2"], [], ["3", "4", "5"]] "a" (some 3) = .error .assertion := by
  have h := C173_file exParse [["0", "1", "2"], [], ["3", "4", "5"]] 2 (by omega) (by decide) (by decide +kernel) ⟨_, List.mem_cons_self, by decide⟩ "a"
  refine ⟨?_, ?_, h.2.2 3 (by omega)⟩
  · rw [h.1 none (Or.inl rfl)]; decide +kernel
  · rw [show (some 2 : Option ℤ) = some ((2 : ℕ) : ℤ) from rfl, h.2.1 2 (by omega) (by omega)]; decide +kernel

/-- lines of different lengths with nine numbers are read as three lines of three: 4 is a value then and 6 an energy -/
example : (match fromFile exParse [["0", "1", "2"], ["3"], ["4", "5", "6", "7", "8"]] "" (some 1) with | .ok (.one d) => d.eps == [0, 3, 6] | _ => false) = true := by
  decide +kernel

/-- a function on three points; by the theorem a function that is defined on them and at 0.001 only is enough -/
example : ∃ d, newF (fun x : ℚ => if x = -1 ∨ x = 0 ∨ x = 1 ∨ x = 1 / 1000 then .number (x * x) else .raises) (-1) 1 (3 : ℕ) "s" = .ok d ∧
    d.dos.eps.length = 3 ∧ d.dos.rho = d.dos.eps.map fun x => x * x := by
  obtain ⟨d, h1, _, h2, h3, _⟩ := C173_function (fun x : ℚ => if x = -1 ∨ x = 0 ∨ x = 1 ∨ x = 1 / 1000 then .number (x * x) else .raises) (fun x => x * x) (-1) 1 3
    (by omega) "s" (by simp) (by intro i hi; interval_cases i <;> norm_num)
  exact ⟨d, h1, h2, h3⟩


example : (match newF (fun x : ℚ => .number (x * x)) (-1) 1 3 "s" with | .ok d => d.dos.eps == [-1, 0, 1] && d.dos.rho == [1, 0, 1] | _ => false) = true := by decide +kernel

end Verif.DosObjects
