import Verif.Gfs.PyBlocks
import Mathlib.Data.List.ProdSigma
import Mathlib.Data.List.Perm.Basic
import Mathlib.Data.List.GetD
import Mathlib.Data.List.Sections
import Mathlib.Algebra.BigOperators.Group.List.Basic

/-!
# Property C147: two-index block Green functions in Python

Source: `/repo/python/triqs/gf/block2_gf.py`, `/repo/python/triqs/gf/map_block.py` (37-44) and
`/repo/python/triqs/gf/block_gf.py` (192-199).

Simplifications: as in `PyBlocks.lean`; the names given to the blocks (line 94) are not modelled, so that the heap is changed by
copies and assignments only; the blocks have one type; the dictionary of an archive keeps the names as they are.
-/

namespace Verif.PyBlock2

open Verif.PyBlocks

/-! ## Model -/

variable {α : Type}

structure Block2 where
  name : String
  ind1 : List Name
  ind2 : List Name
  rows : List (List ℕ)
deriving DecidableEq

/-- lines 56-66, for one of the two lists -/
def checkNames (l : List Name) : Bool :=
  !l.isEmpty && decide l.Nodup && l.all (fun n => n.toStr.toList.take 2 != ['_', '_']) && !l.contains (.str "block_names")

/-- the constructor from a list of lists, 76-84 -/
def make (name : String) (i1 i2 : List Name) (rows : List (List ℕ)) : Except Err Block2 :=
  if checkNames i1 && checkNames i2 && decide (rows.length = i1.length) && rows.all (fun r => decide (r.length = i2.length)) then
    .ok ⟨name, i1, i2, rows⟩
  else .error .assertion

/-- the constructor from a function of two names, 71-75 -/
def makeFun (name : String) (i1 i2 : List Name) (f : Name → Name → ℕ) : Except Err Block2 :=
  if checkNames i1 && checkNames i2 then .ok ⟨name, i1, i2, i1.map fun a => i2.map fun b => f a b⟩ else .error .assertion

/-- `__getitem__`, 215-220: `tuple.index` raises `ValueError`, which is not the `KeyError` that is caught -/
def Block2.get (B : Block2) (k : Name × Name) : Except Err ℕ :=
  if k.1 ∈ B.ind1 ∧ k.2 ∈ B.ind2 then .ok ((B.rows.getD (B.ind1.idxOf k.1) []).getD (B.ind2.idxOf k.2) 0) else .error .value

/-- `__iter__`, 124-125 -/
def Block2.iter (B : Block2) : List ((Name × Name) × ℕ) := (B.ind1.product B.ind2).zip B.rows.flatten

/-- `__len__`, 132-133 -/
def Block2.len (B : Block2) : ℕ := B.ind1.length * B.ind2.length

/-- the objects of a copy have the numbers from `fresh` on, row by row -/
def newRows (fresh w n : ℕ) : List (List ℕ) := (List.range n).map fun (i : ℕ) => newIds (fresh + i * w) w

/-- `copy`, 98-101: the name is not passed on -/
def copy (h : Heap α) (fresh : ℕ) (B : Block2) : Heap α × Except Err Block2 :=
  (copyObjs h fresh B.rows.flatten, make "" B.ind1 B.ind2 (newRows fresh B.ind2.length B.ind1.length))

/-- `view_selected_blocks`, 103-107 -/
def viewSelected (B : Block2) (s1 s2 : List Name) : Except Err Block2 :=
  if s1.all (B.ind1.contains ·) && s2.all (B.ind2.contains ·) then
    makeFun "" s1 s2 fun a b => match B.get (a, b) with | .ok j => j | .error _ => 0
  else .error .assertion

/-- `copy_from`, 115-120: by position; the message of 119 uses the undefined `i1` -/
def copyFrom (h : Heap α) (B C : Block2) : Heap α × Option Err :=
  let l := (B.iter.map Prod.snd).zip (C.iter.map Prod.snd)
  if l.all (fun p => (h p.1).shape == (h p.2).shape) then run gfCopyFrom h l else (h, some .name)

/-- what can stand on the right of `<<` -/
inductive Rhs where
  | block (C : Block2)
  | number

/-- `A[bn]`: numbers (and initialisers) have no brackets -/
def Rhs.get : Rhs → Name × Name → Except Err ℕ
  | .block C, k => C.get k
  | .number, _ => .error .type

/-- `__lshift__`, 231-240 -/
def lshift (h : Heap α) (A : Rhs) : List ((Name × Name) × ℕ) → Heap α × Option Err
  | [] => (h, none)
  | (n, i) :: l =>
    match A.get n with
    | .error e => (h, some e)
    | .ok j =>
      match gfAssign h i j with
      | (h', none) => lshift h' A l
      | (h', some e) => (h', some e)

/-- `all_indices`, 155-164, for meshes of one variable -/
def allIndices (h : Heap α) (B : Block2) : List ((Name × Name) × List ℕ) :=
  B.iter.flatMap fun p => (((h p.2).shape.drop 1).map List.range).sections.map fun i => (p.1, i)

/-- `BlockGf.all_indices`, block_gf.py:192-199: `g.indices` is the list of the ranges of the target (gf.py:224-234), and a range
is written here as its length -/
def allIndices1 (h : Heap α) (B : Block) : List (Name × ℕ × ℕ) :=
  B.iter.flatMap fun p => ((h p.2).shape.drop 1).flatMap fun x => ((h p.2).shape.drop 1).map fun y => (p.1, x, y)

/-- values of the dictionary of an archive -/
inductive DV where
  | gf (i : ℕ)
  | names (l : List Name)
deriving DecidableEq

abbrev Dict := List (String × DV)

/-- `d[k] = v` -/
def Dict.set (d : Dict) (k : String) (v : DV) : Dict :=
  if k ∈ d.map Prod.fst then d.map fun p => if p.1 = k then (k, v) else p else d ++ [(k, v)]

def Dict.get (d : Dict) (k : String) : Option DV := (d.find? fun p => p.1 == k).map Prod.snd

/-- `"%s_%s" % bn` -/
def key (k : Name × Name) : String := k.1.toStr ++ "_" ++ k.2.toStr

/-- `__reduce_to_dict__`, 187-191 -/
def toDict (B : Block2) : Dict :=
  ((B.iter.foldl (fun (d : Dict) p => d.set (key p.1) (.gf p.2)) []).set "block_names1" (.names B.ind1)).set "block_names2" (.names B.ind2)

/-- `d.pop(k)` -/
def Dict.pop (d : Dict) (k : String) : Dict := d.filter fun p => p.1 != k

/-- `__factory_from_dict__`, 193-200 -/
def ofDict (name : String) (d : Dict) : Except Err Block2 :=
  match d.get "block_names1", (d.pop "block_names1").get "block_names2" with
  | some (.names n1), some (.names n2) =>
    let d' := ((d.pop "block_names1").pop "block_names2").pop "note"
    if ((n1.product n2).map key).Perm (d'.map Prod.fst) then
      makeFun name n1 n2 fun a b => match d'.get (key (a, b)) with | some (.gf j) => j | _ => 0
    else .error .assertion
  | _, _ => .error .type

/-- `map_block` for functions that give new Green functions, map_block.py:37-42: the results have the numbers from `fresh` on -/
def mapBlock (h : Heap α) (fresh : ℕ) (f : Obj α → Obj α) (B : Block2) : Heap α × Except Err Block2 :=
  (fun k => if fresh ≤ k ∧ k < fresh + B.rows.flatten.length then f (h (B.rows.flatten.getD (k - fresh) 0)) else h k,
    make "" B.ind1 B.ind2 (newRows fresh B.ind2.length B.ind1.length))

/-! ## Specification -/

/-- as the constructor leaves it -/
structure Block2.Valid (B : Block2) : Prop where
  names1 : checkNames B.ind1 = true
  names2 : checkNames B.ind2 = true
  outer : B.rows.length = B.ind1.length
  inner : ∀ r ∈ B.rows, r.length = B.ind2.length

/-- which lists of names are accepted -/
def GoodNames (l : List Name) : Prop :=
  l ≠ [] ∧ l.Nodup ∧ (∀ n ∈ l, n.toStr.toList.take 2 ≠ ['_', '_']) ∧ Name.str "block_names" ∉ l

/-! ## Proofs -/

theorem checkNames_iff (l : List Name) : checkNames l = true ↔ GoodNames l := by
  unfold checkNames GoodNames
  simp only [Bool.and_eq_true, Bool.not_eq_true', List.isEmpty_eq_false_iff, decide_eq_true_eq, List.all_eq_true, bne_iff_ne, ne_eq,
    List.contains_eq_mem, decide_eq_false_iff_not, and_assoc]

/-- what the constructor accepts, and that it keeps names and blocks -/
theorem C147_accepts (name : String) (i1 i2 : List Name) (rows : List (List ℕ)) (B : Block2) :
    make name i1 i2 rows = .ok B ↔ (GoodNames i1 ∧ GoodNames i2 ∧ rows.length = i1.length ∧ ∀ r ∈ rows, r.length = i2.length) ∧
      B = ⟨name, i1, i2, rows⟩ := by
  unfold make
  rw [← checkNames_iff, ← checkNames_iff]
  have hc : (checkNames i1 && checkNames i2 && decide (rows.length = i1.length) && rows.all (fun r => decide (r.length = i2.length))) = true ↔
      (checkNames i1 = true ∧ checkNames i2 = true ∧ rows.length = i1.length ∧ ∀ r ∈ rows, r.length = i2.length) := by
    simp only [Bool.and_eq_true, decide_eq_true_eq, List.all_eq_true, and_assoc]
  by_cases h : (checkNames i1 = true ∧ checkNames i2 = true ∧ rows.length = i1.length ∧ ∀ r ∈ rows, r.length = i2.length)
  · rw [if_pos (hc.mpr h)]
    constructor
    · intro he; cases he; exact ⟨h, rfl⟩
    · rintro ⟨_, rfl⟩; rfl
  · rw [if_neg fun hh => h (hc.mp hh)]
    constructor
    · intro he; cases he
    · rintro ⟨hh, _⟩; exact absurd hh h

/-- the block of two names -/
def Block2.at (B : Block2) (a b : Name) : ℕ := (B.rows.getD (B.ind1.idxOf a) []).getD (B.ind2.idxOf b) 0

theorem rows_eq (B : Block2) (hB : B.Valid) : B.rows = B.ind1.map fun a => B.ind2.map fun b => B.at a b := by
  obtain ⟨_, hn1, _⟩ := (checkNames_iff _).mp hB.names1
  obtain ⟨_, hn2, _⟩ := (checkNames_iff _).mp hB.names2
  refine List.ext_getElem (by rw [List.length_map, hB.outer]) fun i h1 h2 => ?_
  rw [List.getElem_map]
  have hi : i < B.ind1.length := by rw [← hB.outer]; exact h1
  have hr := hB.inner _ (List.getElem_mem h1)
  refine List.ext_getElem (by rw [List.length_map, hr]) fun j h3 h4 => ?_
  rw [List.getElem_map]
  have hat : B.at B.ind1[i] (B.ind2[j]'(by rw [← hr]; exact h3)) = (B.rows[i])[j] := by
    unfold Block2.at
    rw [hn1.idxOf_getElem i hi, hn2.idxOf_getElem j (by rw [← hr]; exact h3), List.getD_eq_getElem _ _ h1, List.getD_eq_getElem _ _ h3]
  exact hat.symm

theorem flat_eq (B : Block2) (hB : B.Valid) : B.rows.flatten = (B.ind1.product B.ind2).map fun p => B.at p.1 p.2 := by
  conv_lhs => rw [rows_eq B hB]
  unfold List.product
  rw [← List.flatMap_def, List.map_flatMap]
  congr 1
  funext a
  rw [List.map_map]
  rfl

theorem iter_eq (B : Block2) (hB : B.Valid) : B.iter = (B.ind1.product B.ind2).map fun p => (p, B.at p.1 p.2) := by
  unfold Block2.iter
  rw [flat_eq B hB]
  conv_lhs => rw [← List.map_id (B.ind1.product B.ind2), List.map_id, ← List.map_id (B.ind1.product B.ind2)]
  rw [List.map_map, List.zip_map']
  rfl

/-- iteration visits all pairs of names, the second one fastest, each with its block; their number is `len` -/
theorem C147_iter (B : Block2) (hB : B.Valid) :
    B.iter.map Prod.fst = B.ind1.product B.ind2 ∧ B.iter.map Prod.snd = B.rows.flatten ∧ B.iter.length = B.len ∧
      ∀ p ∈ B.iter, B.get p.1 = .ok p.2 := by
  rw [iter_eq B hB]
  refine ⟨by simp [Function.comp_def], by rw [flat_eq B hB, List.map_map]; rfl, by rw [List.length_map]; exact List.length_product _ _, ?_⟩
  intro p hp
  obtain ⟨q, hq, rfl⟩ := List.mem_map.mp hp
  obtain ⟨a, b⟩ := q
  unfold Block2.get
  rw [if_pos (List.mem_product.mp hq)]
  rfl

/-- the block at positions `i` and `j` is that of the names at these positions; an unknown name raises `ValueError` -/
theorem C147_get (B : Block2) (hB : B.Valid) :
    (∀ i j, (hi : i < B.ind1.length) → (hj : j < B.ind2.length) → ∃ r k, B.rows[i]? = some r ∧ r[j]? = some k ∧
      B.get (B.ind1[i], B.ind2[j]) = .ok k) ∧
      ∀ a b, a ∉ B.ind1 ∨ b ∉ B.ind2 → B.get (a, b) = .error .value := by
  obtain ⟨_, hn1, _⟩ := (checkNames_iff _).mp hB.names1
  obtain ⟨_, hn2, _⟩ := (checkNames_iff _).mp hB.names2
  constructor
  · intro i j hi hj
    have hi' : i < B.rows.length := by rw [hB.outer]; exact hi
    have hj' : j < (B.rows[i]).length := by rw [hB.inner _ (List.getElem_mem hi')]; exact hj
    refine ⟨B.rows[i], (B.rows[i])[j], List.getElem?_eq_getElem hi', List.getElem?_eq_getElem hj', ?_⟩
    unfold Block2.get
    rw [if_pos ⟨List.getElem_mem hi, List.getElem_mem hj⟩]
    simp only
    rw [hn1.idxOf_getElem i hi, hn2.idxOf_getElem j hj, List.getD_eq_getElem _ _ hi', List.getD_eq_getElem _ _ hj']
  · intro a b hab
    unfold Block2.get
    rw [if_neg]
    rintro ⟨h1, h2⟩
    rcases hab with h | h
    · exact h h1
    · exact h h2

theorem makeFun_valid (name : String) (i1 i2 : List Name) (f : Name → Name → ℕ) (h1 : GoodNames i1) (h2 : GoodNames i2) :
    makeFun name i1 i2 f = .ok ⟨name, i1, i2, i1.map fun a => i2.map fun b => f a b⟩ ∧
      (⟨name, i1, i2, i1.map fun a => i2.map fun b => f a b⟩ : Block2).Valid ∧
      ∀ a ∈ i1, ∀ b ∈ i2, (⟨name, i1, i2, i1.map fun a => i2.map fun b => f a b⟩ : Block2).get (a, b) = .ok (f a b) := by
  refine ⟨?_, ⟨(checkNames_iff _).mpr h1, (checkNames_iff _).mpr h2, List.length_map _, fun r hr => ?_⟩, fun a ha b hb => ?_⟩
  · unfold makeFun
    rw [if_pos (by rw [(checkNames_iff _).mpr h1, (checkNames_iff _).mpr h2]; rfl)]
  · obtain ⟨a, _, rfl⟩ := List.mem_map.mp hr
    exact List.length_map _
  · unfold Block2.get
    rw [if_pos ⟨ha, hb⟩]
    simp only
    have hi : i1.idxOf a < i1.length := List.idxOf_lt_length_of_mem ha
    have hj : i2.idxOf b < i2.length := List.idxOf_lt_length_of_mem hb
    have hrow : (i1.map fun a => i2.map fun b => f a b).getD (i1.idxOf a) [] = i2.map fun b => f a b := by
      rw [List.getD_eq_getElem _ _ (by rw [List.length_map]; exact hi), List.getElem_map, List.getElem_idxOf hi]
    rw [hrow, List.getD_eq_getElem _ _ (by rw [List.length_map]; exact hj), List.getElem_map, List.getElem_idxOf hj]

/-- a view has the selected names **in the order of the selection**, and the same objects as the original -/
theorem C147_view (B : Block2) (hB : B.Valid) (s1 s2 : List Name) (h1 : s1 ≠ []) (h2 : s2 ≠ []) (n1 : s1.Nodup) (n2 : s2.Nodup)
    (m1 : ∀ n ∈ s1, n ∈ B.ind1) (m2 : ∀ n ∈ s2, n ∈ B.ind2) :
    ∃ C, viewSelected B s1 s2 = .ok C ∧ C.ind1 = s1 ∧ C.ind2 = s2 ∧ ∀ a ∈ s1, ∀ b ∈ s2, C.get (a, b) = B.get (a, b) := by
  obtain ⟨_, _, hu1, hb1⟩ := (checkNames_iff _).mp hB.names1
  obtain ⟨_, _, hu2, hb2⟩ := (checkNames_iff _).mp hB.names2
  obtain ⟨hok, _, hget⟩ := makeFun_valid "" s1 s2 (fun a b => match B.get (a, b) with | .ok j => j | .error _ => 0)
    ⟨h1, n1, fun n hn => hu1 n (m1 n hn), fun hm => hb1 (m1 _ hm)⟩ ⟨h2, n2, fun n hn => hu2 n (m2 n hn), fun hm => hb2 (m2 _ hm)⟩
  have hv : viewSelected B s1 s2 = makeFun "" s1 s2 (fun a b => match B.get (a, b) with | .ok j => j | .error _ => 0) := by
    unfold viewSelected
    rw [if_pos]
    rw [Bool.and_eq_true, List.all_eq_true, List.all_eq_true]
    exact ⟨fun n hn => by simpa using m1 n hn, fun n hn => by simpa using m2 n hn⟩
  refine ⟨_, hv.trans hok, rfl, rfl, fun a ha b hb => ?_⟩
  have hg := hget a ha b hb
  have : B.get (a, b) = .ok (B.at a b) := by
    unfold Block2.get
    rw [if_pos ⟨m1 a ha, m2 b hb⟩]
    rfl
  rw [hg, this]

/-- names that do not exist, empty selections and repeated names are refused -/
theorem C147_view_refused (B : Block2) (s1 s2 : List Name)
    (h : s1 = [] ∨ s2 = [] ∨ ¬ s1.Nodup ∨ ¬ s2.Nodup ∨ (∃ n ∈ s1, n ∉ B.ind1) ∨ ∃ n ∈ s2, n ∉ B.ind2) :
    viewSelected B s1 s2 = .error .assertion := by
  unfold viewSelected
  split
  · rename_i hc
    rw [Bool.and_eq_true, List.all_eq_true, List.all_eq_true] at hc
    unfold makeFun
    rw [if_neg]
    intro hk
    rw [Bool.and_eq_true, checkNames_iff, checkNames_iff] at hk
    obtain ⟨⟨a1, a2, _⟩, ⟨b1, b2, _⟩⟩ := hk
    rcases h with h | h | h | h | ⟨n, hn, hm⟩ | ⟨n, hn, hm⟩
    · exact a1 h
    · exact b1 h
    · exact h a2
    · exact h b2
    · exact hm (by simpa using hc.1 n hn)
    · exact hm (by simpa using hc.2 n hn)
  · rfl

theorem newRows_flatten (fresh w n : ℕ) : (newRows fresh w n).flatten = newIds fresh (n * w) := by
  induction n with
  | zero => simp [newRows, newIds]
  | succ n ih =>
    unfold newRows at ih ⊢
    rw [List.range_succ, List.map_append, List.flatten_append, ih]
    unfold newIds
    rw [show (n + 1) * w = n * w + w by rw [Nat.succ_mul], List.range_add, List.map_append, List.map_map]
    simp only [List.map_cons, List.map_nil, List.flatten_cons, List.flatten_nil, List.append_nil]
    congr 1
    refine List.map_congr_left fun k _ => ?_
    simp only [Function.comp]
    omega

theorem flat_length (B : Block2) (hB : B.Valid) : B.rows.flatten.length = B.ind1.length * B.ind2.length := by
  rw [flat_eq B hB, List.length_map]
  exact List.length_product _ _

/-- a constructor whose new blocks are numbered row by row -/
theorem fresh_make (B : Block2) (hB : B.Valid) (fresh : ℕ) :
    ∃ C, make "" B.ind1 B.ind2 (newRows fresh B.ind2.length B.ind1.length) = .ok C ∧ C.ind1 = B.ind1 ∧ C.ind2 = B.ind2 ∧ C.Valid ∧
      C.rows.flatten = newIds fresh B.rows.flatten.length ∧
      ∀ k j, B.get k = .ok j → ∃ i, i < B.rows.flatten.length ∧ B.rows.flatten.getD i 0 = j ∧ C.get k = .ok (fresh + i) := by
  have hlen : (newRows fresh B.ind2.length B.ind1.length).length = B.ind1.length := by simp [newRows]
  have hin : ∀ r ∈ newRows fresh B.ind2.length B.ind1.length, r.length = B.ind2.length := by
    intro r hr
    unfold newRows at hr
    obtain ⟨i, _, rfl⟩ := List.mem_map.mp hr
    exact newIds_length _ _
  have hC : (⟨"", B.ind1, B.ind2, newRows fresh B.ind2.length B.ind1.length⟩ : Block2).Valid := ⟨hB.names1, hB.names2, hlen, hin⟩
  refine ⟨⟨"", B.ind1, B.ind2, newRows fresh B.ind2.length B.ind1.length⟩, (C147_accepts _ _ _ _ _).mpr
    ⟨⟨(checkNames_iff _).mp hB.names1, (checkNames_iff _).mp hB.names2, hlen, hin⟩, rfl⟩, rfl, rfl, hC,
    by rw [newRows_flatten, flat_length B hB], fun k j hk => ?_⟩
  have hmem : k.1 ∈ B.ind1 ∧ k.2 ∈ B.ind2 := by
    unfold Block2.get at hk
    split at hk
    · assumption
    · cases hk
  have hkp : k ∈ B.ind1.product B.ind2 := by
    obtain ⟨a, b⟩ := k
    exact List.mem_product.mpr hmem
  obtain ⟨i, hi, hik⟩ := List.getElem_of_mem hkp
  have hi' : i < B.rows.flatten.length := by rw [flat_eq B hB, List.length_map]; exact hi
  refine ⟨i, hi', ?_, ?_⟩
  · have hj : j = B.at k.1 k.2 := by
      unfold Block2.get at hk
      rw [if_pos hmem] at hk
      cases hk
      rfl
    rw [List.getD_eq_getElem _ _ hi', hj]
    simp only [flat_eq B hB]
    rw [List.getElem_map, hik]
  · obtain ⟨f1, f2, _, f4⟩ := C147_iter _ hC
    refine f4 (k, fresh + i) ?_
    show (k, fresh + i) ∈ (B.ind1.product B.ind2).zip (newRows fresh B.ind2.length B.ind1.length).flatten
    rw [newRows_flatten]
    have hlt : i < ((B.ind1.product B.ind2).zip (newIds fresh (B.ind1.length * B.ind2.length))).length := by
      rw [List.length_zip, newIds_length, ← flat_length B hB]; omega
    refine List.mem_of_getElem (i := i) (h := hlt) ?_
    rw [List.getElem_zip, newIds_getElem, hik]

/-- a copy has the same names, blocks with the same content and new objects; old objects are unchanged -/
theorem C147_copy (h : Heap α) (fresh : ℕ) (B : Block2) (hB : B.Valid) :
    ∃ C, (copy h fresh B).2 = .ok C ∧ C.ind1 = B.ind1 ∧ C.ind2 = B.ind2 ∧ (∀ k, k < fresh → (copy h fresh B).1 k = h k) ∧
      C.rows.flatten.Nodup ∧ ∀ k j, B.get k = .ok j → ∃ j', C.get k = .ok j' ∧ fresh ≤ j' ∧ (copy h fresh B).1 j' = h j := by
  obtain ⟨C, hok, e1, e2, _, hfl, hget⟩ := fresh_make B hB fresh
  refine ⟨C, hok, e1, e2, fun k hk => ?_, by rw [hfl]; exact newIds_nodup _ _, fun k j hk => ?_⟩
  · unfold copy copyObjs
    simp only
    rw [if_neg (by omega)]
  · obtain ⟨i, hi, hij, hC⟩ := hget k j hk
    refine ⟨_, hC, by omega, ?_⟩
    unfold copy copyObjs
    simp only
    rw [if_pos (by omega), show fresh + i - fresh = i by omega, hij]

/-- `map_block` applies the function to every block and keeps the names; the originals are unchanged -/
theorem C147_map (h : Heap α) (fresh : ℕ) (f : Obj α → Obj α) (B : Block2) (hB : B.Valid) :
    ∃ C, (mapBlock h fresh f B).2 = .ok C ∧ C.ind1 = B.ind1 ∧ C.ind2 = B.ind2 ∧ (∀ k, k < fresh → (mapBlock h fresh f B).1 k = h k) ∧
      ∀ k j, B.get k = .ok j → ∃ j', C.get k = .ok j' ∧ (mapBlock h fresh f B).1 j' = f (h j) := by
  obtain ⟨C, hok, e1, e2, _, hfl, hget⟩ := fresh_make B hB fresh
  refine ⟨C, hok, e1, e2, fun k hk => ?_, fun k j hk => ?_⟩
  · unfold mapBlock
    simp only
    rw [if_neg (by omega)]
  · obtain ⟨i, hi, hij, hC⟩ := hget k j hk
    refine ⟨_, hC, ?_⟩
    unfold mapBlock
    simp only
    rw [if_pos (by omega), show fresh + i - fresh = i by omega, hij]

/-- `copy_from` copies all blocks by position if all shapes agree; otherwise it changes nothing and raises `NameError` -/
theorem C147_copy_from (h : Heap α) (B C : Block2) (hB : B.Valid) (hC : C.Valid) (hn : B.rows.flatten.Nodup)
    (hd : ∀ j ∈ C.rows.flatten, j ∉ B.rows.flatten) :
    ((∀ p ∈ B.rows.flatten.zip C.rows.flatten, (h p.1).shape = (h p.2).shape) →
      (copyFrom h B C).2 = none ∧
        (∀ p ∈ B.rows.flatten.zip C.rows.flatten,
          (copyFrom h B C).1 p.1 = { h p.1 with mesh := (h p.2).mesh, val := (h p.2).val }) ∧
        ∀ k, k ∉ B.rows.flatten → (copyFrom h B C).1 k = h k) ∧
      ((∃ p ∈ B.rows.flatten.zip C.rows.flatten, (h p.1).shape ≠ (h p.2).shape) → copyFrom h B C = (h, some .name)) := by
  have e1 := (C147_iter B hB).2.1
  have e2 := (C147_iter C hC).2.1
  unfold copyFrom
  simp only
  rw [e1, e2]
  constructor
  · intro hs
    rw [if_pos (List.all_eq_true.mpr fun p hp => by simpa using hs p hp)]
    have hfst : (B.rows.flatten.zip C.rows.flatten).map Prod.fst = B.rows.flatten.take C.rows.flatten.length := by
      rw [List.zip_eq_zip_take_min, List.map_fst_zip (by simp), List.take_eq_take_iff]
      simp [min_comm]
    obtain ⟨h', hr, hv, ho⟩ := run_copy h (B.rows.flatten.zip C.rows.flatten) (by rw [hfst]; exact (List.take_sublist _ _).nodup hn)
      (fun p hp q hq => Or.inl fun he => by
        have hp' : (p.1, p.2) ∈ B.rows.flatten.zip C.rows.flatten := hp
        have hq' : (q.1, q.2) ∈ B.rows.flatten.zip C.rows.flatten := hq
        exact hd p.2 (List.of_mem_zip hp').2 (he ▸ (List.of_mem_zip hq').1)) hs
    rw [hr]
    refine ⟨rfl, hv, fun k hk => ho k fun hm => hk ?_⟩
    rw [hfst] at hm
    exact (List.take_sublist _ _).subset hm
  · rintro ⟨p, hp, hne⟩
    rw [if_neg]
    intro hall
    exact hne (by simpa using List.all_eq_true.mp hall p hp)

theorem lshift_ok (h : Heap α) (A : Rhs) (l : List ((Name × Name) × ℕ)) (hn : (l.map Prod.snd).Nodup) (src : Name × Name → ℕ)
    (hg : ∀ p ∈ l, A.get p.1 = .ok (src p.1)) (hd : ∀ p ∈ l, src p.1 = p.2 ∨ src p.1 ∉ l.map Prod.snd)
    (hs : ∀ p ∈ l, (h p.2).shape = (h (src p.1)).shape ∧ (h p.2).mesh = (h (src p.1)).mesh) :
    ∃ h', lshift h A l = (h', none) ∧ (∀ p ∈ l, h' p.2 = { h p.2 with val := (h (src p.1)).val }) ∧
      (∀ k, k ∉ l.map Prod.snd → h' k = h k) := by
  induction l generalizing h with
  | nil => exact ⟨h, rfl, by simp, fun _ _ => rfl⟩
  | cons p l ih =>
    obtain ⟨n, i⟩ := p
    obtain ⟨hi, hn'⟩ := List.nodup_cons.mp hn
    have hpi : ∀ p ∈ l, p.2 ≠ i := fun p hp he => hi (by
      have := List.mem_map_of_mem (f := Prod.snd) hp
      rwa [he] at this)
    have hpj : ∀ p ∈ l, src p.1 ≠ i := by
      intro p hp he
      rcases hd p (List.mem_cons_of_mem _ hp) with h1 | h1
      · exact hpi p hp (h1.symm.trans he)
      · exact h1 (by rw [he]; exact List.mem_cons_self)
    have hgi := hg (n, i) List.mem_cons_self
    obtain ⟨hsh, hme⟩ := hs (n, i) List.mem_cons_self
    simp only at hgi hsh hme
    have hone : ∃ h1, gfAssign h i (src n) = (h1, none) ∧ h1 i = { h i with val := (h (src n)).val } ∧ ∀ k, k ≠ i → h1 k = h k := by
      unfold gfAssign
      by_cases he : i = src n
      · refine ⟨h, by rw [if_pos he], ?_, fun _ _ => rfl⟩
        rw [← he]
      · refine ⟨_, by rw [if_neg he, if_pos hme, gfCopyFrom_ok _ _ _ hsh], ?_, fun k hk => Function.update_of_ne hk _ _⟩
        rw [Function.update_self, ← hme]
    obtain ⟨h1, ha, hi1, hoff⟩ := hone
    obtain ⟨h', hr, hv, ho⟩ := ih h1 hn' (fun p hp => hg p (List.mem_cons_of_mem _ hp))
      (fun p hp => (hd p (List.mem_cons_of_mem _ hp)).imp id fun h2 h3 => h2 (List.mem_cons_of_mem _ h3))
      (fun p hp => by
        rw [hoff _ (hpi p hp), hoff _ (hpj p hp)]
        exact hs p (List.mem_cons_of_mem _ hp))
    refine ⟨h', ?_, ?_, ?_⟩
    · simp only [lshift]
      rw [hgi]
      simp only
      rw [ha]
      exact hr
    · intro p hp
      rcases List.mem_cons.mp hp with rfl | hp
      · rw [ho i hi, hi1]
      · rw [hv p hp, hoff _ (hpi p hp), hoff _ (hpj p hp)]
    · intro k hk
      rw [List.map_cons, List.mem_cons, not_or] at hk
      rw [ho k hk.2, hoff k hk.1]

/-- `G << A` copies into every block the block of `A` with the same two names, whatever their order -/
theorem C147_assign (h : Heap α) (B C : Block2) (hB : B.Valid) (hn : B.rows.flatten.Nodup)
    (h1 : ∀ n ∈ B.ind1, n ∈ C.ind1) (h2 : ∀ n ∈ B.ind2, n ∈ C.ind2) (hd : ∀ j ∈ C.rows.flatten, j ∉ B.rows.flatten) (hC : C.Valid)
    (hs : ∀ k i j, B.get k = .ok i → C.get k = .ok j → (h i).shape = (h j).shape ∧ (h i).mesh = (h j).mesh) :
    ∃ h', lshift h (.block C) B.iter = (h', none) ∧
      (∀ k i j, B.get k = .ok i → C.get k = .ok j → h' i = { h i with val := (h j).val }) ∧ ∀ k, k ∉ B.rows.flatten → h' k = h k := by
  have e := (C147_iter B hB).2.1
  have hget : ∀ p ∈ B.iter, B.get p.1 = .ok p.2 := (C147_iter B hB).2.2.2
  have hmem : ∀ p ∈ B.iter, p.1.1 ∈ B.ind1 ∧ p.1.2 ∈ B.ind2 := by
    intro p hp
    have := List.mem_map_of_mem (f := Prod.fst) hp
    rw [(C147_iter B hB).1] at this
    exact List.mem_product.mp this
  have hCget : ∀ p ∈ B.iter, C.get p.1 = .ok (C.at p.1.1 p.1.2) := by
    intro p hp
    unfold Block2.get
    rw [if_pos ⟨h1 _ (hmem p hp).1, h2 _ (hmem p hp).2⟩]
    rfl
  have hCmem : ∀ p ∈ B.iter, C.at p.1.1 p.1.2 ∈ C.rows.flatten := by
    intro p hp
    rw [flat_eq C hC]
    exact List.mem_map.mpr ⟨p.1, List.mem_product.mpr ⟨h1 _ (hmem p hp).1, h2 _ (hmem p hp).2⟩, rfl⟩
  obtain ⟨h', hr, hv, ho⟩ := lshift_ok h (.block C) B.iter (by rw [e]; exact hn) (fun k => C.at k.1 k.2) hCget
    (fun p hp => Or.inr (by rw [e]; exact hd _ (hCmem p hp))) (fun p hp => hs p.1 p.2 _ (hget p hp) (hCget p hp))
  refine ⟨h', hr, fun k i j hk hj => ?_, fun k hk => ho k (by rw [e]; exact hk)⟩
  have hkm : k.1 ∈ B.ind1 ∧ k.2 ∈ B.ind2 ∧ i = B.at k.1 k.2 := by
    unfold Block2.get at hk
    split at hk
    · rename_i hm; cases hk; exact ⟨hm.1, hm.2, rfl⟩
    · cases hk
  have hp : (k, i) ∈ B.iter := by
    rw [iter_eq B hB, hkm.2.2]
    exact List.mem_map.mpr ⟨k, List.mem_product.mpr ⟨hkm.1, hkm.2.1⟩, rfl⟩
  have := hv (k, i) hp
  have h3 := hCget (k, i) hp
  simp only at this h3
  rw [hj] at h3
  cases h3
  exact this

/-- assigning a number (or an initialiser), which the documentation of `<<` promises, never works -/
theorem C147_assign_number (h : Heap α) (B : Block2) (hB : B.Valid) : lshift h .number B.iter = (h, some .type) := by
  obtain ⟨g1, _⟩ := (checkNames_iff _).mp hB.names1
  obtain ⟨g2, _⟩ := (checkNames_iff _).mp hB.names2
  obtain ⟨a, ha⟩ := List.exists_mem_of_ne_nil _ g1
  obtain ⟨b, hb⟩ := List.exists_mem_of_ne_nil _ g2
  have : B.iter ≠ [] := by
    rw [iter_eq B hB]
    exact List.ne_nil_of_mem (List.mem_map_of_mem (List.mem_product.mpr ⟨ha, hb⟩))
  cases hI : B.iter with
  | nil => exact absurd hI this
  | cons p l => rfl

/-- `all_indices` gives exactly the names with the valid indices of their block -/
theorem C147_all_indices (h : Heap α) (B : Block2) (hB : B.Valid) (k : Name × Name) (i : List ℕ) :
    (k, i) ∈ allIndices h B ↔ ∃ j, B.get k = .ok j ∧ List.Forall₂ (· < ·) i ((h j).shape.drop 1) := by
  unfold allIndices
  have hsec : ∀ s : List ℕ, i ∈ (s.map List.range).sections ↔ List.Forall₂ (· < ·) i s := by
    intro s
    rw [List.mem_sections, List.forall₂_map_right_iff]
    constructor
    · exact fun hh => hh.imp fun a b hab => List.mem_range.mp hab
    · exact fun hh => hh.imp fun a b hab => List.mem_range.mpr hab
  constructor
  · intro hm
    obtain ⟨p, hp, hi⟩ := List.mem_flatMap.mp hm
    obtain ⟨i', hi', he⟩ := List.mem_map.mp hi
    cases he
    exact ⟨p.2, (C147_iter B hB).2.2.2 p hp, (hsec _).mp hi'⟩
  · rintro ⟨j, hj, hi⟩
    refine List.mem_flatMap.mpr ⟨(k, j), ?_, List.mem_map.mpr ⟨i, (hsec _).mpr hi, rfl⟩⟩
    unfold Block2.get at hj
    split at hj
    · rename_i hm
      cases hj
      rw [iter_eq B hB]
      exact List.mem_map.mpr ⟨k, List.mem_product.mpr hm, rfl⟩
    · cases hj

/-- `BlockGf.all_indices` gives ranges instead: for matrix valued blocks four entries per block, whatever the size -/
theorem C147_all_indices_block (h : Heap α) (B : Block) (hs : ∀ p ∈ B.iter, ((h p.2).shape.drop 1).length = 2) :
    (allIndices1 h B).length = 4 * B.iter.length := by
  unfold allIndices1
  generalize B.iter = l at hs ⊢
  induction l with
  | nil => rfl
  | cons p l ih =>
    rw [List.flatMap_cons, List.length_append, ih fun q hq => hs q (List.mem_cons_of_mem _ hq)]
    have h2 := hs p List.mem_cons_self
    match hm : (h p.2).shape.drop 1, h2 with
    | [a, b], _ =>
      simp
      omega

/-! ### The dictionary of an archive -/

theorem set_keys (d : Dict) (k : String) (v : DV) (k' : String) : k' ∈ (d.set k v).map Prod.fst ↔ k' = k ∨ k' ∈ d.map Prod.fst := by
  unfold Dict.set
  split
  · rename_i hk
    have : (d.map fun p => if p.1 = k then (k, v) else p).map Prod.fst = d.map Prod.fst := by
      rw [List.map_map]
      refine List.map_congr_left fun p _ => ?_
      simp only [Function.comp]
      split <;> simp_all
    rw [this]
    constructor
    · exact Or.inr
    · rintro (rfl | h)
      · exact hk
      · exact h
  · rw [List.map_append, List.mem_append]
    simp [or_comm]

theorem set_nodup (d : Dict) (k : String) (v : DV) (hd : (d.map Prod.fst).Nodup) : ((d.set k v).map Prod.fst).Nodup := by
  unfold Dict.set
  split
  · have : (d.map fun p => if p.1 = k then (k, v) else p).map Prod.fst = d.map Prod.fst := by
      rw [List.map_map]
      refine List.map_congr_left fun p _ => ?_
      simp only [Function.comp]
      split <;> simp_all
    rw [this]
    exact hd
  · rename_i hk
    rw [List.map_append]
    refine List.nodup_append.mpr ⟨hd, by simp, ?_⟩
    rintro a ha b hb rfl
    simp only [List.map_cons, List.map_nil, List.mem_singleton] at hb
    exact hk (hb ▸ ha)

theorem get_cons (p : String × DV) (d : Dict) (k : String) : Dict.get (p :: d) k = if p.1 = k then some p.2 else Dict.get d k := by
  unfold Dict.get
  by_cases h : p.1 = k
  · rw [List.find?_cons_of_pos (by simpa using h), if_pos h]; rfl
  · rw [List.find?_cons_of_neg (by simpa using h), if_neg h]

theorem set_get (d : Dict) (k : String) (v : DV) (k' : String) : (d.set k v).get k' = if k' = k then some v else d.get k' := by
  unfold Dict.set
  split
  · rename_i hk
    induction d with
    | nil => simp at hk
    | cons p d ih =>
      rw [List.map_cons, get_cons, get_cons]
      by_cases hp : p.1 = k
      · rw [if_pos hp]
        simp only
        by_cases hk' : k' = k
        · subst hk'; simp
        · rw [if_neg (Ne.symm hk'), if_neg hk', if_neg (by rw [hp]; exact Ne.symm hk')]
          by_cases hkd : k ∈ d.map Prod.fst
          · rw [ih hkd, if_neg hk']
          · congr 1
            conv_rhs => rw [← List.map_id d]
            refine List.map_congr_left fun q hq => ?_
            rw [if_neg]
            · rfl
            · intro he
              exact hkd (he ▸ List.mem_map_of_mem hq)
      · rw [if_neg hp]
        have hkd : k ∈ d.map Prod.fst := by
          rw [List.map_cons, List.mem_cons] at hk
          exact hk.resolve_left fun he => hp he.symm
        rw [ih hkd]
        by_cases hk' : k' = k
        · rw [if_pos hk', if_pos hk', if_neg (by rw [hk']; exact hp)]
        · rw [if_neg hk', if_neg hk']
  · rename_i hk
    induction d with
    | nil =>
      rw [List.nil_append, get_cons]
      simp only [eq_comm]
    | cons p d ih =>
      rw [List.map_cons, List.mem_cons, not_or] at hk
      rw [List.cons_append, get_cons, get_cons, ih hk.2]
      by_cases hk' : k' = k
      · rw [if_pos hk', if_pos hk', if_neg (by rw [hk']; exact Ne.symm hk.1)]
      · rw [if_neg hk', if_neg hk']

theorem pop_keys (d : Dict) (k k' : String) : k' ∈ (d.pop k).map Prod.fst ↔ k' ∈ d.map Prod.fst ∧ k' ≠ k := by
  unfold Dict.pop
  simp only [List.mem_map, List.mem_filter, bne_iff_ne]
  constructor
  · rintro ⟨p, ⟨hp, hne⟩, rfl⟩; exact ⟨⟨p, hp, rfl⟩, hne⟩
  · rintro ⟨⟨p, hp, rfl⟩, hne⟩; exact ⟨p, ⟨hp, hne⟩, rfl⟩

theorem pop_nodup (d : Dict) (k : String) (hd : (d.map Prod.fst).Nodup) : ((d.pop k).map Prod.fst).Nodup :=
  (List.Sublist.map _ List.filter_sublist).nodup hd

theorem pop_get (d : Dict) (k k' : String) (hk : k' ≠ k) : (d.pop k).get k' = d.get k' := by
  induction d with
  | nil => rfl
  | cons p d ih =>
    unfold Dict.pop at ih ⊢
    by_cases hp : p.1 = k
    · rw [List.filter_cons_of_neg (by simpa using hp), ih, get_cons, if_neg (by rw [hp]; exact Ne.symm hk)]
    · rw [List.filter_cons_of_pos (by simpa using hp), get_cons, get_cons, ih]

def fill (l : List ((Name × Name) × ℕ)) (d : Dict) : Dict := l.foldl (fun (d : Dict) p => d.set (key p.1) (.gf p.2)) d

theorem fill_keys (l : List ((Name × Name) × ℕ)) (d : Dict) (k : String) :
    k ∈ (fill l d).map Prod.fst ↔ k ∈ l.map (fun p => key p.1) ∨ k ∈ d.map Prod.fst := by
  induction l generalizing d with
  | nil => simp [fill]
  | cons p l ih =>
    have : fill (p :: l) d = fill l (d.set (key p.1) (.gf p.2)) := rfl
    rw [this, ih, set_keys, List.map_cons, List.mem_cons]
    tauto

theorem fill_nodup (l : List ((Name × Name) × ℕ)) (d : Dict) (hd : (d.map Prod.fst).Nodup) : ((fill l d).map Prod.fst).Nodup := by
  induction l generalizing d with
  | nil => exact hd
  | cons p l ih => exact ih _ (set_nodup _ _ _ hd)

theorem fill_get_off (l : List ((Name × Name) × ℕ)) (d : Dict) (k : String) (hk : k ∉ l.map (fun p => key p.1)) : (fill l d).get k = d.get k := by
  induction l generalizing d with
  | nil => rfl
  | cons p l ih =>
    rw [List.map_cons, List.mem_cons, not_or] at hk
    have : fill (p :: l) d = fill l (d.set (key p.1) (.gf p.2)) := rfl
    rw [this, ih _ hk.2, set_get, if_neg hk.1]

theorem fill_get (l : List ((Name × Name) × ℕ)) (d : Dict) (hn : (l.map fun p => key p.1).Nodup) (p : (Name × Name) × ℕ) (hp : p ∈ l) :
    (fill l d).get (key p.1) = some (.gf p.2) := by
  induction l generalizing d with
  | nil => simp at hp
  | cons q l ih =>
    have e : fill (q :: l) d = fill l (d.set (key q.1) (.gf q.2)) := rfl
    rw [List.map_cons] at hn
    obtain ⟨h1, h2⟩ := List.nodup_cons.mp hn
    rw [e]
    rcases List.mem_cons.mp hp with rfl | hp
    · rw [fill_get_off _ _ _ h1, set_get, if_pos rfl]
    · exact ih _ h2 hp

theorem key_note (k : Name × Name) : key k ≠ "note" := by
  intro h
  have h1 : '_' ∈ (key k).toList := by
    unfold key
    simp [String.toList_append]
  rw [h] at h1
  revert h1
  decide

/-- writing and reading a dictionary gives back names and blocks exactly if the joined names are distinct and none of them is a
reserved key; otherwise reading is refused -/
theorem C147_reload (B : Block2) (hB : B.Valid) :
    (((B.ind1.product B.ind2).map key).Nodup ∧ "block_names1" ∉ (B.ind1.product B.ind2).map key ∧
        "block_names2" ∉ (B.ind1.product B.ind2).map key → ofDict B.name (toDict B) = .ok B) ∧
      (¬ (((B.ind1.product B.ind2).map key).Nodup ∧ "block_names1" ∉ (B.ind1.product B.ind2).map key ∧
        "block_names2" ∉ (B.ind1.product B.ind2).map key) → ofDict B.name (toDict B) = .error .assertion) := by
  have hkeys : (B.iter.map fun p => key p.1) = (B.ind1.product B.ind2).map key := by
    rw [← (C147_iter B hB).1, List.map_map]
    rfl
  have hD : toDict B = ((fill B.iter []).set "block_names1" (.names B.ind1)).set "block_names2" (.names B.ind2) := rfl
  have g1 : (toDict B).get "block_names1" = some (.names B.ind1) := by
    rw [hD, set_get, if_neg (by decide), set_get, if_pos rfl]
  have g2 : ((toDict B).pop "block_names1").get "block_names2" = some (.names B.ind2) := by
    rw [pop_get _ _ _ (by decide), hD, set_get, if_pos rfl]
  set d' := (((toDict B).pop "block_names1").pop "block_names2").pop "note" with hd'
  have hnd : (d'.map Prod.fst).Nodup :=
    pop_nodup _ _ (pop_nodup _ _ (pop_nodup _ _ (by rw [hD]; exact set_nodup _ _ _ (set_nodup _ _ _ (fill_nodup _ _ (by simp))))))
  have hmem : ∀ k, k ∈ d'.map Prod.fst ↔ k ∈ (B.ind1.product B.ind2).map key ∧ k ≠ "block_names1" ∧ k ≠ "block_names2" := by
    intro k
    rw [hd', pop_keys, pop_keys, pop_keys, hD, set_keys, set_keys, fill_keys, hkeys]
    constructor
    · rintro ⟨⟨⟨h, h1⟩, h2⟩, _⟩
      rcases h with h | h | h | h
      · exact absurd h h2
      · exact absurd h h1
      · exact ⟨h, h1, h2⟩
      · simp at h
    · rintro ⟨h, h1, h2⟩
      refine ⟨⟨⟨Or.inr (Or.inr (Or.inl h)), h1⟩, h2⟩, ?_⟩
      obtain ⟨p, _, rfl⟩ := List.mem_map.mp h
      exact key_note p
  have hperm : ((B.ind1.product B.ind2).map key).Perm (d'.map Prod.fst) ↔ ((B.ind1.product B.ind2).map key).Nodup ∧
      "block_names1" ∉ (B.ind1.product B.ind2).map key ∧ "block_names2" ∉ (B.ind1.product B.ind2).map key := by
    constructor
    · intro hp
      refine ⟨hp.nodup_iff.mpr hnd, fun hm => ?_, fun hm => ?_⟩
      · exact ((hmem _).mp (hp.mem_iff.mp hm)).2.1 rfl
      · exact ((hmem _).mp (hp.mem_iff.mp hm)).2.2 rfl
    · rintro ⟨h1, h2, h3⟩
      refine (List.perm_ext_iff_of_nodup h1 hnd).mpr fun k => ?_
      rw [hmem]
      constructor
      · intro hk
        exact ⟨hk, fun he => h2 (he ▸ hk), fun he => h3 (he ▸ hk)⟩
      · exact fun h => h.1
  constructor
  · intro hgood
    obtain ⟨hn, hr1, hr2⟩ := hgood
    unfold ofDict
    rw [g1, g2]
    simp only [← hd']
    rw [if_pos (hperm.mpr ⟨hn, hr1, hr2⟩)]
    rw [(makeFun_valid _ _ _ _ ((checkNames_iff _).mp hB.names1) ((checkNames_iff _).mp hB.names2)).1]
    have hrows : (B.ind1.map fun a => B.ind2.map fun b => match d'.get (key (a, b)) with | some (.gf j) => j | _ => 0) = B.rows := by
      conv_rhs => rw [rows_eq B hB]
      refine List.map_congr_left fun a ha => List.map_congr_left fun b hb => ?_
      have hk : key (a, b) ∈ (B.ind1.product B.ind2).map key := List.mem_map_of_mem (List.mem_product.mpr ⟨ha, hb⟩)
      have hi : ((a, b), B.at a b) ∈ B.iter := by
        rw [iter_eq B hB]
        exact List.mem_map.mpr ⟨(a, b), List.mem_product.mpr ⟨ha, hb⟩, rfl⟩
      have n1 : key (a, b) ≠ "block_names1" := fun he => hr1 (he ▸ hk)
      have n2 : key (a, b) ≠ "block_names2" := fun he => hr2 (he ▸ hk)
      have hget : d'.get (key (a, b)) = some (.gf (B.at a b)) := by
        rw [hd', pop_get _ _ _ (key_note _), pop_get _ _ _ n2, pop_get _ _ _ n1, hD, set_get, if_neg n2, set_get, if_neg n1]
        exact fill_get B.iter [] (by rw [hkeys]; exact hn) _ hi
      rw [hget]
    rw [hrows]
  · intro hbad
    unfold ofDict
    rw [g1, g2]
    simp only [← hd']
    rw [if_neg fun hp => hbad (hperm.mp hp)]

/-! ### Examples -/

def exB : Block2 := ⟨"chi", [.str "up", .str "down"], [.str "up", .str "down"], [[0, 1], [2, 3]]⟩

theorem exB_valid : exB.Valid := ⟨by decide +kernel, by decide +kernel, rfl, by decide⟩

example : exB.iter = [((.str "up", .str "up"), 0), ((.str "up", .str "down"), 1), ((.str "down", .str "up"), 2), ((.str "down", .str "down"), 3)] := by
  decide +kernel

/-- the order of a view is that of the selection, although the documentation says "in the same order as self" -/
theorem C147_view_order : viewSelected exB [.str "down", .str "up"] [.str "up"] =
    .ok ⟨"", [.str "down", .str "up"], [.str "up"], [[2], [0]]⟩ := by decide +kernel

example : exB.get (.str "up", .str "dn") = .error .value := by decide +kernel

example : ofDict exB.name (toDict exB) = .ok exB := by decide +kernel

/-- names that coincide after joining: such a function can be written but not read -/
theorem C147_collision : let B : Block2 := ⟨"", [.str "a", .str "a_b"], [.str "b_c", .str "c"], [[0, 1], [2, 3]]⟩
    make B.name B.ind1 B.ind2 B.rows = .ok B ∧ ofDict B.name (toDict B) = .error .assertion := by decide +kernel

/-- the reserved key in two pieces -/
theorem C147_reserved : let B : Block2 := ⟨"", [.str "block"], [.str "names1"], [[7]]⟩
    make B.name B.ind1 B.ind2 B.rows = .ok B ∧ ofDict B.name (toDict B) = .error .assertion := by decide +kernel

example : ((allIndices exH ⟨"", [.str "a"], [.str "b"], [[0]]⟩).map Prod.snd).Perm [[0, 0], [1, 0], [0, 1], [1, 1]] := by decide +kernel

example : (allIndices1 exH exG).length = 8 := by decide +kernel

end Verif.PyBlock2
