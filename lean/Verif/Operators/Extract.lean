import Verif.Operators.Archive
import Mathlib.Algebra.Field.Basic
import Mathlib.Algebra.Field.Rat
import Mathlib.Algebra.Star.Rat
import Mathlib.Data.List.Nodup
import Mathlib.Tactic.Ring
import Mathlib.Tactic.FieldSimp
import Mathlib.Tactic.NoncommRing
import Mathlib.Tactic.Abel

/-!
# Properties C08, C09, C73, C74: coefficient extraction

Source: `/repo/c++/triqs/operators/util/extractors.hpp`.

Simplifications: scalars are an exact field (characteristic not 2 where `0.5` is used); a
`std::map` dictionary is an association list without duplicate keys (its iteration order is not
observable through the claims).
-/

set_option linter.unusedSectionVars false

namespace Verif.Operators
open Verif.Fock
open Verif.Fops (Comp Fops)

/-! ## Model -/

/-- `dict2_t` / `dict4_t`, extractors.hpp:38-41. -/
abbrev Dict (K R : Type) := List (K × R)

section dict
variable {ι : Type} [LinearOrder ι] {R : Type}

/-- `std::map::insert`: an existing entry is kept. -/
def dictInsert {K : Type} [DecidableEq K] (d : Dict K R) (kv : K × R) : Dict K R :=
  if d.any (fun e => decide (e.1 = kv.1)) then d else d ++ [kv]

/-- The loop shared by the three extractors (extractors.hpp:63-76, 99-113, 136-152):
`f` gives the entries inserted for a term of the right form and `none` for another term, for which
the loop throws (`none`) unless `ig`. -/
def extractLoop {K : Type} [DecidableEq K] (f : Mono ι × R → Option (List (K × R))) (ig : Bool) :
    MMap ι R → Dict K R → Option (Dict K R)
  | [], d => some d
  | e :: es, d =>
    match f e with
    | some l => extractLoop f ig es (l.foldl dictInsert d)
    | none => if ig then extractLoop f ig es d else none

/-- body of the loop of `extract_h_dict`, extractors.hpp:67-75. -/
def hEntries : Mono ι × R → Option (List ((ι × ι) × R))
  | ([a, b], x) => if a.dagger && !b.dagger then some [((a.idx, b.idx), x)] else none
  | _ => none

/-- `extract_h_dict`, extractors.hpp:59-79. -/
def extractH (ig : Bool) (h : MMap ι R) : Option (Dict (ι × ι) R) := extractLoop hEntries ig h []

/-- body of the loop of `extract_U_dict2`, extractors.hpp:103-112. -/
def u2Entries : Mono ι × R → Option (List ((ι × ι) × R))
  | ([a, b, c, d], x) =>
    if !(a.dagger && b.dagger && !c.dagger && !d.dagger) || decide (a.idx ≠ d.idx) || decide (b.idx ≠ c.idx)
    then none else some [((a.idx, b.idx), x), ((b.idx, a.idx), x)]
  | _ => none

/-- `extract_U_dict2`, extractors.hpp:95-116. -/
def extractU2 (ig : Bool) (h : MMap ι R) : Option (Dict (ι × ι) R) := extractLoop u2Entries ig h []

/-- body of the loop of `extract_U_dict4`, extractors.hpp:140-151. -/
def u4Entries [Field R] : Mono ι × R → Option (List ((ι × ι × ι × ι) × R))
  | ([a, b, c, d], x) =>
    if !(a.dagger && b.dagger && !c.dagger && !d.dagger) then none
    else some [((a.idx, b.idx, d.idx, c.idx), (1 / 2) * x), ((b.idx, a.idx, c.idx, d.idx), (1 / 2) * x),
      ((a.idx, b.idx, c.idx, d.idx), (-(1 / 2)) * x), ((b.idx, a.idx, d.idx, c.idx), (-(1 / 2)) * x)]
  | _ => none

/-- `extract_U_dict4`, extractors.hpp:132-155. -/
def extractU4 [Field R] (ig : Bool) (h : MMap ι R) : Option (Dict (ι × ι × ι × ι) R) :=
  extractLoop u4Entries ig h []

/-- `filter_op`, extractors.hpp:224-233 (`+= term` converts the term through
`normalize_and_insert`, many_body_operator.hpp:119-120); `quadratic_terms` and `quartic_terms` are
`len = 2`, `len = 4`. -/
def filterOp [CommRing R] [DecidableEq R] (h : MMap ι R) (len : Nat) : MMap ι R :=
  h.foldl (fun t e => if e.1.length = len then add t (normalizeAndInsert e.1 e.2 []) else t) []

/-- the tuple of linear indices computed for a key, extractors.hpp:182-186, 192; `none`: exception
because a label is not in `fs`. -/
def keyPositions (fs : Fops ι) : List ι → Option (List Nat)
  | [] => some []
  | x :: xs => match Verif.Fops.position fs x, keyPositions fs xs with
    | some p, some ps => some (p :: ps)
    | _, _ => none

/-- `dict_to_matrix`, extractors.hpp:175-195, with the key tuple as a list and the array as the
function from positions to elements. -/
def dictToMatrix [Zero R] (fs : Fops ι) : Dict (List ι) R → (List Nat → R) → Option (List Nat → R)
  | [], mat => some mat
  | (k, v) :: d, mat => match keyPositions fs k with
    | some p => dictToMatrix fs d (Function.update mat p v)
    | none => none
end dict

section block
variable {R : Type}

/-- `gf_struct_t`: block names and sizes. -/
abbrev GfStruct := List (List Char × Nat)

/-- a block matrix: element `(i,j)` of block `bl` -/
abbrev BlMat (R : Type) := Nat → Nat → Nat → R

/-- what the body of the loop of `block_matrix_from_op` does with a term -/
inductive EOut where
  /-- the assignment `bl_mat[bl](i,j) = coef` -/
  | set (bl i j : Nat)
  /-- the `else` branch, extractors.hpp:295-297 -/
  | irrelevant
  /-- `std::bad_variant_access` -/
  | badVariant
  /-- read or write out of bounds -/
  | undef
deriving DecidableEq, Repr

/-- `name_to_bl`, extractors.hpp:279-283: position of the first block of that name;
`none` is `n_bl`. -/
def nameToBl : GfStruct → List Char → Option Nat
  | [], _ => none
  | g :: gs, s => if s = g.1 then some 0 else (nameToBl gs s).map (· + 1)

/-- extractors.hpp:291-295: the two `std::get` and the indexing of the block matrix. -/
def readEntry (gs : GfStruct) (a b : COp (List Comp)) : EOut :=
  match a.idx with
  | [] => .undef
  | .int _ :: _ => .badVariant
  | .str _ :: [] => .undef
  | .str _ :: .str _ :: _ => .badVariant
  | .str s :: .int i :: _ =>
    match b.idx with
    | [] => .undef
    | _ :: [] => .undef
    | _ :: .str _ :: _ => .badVariant
    | _ :: .int j :: _ =>
      match nameToBl gs s with
      | none => .undef
      | some bl =>
        match gs[bl]? with
        | none => .undef
        | some g => if 0 ≤ i ∧ i < g.2 ∧ 0 ≤ j ∧ j < g.2 then .set bl i.toNat j.toNat else .undef

/-- extractors.hpp:289-298. The condition is
`m.size() == 2 and m[0].dagger and not m[1].dagger and m[0].indices[0] == m[1].indices[0] and
m[0].indices.size() == 2 or m[1].indices.size() == 2`; `m[1]` is read in every case. -/
def blockEntry (gs : GfStruct) : Mono (List Comp) → EOut
  | [] => .undef
  | [_] => .undef
  | a :: b :: rest =>
    if rest.isEmpty && a.dagger && !b.dagger then
      match a.idx, b.idx with
      | x :: xs, y :: ys =>
        if (decide (x = y) && decide ((x :: xs).length = 2)) || decide ((y :: ys).length = 2)
        then readEntry gs a b else .irrelevant
      | _, _ => .undef
    else if b.idx.length = 2 then readEntry gs a b else .irrelevant

/-- result of `block_matrix_from_op` -/
inductive BMRes (R : Type) where
  | ok (M : BlMat R)
  | exn
  | undef

/-- `bl_mat[bl](i,j) = coef` -/
def setEntry (M : BlMat R) (bl i j : Nat) (x : R) : BlMat R :=
  fun bl' i' j' => if bl' = bl ∧ i' = i ∧ j' = j then x else M bl' i' j'

/-- the loop of `block_matrix_from_op`, extractors.hpp:285-300. -/
def blockLoop (gs : GfStruct) (ig : Bool) : MMap (List Comp) R → BlMat R → BMRes R
  | [], M => .ok M
  | e :: es, M =>
    match blockEntry gs e.1 with
    | .set bl i j => blockLoop gs ig es (setEntry M bl i j e.2)
    | .irrelevant => if ig then blockLoop gs ig es M else .exn
    | .badVariant => .exn
    | .undef => .undef

/-- `block_matrix_from_op`, extractors.hpp:268-303. -/
def blockFromOp [Zero R] (gs : GfStruct) (ig : Bool) (h : MMap (List Comp) R) : BMRes R :=
  blockLoop gs ig h (fun _ _ _ => 0)

/-- label `(bl_name, i)` -/
def lab (s : List Char) (i : Nat) : List Comp := [.str s, .int i]

/-- the iteration space of the two loops extractors.hpp:322-330, in order -/
def triplesFrom : Nat → GfStruct → List (Nat × List Char × Nat × Nat)
  | _, [] => []
  | bl, g :: gs =>
    (List.range g.2).flatMap (fun i => (List.range g.2).map (fun j => (bl, g.1, i, j))) ++ triplesFrom (bl + 1) gs

/-- `op_from_block_matrix`, extractors.hpp:315-333. -/
def opFromBlock [CommRing R] [DecidableEq R] (gs : GfStruct) (M : BlMat R) : MMap (List Comp) R :=
  (triplesFrom 0 gs).foldl (fun h t =>
    add h (mul (smul (cDag (lab t.2.1 t.2.2.1)) (M t.1 t.2.2.1 t.2.2.2)) (c (lab t.2.1 t.2.2.2)))) []

end block

/-! ## Specification -/

section spec
variable {ι : Type} [LinearOrder ι] {R : Type}

/-- the monomial is `c†_i c_j` -/
def isHop : Mono ι → Bool
  | [⟨true, _⟩, ⟨false, _⟩] => true
  | _ => false

/-- the monomial is `c†_i c†_j c_j c_i` -/
def isDensDens : Mono ι → Bool
  | [⟨true, i⟩, ⟨true, j⟩, ⟨false, k⟩, ⟨false, l⟩] => decide (i = l) && decide (j = k)
  | _ => false

/-- the monomial is `c†_i c†_j c_l c_k` -/
def isQuartic : Mono ι → Bool
  | [⟨true, _⟩, ⟨true, _⟩, ⟨false, _⟩, ⟨false, _⟩] => true
  | _ => false

variable [Field R] [DecidableEq R]

/-- `Σ h_ij c†_i c_j`, computed with the operator library. -/
def sumH (d : Dict (ι × ι) R) : MMap ι R :=
  d.foldl (fun t e => add t (smul (mul (cDag e.1.1) (c e.1.2)) e.2)) []

/-- `½ Σ U_ij n_i n_j` -/
def sumU2 (d : Dict (ι × ι) R) : MMap ι R :=
  smul (d.foldl (fun t e => add t (smul (mul (nOp e.1.1) (nOp e.1.2)) e.2)) []) (1 / 2)

/-- `½ Σ U_ijkl c†_i c†_j c_l c_k` -/
def sumU4 (d : Dict (ι × ι × ι × ι) R) : MMap ι R :=
  smul (d.foldl (fun t e => add t (smul
    (mul (mul (mul (cDag e.1.1) (cDag e.1.2.1)) (c e.1.2.2.2)) (c e.1.2.2.1)) e.2)) []) (1 / 2)

/-- coefficient of a monomial (the sum over equal keys) -/
def coeff (a : MMap ι R) (m : Mono ι) : R := ((a.filter (fun e => decide (e.1 = m))).map (·.2)).sum

end spec

/-! ## Proofs -/

section dictproofs
variable {ι : Type} [LinearOrder ι] {R : Type} {K : Type} [DecidableEq K]

theorem extractLoop_eq (f : Mono ι × R → Option (List (K × R))) (ig : Bool) (h : MMap ι R) (d : Dict K R) :
    extractLoop f ig h d = if ig = false ∧ ∃ e ∈ h, f e = none then none
      else some ((h.flatMap (fun e => (f e).getD [])).foldl dictInsert d) := by
  induction h generalizing d with
  | nil => simp [extractLoop]
  | cons e es ih =>
    unfold extractLoop
    cases hf : f e with
    | some l =>
      simp only [ih, List.mem_cons, exists_eq_or_imp, hf, List.flatMap_cons, Option.getD_some, List.foldl_append,
        reduceCtorEq, false_or]
    | none =>
      cases ig
      · simp [hf]
      · simp [ih, hf]

theorem dictInsert_new (d : Dict K R) (kv : K × R) (h : kv.1 ∉ d.map (·.1)) : dictInsert d kv = d ++ [kv] := by
  unfold dictInsert
  rw [if_neg]
  simp only [List.any_eq_true, decide_eq_true_eq, not_exists, not_and]
  intro e he hk
  exact h (hk ▸ List.mem_map_of_mem he)

theorem foldl_dictInsert (l d : Dict K R) (h : ((d ++ l).map (·.1)).Nodup) : l.foldl dictInsert d = d ++ l := by
  induction l generalizing d with
  | nil => simp
  | cons e l ih =>
    rw [List.foldl_cons, dictInsert_new]
    · rw [ih]
      · simp
      · simpa using h
    · simp only [List.map_append, List.map_cons] at h
      have := (List.nodup_append.mp h).2.2
      intro hm
      exact this _ hm _ (by simp) rfl

/-- distinct keys, given per-term keys that determine the monomial -/
theorem flatMap_keys_nodup (f : Mono ι × R → Option (List (K × R))) (h : MMap ι R)
    (hs : h.Pairwise (fun e g => e.1 ≠ g.1))
    (h1 : ∀ e ∈ h, ((f e).getD []).map (·.1) |>.Nodup)
    (h2 : ∀ e ∈ h, ∀ g ∈ h, ∀ x ∈ (f e).getD [], ∀ y ∈ (f g).getD [], x.1 = y.1 → e.1 = g.1) :
    ((h.flatMap (fun e => (f e).getD [])).map (·.1)).Nodup := by
  rw [List.map_flatMap, List.nodup_flatMap]
  refine ⟨h1, ?_⟩
  refine List.Pairwise.imp_of_mem ?_ hs
  intro e g he hg hne
  simp only [Function.onFun]
  rw [List.disjoint_left]
  intro k hk hk'
  rw [List.mem_map] at hk hk'
  obtain ⟨x, hx, rfl⟩ := hk
  obtain ⟨y, hy, hxy⟩ := hk'
  exact hne (h2 e he g hg x hx y hy hxy.symm)
end dictproofs

section sums
variable {ι : Type} [LinearOrder ι] {R : Type} [Field R] [DecidableEq R]

omit [Field R] [DecidableEq R] in
theorem Canonical.keys_ne [Field R] [DecidableEq R] {a : MMap ι R} (h : Canonical a) :
    a.Pairwise (fun e g => e.1 ≠ g.1) := by
  refine h.sorted.imp ?_
  intro e g hlt heq
  rw [heq, monoLt_irrefl] at hlt
  exact absurd hlt (by simp)

theorem foldl_add_action {K : Type} (F : K × R → MMap ι R) (d : Dict K R) (t : MMap ι R) :
    action (d.foldl (fun t e => add t (F e)) t) = action t + (d.map (fun e => action (F e))).sum := by
  induction d generalizing t with
  | nil => simp
  | cons e d ih => simp [ih, add_action, add_assoc]

theorem foldl_add_canonical {K : Type} (F : K × R → MMap ι R) (hF : ∀ e, Canonical (F e)) (d : Dict K R)
    (t : MMap ι R) (ht : Canonical t) : Canonical (d.foldl (fun t e => add t (F e)) t) := by
  induction d generalizing t with
  | nil => exact ht
  | cons e d ih => exact ih _ (add_canonical ht (hF e))

omit [DecidableEq R] in
/-- summing per-term values over the flattened entries -/
theorem sum_flatMap_entries {K : Type} (f : Mono ι × R → Option (List (K × R)))
    (V : K × R → Module.End R (Space ι R)) (good : Mono ι → Bool) (h : MMap ι R)
    (hnone : ∀ e ∈ h, f e = none ↔ good e.1 = false)
    (hval : ∀ e ∈ h, ∀ l, f e = some l → (l.map V).sum = e.2 • monoAct e.1) :
    ((h.flatMap (fun e => (f e).getD [])).map V).sum = action (h.filter (fun e => good e.1)) := by
  induction h with
  | nil => simp
  | cons e h ih =>
    have ih' := ih (fun g hg => hnone g (by simp [hg])) (fun g hg => hval g (by simp [hg]))
    rw [List.flatMap_cons, List.map_append, List.sum_append, ih']
    cases hf : f e with
    | none =>
      rw [List.filter_cons_of_neg (by simp [(hnone e (by simp)).mp hf])]
      simp
    | some l =>
      have hg : good e.1 = true := by
        by_contra hc
        rw [(hnone e (by simp)).mpr (by simpa using hc)] at hf
        simp at hf
      rw [List.filter_cons_of_pos (by simp [hg]), action_cons, ← hval e (by simp) l hf]
      simp

omit [Field R] in
theorem filter_canonical [Field R] {a : MMap ι R} (h : Canonical a) (p : Mono ι × R → Bool) : Canonical (a.filter p) :=
  ⟨h.sorted.sublist List.filter_sublist,
   fun e he => h.normal e (List.mem_of_mem_filter he), fun e he => h.nonzero e (List.mem_of_mem_filter he)⟩

theorem eqOp_of_action {a b : MMap ι R} (ha : Canonical a) (hb : Canonical b) (h : action a = action b) :
    eqOp a b = true := by
  rw [eqOp_iff_melem ha hb]
  intro T S; rw [h]

theorem c_canonical (i : ι) : Canonical (c i : MMap ι R) := makeCanonical_canonical _ _
theorem cDag_canonical (i : ι) : Canonical (cDag i : MMap ι R) := makeCanonical_canonical _ _
theorem nOp_canonical (i : ι) : Canonical (nOp i : MMap ι R) := mul_canonical (cDag_canonical i) (c_canonical i)

theorem sumH_canonical (d : Dict (ι × ι) R) : Canonical (sumH d) :=
  foldl_add_canonical (fun e : (ι × ι) × R => smul (mul (cDag e.1.1) (c e.1.2)) e.2)
    (fun e => smul_canonical (mul_canonical (cDag_canonical _) (c_canonical _)) _) d [] canonical_nil

theorem sumU2_canonical (d : Dict (ι × ι) R) : Canonical (sumU2 d) :=
  smul_canonical (foldl_add_canonical (fun e : (ι × ι) × R => smul (mul (nOp e.1.1) (nOp e.1.2)) e.2)
    (fun e => smul_canonical (mul_canonical (nOp_canonical _) (nOp_canonical _)) _) d [] canonical_nil) _

theorem sumU4_canonical (d : Dict (ι × ι × ι × ι) R) : Canonical (sumU4 d) :=
  smul_canonical (foldl_add_canonical (fun e : (ι × ι × ι × ι) × R => smul
      (mul (mul (mul (cDag e.1.1) (cDag e.1.2.1)) (c e.1.2.2.2)) (c e.1.2.2.1)) e.2)
    (fun e => smul_canonical (mul_canonical (mul_canonical (mul_canonical (cDag_canonical _)
      (cDag_canonical _)) (c_canonical _)) (c_canonical _)) _) d [] canonical_nil) _

theorem sumH_action (d : Dict (ι × ι) R) :
    action (sumH d) = (d.map (fun e => e.2 • (create e.1.1 * annihilate e.1.2 : Module.End R (Space ι R)))).sum := by
  unfold sumH
  rw [foldl_add_action (fun e : (ι × ι) × R => smul (mul (cDag e.1.1) (c e.1.2)) e.2)]
  simp [smul_action, mul_action, c_action, cDag_action]

omit [DecidableEq R] in
theorem smul_list_sum (x : R) (l : List (Module.End R (Space ι R))) : x • l.sum = (l.map (x • ·)).sum := by
  induction l with
  | nil => simp
  | cons y l ih => simp [ih]

theorem sumU2_action (d : Dict (ι × ι) R) :
    action (sumU2 d) = (d.map (fun e => ((1 / 2 : R) * e.2) • (create e.1.1 * annihilate e.1.1 *
      (create e.1.2 * annihilate e.1.2) : Module.End R (Space ι R)))).sum := by
  unfold sumU2
  rw [smul_action, foldl_add_action (fun e : (ι × ι) × R => smul (mul (nOp e.1.1) (nOp e.1.2)) e.2), action_nil, zero_add,
    smul_list_sum, List.map_map]
  refine congrArg List.sum (List.map_congr_left ?_)
  intro e _
  simp [smul_action, mul_action, nOp, c_action, cDag_action, mul_smul]

theorem sumU4_action (d : Dict (ι × ι × ι × ι) R) :
    action (sumU4 d) = (d.map (fun e => ((1 / 2 : R) * e.2) • (create e.1.1 * create e.1.2.1 *
      annihilate e.1.2.2.2 * annihilate e.1.2.2.1 : Module.End R (Space ι R)))).sum := by
  unfold sumU4
  rw [smul_action, foldl_add_action (fun e : (ι × ι × ι × ι) × R => smul
      (mul (mul (mul (cDag e.1.1) (cDag e.1.2.1)) (c e.1.2.2.2)) (c e.1.2.2.1)) e.2), action_nil, zero_add,
    smul_list_sum, List.map_map]
  refine congrArg List.sum (List.map_congr_left ?_)
  intro e _
  simp [smul_action, mul_action, c_action, cDag_action, mul_smul]

/-! ### the three forms -/

omit [Field R] [DecidableEq R] in
theorem hEntries_none (e : Mono ι × R) : hEntries e = none ↔ isHop e.1 = false := by
  obtain ⟨m, x⟩ := e
  unfold hEntries isHop
  split
  · rename_i a b y heq
    obtain ⟨rfl, rfl⟩ := Prod.mk.inj heq
    obtain ⟨da, ia⟩ := a; obtain ⟨db, ib⟩ := b
    cases da <;> cases db <;> simp
  · rename_i hne
    simp only [true_iff]
    split
    · rename_i i j
      exact absurd rfl (hne _ _ _)
    · rfl

omit [Field R] [DecidableEq R] in
theorem hEntries_some {e : Mono ι × R} {l} (h : hEntries e = some l) :
    ∃ i j, e.1 = [⟨true, i⟩, ⟨false, j⟩] ∧ l = [((i, j), e.2)] := by
  obtain ⟨m, x⟩ := e
  unfold hEntries at h
  split at h
  · rename_i a b y heq
    obtain ⟨rfl, rfl⟩ := Prod.mk.inj heq
    obtain ⟨da, ia⟩ := a; obtain ⟨db, ib⟩ := b
    cases da <;> cases db <;> simp at h
    exact ⟨ia, ib, rfl, h.symm⟩
  · simp at h

omit [Field R] [DecidableEq R] in
theorem u2Entries_none (e : Mono ι × R) : u2Entries e = none ↔ isDensDens e.1 = false := by
  obtain ⟨m, x⟩ := e
  unfold u2Entries isDensDens
  split
  · rename_i a b c d y heq
    obtain ⟨rfl, rfl⟩ := Prod.mk.inj heq
    obtain ⟨da, ia⟩ := a; obtain ⟨db, ib⟩ := b; obtain ⟨dc, ic⟩ := c; obtain ⟨dd, id⟩ := d
    cases da <;> cases db <;> cases dc <;> cases dd <;> simp
  · rename_i hne
    simp only [true_iff]
    split
    · exact absurd rfl (hne _ _ _ _ _)
    · rfl

omit [Field R] [DecidableEq R] in
theorem u2Entries_some {e : Mono ι × R} {l} (h : u2Entries e = some l) :
    ∃ i j, e.1 = [⟨true, i⟩, ⟨true, j⟩, ⟨false, j⟩, ⟨false, i⟩] ∧ l = [((i, j), e.2), ((j, i), e.2)] := by
  obtain ⟨m, x⟩ := e
  unfold u2Entries at h
  split at h
  · rename_i a b c d y heq
    obtain ⟨rfl, rfl⟩ := Prod.mk.inj heq
    obtain ⟨da, ia⟩ := a; obtain ⟨db, ib⟩ := b; obtain ⟨dc, ic⟩ := c; obtain ⟨dd, id⟩ := d
    cases da <;> cases db <;> cases dc <;> cases dd <;> simp at h
    obtain ⟨⟨rfl, rfl⟩, rfl⟩ := h
    exact ⟨ia, ib, rfl, rfl⟩
  · simp at h

omit [DecidableEq R] in
theorem u4Entries_none (e : Mono ι × R) : u4Entries e = none ↔ isQuartic e.1 = false := by
  obtain ⟨m, x⟩ := e
  unfold u4Entries isQuartic
  split
  · rename_i a b c d y heq
    obtain ⟨rfl, rfl⟩ := Prod.mk.inj heq
    obtain ⟨da, ia⟩ := a; obtain ⟨db, ib⟩ := b; obtain ⟨dc, ic⟩ := c; obtain ⟨dd, id⟩ := d
    cases da <;> cases db <;> cases dc <;> cases dd <;> simp
  · rename_i hne
    simp only [true_iff]
    split
    · exact absurd rfl (hne _ _ _ _ _)
    · rfl

omit [DecidableEq R] in
theorem u4Entries_some {e : Mono ι × R} {l} (h : u4Entries e = some l) :
    ∃ i j k m, e.1 = [⟨true, i⟩, ⟨true, j⟩, ⟨false, k⟩, ⟨false, m⟩] ∧
      l = [((i, j, m, k), (1 / 2) * e.2), ((j, i, k, m), (1 / 2) * e.2),
        ((i, j, k, m), (-(1 / 2)) * e.2), ((j, i, m, k), (-(1 / 2)) * e.2)] := by
  obtain ⟨m, x⟩ := e
  unfold u4Entries at h
  split at h
  · rename_i a b c d y heq
    obtain ⟨rfl, rfl⟩ := Prod.mk.inj heq
    obtain ⟨da, ia⟩ := a; obtain ⟨db, ib⟩ := b; obtain ⟨dc, ic⟩ := c; obtain ⟨dd, id⟩ := d
    cases da <;> cases db <;> cases dc <;> cases dd <;> simp at h
    exact ⟨ia, ib, ic, id, rfl, by simp [← h]⟩
  · simp at h

omit [Field R] [DecidableEq R] in
theorem normal4 {i j k m : ι} (h : NormalOrdered [(⟨true, i⟩ : COp ι), ⟨true, j⟩, ⟨false, k⟩, ⟨false, m⟩]) :
    i < j ∧ m < k := by
  unfold NormalOrdered at h
  simp [COp.lt] at h
  exact h

omit [DecidableEq R] in
/-- `n_i n_j = c†_i c†_j c_j c_i` for `i ≠ j` -/
theorem dens_dens {i j : ι} (h : i ≠ j) :
    (create i * annihilate i * (create j * annihilate j) : Module.End R (Space ι R))
      = create i * (create j * (annihilate j * annihilate i)) := by
  have h1 := annihilate_create_ne (R := R) i j h
  have h2 := annihilate_anti (R := R) i j
  have e1 : (create i * annihilate i * (create j * annihilate j) : Module.End R (Space ι R))
      = create i * (annihilate i * create j) * annihilate j := by simp only [mul_assoc]
  rw [e1, h1, mul_neg_end, neg_mul_end]
  have e2 : (create i * (create j * annihilate i) * annihilate j : Module.End R (Space ι R))
      = create i * (create j * (annihilate i * annihilate j)) := by simp only [mul_assoc]
  rw [e2, h2, mul_neg_end, mul_neg_end, neg_neg]

omit [DecidableEq R] in
theorem dens_dens' {i j : ι} (h : i ≠ j) :
    (create j * annihilate j * (create i * annihilate i) : Module.End R (Space ι R))
      = create i * (create j * (annihilate j * annihilate i)) := by
  rw [dens_dens (Ne.symm h), annihilate_anti (R := R) i j, mul_neg_end, mul_neg_end, ← mul_assoc,
    create_anti (R := R) j i, neg_mul_end, neg_neg, mul_assoc]


theorem C08_keys_h {a : MMap ι R} (ha : Canonical a) :
    ((a.flatMap (fun e => (hEntries e).getD [])).map (·.1)).Nodup := by
  apply flatMap_keys_nodup _ _ ha.keys_ne
  · intro e _
    cases h : hEntries e with
    | none => simp
    | some l => obtain ⟨i, j, _, rfl⟩ := hEntries_some h; simp
  · intro e _ g _ x hx y hy hxy
    cases h : hEntries e with
    | none => simp [h] at hx
    | some l =>
      cases h' : hEntries g with
      | none => simp [h'] at hy
      | some l' =>
        obtain ⟨i, j, he, rfl⟩ := hEntries_some h
        obtain ⟨i', j', hg, rfl⟩ := hEntries_some h'
        simp [h] at hx; simp [h'] at hy
        subst hx; subst hy
        simp at hxy
        rw [he, hg, hxy.1, hxy.2]

theorem C08_keys_u2 {a : MMap ι R} (ha : Canonical a) :
    ((a.flatMap (fun e => (u2Entries e).getD [])).map (·.1)).Nodup := by
  apply flatMap_keys_nodup _ _ ha.keys_ne
  · intro e hm
    cases h : u2Entries e with
    | none => simp
    | some l =>
      obtain ⟨i, j, he, rfl⟩ := u2Entries_some h
      have hn := ha.normal e hm
      rw [he] at hn
      have := (normal4 hn).1
      simp
      intro h1; exact absurd h1 this.ne
  · intro e hm g hm' x hx y hy hxy
    cases h : u2Entries e with
    | none => simp [h] at hx
    | some l =>
      cases h' : u2Entries g with
      | none => simp [h'] at hy
      | some l' =>
        obtain ⟨i, j, he, rfl⟩ := u2Entries_some h
        obtain ⟨i', j', hg, rfl⟩ := u2Entries_some h'
        have hn := ha.normal e hm
        have hn' := ha.normal g hm'
        rw [he] at hn; rw [hg] at hn'
        have h1 := (normal4 hn).1
        have h2 := (normal4 hn').1
        simp [h] at hx; simp [h'] at hy
        rcases hx with rfl | rfl <;> rcases hy with rfl | rfl <;> simp at hxy <;> obtain ⟨rfl, rfl⟩ := hxy
        · rw [he, hg]
        · exact absurd h1 h2.asymm
        · exact absurd h1 h2.asymm
        · rw [he, hg]

theorem C08_keys_u4 {a : MMap ι R} (ha : Canonical a) :
    ((a.flatMap (fun e => (u4Entries e).getD [])).map (·.1)).Nodup := by
  apply flatMap_keys_nodup _ _ ha.keys_ne
  · intro e hm
    cases h : u4Entries e with
    | none => simp
    | some l =>
      obtain ⟨i, j, k, m, he, rfl⟩ := u4Entries_some h
      have hn := ha.normal e hm
      rw [he] at hn
      have h1 := (normal4 hn).1.ne
      have h2 := (normal4 hn).2.ne
      have h1' := h1.symm
      have h2' := h2.symm
      simp [h1, h2, h1', h2']
  · intro e hm g hm' x hx y hy hxy
    cases h : u4Entries e with
    | none => simp [h] at hx
    | some l =>
      cases h' : u4Entries g with
      | none => simp [h'] at hy
      | some l' =>
        obtain ⟨i, j, k, m, he, rfl⟩ := u4Entries_some h
        obtain ⟨i', j', k', m', hg, rfl⟩ := u4Entries_some h'
        have hn := ha.normal e hm
        have hn' := ha.normal g hm'
        rw [he] at hn; rw [hg] at hn'
        have h1 := normal4 hn
        have h2 := normal4 hn'
        simp [h] at hx; simp [h'] at hy
        rcases hx with rfl | rfl | rfl | rfl <;> rcases hy with rfl | rfl | rfl | rfl <;> simp at hxy <;>
          obtain ⟨rfl, rfl, rfl, rfl⟩ := hxy <;>
          first
          | (rw [he, hg]; done)
          | exact absurd h1.1 h2.1.asymm
          | exact absurd h1.2 h2.2.asymm

/-- common part of the three claims: refusal, distinct keys, and the exact dictionary -/
theorem extract_eq {K : Type} [DecidableEq K] (f : Mono ι × R → Option (List (K × R))) (good : Mono ι → Bool)
    (hf : ∀ e, f e = none ↔ good e.1 = false) (a : MMap ι R)
    (hk : ((a.flatMap (fun e => (f e).getD [])).map (·.1)).Nodup) (ig : Bool) :
    (extractLoop f ig a [] = none ↔ ig = false ∧ ∃ e ∈ a, good e.1 = false) ∧
    ∀ d, extractLoop f ig a [] = some d → d = a.flatMap (fun e => (f e).getD []) := by
  rw [extractLoop_eq, foldl_dictInsert _ _ (by simpa using hk)]
  have h1 : (∃ e ∈ a, f e = none) ↔ ∃ e ∈ a, good e.1 = false := by
    simp only [hf]
  simp only [h1]
  constructor
  · by_cases hc : ig = false ∧ ∃ e ∈ a, good e.1 = false
    · simp only [if_pos hc, true_iff]; exact hc
    · simp only [if_neg hc, reduceCtorEq, false_iff]; exact hc
  · intro d hd
    by_cases hc : ig = false ∧ ∃ e ∈ a, good e.1 = false
    · rw [if_pos hc] at hd; simp at hd
    · rw [if_neg hc] at hd; simpa using hd.symm

/-- **C08**, quadratic form. For an operator object built by any history: the extraction fails iff
it is asked not to ignore and some stored term is not `c†_i c_j`; otherwise the keys are distinct,
the coefficients are non-zero and `Σ h_ij c†_i c_j` is `==` to the terms of that form. -/
theorem C08_extract_h [StarRing R] (h : Hist ι R) (hr : h.RawNormal) (ig : Bool) :
    (extractH ig h.eval = none ↔ ig = false ∧ ∃ e ∈ h.eval, isHop e.1 = false) ∧
    ∀ d, extractH ig h.eval = some d →
      (d.map (·.1)).Nodup ∧ (∀ e ∈ d, e.2 ≠ 0) ∧
      eqOp (sumH d) (h.eval.filter (fun e => isHop e.1)) = true ∧
      (ig = false → eqOp (sumH d) h.eval = true) := by
  have ha := C03_always_canonical h hr
  generalize h.eval = a at ha
  obtain ⟨h1, h2⟩ := extract_eq hEntries isHop hEntries_none a (C08_keys_h ha) ig
  refine ⟨h1, ?_⟩
  intro d hd
  have hdd := h2 d hd
  have hE : eqOp (sumH d) (a.filter (fun e => isHop e.1)) = true := by
    apply eqOp_of_action (sumH_canonical d) (filter_canonical ha _)
    rw [sumH_action, hdd, sum_flatMap_entries hEntries _ isHop a (fun e _ => hEntries_none e)]
    intro e _ l hl
    obtain ⟨i, j, he, rfl⟩ := hEntries_some hl
    rw [he]; simp [opAct]
  refine ⟨hdd ▸ C08_keys_h ha, ?_, hE, ?_⟩
  · intro e he
    rw [hdd, List.mem_flatMap] at he
    obtain ⟨g, hg, hgl⟩ := he
    cases hf : hEntries g with
    | none => simp [hf] at hgl
    | some l =>
      obtain ⟨i, j, _, rfl⟩ := hEntries_some hf
      simp [hf] at hgl
      rw [hgl]; exact ha.nonzero g hg
  · rintro rfl
    have : a.filter (fun e => isHop e.1) = a := by
      rw [List.filter_eq_self]
      intro e he
      by_contra hc
      unfold extractH at hd
      rw [h1.mpr ⟨rfl, e, he, by simpa using hc⟩] at hd
      simp at hd
    rw [this] at hE; exact hE

/-- **C08**, density-density form. -/
theorem C08_extract_U2 [StarRing R] (h2 : (2 : R) ≠ 0) (h : Hist ι R) (hr : h.RawNormal) (ig : Bool) :
    (extractU2 ig h.eval = none ↔ ig = false ∧ ∃ e ∈ h.eval, isDensDens e.1 = false) ∧
    ∀ d, extractU2 ig h.eval = some d →
      (d.map (·.1)).Nodup ∧ (∀ e ∈ d, e.2 ≠ 0) ∧ (∀ i j x, ((i, j), x) ∈ d → ((j, i), x) ∈ d) ∧
      eqOp (sumU2 d) (h.eval.filter (fun e => isDensDens e.1)) = true ∧
      (ig = false → eqOp (sumU2 d) h.eval = true) := by
  have ha := C03_always_canonical h hr
  generalize h.eval = a at ha
  obtain ⟨h1, h3⟩ := extract_eq u2Entries isDensDens u2Entries_none a (C08_keys_u2 ha) ig
  refine ⟨h1, ?_⟩
  intro d hd
  have hdd := h3 d hd
  have hE : eqOp (sumU2 d) (a.filter (fun e => isDensDens e.1)) = true := by
    apply eqOp_of_action (sumU2_canonical d) (filter_canonical ha _)
    rw [sumU2_action, hdd, sum_flatMap_entries u2Entries _ isDensDens a (fun e _ => u2Entries_none e)]
    intro e hm l hl
    obtain ⟨i, j, he, rfl⟩ := u2Entries_some hl
    have hn := ha.normal e hm
    rw [he] at hn
    have hij := (normal4 hn).1.ne
    rw [he]
    simp only [List.map_cons, List.map_nil, List.sum_cons, List.sum_nil, add_zero]
    rw [dens_dens hij, dens_dens' hij, ← add_smul]
    have : (1 / 2 * e.2 + 1 / 2 * e.2 : R) = e.2 := by field_simp; ring
    rw [this]; simp [opAct]
  refine ⟨hdd ▸ C08_keys_u2 ha, ?_, ?_, hE, ?_⟩
  · intro e he
    rw [hdd, List.mem_flatMap] at he
    obtain ⟨g, hg, hgl⟩ := he
    cases hf : u2Entries g with
    | none => simp [hf] at hgl
    | some l =>
      obtain ⟨i, j, _, rfl⟩ := u2Entries_some hf
      simp [hf] at hgl
      rcases hgl with rfl | rfl <;> exact ha.nonzero g hg
  · intro i j x he
    rw [hdd, List.mem_flatMap] at he ⊢
    obtain ⟨g, hg, hgl⟩ := he
    refine ⟨g, hg, ?_⟩
    cases hf : u2Entries g with
    | none => simp [hf] at hgl
    | some l =>
      obtain ⟨i, j, _, rfl⟩ := u2Entries_some hf
      simp [hf] at hgl ⊢
      tauto
  · rintro rfl
    have : a.filter (fun e => isDensDens e.1) = a := by
      rw [List.filter_eq_self]
      intro e he
      by_contra hc
      unfold extractU2 at hd
      rw [h1.mpr ⟨rfl, e, he, by simpa using hc⟩] at hd
      simp at hd
    rw [this] at hE; exact hE

/-- **C08**, two-particle form; the returned tensor is antisymmetric in both pairs. -/
theorem C08_extract_U4 [StarRing R] (h2 : (2 : R) ≠ 0) (h : Hist ι R) (hr : h.RawNormal) (ig : Bool) :
    (extractU4 ig h.eval = none ↔ ig = false ∧ ∃ e ∈ h.eval, isQuartic e.1 = false) ∧
    ∀ d, extractU4 ig h.eval = some d →
      (d.map (·.1)).Nodup ∧ (∀ e ∈ d, e.2 ≠ 0) ∧
      (∀ i j k l x, ((i, j, k, l), x) ∈ d →
        ((j, i, k, l), -x) ∈ d ∧ ((i, j, l, k), -x) ∈ d ∧ ((j, i, l, k), x) ∈ d) ∧
      eqOp (sumU4 d) (h.eval.filter (fun e => isQuartic e.1)) = true ∧
      (ig = false → eqOp (sumU4 d) h.eval = true) := by
  have ha := C03_always_canonical h hr
  generalize h.eval = a at ha
  obtain ⟨h1, h3⟩ := extract_eq u4Entries isQuartic u4Entries_none a (C08_keys_u4 ha) ig
  refine ⟨h1, ?_⟩
  intro d hd
  have hdd := h3 d hd
  have hE : eqOp (sumU4 d) (a.filter (fun e => isQuartic e.1)) = true := by
    apply eqOp_of_action (sumU4_canonical d) (filter_canonical ha _)
    rw [sumU4_action, hdd, sum_flatMap_entries u4Entries _ isQuartic a (fun e _ => u4Entries_none e)]
    intro e hm l hl
    obtain ⟨i, j, k, m, he, rfl⟩ := u4Entries_some hl
    rw [he]
    simp only [List.map_cons, List.map_nil, List.sum_cons, List.sum_nil, add_zero, monoAct_cons, monoAct_nil,
      mul_one, opAct, if_true, Bool.false_eq_true, if_false]
    generalize hX : (create i * (create j * (annihilate k * annihilate m)) : Module.End R (Space ι R)) = X
    have x1 : (create i * create j * annihilate k * annihilate m : Module.End R (Space ι R)) = X := by
      rw [← hX]; simp only [mul_assoc]
    have x2 : (create j * create i * annihilate m * annihilate k : Module.End R (Space ι R)) = X := by
      rw [mul_assoc, create_anti j i, annihilate_anti m k, neg_mul_end, mul_neg_end, neg_neg, ← x1]
      simp only [mul_assoc]
    have x3 : (create i * create j * annihilate m * annihilate k : Module.End R (Space ι R)) = -X := by
      rw [mul_assoc, annihilate_anti m k, mul_neg_end, ← x1]
      simp only [mul_assoc]
    have x4 : (create j * create i * annihilate k * annihilate m : Module.End R (Space ι R)) = -X := by
      rw [mul_assoc, create_anti j i, neg_mul_end, ← x1]
      simp only [mul_assoc]
    rw [x2, x3, x4, smul_neg_end, ← neg_smul_end, ← add_smul, ← add_smul,
      ← add_smul]
    have : (1 / 2 * (1 / 2 * e.2) + (1 / 2 * (1 / 2 * e.2) + (-(1 / 2 * (-(1 / 2) * e.2)) + -(1 / 2 * (-(1 / 2) * e.2)))) : R)
        = e.2 := by field_simp; ring
    rw [this]
  refine ⟨hdd ▸ C08_keys_u4 ha, ?_, ?_, hE, ?_⟩
  · intro e he
    rw [hdd, List.mem_flatMap] at he
    obtain ⟨g, hg, hgl⟩ := he
    cases hf : u4Entries g with
    | none => simp [hf] at hgl
    | some l =>
      obtain ⟨i, j, k, m, _, rfl⟩ := u4Entries_some hf
      have := ha.nonzero g hg
      simp [hf] at hgl
      rcases hgl with rfl | rfl | rfl | rfl <;> simp [this, h2]
  · intro i j k l x he
    rw [hdd, List.mem_flatMap] at he
    obtain ⟨g, hg, hgl⟩ := he
    have hsuf : ∀ y, y ∈ (u4Entries g).getD [] → y ∈ d := by
      intro y hy; rw [hdd, List.mem_flatMap]; exact ⟨g, hg, hy⟩
    cases hf : u4Entries g with
    | none => simp [hf] at hgl
    | some l =>
      obtain ⟨i', j', k', m', _, rfl⟩ := u4Entries_some hf
      rw [hf] at hsuf
      simp [hf] at hgl
      rcases hgl with ⟨⟨rfl, rfl, rfl, rfl⟩, rfl⟩ | ⟨⟨rfl, rfl, rfl, rfl⟩, rfl⟩ | ⟨⟨rfl, rfl, rfl, rfl⟩, rfl⟩ |
        ⟨⟨rfl, rfl, rfl, rfl⟩, rfl⟩ <;> refine ⟨hsuf _ ?_, hsuf _ ?_, hsuf _ ?_⟩ <;> simp
  · rintro rfl
    have : a.filter (fun e => isQuartic e.1) = a := by
      rw [List.filter_eq_self]
      intro e he
      by_contra hc
      unfold extractU4 at hd
      rw [h1.mpr ⟨rfl, e, he, by simpa using hc⟩] at hd
      simp at hd
    rw [this] at hE; exact hE

-- an interaction built in "wrong" order, with contractions: n₂ n₁ + 3 c₁ c†₁ c₂ c†₂ has constant,
-- quadratic and quartic parts; the quartic part has coefficient 4
example : extractU2 true (add (mul (nOp 2) (nOp 1)) (smul (mul (mul (c 1) (cDag 1)) (mul (c 2) (cDag 2))) 3)
      : MMap ℕ ℚ) = some [((1, 2), 4), ((2, 1), 4)] ∧
    extractU2 false (add (mul (nOp 2) (nOp 1)) (smul (mul (mul (c 1) (cDag 1)) (mul (c 2) (cDag 2))) 3)
      : MMap ℕ ℚ) = none ∧
    extractU4 false (mul (mul (cDag 3) (cDag 1)) (mul (c 2) (c 4)) : MMap ℕ ℚ) =
      some [((1, 3, 2, 4), 1 / 2), ((3, 1, 4, 2), 1 / 2), ((1, 3, 4, 2), -(1 / 2)), ((3, 1, 2, 4), -(1 / 2))] ∧
    extractH false (add (mul (c 2) (cDag 1)) (mul (cDag 2) (c 2)) : MMap ℕ ℚ)
      = some [((1, 2), -1), ((2, 2), 1)] := by decide +kernel

/-! ### coefficients -/

@[simp] theorem coeff_nil (m : Mono ι) : coeff ([] : MMap ι R) m = 0 := rfl

theorem coeff_cons (e : Mono ι × R) (a : MMap ι R) (m : Mono ι) :
    coeff (e :: a) m = (if e.1 = m then e.2 else 0) + coeff a m := by
  unfold coeff
  by_cases h : e.1 = m <;> simp [h]

theorem coeff_eq_zero {a : MMap ι R} {m : Mono ι} (h : ∀ e ∈ a, e.1 ≠ m) : coeff a m = 0 := by
  induction a with
  | nil => rfl
  | cons e a ih =>
    rw [coeff_cons, if_neg (h e (by simp)), zero_add, ih (fun g hg => h g (by simp [hg]))]

theorem coeff_insertAdd (m : Mono ι) (x : R) (a : MMap ι R) (k : Mono ι) :
    coeff (insertAdd m x a) k = coeff a k + if m = k then x else 0 := by
  induction a with
  | nil => simp [insertAdd, coeff_cons]
  | cons e a ih =>
    obtain ⟨m', x'⟩ := e
    unfold insertAdd
    split
    · rename_i hm; subst hm
      split
      · rename_i h0
        rw [coeff_cons]
        by_cases hk : m = k
        · simp only [if_pos hk]
          rw [add_right_comm, h0, zero_add]
        · simp [hk]
      · rw [coeff_cons, coeff_cons]
        by_cases hk : m = k
        · simp only [if_pos hk]; ring
        · simp [hk]
    · split
      · rw [coeff_cons]; ring
      · rw [coeff_cons, coeff_cons, ih]; ring

theorem coeff_add (a b : MMap ι R) (k : Mono ι) : coeff (add a b) k = coeff a k + coeff b k := by
  unfold add
  induction b generalizing a with
  | nil => simp
  | cons e b ih => rw [List.foldl_cons, ih, coeff_insertAdd, coeff_cons]; ring

theorem coeff_sub (a b : MMap ι R) (k : Mono ι) : coeff (sub a b) k = coeff a k - coeff b k := by
  unfold sub
  induction b generalizing a with
  | nil => simp
  | cons e b ih =>
    rw [List.foldl_cons, ih, coeff_insertAdd, coeff_cons]
    by_cases hk : e.1 = k
    · simp only [if_pos hk]; ring
    · simp only [if_neg hk]; ring

theorem coeff_mem {a : MMap ι R} (h : a.Pairwise (fun e g => e.1 ≠ g.1)) {e : Mono ι × R} (he : e ∈ a) :
    coeff a e.1 = e.2 := by
  induction a with
  | nil => simp at he
  | cons g a ih =>
    rw [List.pairwise_cons] at h
    rw [coeff_cons]
    rcases List.mem_cons.mp he with rfl | he
    · rw [if_pos rfl, coeff_eq_zero (fun g hg => (h.1 g hg).symm), add_zero]
    · rw [if_neg (h.1 e he), zero_add, ih h.2 he]

/-- Two canonical operators with the same coefficients are the same object. -/
theorem canonical_ext {a b : MMap ι R} (ha : Canonical a) (hb : Canonical b)
    (h : ∀ m, coeff a m = coeff b m) : a = b := by
  have sub1 : ∀ {a b : MMap ι R}, Canonical a → Canonical b → (∀ m, coeff a m = coeff b m) → a ⊆ b := by
    intro a b ha hb h e he
    have h1 := coeff_mem ha.keys_ne he
    rw [h] at h1
    by_contra hc
    by_cases hm : ∃ g ∈ b, g.1 = e.1
    · obtain ⟨g, hg, hge⟩ := hm
      have h2 := coeff_mem hb.keys_ne hg
      rw [hge, h1] at h2
      exact hc ((Prod.ext hge h2.symm : g = e) ▸ hg)
    · push Not at hm
      rw [coeff_eq_zero hm] at h1
      exact ha.nonzero e he h1.symm
  have nd : ∀ {a : MMap ι R}, Canonical a → a.Nodup := by
    intro a ha
    exact ha.keys_ne.imp (fun {x y} h (heq : x = y) => h (congrArg Prod.fst heq))
  have hp : a.Perm b := (List.perm_ext_iff_of_nodup (nd ha) (nd hb)).mpr
    (fun e => ⟨fun he => sub1 ha hb h he, fun he => sub1 hb ha (fun m => (h m).symm) he⟩)
  refine hp.eq_of_pairwise ?_ ha.sorted hb.sorted
  intro x y _ _ h1 h2
  have := monoLt_trans h1 h2
  rw [monoLt_irrefl] at this
  exact absurd this (by simp)

theorem eqOp_eq {a b : MMap ι R} (ha : Canonical a) (hb : Canonical b) : eqOp a b = true ↔ a = b := by
  constructor
  · intro h
    unfold eqOp isZero at h
    rw [List.isEmpty_iff] at h
    apply canonical_ext ha hb
    intro m
    have := coeff_sub a b m
    rw [h, coeff_nil] at this
    exact (sub_eq_zero.mp this.symm)
  · rintro rfl
    exact eqOp_of_action ha ha rfl

/-! ### C73 -/

/-- **C73.** `filter_op(h, len)` is exactly the stored terms of `h` with `len` factors, with their
coefficients; hence `h` is the sum of its parts of all lengths. -/
theorem C73_filter_op [StarRing R] (h : Hist ι R) (hr : h.RawNormal) (len : Nat) :
    filterOp h.eval len = h.eval.filter (fun e => decide (e.1.length = len)) ∧
    eqOp (add (filterOp h.eval len) (h.eval.filter (fun e => !decide (e.1.length = len)))) h.eval = true := by
  have ha := C03_always_canonical h hr
  generalize h.eval = a at ha
  have key : ∀ (b t : MMap ι R), (∀ e ∈ b, NormalOrdered e.1 ∧ e.2 ≠ 0) → Canonical t →
      Canonical (b.foldl (fun t e => if e.1.length = len then add t (normalizeAndInsert e.1 e.2 []) else t) t) ∧
      action (b.foldl (fun t e => if e.1.length = len then add t (normalizeAndInsert e.1 e.2 []) else t) t)
        = action t + action (b.filter (fun e => decide (e.1.length = len))) := by
    intro b
    induction b with
    | nil => intro t _ ht; exact ⟨ht, by simp⟩
    | cons e b ih =>
      intro t hb ht
      have hb' := fun g hg => hb g (List.mem_cons_of_mem _ hg)
      rw [List.foldl_cons]
      by_cases hl : e.1.length = len
      · rw [if_pos hl, List.filter_cons_of_pos (by simpa using hl)]
        have hc := add_canonical ht (normalizeAndInsert_canonical e.1 e.2 [] canonical_nil (hb e (by simp)).2)
        obtain ⟨h1, h2⟩ := ih _ hb' hc
        refine ⟨h1, ?_⟩
        rw [h2, add_action, normalizeAndInsert_action, action_cons]
        simp [add_assoc]
      · rw [if_neg hl, List.filter_cons_of_neg (by simpa using hl)]
        exact ih t hb' ht
  obtain ⟨h1, h2⟩ := key a [] (fun e he => ⟨ha.normal e he, ha.nonzero e he⟩) canonical_nil
  have hf := filter_canonical ha (fun e => decide (e.1.length = len))
  have hf' := filter_canonical ha (fun e => !decide (e.1.length = len))
  have heq : filterOp a len = a.filter (fun e => decide (e.1.length = len)) := by
    refine (eqOp_eq h1 hf).mp ?_
    exact eqOp_of_action h1 hf (by rw [h2]; simp)
  refine ⟨heq, ?_⟩
  rw [heq]
  apply eqOp_of_action (add_canonical hf hf') ha
  rw [add_action]
  clear heq h1 h2 key hf hf' ha hr
  induction a with
  | nil => simp
  | cons e a ih =>
    by_cases hl : e.1.length = len
    · rw [List.filter_cons_of_pos (by simpa using hl), List.filter_cons_of_neg (by simpa using hl), action_cons,
        action_cons, ← ih, add_assoc]
    · rw [List.filter_cons_of_neg (by simpa using hl), List.filter_cons_of_pos (by simpa using hl), action_cons,
        action_cons, ← ih]
      abel

example : filterOp (add (mul (nOp 2) (nOp 1)) (mul (c 2) (cDag 1)) : MMap ℕ ℚ) 2
    = [([⟨true, 1⟩, ⟨false, 2⟩], -1)] := by decide +kernel

end sums

/-! ### C74 -/

section matrix
variable {ι : Type} [LinearOrder ι] {R : Type} [Zero R]

theorem keyPositions_none (fs : Fops ι) (k : List ι) : keyPositions fs k = none ↔ ∃ x ∈ k, x ∉ fs := by
  induction k with
  | nil => simp [keyPositions]
  | cons x xs ih =>
    unfold keyPositions
    cases h1 : Verif.Fops.position fs x with
    | none =>
      have := Verif.Fops.find_eq_none.mp h1
      simp [this]
    | some p =>
      have hx : x ∈ fs := List.mem_of_getElem? (Verif.Fops.find_eq_some h1)
      cases h2 : keyPositions fs xs with
      | none => simp [← ih, h2]
      | some ps =>
        have h3 := ih.not.mp (by simp [h2])
        simp only [reduceCtorEq, List.mem_cons, exists_eq_or_imp, false_iff, not_or, not_not]
        exact ⟨hx, h3⟩

/-- the positions determine the key -/
theorem keyPositions_get (fs : Fops ι) (k : List ι) (p : List Nat) (h : keyPositions fs k = some p) :
    p.map (fun i => fs[i]?) = k.map some := by
  induction k generalizing p with
  | nil => simp [keyPositions] at h; subst h; rfl
  | cons x xs ih =>
    unfold keyPositions at h
    cases h1 : Verif.Fops.position fs x with
    | none => simp [h1] at h
    | some q =>
      cases h2 : keyPositions fs xs with
      | none => simp [h1, h2] at h
      | some ps =>
        simp [h1, h2] at h
        subst h
        simp only [List.map_cons, ih ps h2, Verif.Fops.find_eq_some h1]

theorem dictToMatrix_spec (fs : Fops ι) (d : Dict (List ι) R) (mat : List Nat → R) :
    (dictToMatrix fs d mat = none ↔ ∃ e ∈ d, ∃ x ∈ e.1, x ∉ fs) ∧
    ((d.map (·.1)).Nodup → ∀ M, dictToMatrix fs d mat = some M →
      (∀ e ∈ d, ∀ p, keyPositions fs e.1 = some p → M p = e.2) ∧
      ∀ p, (∀ e ∈ d, keyPositions fs e.1 ≠ some p) → M p = mat p) := by
  induction d generalizing mat with
  | nil => simp [dictToMatrix]
  | cons e d ih =>
    obtain ⟨k, v⟩ := e
    unfold dictToMatrix
    cases hk : keyPositions fs k with
    | none =>
      refine ⟨?_, ?_⟩
      · simp only [true_iff]
        exact ⟨(k, v), by simp, (keyPositions_none fs k).mp hk⟩
      · intro _ M hM; simp at hM
    | some p =>
      obtain ⟨h1, h2⟩ := ih (Function.update mat p v)
      have hk' : ¬ ∃ x ∈ k, x ∉ fs := by rw [← keyPositions_none]; simp [hk]
      refine ⟨?_, ?_⟩
      · simp only [h1, List.mem_cons, exists_eq_or_imp, hk', false_or]
      · intro hnd M hM
        rw [List.map_cons, List.nodup_cons] at hnd
        obtain ⟨h3, h4⟩ := h2 hnd.2 M hM
        have hinj : ∀ e ∈ d, keyPositions fs e.1 ≠ some p := by
          intro e he hc
          have e1 := keyPositions_get fs e.1 p hc
          have e2 := keyPositions_get fs k p hk
          rw [e1] at e2
          have : e.1 = k := List.map_injective_iff.mpr (Option.some_injective _) e2
          exact hnd.1 (List.mem_map.mpr ⟨e, he, this⟩)
        refine ⟨?_, ?_⟩
        · intro e he q hq
          rcases List.mem_cons.mp he with rfl | he
          · rw [hk] at hq
            obtain rfl := Option.some.inj hq
            rw [h4 p hinj, Function.update_self]
          · exact h3 e he q hq
        · intro q hq
          rw [h4 q (fun e he => hq e (by simp [he]))]
          refine Function.update_of_ne ?_ _ _
          rintro rfl
          exact hq (k, v) (by simp) hk

/-- **C74.** `dict_to_matrix` throws exactly when a key contains a label unknown to `fs`; otherwise
the element at the positions of a key is the value of that key and every other element is zero. -/
theorem C74_dict_to_matrix (fs : Fops ι) (d : Dict (List ι) R) (hd : (d.map (·.1)).Nodup) :
    (dictToMatrix fs d (fun _ => 0) = none ↔ ∃ e ∈ d, ∃ x ∈ e.1, x ∉ fs) ∧
    ∀ M, dictToMatrix fs d (fun _ => 0) = some M →
      (∀ e ∈ d, ∃ p, p.map (fun i => fs[i]?) = e.1.map some ∧ M p = e.2) ∧
      ∀ p, (∀ e ∈ d, p.map (fun i => fs[i]?) ≠ e.1.map some) → M p = 0 := by
  obtain ⟨h1, h2⟩ := dictToMatrix_spec fs d (fun _ => 0)
  refine ⟨h1, ?_⟩
  intro M hM
  obtain ⟨h3, h4⟩ := h2 hd M hM
  refine ⟨?_, ?_⟩
  · intro e he
    cases hp : keyPositions fs e.1 with
    | none =>
      rw [h1.mpr ⟨e, he, (keyPositions_none fs e.1).mp hp⟩] at hM
      simp at hM
    | some p => exact ⟨p, keyPositions_get fs e.1 p hp, h3 e he p hp⟩
  · intro p hp
    exact h4 p (fun e he hc => hp e he (keyPositions_get fs e.1 p hc))

example : (dictToMatrix [7, 4] [([4, 7], (3 : ℤ)), ([7, 7], 5)] (fun _ => 0)).map
      (fun M => [M [0, 0], M [0, 1], M [1, 0], M [1, 1]]) = some [5, 0, 3, 0] ∧
    (dictToMatrix [7] [([4, 7], (3 : ℤ))] (fun _ => 0)).isNone = true := by decide +kernel

end matrix

/-! ### C09 -/

section blockproofs
variable {R : Type} [Field R] [DecidableEq R]

/-- the monomial `c†(s,i) c(s,j)` -/
def hopMono (s : List Char) (i j : Nat) : Mono (List Comp) := [⟨true, lab s i⟩, ⟨false, lab s j⟩]

theorem hopMono_inj {s s' : List Char} {i j i' j' : Nat} (h : hopMono s i j = hopMono s' i' j') :
    s = s' ∧ i = i' ∧ j = j' := by
  simp only [hopMono, lab, List.cons.injEq, COp.mk.injEq, Comp.str.injEq, Comp.int.injEq, Nat.cast_inj,
    true_and, and_true] at h
  exact ⟨h.1.1, h.1.2, h.2.2⟩

theorem nameToBl_get {gs : GfStruct} {s : List Char} {k : Nat} (h : nameToBl gs s = some k) :
    ∃ n, gs[k]? = some (s, n) := by
  induction gs generalizing k with
  | nil => simp [nameToBl] at h
  | cons g gs ih =>
    unfold nameToBl at h
    split at h
    · rename_i hs
      obtain rfl := Option.some.inj h
      exact ⟨g.2, by simp [hs]⟩
    · cases hr : nameToBl gs s with
      | none => simp [hr] at h
      | some q =>
        simp [hr] at h
        subst h
        obtain ⟨n, hn⟩ := ih hr
        exact ⟨n, by simpa using hn⟩

theorem nameToBl_of_get {gs : GfStruct} (hnd : (gs.map (·.1)).Nodup) {k : Nat} {g : List Char × Nat}
    (h : gs[k]? = some g) : nameToBl gs g.1 = some k := by
  induction gs generalizing k with
  | nil => simp at h
  | cons g' gs ih =>
    rw [List.map_cons, List.nodup_cons] at hnd
    unfold nameToBl
    cases k with
    | zero => simp at h; simp [h]
    | succ k =>
      have h' : gs[k]? = some g := by simpa using h
      have hne : g.1 ≠ g'.1 := by
        intro hc
        exact hnd.1 (hc ▸ List.mem_map_of_mem (List.mem_of_getElem? h'))
      rw [if_neg hne, ih hnd.2 h']
      rfl

theorem blockEntry_hop {gs : GfStruct} (hnd : (gs.map (·.1)).Nodup) {bl : Nat} {g : List Char × Nat}
    (hg : gs[bl]? = some g) {i j : Nat} (hi : i < g.2) (hj : j < g.2) :
    blockEntry gs (hopMono g.1 i j) = .set bl i j := by
  unfold hopMono blockEntry
  have h1 := nameToBl_of_get hnd hg
  simp [lab, readEntry, h1, hg, hi, hj]

/-- the triples of the loops -/
theorem mem_triplesFrom {gs : GfStruct} {b : Nat} {t : Nat × List Char × Nat × Nat} :
    t ∈ triplesFrom b gs ↔ b ≤ t.1 ∧ ∃ g, gs[t.1 - b]? = some g ∧ t.2.1 = g.1 ∧ t.2.2.1 < g.2 ∧ t.2.2.2 < g.2 := by
  obtain ⟨bl, s, i, j⟩ := t
  induction gs generalizing b with
  | nil => simp [triplesFrom]
  | cons g gs ih =>
    simp only [triplesFrom, List.mem_append, List.mem_flatMap, List.mem_map, List.mem_range, Prod.mk.injEq, ih]
    constructor
    · rintro (⟨i', hi, j', hj, rfl, rfl, rfl, rfl⟩ | ⟨hb, g', hg', h⟩)
      · exact ⟨le_refl _, g, by simp, rfl, hi, hj⟩
      · refine ⟨by omega, g', ?_, h⟩
        have : bl - b = (bl - (b + 1)) + 1 := by omega
        rw [this]; simpa using hg'
    · rintro ⟨hb, g', hg', hs, hi, hj⟩
      by_cases hbl : bl = b
      · left
        subst hbl
        simp at hg'
        subst hg'
        exact ⟨i, hi, j, hj, rfl, hs.symm, rfl, rfl⟩
      · right
        refine ⟨by omega, g', ?_, hs, hi, hj⟩
        have : bl - b = (bl - (b + 1)) + 1 := by omega
        rw [this] at hg'; simpa using hg'

theorem triples_nodup (gs : GfStruct) (b : Nat) : (triplesFrom b gs).Nodup := by
  induction gs generalizing b with
  | nil => simp [triplesFrom]
  | cons g gs ih =>
    unfold triplesFrom
    rw [List.nodup_append]
    refine ⟨?_, ih _, ?_⟩
    · rw [List.nodup_flatMap]
      refine ⟨fun i _ => List.Nodup.map (fun a b h => by simpa using h) List.nodup_range, ?_⟩
      refine List.nodup_range.imp ?_
      intro i i' hne
      simp only [Function.onFun]
      rw [List.disjoint_left]
      intro t ht ht'
      simp only [List.mem_map] at ht ht'
      obtain ⟨j, _, rfl⟩ := ht
      obtain ⟨j', _, h⟩ := ht'
      simp at h
      exact hne h.1.symm
    · intro t ht t' ht' heq
      subst heq
      rw [mem_triplesFrom] at ht'
      simp only [List.mem_flatMap, List.mem_map, List.mem_range] at ht
      obtain ⟨i, _, j, _, rfl⟩ := ht
      have := ht'.1
      simp only at this
      omega

/-- one summand of `op_from_block_matrix` -/
theorem hop_term (s : List Char) (i j : Nat) (x : R) :
    mul (smul (cDag (lab s i)) x) (c (lab s j)) = if x = 0 then [] else [(hopMono s i j, x)] := by
  unfold smul
  split
  · simp [mul]
  · simp [mul, cDag, c, makeCanonical, normalizeAndInsert, normFuel, normTerms, pass, emitAll, insertAdd, hopMono,
      COp.lt]

def blkFold (M : BlMat R) (l : List (Nat × List Char × Nat × Nat)) (h : MMap (List Comp) R) : MMap (List Comp) R :=
  l.foldl (fun h t =>
    add h (mul (smul (cDag (lab t.2.1 t.2.2.1)) (M t.1 t.2.2.1 t.2.2.2)) (c (lab t.2.1 t.2.2.2)))) h

theorem hop_term_canonical (s : List Char) (i j : Nat) (x : R) :
    Canonical (mul (smul (cDag (lab s i)) x) (c (lab s j))) :=
  mul_canonical (smul_canonical (cDag_canonical _) _) (c_canonical _)

theorem blkFold_canonical (M : BlMat R) (l : List (Nat × List Char × Nat × Nat)) (h : MMap (List Comp) R)
    (hh : Canonical h) : Canonical (blkFold M l h) := by
  induction l generalizing h with
  | nil => exact hh
  | cons t l ih => exact ih _ (add_canonical hh (hop_term_canonical _ _ _ _))

theorem blkFold_coeff (M : BlMat R) (l : List (Nat × List Char × Nat × Nat)) (h : MMap (List Comp) R)
    (k : Mono (List Comp)) :
    coeff (blkFold M l h) k = coeff h k +
      (l.map (fun t => if hopMono t.2.1 t.2.2.1 t.2.2.2 = k then M t.1 t.2.2.1 t.2.2.2 else 0)).sum := by
  induction l generalizing h with
  | nil => simp [blkFold]
  | cons t l ih =>
    have : blkFold M (t :: l) h = blkFold M l (add h (mul (smul (cDag (lab t.2.1 t.2.2.1)) (M t.1 t.2.2.1 t.2.2.2))
      (c (lab t.2.1 t.2.2.2)))) := rfl
    rw [this, ih, coeff_add, hop_term, List.map_cons, List.sum_cons, add_assoc]
    congr 2
    split
    · rename_i h0; simp [h0]
    · simp [coeff_cons]

/-- sum with one possible non-zero summand -/
theorem sum_unique {α : Type} (l : List α) (hl : l.Nodup) (f : α → R) (a : α) (ha : a ∈ l)
    (hf : ∀ b ∈ l, b ≠ a → f b = 0) : (l.map f).sum = f a := by
  induction l with
  | nil => simp at ha
  | cons b l ih =>
    rw [List.nodup_cons] at hl
    rw [List.map_cons, List.sum_cons]
    rcases List.mem_cons.mp ha with rfl | ha
    · have : (l.map f).sum = 0 := by
        apply List.sum_eq_zero
        intro x hx
        obtain ⟨y, hy, rfl⟩ := List.mem_map.mp hx
        exact hf y (by simp [hy]) (by rintro rfl; exact hl.1 hy)
      rw [this, add_zero]
    · rw [ih hl.2 ha (fun y hy => hf y (by simp [hy])), hf b (by simp) (by rintro rfl; exact hl.1 ha), zero_add]

theorem opFromBlock_canonical (gs : GfStruct) (M : BlMat R) : Canonical (opFromBlock gs M) :=
  blkFold_canonical M _ [] canonical_nil

theorem names_inj {gs : GfStruct} (hnd : (gs.map (·.1)).Nodup) {k k' : Nat} {g g' : List Char × Nat}
    (h : gs[k]? = some g) (h' : gs[k']? = some g') (hn : g.1 = g'.1) : k = k' := by
  have h1 := nameToBl_of_get hnd h
  have h2 := nameToBl_of_get hnd h'
  rw [hn, h2] at h1
  exact (Option.some.inj h1).symm

theorem opFromBlock_coeff {gs : GfStruct} (hnd : (gs.map (·.1)).Nodup) (M : BlMat R) {bl : Nat}
    {g : List Char × Nat} (hg : gs[bl]? = some g) {i j : Nat} (hi : i < g.2) (hj : j < g.2) :
    coeff (opFromBlock gs M) (hopMono g.1 i j) = M bl i j := by
  have h1 := blkFold_coeff M (triplesFrom 0 gs) [] (hopMono g.1 i j)
  change coeff (opFromBlock gs M) _ = _ at h1
  rw [h1, coeff_nil, zero_add, sum_unique _ (triples_nodup gs 0) _ (bl, g.1, i, j)]
  · simp
  · rw [mem_triplesFrom]; exact ⟨Nat.zero_le _, g, by simpa using hg, rfl, hi, hj⟩
  · intro t ht hne
    rw [if_neg]
    intro hc
    obtain ⟨e1, e2, e3⟩ := hopMono_inj hc
    rw [mem_triplesFrom] at ht
    obtain ⟨_, g', hg', hs, _, _⟩ := ht
    have hb := names_inj hnd hg' (by simpa using hg) (by rw [← hs, e1])
    apply hne
    obtain ⟨t1, t2, t3, t4⟩ := t
    simp only [Nat.sub_zero] at *
    subst e1 e2 e3 hb
    rfl

theorem opFromBlock_coeff_other (gs : GfStruct) (M : BlMat R) (k : Mono (List Comp))
    (hk : ∀ (bl : Nat) (g : List Char × Nat) (i j : Nat), gs[bl]? = some g → i < g.2 → j < g.2 → k ≠ hopMono g.1 i j) :
    coeff (opFromBlock gs M) k = 0 := by
  have h1 := blkFold_coeff M (triplesFrom 0 gs) [] k
  change coeff (opFromBlock gs M) _ = _ at h1
  rw [h1, coeff_nil, zero_add]
  apply List.sum_eq_zero
  intro x hx
  obtain ⟨t, ht, rfl⟩ := List.mem_map.mp hx
  rw [mem_triplesFrom] at ht
  obtain ⟨_, g', hg', hs, hi, hj⟩ := ht
  rw [if_neg]
  intro hc
  exact hk _ g' _ _ (by simpa using hg') hi hj (by rw [← hs]; exact hc.symm)

/-- Specification: every stored term is `c†(bl,i) c(bl,j)` for a block of the structure and
indices inside it. -/
def InBlocks (gs : GfStruct) (h : MMap (List Comp) R) : Prop :=
  ∀ e ∈ h, ∃ (bl : Nat) (g : List Char × Nat) (i j : Nat), gs[bl]? = some g ∧ i < g.2 ∧ j < g.2 ∧ e.1 = hopMono g.1 i j

theorem opFromBlock_inBlocks (gs : GfStruct) (M : BlMat R) : InBlocks gs (opFromBlock gs M) := by
  intro e he
  by_contra hc
  push Not at hc
  have h1 := opFromBlock_coeff_other gs M e.1 (fun bl g i j h1 h2 h3 => hc bl g i j h1 h2 h3)
  rw [coeff_mem (opFromBlock_canonical gs M).keys_ne he] at h1
  exact (opFromBlock_canonical gs M).nonzero e he h1

/-- the loop reads the coefficients -/
theorem blockLoop_ok {gs : GfStruct} (hnd : (gs.map (·.1)).Nodup) (ig : Bool) (h : MMap (List Comp) R)
    (hp : h.Pairwise (fun e g => e.1 ≠ g.1)) (hb : InBlocks gs h) (M0 : BlMat R)
    (h0 : ∀ (bl : Nat) (g : List Char × Nat) (i j : Nat), gs[bl]? = some g → i < g.2 → j < g.2 →
      (∃ e ∈ h, e.1 = hopMono g.1 i j) → M0 bl i j = 0) :
    ∃ M, blockLoop gs ig h M0 = .ok M ∧
      ∀ (bl : Nat) (g : List Char × Nat) (i j : Nat), gs[bl]? = some g → i < g.2 → j < g.2 →
        M bl i j = M0 bl i j + coeff h (hopMono g.1 i j) := by
  induction h generalizing M0 with
  | nil => exact ⟨M0, rfl, fun bl g i j _ _ _ => by simp⟩
  | cons e h ih =>
    rw [List.pairwise_cons] at hp
    obtain ⟨bl, g, i, j, hg, hi, hj, he⟩ := hb e (by simp)
    have hent := blockEntry_hop hnd hg hi hj
    have hM0 := h0 bl g i j hg hi hj ⟨e, by simp, he⟩
    obtain ⟨M, hM, hMc⟩ := ih hp.2 (fun x hx => hb x (by simp [hx])) (setEntry M0 bl i j e.2) (by
      intro bl' g' i' j' hg' hi' hj' ⟨x, hx, hxm⟩
      unfold setEntry
      rw [if_neg]
      · exact h0 bl' g' i' j' hg' hi' hj' ⟨x, by simp [hx], hxm⟩
      · rintro ⟨rfl, rfl, rfl⟩
        rw [hg] at hg'
        obtain rfl := Option.some.inj hg'
        exact hp.1 x hx (by rw [he, hxm]))
    refine ⟨M, ?_, ?_⟩
    · unfold blockLoop
      rw [he, hent]
      exact hM
    · intro bl' g' i' j' hg' hi' hj'
      rw [hMc bl' g' i' j' hg' hi' hj', coeff_cons, he]
      unfold setEntry
      by_cases hc : bl' = bl ∧ i' = i ∧ j' = j
      · obtain ⟨rfl, rfl, rfl⟩ := hc
        rw [hg] at hg'
        obtain rfl := Option.some.inj hg'
        rw [if_pos ⟨rfl, rfl, rfl⟩, if_pos rfl, hM0, zero_add]
      · rw [if_neg hc, if_neg, zero_add]
        intro heq
        obtain ⟨e1, e2, e3⟩ := hopMono_inj heq
        exact hc ⟨(names_inj hnd hg hg' e1).symm, e2.symm, e3.symm⟩

/-- **C09**, matrix → operator → matrix: for distinct block names the conversion gives back every
element of every block, whatever the matrix and the `ignore_irrelevant` flag. -/
theorem C09_matrix_round_trip {gs : GfStruct} (hnd : (gs.map (·.1)).Nodup) (ig : Bool) (M : BlMat R) :
    ∃ M', blockFromOp gs ig (opFromBlock gs M) = .ok M' ∧
      ∀ (bl : Nat) (g : List Char × Nat) (i j : Nat), gs[bl]? = some g → i < g.2 → j < g.2 → M' bl i j = M bl i j := by
  obtain ⟨M', h1, h2⟩ := blockLoop_ok hnd ig (opFromBlock gs M) (opFromBlock_canonical gs M).keys_ne
    (opFromBlock_inBlocks gs M) (fun _ _ _ => 0) (fun _ _ _ _ _ _ _ _ => rfl)
  refine ⟨M', h1, ?_⟩
  intro bl g i j hg hi hj
  rw [h2 bl g i j hg hi hj, opFromBlock_coeff hnd M hg hi hj, zero_add]

/-- **C09**, operator → matrix → operator: an operator built by any history, all of whose terms lie
in the block structure, is given back as the same object. -/
theorem C09_operator_round_trip [StarRing R] {gs : GfStruct} (hnd : (gs.map (·.1)).Nodup) (ig : Bool)
    (h : Hist (List Comp) R) (hr : h.RawNormal) (hb : InBlocks gs h.eval) :
    ∃ M, blockFromOp gs ig h.eval = .ok M ∧ opFromBlock gs M = h.eval := by
  have ha := C03_always_canonical h hr
  obtain ⟨M, h1, h2⟩ := blockLoop_ok hnd ig h.eval ha.keys_ne hb (fun _ _ _ => 0) (fun _ _ _ _ _ _ _ _ => rfl)
  refine ⟨M, h1, ?_⟩
  apply canonical_ext (opFromBlock_canonical gs M) ha
  intro k
  by_cases hk : ∃ (bl : Nat) (g : List Char × Nat) (i j : Nat), gs[bl]? = some g ∧ i < g.2 ∧ j < g.2 ∧ k = hopMono g.1 i j
  · obtain ⟨bl, g, i, j, hg, hi, hj, rfl⟩ := hk
    rw [opFromBlock_coeff hnd M hg hi hj, h2 bl g i j hg hi hj, zero_add]
  · push Not at hk
    rw [opFromBlock_coeff_other gs M k hk, coeff_eq_zero]
    rintro e he rfl
    obtain ⟨bl, g, i, j, hg, hi, hj, hm⟩ := hb e he
    exact hk bl g i j hg hi hj hm

/-- **C09**, refusal (partial): the first term that is not of the form `c†(x,·) c(x,·)` makes the
conversion throw if it has at least two factors with non-empty labels and its second factor does
not carry a two-component label. The code
accepts further terms, see `C09_accepts_other_terms`, and reads out of bounds for constants and
single operators, see `C09_constant_term_undefined`. -/
theorem C09_refuses_partial {gs : GfStruct} (hnd : (gs.map (·.1)).Nodup) (pre : MMap (List Comp) R)
    (hpre : InBlocks gs pre) (a b : COp (List Comp)) (rest : Mono (List Comp)) (x : R)
    (h : MMap (List Comp) R) (ha : a.idx ≠ []) (hb2 : b.idx ≠ []) (hb : b.idx.length ≠ 2)
    (hform : ¬ (rest = [] ∧ a.dagger = true ∧ b.dagger = false ∧ a.idx.head? = b.idx.head? ∧ a.idx.length = 2)) :
    blockFromOp gs false (pre ++ (a :: b :: rest, x) :: h) = .exn := by
  unfold blockFromOp
  have : blockEntry gs (a :: b :: rest) = .irrelevant := by
    simp only [blockEntry]
    split
    · rename_i hc
      simp only [Bool.and_eq_true, List.isEmpty_iff, Bool.not_eq_true'] at hc
      split
      · rename_i u us v vs h1 h2
        rw [if_neg]
        rw [h1, h2] at hform
        rw [h2] at hb
        simp only [hc.1.1, hc.1.2, hc.2, List.head?_cons, Option.some.injEq, true_and, not_and] at hform
        simp only [Bool.or_eq_true, Bool.and_eq_true, decide_eq_true_eq, not_or, not_and]
        exact ⟨hform, hb⟩
      · rename_i hne
        obtain ⟨u, us, h1⟩ := List.exists_cons_of_ne_nil ha
        obtain ⟨v, vs, h2⟩ := List.exists_cons_of_ne_nil hb2
        exact absurd h2 (hne _ _ _ _ h1)
    · rfl
  suffices H : ∀ M, blockLoop gs false (pre ++ (a :: b :: rest, x) :: h) M = .exn from H _
  induction pre with
  | nil => intro M; simp [blockLoop, this]
  | cons e pre ih =>
    intro M
    obtain ⟨bl, g, i, j, hg, hi, hj, he⟩ := hpre e (by simp)
    rw [List.cons_append]
    unfold blockLoop
    rw [he, blockEntry_hop hnd hg hi hj]
    exact ih (fun y hy => hpre y (by simp [hy])) _

/-- **C09** is false as stated: `and` binds tighter than `or` in the condition, so every term whose
second factor has a two-component label is taken: a hopping between blocks is stored as an entry of
the first block, and a quartic term overwrites a matrix element. -/
theorem C09_accepts_other_terms :
    blockEntry [(['u'], 2), (['d'], 2)] [⟨true, lab ['u'] 0⟩, ⟨false, lab ['d'] 1⟩] = .set 0 0 1 ∧
    blockEntry [(['u'], 2), (['d'], 2)]
      [⟨true, lab ['u'] 0⟩, ⟨true, lab ['u'] 1⟩, ⟨false, lab ['u'] 1⟩, ⟨false, lab ['u'] 0⟩] = .set 0 0 1 := by
  decide +kernel

/-- with such a term the operator → matrix → operator round trip loses the term silently -/
theorem C09_round_trip_fails :
    ∃ M, blockFromOp [(['u'], 2), (['d'], 2)] false
        (mul (cDag (lab ['u'] 0)) (c (lab ['d'] 1)) : MMap (List Comp) ℚ) = .ok M ∧
      eqOp (opFromBlock [(['u'], 2), (['d'], 2)] M) (mul (cDag (lab ['u'] 0)) (c (lab ['d'] 1))) = false := by
  refine ⟨setEntry (fun _ _ _ => 0) 0 0 1 1, ?_, ?_⟩
  · have h1 : (mul (cDag (lab ['u'] 0)) (c (lab ['d'] 1)) : MMap (List Comp) ℚ)
        = [([⟨true, lab ['u'] 0⟩, ⟨false, lab ['d'] 1⟩], 1)] := by decide +kernel
    rw [h1]
    unfold blockFromOp blockLoop
    simp only [C09_accepts_other_terms.1]
    rfl
  · decide +kernel

/-- a constant or a single operator makes the loop read `m[1]` past the end of the monomial -/
theorem C09_constant_term_undefined (gs : GfStruct) (ig : Bool) (x : R) (hx : x ≠ 0) (i : List Comp) :
    blockFromOp gs ig (ofScalar x) = .undef ∧ blockFromOp gs ig (c i : MMap (List Comp) R) = .undef := by
  constructor
  · simp [ofScalar, hx, blockFromOp, blockLoop, blockEntry]
  · simp [c, makeCanonical, blockFromOp, blockLoop, blockEntry]

/-- a term of an unknown block, or outside its block, is written out of bounds -/
theorem C09_unknown_block_undefined :
    blockEntry [(['u'], 2)] [⟨true, lab ['d'] 0⟩, ⟨false, lab ['d'] 1⟩] = .undef ∧
    blockEntry [(['u'], 2)] [⟨true, lab ['u'] 0⟩, ⟨false, lab ['u'] 2⟩] = .undef := by
  decide +kernel

-- the hypotheses of the round trips hold for a non-trivial operator and block structure
example : ((opFromBlock [(['u'], 2), (['d'], 1)] (fun bl i j => if bl = 0 then (i : ℚ) - 2 * j else 7)).map (·.2))
    = [7, -2, -1, 1] := by decide +kernel

example : blockFromOp [(['u'], 2)] false
    ([([⟨true, lab ['u'] 0⟩, ⟨false, [.str ['u']]⟩], (1 : ℚ))] ++ [([⟨true, [.int 3]⟩, ⟨true, [.int 2]⟩], 2)]) = .undef ∧
    blockFromOp [(['u'], 2)] false [([⟨true, [.int 2]⟩, ⟨true, [.int 3]⟩], (2 : ℚ))] = .exn := by
  constructor <;> simp [blockFromOp, blockLoop, blockEntry, readEntry, lab]

end blockproofs

end Verif.Operators
