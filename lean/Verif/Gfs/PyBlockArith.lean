import Verif.Gfs.PyBlock2
import Verif.Gfs.PyArith
import Mathlib.Algebra.Field.Rat

/-!
# Property C163: arithmetic of block Green functions with numbers, matrices, lists and block functions

Sources: `/repo/python/triqs/gf/block_gf.py` (306-381), `/repo/python/triqs/gf/block2_gf.py` (242-320), `/repo/python/triqs/gf/gf.py`
(426-439, 450-463, 501-502, 576-578), `/repo/c++/triqs/gfs/legacy_for_python_api.hpp` (31-63),
`/repo/python/triqs/gf/wrapped_aux_desc.py` (143-149).

The blocks are the objects of `PyBlocks.lean`, the rules of numpy for shapes those of `PyArith.lean`.

Simplifications: as in `PyBlocks.lean`; the data are complex numbers in exact arithmetic; products of functions and with matrices are the
subject of C134 and not modelled here; lazy expressions are not modelled.
-/

namespace Verif.PyBlockArith

open Verif.PyBlocks Verif.PyArith

/-! ## Model -/

variable {K : Type} [Field K] [DecidableEq K]

/-- an exception, or something that has no value: undefined behaviour in C++ for wrong shapes, infinities after a division by
zero, operands that are not modelled -/
inductive Fail where
  | err (e : PyBlocks.Err)
  | noValue
deriving DecidableEq

inductive Op where
  | add | sub | mul | div
deriving DecidableEq

/-- the right operand of an operation on one Green function -/
inductive Opd (K : Type) where
  | number (c : K)
  | matrix (p q : ℕ) (A : ℕ → ℕ → K)
  | gf (j : ℕ)

/-- the same with the values of the function -/
inductive Val (K : Type) where
  | number (c : K)
  | matrix (p q : ℕ) (A : ℕ → ℕ → K)
  | gf (g : Obj (List ℕ → K))

def resolve (h : Heap (List ℕ → K)) : Opd K → Val K
  | .number c => .number c
  | .matrix p q A => .matrix p q A
  | .gf j => .gf (h j)

/-- `+=` and `-=` of a Green function, gf.py:426-439 and 450-463. `wrapped`: the meshes of the functions of wrapped_aux_desc.py:144-149
(Matsubara and real frequencies). A number stands for its product with the unit matrix that has the first dimension of the target
(legacy_for_python_api.hpp:43-44 and 62-63). -/
def addSub (f : K → K → K) (wrapped : ℕ → Bool) (g : Obj (List ℕ → K)) : Val K → Except Fail (List ℕ → K)
  | .gf o =>
    if g.mesh = o.mesh then
      if fits o.shape g.shape then .ok fun x => f (g.val x) (o.val (pick o.shape x)) else .error (.err .value)
    else .error (.err .assertion)
  | .number c =>
    if g.shape.length ≠ 3 then .ok fun x => f (g.val x) c
    else if wrapped g.mesh then
      if g.shape.getD 1 0 = g.shape.getD 2 0 then .ok fun x => f (g.val x) (if x.getD 1 0 = x.getD 2 0 then c else 0)
      else .error .noValue
    else .error (.err .type)
  | .matrix p q A =>
    if g.shape.length ≠ 3 then .error (.err .type)
    else if wrapped g.mesh then
      if g.shape.drop 1 = [p, q] then .ok fun x => f (g.val x) (A (x.getD 1 0) (x.getD 2 0)) else .error .noValue
    else .error (.err .type)

/-- an operation in place on one Green function: addition and subtraction, the product with a number (gf.py:501-502), and
the division (576-578) by a number or, with the rules of numpy for shapes, a matrix -/
def newVal (wrapped : ℕ → Bool) (op : Op) (g : Obj (List ℕ → K)) (v : Val K) : Except Fail (List ℕ → K) :=
  match op with
  | .add => addSub (· + ·) wrapped g v
  | .sub => addSub (· - ·) wrapped g v
  | .mul =>
    match v with
    | .number c => .ok fun x => g.val x * c
    | _ => .error .noValue
  | .div =>
    match v with
    | .number c => if c = 0 then .error .noValue else .ok fun x => g.val x / c
    | .matrix p q A =>
      if fits [p, q] g.shape then
        if (List.range p).all (fun a => (List.range q).all fun b => decide (A a b ≠ 0)) then
          .ok fun x => g.val x / A ((pick [p, q] x).getD 0 0) ((pick [p, q] x).getD 1 0)
        else .error .noValue
      else .error (.err .value)
    | .gf _ => .error .noValue

/-- the operation on the object `i` -/
def gfOp (wrapped : ℕ → Bool) (op : Op) (h : Heap (List ℕ → K)) (i : ℕ) (o : Opd K) : Except Fail (Heap (List ℕ → K)) :=
  match newVal wrapped op (h i) (resolve h o) with
  | .error e => .error e
  | .ok v => .ok (Function.update h i { h i with val := v })

/-- the loops: operations one after the other until one fails; an operand may fail to exist when its turn comes -/
def runOps (wrapped : ℕ → Bool) (op : Op) : Heap (List ℕ → K) → List (ℕ × Except Fail (Opd K)) → Heap (List ℕ → K) × Option Fail
  | h, [] => (h, none)
  | h, (_, .error e) :: _ => (h, some e)
  | h, (i, .ok o) :: l =>
    match gfOp wrapped op h i o with
    | .error e => (h, some e)
    | .ok h' => runOps wrapped op h' l

/-- the right operand of an operation on a block function -/
inductive BArg (K : Type) where
  | block (C : Block)
  | seq (l : List (Opd K))
  | one (o : Opd K)

/-- block_gf.py:306-314, 323-331, 343-348, 365-371: a list is accepted by `+=`, `-=` and `/=`; by `*=` it is given to the first
block, which refuses it (gf.py:507-508). The division by a block function is not modelled. -/
def plan (op : Op) (B : Block) : BArg K → Except Fail (List (ℕ × Except Fail (Opd K)))
  | .block C =>
    if op = .div then .error .noValue
    else .ok (B.iter.map fun p => (p.2, match C.get p.1 with | .ok j => .ok (.gf j) | .error e => .error (.err e)))
  | .seq l =>
    if op = .mul then .error (.err .assertion)
    else if l.length = B.blocks.length then .ok (B.blocks.zip (l.map .ok))
    else .error (.err .assertion)
  | .one o => .ok (B.blocks.map fun i => (i, .ok o))

/-- `B += a`, `B -= a`, `B *= a`, `B /= a` -/
def inPlace (wrapped : ℕ → Bool) (op : Op) (h : Heap (List ℕ → K)) (B : Block) (a : BArg K) : Heap (List ℕ → K) × Option Fail :=
  match plan op B a with
  | .error e => (h, some e)
  | .ok l => runOps wrapped op h l

/-- `B + a`, `B - a`, `B * a`, `B / a`, block_gf.py:316-321, 333-336, 358-361, 373-376 (for `*`: `a` is not a block function) -/
def binary (wrapped : ℕ → Bool) (op : Op) (h : Heap (List ℕ → K)) (fresh : ℕ) (B : Block) (a : BArg K) :
    Heap (List ℕ → K) × Except Fail Block :=
  match PyBlocks.copy h fresh B with
  | .error e => (h, .error (.err e))
  | .ok (h1, c) =>
    match inPlace wrapped op h1 c a with
    | (h2, none) => (h2, .ok c)
    | (h2, some e) => (h2, .error e)

/-- `a - B`, block_gf.py:338-341 -/
def rsub (wrapped : ℕ → Bool) (h : Heap (List ℕ → K)) (fresh : ℕ) (B : Block) (a : BArg K) : Heap (List ℕ → K) × Except Fail Block :=
  match binary wrapped .mul h fresh B (.one (.number (-1))) with
  | (h1, .error e) => (h1, .error e)
  | (h1, .ok c) =>
    match inPlace wrapped .add h1 c a with
    | (h2, none) => (h2, .ok c)
    | (h2, some e) => (h2, .error e)

/-- the right operand of an operation on a two-index block function -/
inductive BArg2 (K : Type) where
  | block (C : PyBlock2.Block2)
  | seq (l : List (Opd K))
  | one (o : Opd K)

/-- block2_gf.py:242-250, 259-267, 279-287, 304-310. For a list the rows of blocks are unpacked to a name and a block: this fails if there are
not two blocks in a row, and if there are, the first block is used as a name and is not found. -/
def plan2 (op : Op) (B : PyBlock2.Block2) : BArg2 K → Except Fail (List (ℕ × Except Fail (Opd K)))
  | .block C =>
    if op = .div then .error .noValue
    else .ok (B.iter.map fun p => (p.2, match C.get p.1 with | .ok j => .ok (.gf j) | .error e => .error (.err e)))
  | .seq l => if l.length = B.rows.length then .error (.err .value) else .error (.err .assertion)
  | .one o => .ok (B.iter.map fun p => (p.2, .ok o))

def inPlace2 (wrapped : ℕ → Bool) (op : Op) (h : Heap (List ℕ → K)) (B : PyBlock2.Block2) (a : BArg2 K) : Heap (List ℕ → K) × Option Fail :=
  match plan2 op B a with
  | .error e => (h, some e)
  | .ok l => runOps wrapped op h l

/-! ## Specification -/

/-- the operand for the block at position `i` -/
def BArg.nth (B : Block) (i : ℕ) : BArg K → Option (Opd K)
  | .block C => (B.indices[i]?).bind fun n => match C.get n with | .ok j => some (.gf j) | .error _ => none
  | .seq l => l[i]?
  | .one o => some o

/-- the objects of an operand exist in a heap of size `fresh` -/
def BArg.Below (fresh : ℕ) : BArg K → Prop
  | .block C => ∀ j ∈ C.blocks, j < fresh
  | .seq l => ∀ o ∈ l, ∀ j, o = .gf j → j < fresh
  | .one o => ∀ j, o = .gf j → j < fresh

/-- lists have one element for each block and are not for products; block functions are not for divisions -/
def BArg.Fits (op : Op) (B : Block) : BArg K → Prop
  | .block _ => op ≠ .div
  | .seq l => op ≠ .mul ∧ l.length = B.blocks.length
  | .one _ => True

/-! ## Proofs -/

theorem newVal_same (wrapped : ℕ → Bool) (op : Op) {g g' : Obj (List ℕ → K)} (v : Val K) (hs : g.same g') :
    newVal wrapped op g v = newVal wrapped op g' v := by
  obtain ⟨n, m, s, v0⟩ := g
  obtain ⟨n', m', s', v0'⟩ := g'
  obtain ⟨rfl, rfl, rfl⟩ := hs
  cases op <;> cases v <;> rfl

/-- the general statement about the loops -/
theorem runOps_spec (wrapped : ℕ → Bool) (op : Op) (w : ℕ → List ℕ → K) : ∀ (l : List (ℕ × Opd K)) (h : Heap (List ℕ → K)),
    (l.map Prod.fst).Nodup → (∀ p ∈ l, ∀ j, p.2 = .gf j → j = p.1 ∨ j ∉ l.map Prod.fst) →
    (∀ p ∈ l, newVal wrapped op (h p.1) (resolve h p.2) = .ok (w p.1)) →
    runOps wrapped op h (l.map fun p => (p.1, .ok p.2)) = (fun k => if k ∈ l.map Prod.fst then { h k with val := w k } else h k, none)
  | [], h, _, _, _ => by simp [runOps]
  | (i, o) :: l, h, hn, ha, hv => by
    rw [List.map_cons, List.nodup_cons] at hn
    have h0 : newVal wrapped op (h i) (resolve h o) = .ok (w i) := hv (i, o) (by simp)
    have hstep : gfOp wrapped op h i o = .ok (Function.update h i { h i with val := w i }) := by
      unfold gfOp; rw [h0]
    have ih := runOps_spec wrapped op w l (Function.update h i { h i with val := w i }) hn.2
      (fun p hp j hj => by
        rcases ha p (List.mem_cons_of_mem _ hp) j hj with h1 | h1
        · exact Or.inl h1
        · exact Or.inr fun hm => h1 (by rw [List.map_cons]; exact List.mem_cons_of_mem _ hm))
      (fun p hp => by
        have hpi : p.1 ≠ i := fun he => hn.1 (List.mem_map.mpr ⟨p, hp, he⟩)
        rw [Function.update_of_ne hpi]
        have hr : resolve (Function.update h i { h i with val := w i }) p.2 = resolve h p.2 := by
          cases hp2 : p.2 with
          | number c => rfl
          | matrix a b A => rfl
          | gf j =>
            have hji : j ≠ i := by
              rcases ha p (List.mem_cons_of_mem _ hp) j hp2 with h1 | h1
              · rw [h1]; exact hpi
              · rintro rfl; exact h1 (by simp)
            simp [resolve, Function.update_of_ne hji]
        rw [hr]
        exact hv p (List.mem_cons_of_mem _ hp))
    rw [List.map_cons]
    simp only [runOps, hstep]
    rw [ih]
    congr 1
    funext k
    by_cases hk : k = i
    · subst hk
      rw [if_neg hn.1, if_pos (by simp), Function.update_self]
    · by_cases hm : k ∈ l.map Prod.fst
      · rw [if_pos hm, if_pos (by rw [List.map_cons]; exact List.mem_cons_of_mem _ hm), Function.update_of_ne hk]
      · rw [if_neg hm, if_neg (by rw [List.map_cons, List.mem_cons]; tauto), Function.update_of_ne hk]

/-- the loops touch the objects of the left operand only -/
theorem runOps_frame (wrapped : ℕ → Bool) (op : Op) : ∀ (l : List (ℕ × Except Fail (Opd K))) (h : Heap (List ℕ → K)) (k : ℕ),
    k ∉ l.map Prod.fst → (runOps wrapped op h l).1 k = h k
  | [], _, _, _ => rfl
  | (i, .error e) :: l, h, k, _ => rfl
  | (i, .ok o) :: l, h, k, hk => by
    rw [List.map_cons, List.mem_cons, not_or] at hk
    simp only [runOps]
    cases hg : gfOp wrapped op h i o with
    | error e => rfl
    | ok h' =>
      simp only
      rw [runOps_frame wrapped op l h' k hk.2]
      unfold gfOp at hg
      split at hg
      · cases hg
      · cases hg
        exact Function.update_of_ne hk.1 _ _

theorem runOps_append (wrapped : ℕ → Bool) (op : Op) : ∀ (l m : List (ℕ × Except Fail (Opd K))) (h h1 : Heap (List ℕ → K)),
    runOps wrapped op h l = (h1, none) → runOps wrapped op h (l ++ m) = runOps wrapped op h1 m
  | [], m, h, h1, hr => by
    simp only [runOps, Prod.mk.injEq, and_true] at hr
    rw [hr]; rfl
  | (i, .error e) :: l, m, h, h1, hr => by simp [runOps] at hr
  | (i, .ok o) :: l, m, h, h1, hr => by
    simp only [runOps, List.cons_append] at hr ⊢
    cases hg : gfOp wrapped op h i o with
    | error e => rw [hg] at hr; simp at hr
    | ok h' =>
      rw [hg] at hr
      exact runOps_append wrapped op l m h' h1 hr

theorem below_nth (fresh : ℕ) (B : Block) (a : BArg K) (hb : a.Below fresh) (os : ℕ → Opd K) (ho : ∀ i < B.blocks.length, a.nth B i = some (os i)) :
    ∀ i (_ : i < B.blocks.length), ∀ j, os i = .gf j → j < fresh := by
  intro i hi j hj
  have h2 := ho i hi
  cases a with
  | block D =>
    simp only [BArg.nth] at h2
    obtain ⟨n, _, h3⟩ := Option.bind_eq_some_iff.mp h2
    cases hd : D.get n with
    | error e => rw [hd] at h3; cases h3
    | ok j' =>
      rw [hd, hj] at h3
      simp only [Option.some.injEq, Opd.gf.injEq] at h3
      subst h3
      refine hb j' ?_
      unfold Block.get at hd
      split at hd
      · rename_i p hp
        cases hd
        exact (List.of_mem_zip (List.mem_of_find?_eq_some hp)).2
      · cases hd
  | seq l => exact hb _ (List.mem_of_getElem? h2) j hj
  | one o =>
    simp only [BArg.nth, Option.some.injEq] at h2
    exact hb j (h2.trans hj)

/-- minus a difference -/
theorem neg_val (wrapped : ℕ → Bool) (g : Obj (List ℕ → K)) (o : Val K) (v : List ℕ → K) (h : newVal wrapped .sub g o = .ok v) :
    newVal wrapped .add { g with val := fun x => -(g.val x) } o = .ok fun x => -(v x) := by
  simp only [newVal] at h ⊢
  cases o with
  | number c =>
    simp only [addSub] at h ⊢
    split_ifs at h ⊢ <;> cases h <;> congr 1 <;> funext x <;> ring
  | matrix p q A =>
    simp only [addSub] at h ⊢
    split_ifs at h ⊢ <;> cases h <;> congr 1 <;> funext x <;> ring
  | gf o' =>
    simp only [addSub] at h ⊢
    split_ifs at h ⊢ <;> cases h <;> congr 1 <;> funext x <;> ring

theorem plan_targets (op : Op) (B : Block) (hB : B.Valid) (a : BArg K) (l : List (ℕ × Except Fail (Opd K))) (hl : plan op B a = .ok l) :
    l.map Prod.fst = B.blocks := by
  obtain ⟨_, _, _, hlen, _⟩ := (check_iff _ _).mp hB
  cases a with
  | block C =>
    simp only [plan] at hl
    split at hl
    · cases hl
    · cases hl
      rw [List.map_map]
      exact List.map_snd_zip hlen.ge
  | seq s =>
    simp only [plan] at hl
    split at hl
    · cases hl
    · split at hl
      · rename_i hs
        cases hl
        exact List.map_fst_zip (by rw [List.length_map, hs])
      · cases hl
  | one o =>
    cases hl
    rw [List.map_map]
    exact List.map_id _

theorem plan_nth (op : Op) (B : Block) (hB : B.Valid) (a : BArg K) (hf : a.Fits op B) (os : ℕ → Opd K)
    (ho : ∀ i < B.blocks.length, a.nth B i = some (os i)) :
    plan op B a = .ok ((B.blocks.zip ((List.range B.blocks.length).map os)).map fun p => (p.1, .ok p.2)) := by
  obtain ⟨_, _, _, hlen, _⟩ := (check_iff _ _).mp hB
  cases a with
  | block C =>
    simp only [plan]
    rw [if_neg hf]
    congr 1
    apply List.ext_getElem
    · simp [Block.iter, hlen]
    · intro i h1 h2
      have hi : i < B.blocks.length := by simpa [Block.iter, hlen] using h1
      have := ho i hi
      simp only [BArg.nth, List.getElem?_eq_getElem (hlen.symm ▸ hi), Option.bind_some] at this
      simp only [List.getElem_map, Block.iter, List.getElem_zip, List.getElem_range, Prod.mk.injEq, true_and]
      cases hc : C.get B.indices[i] with
      | error e => rw [hc] at this; cases this
      | ok j =>
        rw [hc] at this
        simp only [Option.some.injEq] at this
        rw [← this]
  | seq s =>
    simp only [plan]
    rw [if_neg hf.1, if_pos hf.2]
    congr 1
    apply List.ext_getElem
    · simp [hf.2]
    · intro i h1 h2
      have hi : i < B.blocks.length := by simpa [hf.2] using h1
      have := ho i hi
      simp only [BArg.nth, List.getElem?_eq_getElem (hf.2 ▸ hi), Option.some.injEq] at this
      simp [this]
  | one o =>
    simp only [plan]
    congr 1
    apply List.ext_getElem
    · simp
    · intro i h1 h2
      have hi : i < B.blocks.length := by simpa using h1
      have := ho i hi
      simp only [BArg.nth, Option.some.injEq] at this
      simp [this]

theorem zip_range_fst {α : Type} (l : List ℕ) (os : ℕ → α) : (l.zip ((List.range l.length).map os)).map Prod.fst = l :=
  List.map_fst_zip (by simp)

theorem mem_zip_range {α : Type} (l : List ℕ) (os : ℕ → α) (p : ℕ × α) : p ∈ l.zip ((List.range l.length).map os) ↔
    ∃ i, ∃ h : i < l.length, p = (l[i], os i) := by
  rw [List.mem_iff_getElem]
  constructor
  · rintro ⟨i, hi, rfl⟩
    have hi' : i < l.length := by simpa using hi
    exact ⟨i, hi', by simp⟩
  · rintro ⟨i, hi, rfl⟩
    exact ⟨i, by simpa using hi, by simp⟩

/-- **C163, in place.** If the blocks are different objects, no operand is another block of the left side, and each operation is defined, then
each block has the result of the operation on the old values and everything else is as before. -/
theorem C163_in_place (wrapped : ℕ → Bool) (op : Op) (h : Heap (List ℕ → K)) (B : Block) (hB : B.Valid) (hn : B.blocks.Nodup) (a : BArg K)
    (hf : a.Fits op B) (os : ℕ → Opd K) (ho : ∀ i < B.blocks.length, a.nth B i = some (os i))
    (ha : ∀ i (hi : i < B.blocks.length), ∀ j, os i = .gf j → j = B.blocks[i] ∨ j ∉ B.blocks) (v : ℕ → List ℕ → K)
    (hv : ∀ i (hi : i < B.blocks.length), newVal wrapped op (h B.blocks[i]) (resolve h (os i)) = .ok (v i)) :
    ∃ h', inPlace wrapped op h B a = (h', none) ∧ (∀ i (hi : i < B.blocks.length), h' B.blocks[i] = { h B.blocks[i] with val := v i }) ∧
      ∀ k, k ∉ B.blocks → h' k = h k := by
  have hp := plan_nth op B hB a hf os ho
  have hw : ∀ i (hi : i < B.blocks.length), v (B.blocks.idxOf B.blocks[i]) = v i := by
    intro i hi
    rw [hn.idxOf_getElem i hi]
  have hspec := runOps_spec wrapped op (fun k => v (B.blocks.idxOf k)) (B.blocks.zip ((List.range B.blocks.length).map os)) h
    (by rw [zip_range_fst]; exact hn)
    (by
      intro p hp j hj
      obtain ⟨i, hi, rfl⟩ := (mem_zip_range _ _ _).mp hp
      rw [zip_range_fst]
      exact ha i hi j hj)
    (by
      intro p hp
      obtain ⟨i, hi, rfl⟩ := (mem_zip_range _ _ _).mp hp
      simp only
      rw [hw i hi]
      exact hv i hi)
  rw [zip_range_fst] at hspec
  refine ⟨_, by unfold inPlace; rw [hp]; exact hspec, fun i hi => ?_, fun k hk => ?_⟩
  · simp only
    rw [if_pos (List.getElem_mem hi), hw i hi]
  · simp only
    rw [if_neg hk]

/-- **C163, failures in place.** An operation in place, however it ends, changes blocks of the left side only; and if it fails at some block then the
blocks before have been changed and the others not. -/
theorem C163_half (wrapped : ℕ → Bool) (op : Op) (h : Heap (List ℕ → K)) (B : Block) (hB : B.Valid) (a : BArg K) :
    (∀ k, k ∉ B.blocks → (inPlace wrapped op h B a).1 k = h k) ∧
    ∀ (pre : List (ℕ × Except Fail (Opd K))) (i : ℕ) (o : Opd K) (post : List (ℕ × Except Fail (Opd K))) (h1 : Heap (List ℕ → K)) (e : Fail),
      plan op B a = .ok (pre ++ (i, .ok o) :: post) → runOps wrapped op h pre = (h1, none) → newVal wrapped op (h1 i) (resolve h1 o) = .error e →
      inPlace wrapped op h B a = (h1, some e) := by
  constructor
  · intro k hk
    unfold inPlace
    cases hp : plan op B a with
    | error e => rfl
    | ok l => exact runOps_frame wrapped op l h k (by rw [plan_targets op B hB a l hp]; exact hk)
  · intro pre i o post h1 e hp hr he
    unfold inPlace
    rw [hp]
    simp only
    rw [runOps_append wrapped op pre _ h h1 hr]
    simp [runOps, gfOp, he]

/-- **C163, operators.** `B + a`, `B - a`, `B * a` and `B / a` for an operand for each block of `B` with a defined result: a new block function with
the same names whose blocks are the results, even if blocks are shared; all objects that existed are as before. -/
theorem C163_binary (wrapped : ℕ → Bool) (op : Op) (h : Heap (List ℕ → K)) (fresh : ℕ) (B : Block) (hB : B.Valid)
    (hs : ∀ n ∈ B.indices, n.isStr = true) (a : BArg K) (hb : a.Below fresh) (hf : a.Fits op B) (os : ℕ → Opd K)
    (ho : ∀ i < B.blocks.length, a.nth B i = some (os i)) (v : ℕ → List ℕ → K)
    (hv : ∀ i (hi : i < B.blocks.length), newVal wrapped op (h B.blocks[i]) (resolve h (os i)) = .ok (v i)) :
    ∃ h' R, binary wrapped op h fresh B a = (h', .ok R) ∧ R.Valid ∧ R.indices = B.indices ∧ R.name = "G" ∧ R.blocks.Nodup ∧ R.blocks.length = B.blocks.length ∧
      (∀ k ∈ R.blocks, fresh ≤ k) ∧ (∀ k, k < fresh → h' k = h k) ∧
      ∀ i (hi : i < B.blocks.length), ∃ k, R.blocks[i]? = some k ∧ (h' k).same { h B.blocks[i] with val := v i } := by
  obtain ⟨h1, C, hc, hCn, hCi, hold, hnew, hnd, hval⟩ := C146_copy h fresh B hB hs
  have hC : C.Valid := by
    obtain ⟨_, hm⟩ := makeList_ok hc
    obtain ⟨_, rfl, hck⟩ := make_ok hm
    exact hck
  have hlen : C.blocks.length = B.blocks.length := by
    obtain ⟨_, _, _, l1, _⟩ := (check_iff _ _).mp hB
    obtain ⟨_, _, _, l2, _⟩ := (check_iff _ _).mp hC
    rw [← l1, ← l2, hCi]
  have hnth : ∀ i, a.nth C i = a.nth B i := by
    intro i
    cases a with
    | block D => simp only [BArg.nth, hCi]
    | seq l => rfl
    | one o => rfl
  have hfit : a.Fits op C := by
    cases a with
    | block D => exact hf
    | seq l => exact ⟨hf.1, by rw [hlen]; exact hf.2⟩
    | one o => trivial
  have hbelow := below_nth fresh B a hb os ho
  have hres : ∀ i (hi : i < B.blocks.length), resolve h1 (os i) = resolve h (os i) := by
    intro i hi
    cases hoi : os i with
    | number c => rfl
    | matrix p q A => rfl
    | gf j => simp only [resolve]; rw [hold j (hbelow i hi j hoi)]
  have hCsame : ∀ i (hi : i < C.blocks.length), (h1 C.blocks[i]).same (h (B.blocks[i]'(hlen ▸ hi))) := by
    intro i hi
    obtain ⟨k, hk, hsame⟩ := hval i (hlen ▸ hi)
    rw [List.getElem?_eq_getElem hi, Option.some.injEq] at hk
    rw [hk]
    exact hsame
  obtain ⟨h', hrun, hblk, hoth⟩ := C163_in_place wrapped op h1 C hC hnd a hfit os (fun i hi => by rw [hnth]; exact ho i (hlen ▸ hi))
    (fun i hi j hj => Or.inr fun hm => by
      have := hnew j hm
      have := hbelow i (hlen ▸ hi) j hj
      omega) v
    (fun i hi => by
      rw [newVal_same wrapped op _ (hCsame i hi), hres i (hlen ▸ hi)]
      exact hv i (hlen ▸ hi))
  refine ⟨h', C, ?_, hC, hCi, hCn, hnd, hlen, hnew, fun k hk => ?_, fun i hi => ?_⟩
  · unfold binary
    rw [hc]
    simp only
    rw [hrun]
  · rw [hoth k fun hm => by have := hnew k hm; omega, hold k hk]
  · have hi' : i < C.blocks.length := hlen.symm ▸ hi
    refine ⟨C.blocks[i], List.getElem?_eq_getElem hi', ?_⟩
    rw [hblk i hi']
    obtain ⟨e1, e2, _⟩ := hCsame i hi'
    exact ⟨e1, e2, rfl⟩

/-- **C163, operators never touch their operands**, also when they fail. -/
theorem C163_kept (wrapped : ℕ → Bool) (op : Op) (h : Heap (List ℕ → K)) (fresh : ℕ) (B : Block) (hB : B.Valid)
    (hs : ∀ n ∈ B.indices, n.isStr = true) (a : BArg K) (k : ℕ) (hk : k < fresh) : (binary wrapped op h fresh B a).1 k = h k := by
  obtain ⟨h1, C, hc, hCn, hCi, hold, hnew, hnd, hval⟩ := C146_copy h fresh B hB hs
  have hC : C.Valid := by
    obtain ⟨_, hm⟩ := makeList_ok hc
    obtain ⟨_, rfl, hck⟩ := make_ok hm
    exact hck
  have hk' : k ∉ C.blocks := fun hm => by have := hnew k hm; omega
  have := (C163_half wrapped op h1 C hC a).1 k hk'
  unfold binary
  rw [hc]
  simp only
  rcases hr : inPlace wrapped op h1 C a with ⟨h2, e⟩
  rw [hr] at this
  rcases e with _ | e <;> exact this.trans (hold k hk)

/-- **C163, `a - B`** is minus `B - a`: the values of each block are those of `B - a` with the other sign. -/
theorem C163_rsub (wrapped : ℕ → Bool) (h : Heap (List ℕ → K)) (fresh : ℕ) (B : Block) (hB : B.Valid)
    (hs : ∀ n ∈ B.indices, n.isStr = true) (a : BArg K) (hb : a.Below fresh) (hf : a.Fits .sub B) (os : ℕ → Opd K)
    (ho : ∀ i < B.blocks.length, a.nth B i = some (os i)) (v : ℕ → List ℕ → K)
    (hv : ∀ i (hi : i < B.blocks.length), newVal wrapped .sub (h B.blocks[i]) (resolve h (os i)) = .ok (v i)) :
    ∃ h' R, rsub wrapped h fresh B a = (h', .ok R) ∧ R.indices = B.indices ∧ (∀ k, k < fresh → h' k = h k) ∧
      ∀ i (hi : i < B.blocks.length), ∃ k, R.blocks[i]? = some k ∧ (h' k).same { h B.blocks[i] with val := fun x => -(v i x) } := by
  obtain ⟨h1, C, hbin, hC, hCi, _, hnd, hlen, hnew, hold, hval⟩ := C163_binary wrapped .mul h fresh B hB hs (.one (.number (-1))) (fun j hj => by cases hj)
    trivial (fun _ => .number (-1)) (fun _ _ => rfl) (fun i x => (h (B.blocks.getD i 0)).val x * -1)
    (fun i hi => by simp [newVal, resolve, List.getD_eq_getElem?_getD, List.getElem?_eq_getElem hi])
  have hnth : ∀ i, a.nth C i = a.nth B i := by
    intro i
    cases a with
    | block D => simp only [BArg.nth, hCi]
    | seq l => rfl
    | one o => rfl
  have hfit : a.Fits .add C := by
    cases a with
    | block D => exact (by decide : Op.add ≠ Op.div)
    | seq l => exact ⟨by decide, by rw [hlen]; exact hf.2⟩
    | one o => trivial
  have hbelow := below_nth fresh B a hb os ho
  have hres : ∀ i (hi : i < B.blocks.length), resolve h1 (os i) = resolve h (os i) := by
    intro i hi
    cases hoi : os i with
    | number c => rfl
    | matrix p q A => rfl
    | gf j => simp only [resolve]; rw [hold j (hbelow i hi j hoi)]
  have hCsame : ∀ i (hi : i < C.blocks.length), (h1 C.blocks[i]).same { h (B.blocks[i]'(hlen ▸ hi)) with val := fun x => -((h (B.blocks[i]'(hlen ▸ hi))).val x) } := by
    intro i hi
    obtain ⟨k, hk, hsame⟩ := hval i (hlen ▸ hi)
    rw [List.getElem?_eq_getElem hi, Option.some.injEq] at hk
    rw [hk]
    refine ⟨hsame.1, hsame.2.1, hsame.2.2.trans ?_⟩
    funext x
    simp [List.getD_eq_getElem?_getD, List.getElem?_eq_getElem (hlen ▸ hi : i < B.blocks.length)]
  obtain ⟨h', hrun, hblk, hoth⟩ := C163_in_place wrapped .add h1 C hC hnd a hfit os (fun i hi => by rw [hnth]; exact ho i (hlen ▸ hi))
    (fun i hi j hj => Or.inr fun hm => by
      have := hnew j hm
      have := hbelow i (hlen ▸ hi) j hj
      omega) (fun i x => -(v i x))
    (fun i hi => by
      rw [newVal_same wrapped .add _ (hCsame i hi), hres i (hlen ▸ hi)]
      exact neg_val wrapped _ _ _ (hv i (hlen ▸ hi)))
  refine ⟨h', C, ?_, hCi, fun k hk => ?_, fun i hi => ?_⟩
  · unfold rsub
    rw [hbin]
    simp only
    rw [hrun]
  · rw [hoth k fun hm => by have := hnew k hm; omega, hold k hk]
  · have hi' : i < C.blocks.length := hlen.symm ▸ hi
    refine ⟨C.blocks[i], List.getElem?_eq_getElem hi', ?_⟩
    rw [hblk i hi']
    obtain ⟨e1, e2, _⟩ := hCsame i hi'
    exact ⟨e1, e2, rfl⟩

/-! ### Numbers and matrices -/

/-- **C163, numbers.** A number added to a function which is not matrix-valued is added to every element; for square matrices on Matsubara or real
frequencies it is added to the diagonal; on other meshes a `TypeError` is raised; and for other matrices the behaviour is undefined. -/
theorem C163_number (wrapped : ℕ → Bool) (g : Obj (List ℕ → K)) (c : K) :
    (g.shape.length ≠ 3 → newVal wrapped .add g (.number c) = .ok fun x => g.val x + c) ∧
    (∀ N n, g.shape = [N, n, n] → wrapped g.mesh = true → ∃ v, newVal wrapped .add g (.number c) = .ok v ∧
      ∀ u i j, v [u, i, i] = g.val [u, i, i] + c ∧ (i ≠ j → v [u, i, j] = g.val [u, i, j])) ∧
    (g.shape.length = 3 → wrapped g.mesh = false → newVal wrapped .add g (.number c) = .error (.err .type)) ∧
    (∀ N n m, g.shape = [N, n, m] → n ≠ m → wrapped g.mesh = true → newVal wrapped .add g (.number c) = .error .noValue) := by
  refine ⟨fun h => ?_, fun N n h hw => ?_, fun h hw => ?_, fun N n m h hne hw => ?_⟩
  · simp [newVal, addSub, h]
  · refine ⟨fun x => g.val x + (if x.getD 1 0 = x.getD 2 0 then c else 0), by simp [newVal, addSub, h, hw], fun u i j => ⟨by simp, fun hij => by simp [hij]⟩⟩
  · simp [newVal, addSub, h, hw]
  · simp [newVal, addSub, h, hw, hne]

/-- **C163, matrices.** A matrix of the target shape is added at every frequency; for functions which are not matrix-valued or on other
meshes a `TypeError` is raised, and the behaviour for other shapes is undefined. -/
theorem C163_matrix (wrapped : ℕ → Bool) (g : Obj (List ℕ → K)) (p q : ℕ) (A : ℕ → ℕ → K) :
    (∀ N, g.shape = [N, p, q] → wrapped g.mesh = true → ∃ v, newVal wrapped .add g (.matrix p q A) = .ok v ∧
      ∀ u i j, v [u, i, j] = g.val [u, i, j] + A i j) ∧
    (g.shape.length ≠ 3 ∨ wrapped g.mesh = false → newVal wrapped .add g (.matrix p q A) = .error (.err .type)) ∧
    (∀ N n m, g.shape = [N, n, m] → (n, m) ≠ (p, q) → wrapped g.mesh = true → newVal wrapped .add g (.matrix p q A) = .error .noValue) := by
  refine ⟨fun N h hw => ?_, fun h => ?_, fun N n m h hne hw => ?_⟩
  · exact ⟨fun x => g.val x + A (x.getD 1 0) (x.getD 2 0), by simp [newVal, addSub, h, hw], fun u i j => by simp⟩
  · by_cases h3 : g.shape.length = 3
    · have hw := h.resolve_left (not_not.mpr h3)
      simp [newVal, addSub, h3, hw]
    · simp [newVal, addSub, h3]
  · have : ¬ (n = p ∧ m = q) := fun hh => hne (by rw [hh.1, hh.2])
    simp [newVal, addSub, h, hw, this]

/-- **C163, inverse operations.** Whatever can be added can be subtracted and gives back the values; so for products and quotients with a
number which is not zero. -/
theorem C163_inverse (wrapped : ℕ → Bool) (g : Obj (List ℕ → K)) (o : Val K) (v : List ℕ → K) :
    (newVal wrapped .add g o = .ok v → newVal wrapped .sub { g with val := v } o = .ok g.val) ∧
    (newVal wrapped .sub g o = .ok v → newVal wrapped .add { g with val := v } o = .ok g.val) ∧
    ∀ c : K, c ≠ 0 → newVal wrapped .mul g (.number c) = .ok v → newVal wrapped .div { g with val := v } (.number c) = .ok g.val := by
  have key : ∀ (f f' : K → K → K) (hff : ∀ a b, f' (f a b) b = a), addSub f wrapped g o = .ok v → addSub f' wrapped { g with val := v } o = .ok g.val := by
    intro f f' hff h
    cases o with
    | number c =>
      simp only [addSub] at h ⊢
      split_ifs at h ⊢ <;> cases h <;> simp [hff]
    | matrix p q A =>
      simp only [addSub] at h ⊢
      split_ifs at h ⊢ <;> cases h <;> simp [hff]
    | gf o' =>
      simp only [addSub] at h ⊢
      split_ifs at h ⊢ <;> cases h <;> simp [hff]
  refine ⟨key _ _ (fun a b => by ring), key _ _ (fun a b => by ring), fun c hc h => ?_⟩
  simp only [newVal, Except.ok.injEq] at h ⊢
  rw [if_neg hc, ← h]
  congr 1
  funext x
  exact mul_div_cancel_right₀ _ hc

/-- **C163, division by a matrix** of the target shape is the division of the elements, at every frequency. -/
theorem C163_divide (wrapped : ℕ → Bool) (g : Obj (List ℕ → K)) (N p q : ℕ) (A : ℕ → ℕ → K) (hs : g.shape = [N, p, q]) (hp : 1 < p) (hq : 1 < q)
    (hA : ∀ i < p, ∀ j < q, A i j ≠ 0) :
    ∃ v, newVal wrapped .div g (.matrix p q A) = .ok v ∧ ∀ u i j, v [u, i, j] = g.val [u, i, j] / A i j := by
  have h1 : fits [p, q] g.shape = true := by simp [fits, hs]
  have h2 : (List.range p).all (fun a => (List.range q).all fun b => decide (A a b ≠ 0)) = true := by
    simp only [List.all_eq_true, List.mem_range, decide_eq_true_eq]
    exact hA
  refine ⟨_, by simp only [newVal]; rw [if_pos h1, if_pos h2], fun u i j => ?_⟩
  have hp' : p ≠ 1 := by omega
  have hq' : q ≠ 1 := by omega
  simp [pick, hp', hq']

/-! ### Two-index block functions -/

/-- **C163, two indices.** As `C163_in_place`, for numbers, matrices, functions and block functions. -/
theorem C163_in_place2 (wrapped : ℕ → Bool) (op : Op) (h : Heap (List ℕ → K)) (B : PyBlock2.Block2) (hB : B.Valid) (hn : B.rows.flatten.Nodup) (a : BArg2 K)
    (hf : ∀ C, a = .block C → op ≠ .div) (hq : ∀ l, a ≠ .seq l) (os : Name × Name → Opd K)
    (ho : ∀ k ∈ B.ind1.product B.ind2, (∀ C, a = .block C → ∃ j, C.get k = .ok j ∧ os k = .gf j) ∧ ∀ o, a = .one o → os k = o)
    (ha : ∀ p ∈ B.iter, ∀ j, os p.1 = .gf j → j = p.2 ∨ j ∉ B.rows.flatten) (v : ℕ → List ℕ → K)
    (hv : ∀ p ∈ B.iter, newVal wrapped op (h p.2) (resolve h (os p.1)) = .ok (v p.2)) :
    inPlace2 wrapped op h B a = (fun k => if k ∈ B.rows.flatten then { h k with val := v k } else h k, none) := by
  have hlen : (B.ind1.product B.ind2).length = B.rows.flatten.length := by
    rw [PyBlock2.flat_length B hB]
    exact List.length_product _ _
  have hsnd : B.iter.map Prod.snd = B.rows.flatten := List.map_snd_zip hlen.ge
  have hplan : plan2 op B a = .ok ((B.iter.map fun p => (p.2, os p.1)).map fun p => (p.1, .ok p.2)) := by
    cases a with
    | block C =>
      simp only [plan2]
      rw [if_neg (hf C rfl), List.map_map]
      congr 1
      apply List.map_congr_left
      intro p hp
      obtain ⟨j, hj, hos⟩ := (ho p.1 (List.of_mem_zip hp).1).1 C rfl
      simp [hj, hos]
    | seq l => exact absurd rfl (hq l)
    | one o =>
      simp only [plan2]
      rw [List.map_map]
      congr 1
      apply List.map_congr_left
      intro p hp
      have := (ho p.1 (List.of_mem_zip hp).1).2 o rfl
      simp [this]
  have hfst : (B.iter.map fun p => (p.2, os p.1)).map Prod.fst = B.rows.flatten := by
    rw [List.map_map, ← hsnd]; rfl
  have := runOps_spec wrapped op v (B.iter.map fun p => (p.2, os p.1)) h (by rw [hfst]; exact hn)
    (by
      intro q hq' j hj
      obtain ⟨p, hp, rfl⟩ := List.mem_map.mp hq'
      rw [hfst]
      exact ha p hp j hj)
    (by
      intro q hq'
      obtain ⟨p, hp, rfl⟩ := List.mem_map.mp hq'
      exact hv p hp)
  unfold inPlace2
  rw [hplan]
  simp only
  rw [this, hfst]

/-- **C163 fails for lists and two indices**: every list is refused, of whatever length; nothing changes. -/
theorem C163_sequence2 (wrapped : ℕ → Bool) (op : Op) (h : Heap (List ℕ → K)) (B : PyBlock2.Block2) (l : List (Opd K)) :
    (inPlace2 wrapped op h B (.seq l)).1 = h ∧ (inPlace2 wrapped op h B (.seq l)).2 ≠ none := by
  unfold inPlace2
  simp only [plan2]
  split_ifs <;> simp

/-! ### Examples -/

def exHeap : Heap (List ℕ → ℚ) := fun i => if i = 0 then ⟨"a", 0, [2, 1, 1], fun _ => 5⟩ else if i = 1 then ⟨"b", 0, [2, 2, 2], fun x => x.getD 1 0 + 1⟩ else ⟨"c", 1, [2, 1, 1], fun _ => 7⟩
def exB : Block := ⟨"G", [.str "up", .str "down"], [0, 1]⟩
/-- one object under two names -/
def exS : Block := ⟨"G", [.str "up", .str "down"], [0, 0]⟩
def exC : Block := ⟨"G", [.str "up", .str "down"], [0, 2]⟩

example : exB.Valid ∧ exS.Valid ∧ exC.Valid := by unfold Block.Valid; decide +kernel

/-- **C163 fails for shared blocks in place**: a number is added twice to a function that stands under two names, and once by `+` -/
theorem C163_shared : ((inPlace (fun _ => true) .add exHeap exS (.one (.number 1))).1 0).val [0, 0, 0] = 7 ∧
    (match binary (fun _ => true) .add exHeap 3 exS (.one (.number 1)) with | (h, .ok R) => R.blocks.map fun k => (h k).val [0, 0, 0] | _ => []) = [6, 6] := by
  decide +kernel

/-- **C163 fails for `+=` with another mesh**: the first block has been added when the second one is refused -/
theorem C163_half_witness : (inPlace (fun _ => true) .add exHeap exB (.block exC)).2 = some (.err .assertion) ∧
    ((inPlace (fun _ => true) .add exHeap exB (.block exC)).1 0).val [0, 0, 0] = 10 := by decide +kernel

/-- a list: one operand for each block; a list of another length is refused -/
example : (match binary (fun _ => true) .sub exHeap 3 exB (.seq [.number 1, .matrix 2 2 fun i j => i + 2 * j]) with
      | (h, .ok R) => R.blocks.map fun k => ((h k).val [0, 0, 0], (h k).val [1, 1, 0]) | _ => []) = [(4, 5), (1, 1)] ∧
    (inPlace (fun _ => true) .add exHeap exB (.seq [.number 1])).2 = some (.err .assertion) := by decide +kernel

/-- `1 - B` -/
example : (match rsub (fun _ => true) exHeap 3 exB (.one (.number 1)) with
      | (h, .ok R) => R.blocks.map fun k => ((h k).val [0, 0, 0], (h k).val [1, 1, 0]) | _ => []) = [(-4, -5), (0, -2)] := by decide +kernel

end Verif.PyBlockArith
