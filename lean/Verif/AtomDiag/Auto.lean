import Verif.Hilbert.PartitionMerge
import Verif.Hilbert.ImpModel
import Verif.Operators.Model
import Mathlib.Data.List.Sort
import Mathlib.Algebra.Ring.Int.Defs
import Mathlib.Algebra.Star.Basic

/-!
# Model of the automatic partition in atom_diag

Source: `/repo/c++/triqs/atom_diag/impl/worker.cpp:49-125`. The disjoint-set structure is idealised as in
`Verif.Hilbert.PartitionModel`.
-/

namespace Verif.AtomDiag

open Verif.Partition Relation

/-! ## Model -/

variable {K : Type} [DecidableEq K] [Zero K]

/-- the loop of merges over the fundamental operators, worker.cpp:67-75: `ops` lists `(c_dag, c)` in the order
of the set. -/
def mergeAll (w : UF → Nat → Nat → Bool) (n : Nat) (u : UF) (ops : List (Op K × Op K)) : UF :=
  ops.foldl (fun u o => merge w u n o.1 o.2) u

/-- partition of `autopartition`, worker.cpp:61-75. An empty hybridisation is `none`. -/
def autoUF (w : UF → Nat → Nat → Bool) (n : Nat) (H : Op K) (Hyb : Option (Op K)) (ops : List (Op K × Op K)) : UF :=
  mergeAll w n (ctor w n H false Hyb).1 ops

/-- states of the subspace with number `sp` before empty ones are removed, worker.cpp:83-86, in the order in which they are
added; `keep` is the particle number filter. -/
def statesOf (u : UF) (n : Nat) (keep : Nat → Bool) (sp : Nat) : List Nat :=
  (List.range n).filter (fun s => keep s && lookup u n s == sp)

/-- numbers of the subspaces that are kept, worker.cpp:80-93. -/
def kept (u : UF) (n : Nat) (keep : Nat → Bool) : List Nat :=
  (List.range (nSubspaces u n)).filter (fun sp => (statesOf u n keep sp).length ≠ 0)

/-- `remap.find`, worker.cpp:92-93, 105-108: new number of a kept subspace. -/
def remap (u : UF) (n : Nat) (keep : Nat → Bool) (sp : Nat) : Option Nat :=
  if sp ∈ kept u n keep then some ((kept u n keep).idxOf sp) else none

/-- order of the keys in the map of matrix elements -/
def keyLe (a b : (Nat × Nat) × K) : Bool := a.1.1 < b.1.1 || (a.1.1 == b.1.1 && a.1.2 ≤ b.1.2)

/-- one step of filling the connection table, worker.cpp:104-109. -/
def connStep (u : UF) (n : Nat) (keep : Nat → Bool) (t : Nat → Option Nat) (e : (Nat × Nat) × K) : Nat → Option Nat :=
  match remap u n keep (lookup u n e.1.1) with
  | none => t
  | some i => match remap u n keep (lookup u n e.1.2) with
    | none => t
    | some f => Function.update t i (some f)

/-- a row of `creation_connection` (or `annihilation_connection`), worker.cpp:96-119; `-1` is `none`. The elements are visited in
the order of the map. -/
def connection (u : UF) (n : Nat) (keep : Nat → Bool) (op : Op K) : Nat → Option Nat :=
  ((storeElems n op).insertionSort (fun a b => keyLe a b = true)).foldl (connStep u n keep) (fun _ => none)

/-- action of an imperative operator on a basis state of the full space, as visited by `foreach` -/
def opOf {R : Type} [CommRing R] [DecidableEq R] (h : HSpace.Full) (terms : List (Imp.Term R)) (n : Nat) : Op R := fun i =>
  match Imp.apply h (fun k => if k = (i : Int) then 1 else 0) [i] terms 0 with
  | none => []
  | some t => (List.range n).filterMap (fun f : Nat => if t (f : Int) = 0 then none else some (f, t (f : Int)))

/-! ## Proofs -/

/-- all operator pairs of the list are conjugate and stay in the space -/
def GoodOps (n : Nat) (ops : List (Op K × Op K)) : Prop := ∀ o ∈ ops, o.1.Within n ∧ o.2.Within n ∧ Conjugate n o.1 o.2

theorem mergeAll_spec (w : UF → Nat → Nat → Bool) (n : Nat) : ∀ (ops : List (Op K × Op K)) (u : UF), GoodOps n ops → Valid u n →
    Valid (mergeAll w n u ops) n ∧ ∀ a b, find u a = find u b → find (mergeAll w n u ops) a = find (mergeAll w n u ops) b := by
  intro ops
  induction ops with
  | nil => intro u _ hv; exact ⟨hv, fun _ _ h => h⟩
  | cons o ops ih =>
    intro u hg hv
    obtain ⟨h1, h2, h3⟩ := hg o (by simp)
    obtain ⟨m1, m2⟩ := merge_gen w u n hv o.1 o.2 h1 h2 h3
    obtain ⟨a, b⟩ := ih (merge w u n o.1 o.2) (fun o' ho => hg o' (by simp [ho])) m1
    exact ⟨a, fun x y hxy => b x y ((m2 x y).mpr (EqvGen.rel _ _ (.old hxy)))⟩

theorem autoUF_valid (w : UF → Nat → Nat → Bool) (n : Nat) (H : Op K) (Hyb : Option (Op K)) (ops : List (Op K × Op K)) (hg : GoodOps n ops)
    (hH : H.Within n) (hY : ∀ Y, Hyb = some Y → Op.Within Y n) : Valid (autoUF w n H Hyb ops) n :=
  (mergeAll_spec w n ops _ hg (ctor_gen w false n H Hyb hH hY).1).1

theorem mem_kept (u : UF) (n : Nat) (keep : Nat → Bool) (sp : Nat) :
    sp ∈ kept u n keep ↔ ∃ s < n, keep s = true ∧ lookup u n s = sp := by
  unfold kept
  simp only [List.mem_filter, List.mem_range, decide_eq_true_eq]
  constructor
  · rintro ⟨_, h⟩
    obtain ⟨s, hs⟩ := List.exists_mem_of_length_pos (Nat.pos_of_ne_zero h)
    unfold statesOf at hs
    simp only [List.mem_filter, List.mem_range, Bool.and_eq_true, beq_iff_eq] at hs
    exact ⟨s, hs.1, hs.2⟩
  · rintro ⟨s, hs, h1, rfl⟩
    refine ⟨(C16_numbering u n).2.1 s hs, ?_⟩
    apply Nat.ne_of_gt
    apply List.length_pos_of_mem (a := s)
    unfold statesOf
    simp [hs, h1]

theorem kept_nodup (u : UF) (n : Nat) (keep : Nat → Bool) : (kept u n keep).Nodup := List.nodup_range.filter _

theorem remap_eq_some (u : UF) (n : Nat) (keep : Nat → Bool) (sp k : Nat) : remap u n keep sp = some k ↔ (kept u n keep)[k]? = some sp := by
  unfold remap
  constructor
  · intro h
    split at h
    · rename_i hm
      simp only [Option.some.injEq] at h
      subst h
      rw [List.getElem?_eq_getElem (List.idxOf_lt_length_iff.mpr hm), List.getElem_idxOf]
    · cases h
  · intro h
    obtain ⟨hk, he⟩ := List.getElem?_eq_some_iff.mp h
    have hm : sp ∈ kept u n keep := by rw [← he]; exact List.getElem_mem hk
    rw [if_pos hm, ← he, List.Nodup.idxOf_getElem (kept_nodup u n keep)]

/-- connection between kept subspaces `s` and `t` (new numbers) -/
def Linked (u : UF) (n : Nat) (keep : Nat → Bool) (op : Op K) (s t : Nat) : Prop :=
  ∃ i f, i < n ∧ Connects op i f ∧ remap u n keep (lookup u n i) = some s ∧ remap u n keep (lookup u n f) = some t

theorem fold_connStep (u : UF) (n : Nat) (keep : Nat → Bool) : ∀ (l : List ((Nat × Nat) × K)) (t0 : Nat → Option Nat) (s t : Nat),
    (l.foldl (connStep u n keep) t0 s = some t →
      t0 s = some t ∨ ∃ e ∈ l, remap u n keep (lookup u n e.1.1) = some s ∧ remap u n keep (lookup u n e.1.2) = some t) ∧
    (l.foldl (connStep u n keep) t0 s = none ↔
      t0 s = none ∧ ¬ ∃ e ∈ l, remap u n keep (lookup u n e.1.1) = some s ∧ ∃ t, remap u n keep (lookup u n e.1.2) = some t) := by
  intro l
  induction l with
  | nil => intro t0 s t; simp
  | cons e l ih =>
    intro t0 s t
    rw [List.foldl_cons]
    obtain ⟨ih1, ih2⟩ := ih (connStep u n keep t0 e) s t
    have hstep : (connStep u n keep t0 e s = some t → t0 s = some t ∨ (remap u n keep (lookup u n e.1.1) = some s ∧ remap u n keep (lookup u n e.1.2) = some t)) ∧
        (connStep u n keep t0 e s = none ↔ t0 s = none ∧ ¬ (remap u n keep (lookup u n e.1.1) = some s ∧ ∃ t, remap u n keep (lookup u n e.1.2) = some t)) := by
      unfold connStep
      cases h1 : remap u n keep (lookup u n e.1.1) with
      | none => simp
      | some i =>
        simp only
        cases h2 : remap u n keep (lookup u n e.1.2) with
        | none => simp
        | some f =>
          simp only
          by_cases hs : s = i
          · subst hs
            exact ⟨fun h => Or.inr (by simpa using h), by simp⟩
          · have hs' : ¬ i = s := fun h => hs h.symm
            simp [Function.update_of_ne hs, hs']
    refine ⟨fun h => ?_, ?_⟩
    · rcases ih1 h with h | ⟨e', he, h⟩
      · rcases hstep.1 h with h | h
        · exact Or.inl h
        · exact Or.inr ⟨e, by simp, h⟩
      · exact Or.inr ⟨e', by simp [he], h⟩
    · rw [ih2, hstep.2]
      simp only [List.mem_cons, exists_eq_or_imp, not_or, and_assoc]

theorem getEl_of_mem {m : Elems K} (hnd : (m.map (·.1)).Nodup) {k : Nat × Nat} {v : K} (h : (k, v) ∈ m) : getEl m k = some v := by
  induction m with
  | nil => cases h
  | cons e m ih =>
    simp only [List.map_cons, List.nodup_cons] at hnd
    unfold getEl
    rcases List.mem_cons.mp h with rfl | h
    · simp
    · have : e.1 ≠ k := by rintro rfl; exact hnd.1 (List.mem_map.mpr ⟨_, h, rfl⟩)
      simp only [List.find?_cons, this, decide_false]
      exact ih hnd.2 h

theorem mem_of_getEl {m : Elems K} {k : Nat × Nat} {v : K} (h : getEl m k = some v) : (k, v) ∈ m := by
  unfold getEl at h
  simp only [Option.map_eq_some_iff] at h
  obtain ⟨e, he, rfl⟩ := h
  have h1 := List.mem_of_find?_eq_some he
  have h2 := List.find?_some he
  simp only [decide_eq_true_eq] at h2
  rw [← h2]; exact h1

theorem setElem_nodup {m : Elems K} (h : (m.map (·.1)).Nodup) (k : Nat × Nat) (v : K) : ((setElem m k v).map (·.1)).Nodup := by
  unfold setElem
  simp only [List.map_cons, List.nodup_cons]
  refine ⟨?_, ?_⟩
  · simp only [List.mem_map, List.mem_filter, decide_eq_true_eq, not_exists, not_and]
    rintro e ⟨_, h⟩ rfl
    exact h rfl
  · exact h.sublist (List.Sublist.map _ List.filter_sublist)

theorem storeElems_nodup (n : Nat) (op : Op K) : ((storeElems n op).map (·.1)).Nodup := by
  have h1 : ∀ (i : Nat) (l : List (Nat × K)) (m : Elems K), (m.map (·.1)).Nodup → ((l.foldl (storeOne i) m).map (·.1)).Nodup := by
    intro i l
    induction l with
    | nil => intro m h; exact h
    | cons e l ih =>
      intro m h
      rw [List.foldl_cons]
      apply ih
      unfold storeOne
      split
      · exact h
      · exact setElem_nodup h _ _
  have h2 : ∀ (l : List Nat) (m : Elems K), (m.map (·.1)).Nodup → ((l.foldl (fun m i => (op i).foldl (storeOne i) m) m).map (·.1)).Nodup := by
    intro l
    induction l with
    | nil => intro m h; exact h
    | cons i l ih => intro m h; rw [List.foldl_cons]; exact ih _ (h1 i _ _ h)
  exact h2 _ _ List.nodup_nil

theorem mem_storeElems (n : Nat) (op : Op K) (hnd : ∀ i, ((op i).map (·.1)).Nodup) (i f : Nat) (v : K) :
    ((i, f), v) ∈ storeElems n op ↔ i < n ∧ (f, v) ∈ op i ∧ v ≠ 0 := by
  rw [← C18_stored_elements n op hnd]
  exact ⟨fun h => getEl_of_mem (storeElems_nodup n op) h, mem_of_getEl⟩

/-- **C66** (partial: uniqueness of the connection fails in general, see below). For every partition: an entry of the
connection table is empty iff the operator connects the subspace to no kept subspace, a filled entry is
a true connection; if the connection is unique the table is exactly the connection; the connection is unique whenever another
merge for this operator would not change the partition. -/
theorem C66_connection_table_partial (u : UF) (n : Nat) (hv : Valid u n) (keep : Nat → Bool) (op : Op K) (hnd : ∀ i, ((op i).map (·.1)).Nodup) :
    (∀ s, connection u n keep op s = none ↔ ¬ ∃ t, Linked u n keep op s t) ∧
    (∀ s t, connection u n keep op s = some t → Linked u n keep op s t) ∧
    ((∀ s t t', Linked u n keep op s t → Linked u n keep op s t' → t = t') →
      ∀ s t, connection u n keep op s = some t ↔ Linked u n keep op s t) ∧
    (∀ (w : UF → Nat → Nat → Bool) (op' : Op K), op.Within n → op'.Within n → Conjugate n op op' →
      (∀ i < n, ∀ j < n, lookup (merge w u n op op') n i = lookup (merge w u n op op') n j → lookup u n i = lookup u n j) →
      ∀ s t t', Linked u n keep op s t → Linked u n keep op s t' → t = t') := by
  have hmem : ∀ (i f : Nat) (v : K), ((i, f), v) ∈ (storeElems n op).insertionSort (fun a b => keyLe a b = true) ↔ i < n ∧ (f, v) ∈ op i ∧ v ≠ 0 := by
    intro i f v
    rw [List.mem_insertionSort, mem_storeElems n op hnd]
  have hnone : ∀ s, connection u n keep op s = none ↔ ¬ ∃ t, Linked u n keep op s t := by
    intro s
    unfold connection
    rw [(fold_connStep u n keep _ _ s 0).2]
    simp only [true_and]
    apply not_congr
    constructor
    · rintro ⟨⟨⟨i, f⟩, v⟩, he, h1, t, h2⟩
      obtain ⟨hi, hf, h0⟩ := (hmem i f v).mp he
      exact ⟨t, i, f, hi, ⟨v, h0, hf⟩, h1, h2⟩
    · rintro ⟨t, i, f, hi, ⟨v, h0, hf⟩, h1, h2⟩
      exact ⟨((i, f), v), (hmem i f v).mpr ⟨hi, hf, h0⟩, h1, t, h2⟩
  have hsome : ∀ s t, connection u n keep op s = some t → Linked u n keep op s t := by
    intro s t h
    rcases (fold_connStep u n keep _ _ s t).1 h with h | ⟨⟨⟨i, f⟩, v⟩, he, h1, h2⟩
    · cases h
    · obtain ⟨hi, hf, h0⟩ := (hmem i f v).mp he
      exact ⟨i, f, hi, ⟨v, h0, hf⟩, h1, h2⟩
  refine ⟨hnone, hsome, ?_, ?_⟩
  · intro huniq s t
    refine ⟨hsome s t, fun hl => ?_⟩
    cases hc : connection u n keep op s with
    | none => exact absurd ⟨t, hl⟩ ((hnone s).mp hc)
    | some t' => rw [huniq s t t' hl (hsome s t' hc)]
  · intro w op' ho ho' hconj hfix s t t' h h'
    obtain ⟨i, f, hi, hc, h1, h2⟩ := h
    obtain ⟨i', f', hi', hc', h1', h2'⟩ := h'
    have hf : f < n := by obtain ⟨v, _, hm⟩ := hc; exact ho i hi _ hm
    have hf' : f' < n := by obtain ⟨v, _, hm⟩ := hc'; exact ho i' hi' _ hm
    have hsame : lookup u n i = lookup u n i' := by
      rw [remap_eq_some] at h1 h1'
      rw [h1] at h1'
      exact Option.some.inj h1'
    have : lookup u n f = lookup u n f' := by
      apply hfix f hf f' hf'
      rw [C17_merge_partial w u n hv op op' ho ho' hconj f f' hf hf']
      exact EqvGen.rel _ _ (.reached hi hi' ⟨hsame, hi, hi'⟩ hc hc')
    rw [this] at h2
    rw [h2] at h2'
    exact Option.some.inj h2'

-- two orbitals, states 0..3, every state its own subspace, filter on at most one particle: the creation operator of
-- orbital 0 connects subspace 0 to 1 and nothing else that is kept; another merge would change nothing
example : (List.range 3).map (connection [0, 1, 2, 3] 4 (fun s => s != 3) (create 0)) = [some 1, none, none] ∧
    ∀ i < 4, ∀ j < 4, lookup (merge (fun _ _ _ => true) [0, 1, 2, 3] 4 (create 0) (destroy 0)) 4 i =
      lookup (merge (fun _ _ _ => true) [0, 1, 2, 3] 4 (create 0) (destroy 0)) 4 j → lookup [0, 1, 2, 3] 4 i = lookup [0, 1, 2, 3] 4 j := by
  decide +kernel

/-- After all merges the subspaces are still invariant under the Hamiltonian and the hybridisation. -/
theorem C66_invariant (w : UF → Nat → Nat → Bool) (n : Nat) (H : Op K) (Hyb : Option (Op K)) (ops : List (Op K × Op K)) (hg : GoodOps n ops)
    (hH : H.Within n) (hY : ∀ Y, Hyb = some Y → Op.Within Y n) (i f : Nat) (h : HStep n H Hyb i f) :
    lookup (autoUF w n H Hyb ops) n i = lookup (autoUF w n H Hyb ops) n f := by
  rw [lookup_eq_iff _ _ _ _ h.1]
  obtain ⟨hv, hgen⟩ := ctor_gen w false n H Hyb hH hY
  exact (mergeAll_spec w n ops _ hg hv).2 i f ((hgen i f).mpr (EqvGen.rel _ _ h))

/-- Kept subspaces, in their new numbering: every state that passes the filter is in exactly one of them, and none is
empty. A vacuum state that is kept is the first state of its subspace. -/
theorem C66_kept_subspaces (u : UF) (n : Nat) (keep : Nat → Bool) :
    (∀ s < n, keep s = true → ∃! k : Nat, ∃ sp, (kept u n keep)[k]? = some sp ∧ s ∈ statesOf u n keep sp) ∧
    (∀ (k : Nat) sp, (kept u n keep)[k]? = some sp → statesOf u n keep sp ≠ []) ∧
    (∀ sp, 0 ∈ statesOf u n keep sp → (statesOf u n keep sp).head? = some 0) := by
  have hst : ∀ s sp, s ∈ statesOf u n keep sp ↔ s < n ∧ keep s = true ∧ lookup u n s = sp := by
    intro s sp; unfold statesOf; simp
  refine ⟨?_, ?_, ?_⟩
  · intro s hs hk
    have hm := (mem_kept u n keep (lookup u n s)).mpr ⟨s, hs, hk, rfl⟩
    obtain ⟨k, hk', he⟩ := List.mem_iff_getElem.mp hm
    refine ⟨k, ⟨_, List.getElem?_eq_some_iff.mpr ⟨hk', he⟩, (hst _ _).mpr ⟨hs, hk, rfl⟩⟩, ?_⟩
    rintro k2 ⟨sp, h1, h2⟩
    have h2 := ((hst _ _).mp h2).2.2
    subst h2
    obtain ⟨hk2, he2⟩ := List.getElem?_eq_some_iff.mp h1
    exact (List.Nodup.getElem_inj_iff (kept_nodup u n keep)).mp (he2.trans he.symm)
  · intro k sp h
    obtain ⟨hk, he⟩ := List.getElem?_eq_some_iff.mp h
    have hm : sp ∈ kept u n keep := by rw [← he]; exact List.getElem_mem hk
    obtain ⟨s, hs, h1, h2⟩ := (mem_kept u n keep sp).mp hm
    exact List.ne_nil_of_mem ((hst s sp).mpr ⟨hs, h1, h2⟩)
  · intro sp h0
    have hsorted : (statesOf u n keep sp).Pairwise (· < ·) := List.Pairwise.filter _ List.pairwise_lt_range
    cases hl : statesOf u n keep sp with
    | nil => rw [hl] at h0; cases h0
    | cons a l =>
      rw [hl] at h0 hsorted
      rcases List.mem_cons.mp h0 with h | h
      · rw [← h]; rfl
      · exact absurd ((List.pairwise_cons.mp hsorted).1 0 h) (Nat.not_lt_zero _)

example : kept [0, 1, 1, 3] 4 (fun s => s != 0) = [1, 2] ∧ statesOf [0, 1, 1, 3] 4 (fun s => s != 0) 1 = [1, 2] := by decide

/-! ### the witness -/

open Verif.Operators in
/-- pair hopping plus assisted hopping: `c+_1 c+_2 c_3 c_0 + n_1 n_3 c+_0 c_2 + h.c.` -/
def exHam : MMap Nat Int :=
  let a := add (mul (cDag 1) (mul (cDag 2) (mul (c 3) (c 0)))) (mul (mul (cDag 1) (c 1)) (mul (mul (cDag 3) (c 3)) (mul (cDag 0) (c 2))))
  add a (dagger a)

def exFops : Fops.Fops Nat := Fops.ofInserts [0, 1, 2, 3]

open Verif.Operators in
/-- operator of the 16-dimensional space of four orbitals -/
def exOp (op : MMap Nat Int) : Op Int := match Imp.build exFops op with
  | none => fun _ => []
  | some terms => opOf ⟨16⟩ terms 16

open Verif.Operators in
def exOps : List (Op Int × Op Int) := [0, 1, 2, 3].map (fun k => (exOp (cDag k), exOp (c k)))

def exAuto : UF := autoUF (fun _ _ _ => true) 16 (exOp exHam) none exOps

/-- **C66 fails**: for this Hermitian Hamiltonian of four orbitals the automatic partition has a subspace from which
`c+_0` reaches two subspaces; the table has room for one of them only. -/
theorem C66_two_connections :
    Operators.isHermitian exHam = true ∧
    (exOp exHam 9 = [(6, 1)] ∨ exOp exHam 9 = [(6, -1)]) ∧ (exOp exHam 14 = [(11, 1)] ∨ exOp exHam 14 = [(11, -1)]) ∧
    ∃ s t t', t ≠ t' ∧ Linked exAuto 16 (fun _ => true) (exOp (Operators.cDag 0)) s t ∧
      Linked exAuto 16 (fun _ => true) (exOp (Operators.cDag 0)) s t' := by
  refine ⟨by decide +kernel, by decide +kernel, by decide +kernel, 3, 5, 8, by decide, ⟨6, 7, by decide, ⟨1, by decide, by decide +kernel⟩, by decide +kernel, by decide +kernel⟩,
    ⟨12, 13, by decide, ⟨1, by decide, by decide +kernel⟩, by decide +kernel, by decide +kernel⟩⟩

end Verif.AtomDiag
