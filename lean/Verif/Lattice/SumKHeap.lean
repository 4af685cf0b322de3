import Mathlib.Logic.Function.Basic
import Mathlib.Data.List.Nodup
import Mathlib.Data.List.Basic
import Mathlib.Tactic.NormNum

/-!
# The sum over k and the objects it works on

`SumkDiscrete.__call__`, `/repo/python/triqs/sumk/sumk_discrete.py`, with the blocks as objects on a heap.  The sum
itself is C131 (`Verif/Lattice/HilbertTransform.lean`), with values instead of objects.

* C190: which objects the call changes, what they hold afterwards whatever the objects of the arguments have in common,
  and what happens to them if the call fails.

Simplifications: the data of a block is an element of a type `V` with arbitrary operations; the assertions of lines
105-138 hold, and all meshes and shapes are equal; the points are the slice of this node (line 149) and `red` is
`all_reduce` with the data of the other nodes (line 163); functions for `Sigma` do not change existing blocks.
-/

namespace Verif.SumKHeap

/-! ## Model -/

/-- the data of the blocks -/
abbrev Heap (V : Type) := ℕ → V

/-- a `BlockGf`: names and objects, block_gf.py:123 -/
abbrev Blk := List (String × ℕ)

def Blk.ids (B : Blk) : List ℕ := List.map Prod.snd B
def Blk.names (B : Blk) : List String := List.map Prod.fst B

/-- operations on data: of Green functions (`V`), matrices (`M`) and weights (`W`) -/
structure Ops (V M W : Type) where
  zero : V
  omega : V
  sub : V → V → V
  subM : V → M → V
  inv : V → V
  scale : W → V → V
  add : V → V → V

variable {V M W K : Type}

/-- `self[n]`, block_gf.py:271-276; `none` is the IndexError -/
def get (B : Blk) (n : String) : Option ℕ := (List.find? (fun p => p.1 == n) B).map Prod.snd

/-- a loop over the blocks that stops at an exception -/
def each (h : Heap V) (f : Heap V → String → ℕ → Option V) : Blk → Heap V × Bool
  | [] => (h, true)
  | (n, i) :: l =>
    match f h n i with
    | none => (h, false)
    | some v => each (Function.update h i v) f l

/-- one statement after the other, until an exception -/
def andThen (r : Heap V × Bool) (f : Heap V → Heap V × Bool) : Heap V × Bool := if r.2 then f r.1 else r

/-- the new objects of `B.copy()`, block_gf.py:137-139, numbered from `fresh` on -/
def newBlk (fresh : ℕ) : Blk → Blk
  | [] => []
  | (n, _) :: l => (n, fresh) :: newBlk (fresh + 1) l

/-- `B.copy()`: the data of the new objects -/
def copyInto (h : Heap V) (fresh : ℕ) : Blk → Heap V
  | [] => h
  | (_, i) :: l => copyInto (Function.update h fresh (h i)) (fresh + 1) l

/-- `A << B` and `A -= B` for two `BlockGf`, block_gf.py:298-299 and 324-325 -/
def assignB (S : Blk) (h : Heap V) (n : String) (_ : ℕ) : Option V := (get S n).map h
def subB (o : Ops V M W) (S : Blk) (h : Heap V) (n : String) (i : ℕ) : Option V := (get S n).map fun j => o.sub (h i) (h j)
/-- `A += B`, block_gf.py:307-308 -/
def addB (o : Ops V M W) (S : Blk) (h : Heap V) (n : String) (i : ℕ) : Option V := (get S n).map fun j => o.add (h i) (h j)

/-- `A -= B` for the blocks a function has returned -/
def subVals (o : Ops V M W) (s : String → Option V) (h : Heap V) (n : String) (i : ℕ) : Option V := (s n).map fun v => o.sub (h i) v

/-- the argument `Sigma`: a `BlockGf` or a function, which may look at the heap, lines 112-124 -/
inductive Sigma (V M K : Type) where
  | block (S : Blk)
  | fn (F : K → M → Heap V → String → Option V)

/-- lines 155-157 -/
def subSigma (o : Ops V M W) (s : Sigma V M K) (k : K) (e : M) (h : Heap V) (tmp2 : Blk) : Heap V × Bool :=
  match s with
  | .block _ => (h, true)
  | .fn F => each h (subVals o (F k e h)) tmp2

/-- the loop body for one point, lines 151-161; `hat` is `eps_hat - mupat` -/
def point (o : Ops V M W) (hat : M → M) (s : Sigma V M K) (G tmp tmp2 : Blk) (h : Heap V) (p : W × K × M) : Heap V × Bool :=
  andThen (andThen (andThen (andThen (andThen (each h (assignB tmp) tmp2)
    fun h => each h (fun h _ i => some (o.subM (h i) (hat p.2.2))) tmp2)
    fun h => subSigma o s p.2.1 p.2.2 h tmp2)
    fun h => each h (fun h _ i => some (o.inv (h i))) tmp2)
    fun h => each h (fun h _ i => some (o.scale p.1 (h i))) tmp2)
    fun h => each h (addB o tmp2) G

def loop (o : Ops V M W) (hat : M → M) (s : Sigma V M K) (G tmp tmp2 : Blk) : Heap V → List (W × K × M) → Heap V × Bool
  | h, [] => (h, true)
  | h, p :: l => andThen (point o hat s G tmp tmp2 h p) fun h => loop o hat s G tmp tmp2 h l

/-- lines 145: a field that is a `BlockGf`, or none -/
def subField (o : Ops V M W) (field : Option Blk) (h : Heap V) (tmp : Blk) : Heap V × Bool :=
  match field with
  | none => (h, true)
  | some B => each h (subB o B) tmp

/-- line 146 -/
def subStatic (o : Ops V M W) (s : Sigma V M K) (h : Heap V) (tmp : Blk) : Heap V × Bool :=
  match s with
  | .block S => each h (subB o S) tmp
  | .fn _ => (h, true)

/-- lines 140-163: everything is done in `G`, new objects are numbered from `fresh` on -/
def body (o : Ops V M W) (hat : M → M) (red : String → V → V) (s : Sigma V M K) (field : Option Blk) (pts : List (W × K × M))
    (G : Blk) (fresh : ℕ) (h : Heap V) : Heap V × Bool :=
  let tmp := newBlk fresh G
  let tmp2 := newBlk (fresh + List.length G) G
  andThen (andThen (andThen (andThen (andThen (each h (fun _ _ _ => some o.zero) G)
    fun h => (copyInto (copyInto h fresh G) (fresh + List.length G) G, true))
    fun h => andThen (each h (fun _ _ _ => some o.omega) tmp) fun h => subField o field h tmp)
    fun h => subStatic o s h tmp)
    fun h => loop o hat s G tmp tmp2 h pts)
    fun h => each h (fun h n i => some (red n (h i))) G

/-- `__call__`, lines 73-166: with `result`, or a copy of the model (line 126). The returned block and the heap. -/
def call (o : Ops V M W) (hat : M → M) (red : String → V → V) (s : Sigma V M K) (model : Blk) (field : Option Blk) (pts : List (W × K × M))
    (result : Option Blk) (fresh : ℕ) (h : Heap V) : Blk × Heap V × Bool :=
  match result with
  | some G => (G, body o hat red s field pts G fresh h)
  | none => (newBlk fresh model, body o hat red s field pts (newBlk fresh model) (fresh + List.length model) (copyInto h fresh model))

/-! ## Specification -/

/-- a block as the constructor makes it (names unique, block_gf.py:111), with different objects that exist -/
def Fine (B : Blk) (fresh : ℕ) : Prop := B.names.Nodup ∧ B.ids.Nodup ∧ ∀ i ∈ B.ids, i < fresh

/-- the objects of `B` exist -/
def Below (B : Blk) (fresh : ℕ) : Prop := ∀ i ∈ B.ids, i < fresh

/-- the heap when `field` and `Sigma` are read: the blocks of the result are already zero -/
def zeroed (o : Ops V M W) (G : Blk) (h : Heap V) : Heap V := fun i => if i ∈ G.ids then o.zero else h i

/-- `omega - field - Sigma` for the block `n` -/
def base (o : Ops V M W) (field : Option Blk) (s : Sigma V M K) (h : Heap V) (n : String) : Option V :=
  let a : Option V :=
    match field with
    | none => some o.omega
    | some B => (get B n).map fun j => o.sub o.omega (h j)
  match s with
  | .block S => a.bind fun a => (get S n).map fun j => o.sub a (h j)
  | .fn _ => a

/-- the contribution of one point -/
def term (o : Ops V M W) (hat : M → M) (s : Sigma V M K) (h : Heap V) (x : V) (n : String) (p : W × K × M) : Option V :=
  match s with
  | .block _ => some (o.scale p.1 (o.inv (o.subM x (hat p.2.2))))
  | .fn F => (F p.2.1 p.2.2 h n).map fun v => o.scale p.1 (o.inv (o.sub (o.subM x (hat p.2.2)) v))

/-- the sum over the points in their order -/
def total (o : Ops V M W) (hat : M → M) (s : Sigma V M K) (h : Heap V) (x : V) (n : String) : V → List (W × K × M) → Option V
  | a, [] => some a
  | a, p :: l => (term o hat s h x n p).bind fun t => total o hat s h x n (o.add a t) l

/-- functions for `Sigma` that do not look at the blocks of the result nor at objects made later -/
def Blind (s : Sigma V M K) (G : Blk) (fresh : ℕ) : Prop :=
  match s with
  | .block _ => True
  | .fn F => ∀ k e (h h' : Heap V), (∀ i, i < fresh → i ∉ G.ids → h i = h' i) → F k e h = F k e h'

/-! ## Proofs -/

theorem mem_ids {B : Blk} {p : String × ℕ} (h : p ∈ B) : p.2 ∈ B.ids := List.mem_map_of_mem h
theorem mem_names {B : Blk} {p : String × ℕ} (h : p ∈ B) : p.1 ∈ B.names := List.mem_map_of_mem h

theorem get_mem {B : Blk} {n : String} {j : ℕ} (h : get B n = some j) : (n, j) ∈ B := by
  unfold get at h
  rw [Option.map_eq_some_iff] at h
  obtain ⟨p, hp, rfl⟩ := h
  have h1 := List.mem_of_find?_eq_some hp
  have h2 := List.find?_some hp
  simp only [beq_iff_eq] at h2
  rw [← h2]
  exact h1

theorem get_names {B : Blk} {n : String} (h : n ∈ B.names) : ∃ j, get B n = some j := by
  obtain ⟨p, hp, rfl⟩ := List.mem_map.1 h
  unfold get
  cases hf : List.find? (fun q => q.1 == p.1) B with
  | none => exact absurd (List.find?_eq_none.1 hf p hp) (by simp)
  | some q => exact ⟨q.2, rfl⟩

theorem each_spec (f : Heap V → String → ℕ → Option V) (v : String → V) : ∀ (l : Blk) (h : Heap V), l.ids.Nodup →
    (∀ p ∈ l, ∀ h' : Heap V, (∀ j, j ∉ l.ids → h' j = h j) → h' p.2 = h p.2 → f h' p.1 p.2 = some (v p.1)) →
    ∃ h', each h f l = (h', true) ∧ (∀ p ∈ l, h' p.2 = v p.1) ∧ ∀ j, j ∉ l.ids → h' j = h j
  | [], h, _, _ => ⟨h, rfl, fun p hp => absurd hp (by simp), fun _ _ => rfl⟩
  | (n, i) :: l, h, hn, hf => by
    have hn' : i ∉ Blk.ids l ∧ (Blk.ids l).Nodup := List.nodup_cons.1 hn
    have h0 : f h n i = some (v n) := hf (n, i) List.mem_cons_self h (fun _ _ => rfl) rfl
    obtain ⟨h', e1, e2, e3⟩ := each_spec f v l (Function.update h i (v n)) hn'.2 (fun p hp h' ha hb => by
      have hne : p.2 ≠ i := fun e => hn'.1 (e ▸ mem_ids hp)
      refine hf p (List.mem_cons_of_mem _ hp) h' (fun j hj => ?_) ?_
      · have hj' : j ≠ i ∧ j ∉ Blk.ids l := by
          constructor
          · rintro rfl
            exact hj List.mem_cons_self
          · exact fun hm => hj (List.mem_cons_of_mem _ hm)
        rw [ha j hj'.2, Function.update_of_ne hj'.1]
      · rw [hb, Function.update_of_ne hne])
    refine ⟨h', ?_, ?_, ?_⟩
    · rw [each, h0]
      exact e1
    · intro p hp
      rcases List.mem_cons.1 hp with rfl | hp
      · rw [e3 _ hn'.1, Function.update_self]
      · exact e2 p hp
    · intro j hj
      rw [e3 j (fun hm => hj (List.mem_cons_of_mem _ hm)), Function.update_of_ne]
      rintro rfl
      exact hj List.mem_cons_self

theorem each_frame (f : Heap V → String → ℕ → Option V) : ∀ (l : Blk) (h : Heap V) (j : ℕ), j ∉ l.ids → (each h f l).1 j = h j
  | [], _, _, _ => rfl
  | (n, i) :: l, h, j, hj => by
    rw [each]
    split
    · rfl
    · rw [each_frame f l _ j (fun hm => hj (List.mem_cons_of_mem _ hm)), Function.update_of_ne]
      rintro rfl
      exact hj List.mem_cons_self

theorem each_fails (f : Heap V → String → ℕ → Option V) : ∀ (l : Blk) (h : Heap V), (∃ p ∈ l, ∀ h', f h' p.1 p.2 = none) → (each h f l).2 = false
  | [], _, he => by obtain ⟨p, hp, _⟩ := he; exact absurd hp (by simp)
  | (n, i) :: l, h, he => by
    rw [each]
    split
    · rfl
    · next v hv =>
      obtain ⟨p, hp, hf⟩ := he
      rcases List.mem_cons.1 hp with rfl | hp
      · rw [hf h] at hv
        exact absurd hv (by simp)
      · exact each_fails f l _ ⟨p, hp, hf⟩

theorem copyInto_old : ∀ (l : Blk) (h : Heap V) (fresh j : ℕ), j < fresh → copyInto h fresh l j = h j
  | [], _, _, _, _ => rfl
  | (_, i) :: l, h, fresh, j, hj => by
    rw [copyInto, copyInto_old l _ _ _ (by omega), Function.update_of_ne (by omega)]

theorem newBlk_names : ∀ (l : Blk) (fresh : ℕ), (newBlk fresh l).names = l.names
  | [], _ => rfl
  | (n, i) :: l, fresh => by
    show n :: Blk.names (newBlk (fresh + 1) l) = n :: Blk.names l
    rw [newBlk_names l]

theorem newBlk_ids : ∀ (l : Blk) (fresh j : ℕ), j ∈ (newBlk fresh l).ids → fresh ≤ j ∧ j < fresh + List.length l
  | [], _, j, h => absurd h (by simp [newBlk, Blk.ids])
  | (n, i) :: l, fresh, j, h => by
    rcases List.mem_cons.1 (show j ∈ fresh :: Blk.ids (newBlk (fresh + 1) l) from h) with rfl | h
    · simp
    · have := newBlk_ids l _ _ h
      rw [List.length_cons]
      omega

theorem newBlk_nodup : ∀ (l : Blk) (fresh : ℕ), (newBlk fresh l).ids.Nodup
  | [], _ => List.nodup_nil
  | (n, i) :: l, fresh => by
    show (fresh :: Blk.ids (newBlk (fresh + 1) l)).Nodup
    refine List.nodup_cons.2 ⟨fun h => ?_, newBlk_nodup l _⟩
    have := newBlk_ids l _ _ h
    omega

theorem newBlk_length : ∀ (l : Blk) (fresh : ℕ), List.length (newBlk fresh l) = List.length l
  | [], _ => rfl
  | (n, i) :: l, fresh => by rw [newBlk, List.length_cons, List.length_cons, newBlk_length l]

/-- the three blocks of the loop -/
structure Lay (G tmp tmp2 : Blk) (fresh : ℕ) : Prop where
  gn : G.ids.Nodup
  tn : tmp.ids.Nodup
  t2n : tmp2.ids.Nodup
  nt : tmp.names = G.names
  nt2 : tmp2.names = G.names
  lo : ∀ i ∈ G.ids, i < fresh
  t : ∀ i ∈ tmp.ids, fresh ≤ i
  t2 : ∀ i ∈ tmp2.ids, fresh ≤ i
  d : ∀ i ∈ tmp.ids, i ∉ tmp2.ids

theorem andThen_ok {h : Heap V} (f : Heap V → Heap V × Bool) : andThen (h, true) f = f h := rfl
theorem andThen_fail {r : Heap V × Bool} (f : Heap V → Heap V × Bool) (h : r.2 = false) : andThen r f = r := by
  unfold andThen
  rw [h]
  rfl

theorem point_spec (o : Ops V M W) (hat : M → M) (s : Sigma V M K) (G tmp tmp2 : Blk) (fresh : ℕ) (L : Lay G tmp tmp2 fresh) (hb : Blind s G fresh)
    (h0 h : Heap V) (T a t : String → V) (p : W × K × M) (hT : ∀ q ∈ tmp, h q.2 = T q.1) (ha : ∀ q ∈ G, h q.2 = a q.1)
    (hfr : ∀ i, i < fresh → i ∉ G.ids → h i = h0 i) (ht : ∀ n ∈ G.names, term o hat s h0 (T n) n p = some (t n)) :
    ∃ h', point o hat s G tmp tmp2 h p = (h', true) ∧ (∀ q ∈ tmp, h' q.2 = T q.1) ∧ (∀ q ∈ G, h' q.2 = o.add (a q.1) (t q.1)) ∧
      ∀ i, i < fresh → i ∉ G.ids → h' i = h0 i := by
  have gt2 : ∀ i ∈ G.ids, i ∉ tmp2.ids := fun i hi hj => by have := L.lo i hi; have := L.t2 i hj; omega
  have gt : ∀ i ∈ tmp.ids, i ∉ G.ids := fun i hi hj => by have := L.lo i hj; have := L.t i hi; omega
  unfold point
  -- tmp2 << tmp
  obtain ⟨h1, e1, v1, f1⟩ := each_spec (assignB tmp) T tmp2 h L.t2n (fun q hq h' ha _ => by
    have hn : q.1 ∈ tmp.names := by rw [L.nt, ← L.nt2]; exact mem_names hq
    obtain ⟨j, hj⟩ := get_names hn
    have hm := get_mem hj
    unfold assignB
    rw [hj, Option.map_some, ha j (L.d j (mem_ids hm)), hT _ hm])
  rw [e1, andThen_ok]
  -- minus the energies
  obtain ⟨h2, e2, v2, f2⟩ := each_spec (fun h _ i => some (o.subM (h i) (hat p.2.2))) (fun n => o.subM (T n) (hat p.2.2)) tmp2 h1 L.t2n
    (fun q hq h' _ hb => by rw [hb, v1 q hq])
  rw [e2, andThen_ok]
  -- minus the self-energy
  obtain ⟨h3, u, e3, v3, f3, hu⟩ : ∃ (h3 : Heap V) (u : String → V), subSigma o s p.2.1 p.2.2 h2 tmp2 = (h3, true) ∧ (∀ q ∈ tmp2, h3 q.2 = u q.1) ∧
      (∀ j, j ∉ tmp2.ids → h3 j = h2 j) ∧ ∀ n ∈ G.names, o.scale p.1 (o.inv (u n)) = t n := by
    cases s with
    | block S =>
      refine ⟨h2, fun n => o.subM (T n) (hat p.2.2), rfl, v2, fun _ _ => rfl, fun n hn => ?_⟩
      have := ht n hn
      unfold term at this
      exact Option.some.inj this
    | fn F =>
      have hF : F p.2.1 p.2.2 h2 = F p.2.1 p.2.2 h0 := hb _ _ _ _ fun i hi hg => by
        have hi2 : i ∉ tmp2.ids := fun hj => by have := L.t2 i hj; omega
        rw [f2 i hi2, f1 i hi2, hfr i hi hg]
      have key : ∀ n ∈ G.names, ∃ w, F p.2.1 p.2.2 h0 n = some w ∧ o.scale p.1 (o.inv (o.sub (o.subM (T n) (hat p.2.2)) w)) = t n := by
        intro n hn
        have := ht n hn
        unfold term at this
        rw [Option.map_eq_some_iff] at this
        exact this
      obtain ⟨h3, e3, v3, f3⟩ := each_spec (subVals o (F p.2.1 p.2.2 h2))
        (fun n => match F p.2.1 p.2.2 h0 n with | some w => o.sub (o.subM (T n) (hat p.2.2)) w | none => T n) tmp2 h2 L.t2n
        (fun q hq h' _ hb => by
          obtain ⟨w, hw, _⟩ := key q.1 (by rw [← L.nt2]; exact mem_names hq)
          unfold subVals
          rw [hF, hw, Option.map_some, hb, v2 q hq])
      refine ⟨h3, fun n => match F p.2.1 p.2.2 h0 n with | some w => o.sub (o.subM (T n) (hat p.2.2)) w | none => T n, e3, v3, f3, fun n hn => ?_⟩
      obtain ⟨w, hw, hv⟩ := key n hn
      simp only [hw]
      exact hv
  rw [e3, andThen_ok]
  obtain ⟨h4, e4, v4, f4⟩ := each_spec (fun h _ i => some (o.inv (h i))) (fun n => o.inv (u n)) tmp2 h3 L.t2n
    (fun q hq h' _ hb => by rw [hb, v3 q hq])
  rw [e4, andThen_ok]
  obtain ⟨h5, e5, v5, f5⟩ := each_spec (fun h _ i => some (o.scale p.1 (h i))) (fun n => o.scale p.1 (o.inv (u n))) tmp2 h4 L.t2n
    (fun q hq h' _ hb => by rw [hb, v4 q hq])
  rw [e5, andThen_ok]
  have fr : ∀ j, j ∉ tmp2.ids → h5 j = h j := fun j hj => by rw [f5 j hj, f4 j hj, f3 j hj, f2 j hj, f1 j hj]
  obtain ⟨h6, e6, v6, f6⟩ := each_spec (addB o tmp2) (fun n => o.add (a n) (t n)) G h5 L.gn (fun q hq h' hx hb => by
    have hn : q.1 ∈ tmp2.names := by rw [L.nt2]; exact mem_names hq
    obtain ⟨j, hj⟩ := get_names hn
    have hm := get_mem hj
    unfold addB
    rw [hj, Option.map_some, hb, fr _ (gt2 _ (mem_ids hq)), ha q hq, hx j (fun hg => gt2 j hg (mem_ids hm)), v5 _ hm, hu q.1 (mem_names hq)])
  refine ⟨h6, e6, fun q hq => ?_, v6, fun i hi hg => ?_⟩
  · rw [f6 _ (gt _ (mem_ids hq)), fr _ (L.d _ (mem_ids hq)), hT q hq]
  · rw [f6 i hg, fr i (fun hj => by have := L.t2 i hj; omega), hfr i hi hg]

theorem loop_spec (o : Ops V M W) (hat : M → M) (s : Sigma V M K) (G tmp tmp2 : Blk) (fresh : ℕ) (L : Lay G tmp tmp2 fresh) (hb : Blind s G fresh)
    (h0 : Heap V) (T : String → V) : ∀ (pts : List (W × K × M)) (h : Heap V) (a t : String → V), (∀ q ∈ tmp, h q.2 = T q.1) → (∀ q ∈ G, h q.2 = a q.1) →
    (∀ i, i < fresh → i ∉ G.ids → h i = h0 i) → (∀ n ∈ G.names, total o hat s h0 (T n) n (a n) pts = some (t n)) →
    ∃ h', loop o hat s G tmp tmp2 h pts = (h', true) ∧ (∀ q ∈ G, h' q.2 = t q.1) ∧ ∀ i, i < fresh → i ∉ G.ids → h' i = h0 i
  | [], h, a, t, _, ha, hfr, ht => by
    refine ⟨h, rfl, fun q hq => ?_, hfr⟩
    have := ht q.1 (mem_names hq)
    rw [total, Option.some.injEq] at this
    rw [ha q hq, this]
  | p :: l, h, a, t, hT, ha, hfr, ht => by
    have key : ∀ n ∈ G.names, ∃ w, term o hat s h0 (T n) n p = some w ∧ total o hat s h0 (T n) n (o.add (a n) w) l = some (t n) := by
      intro n hn
      have := ht n hn
      rw [total, Option.bind_eq_some_iff] at this
      exact this
    obtain ⟨h', e, hT', ha', hfr'⟩ := point_spec o hat s G tmp tmp2 fresh L hb h0 h T a (fun n => (term o hat s h0 (T n) n p).getD (T n)) p hT ha hfr
      (fun n hn => by obtain ⟨w, hw, _⟩ := key n hn; simp only [hw, Option.getD_some])
    rw [loop, e, andThen_ok]
    refine loop_spec o hat s G tmp tmp2 fresh L hb h0 T l h' (fun n => o.add (a n) ((term o hat s h0 (T n) n p).getD (T n))) t hT' ha' hfr' fun n hn => ?_
    obtain ⟨w, hw, hv⟩ := key n hn
    simp only [hw, Option.getD_some]
    exact hv

theorem lay (G : Blk) (fresh : ℕ) (hG : Fine G fresh) : Lay G (newBlk fresh G) (newBlk (fresh + List.length G) G) fresh where
  gn := hG.2.1
  tn := newBlk_nodup _ _
  t2n := newBlk_nodup _ _
  nt := newBlk_names _ _
  nt2 := newBlk_names _ _
  lo := hG.2.2
  t i hi := (newBlk_ids _ _ _ hi).1
  t2 i hi := by have := newBlk_ids _ _ _ hi; omega
  d i hi hj := by have := newBlk_ids _ _ _ hi; have := newBlk_ids _ _ _ hj; omega

/-- the first lines of the body, up to the loop -/
theorem prelude_spec (o : Ops V M W) (s : Sigma V M K) (field : Option Blk) (G : Blk) (fresh : ℕ) (h : Heap V) (hG : Fine G fresh)
    (hs : ∀ S, s = .block S → Below S fresh) (hf : ∀ B, field = some B → Below B fresh) (x : String → V)
    (hx : ∀ n ∈ G.names, base o field s (zeroed o G h) n = some (x n)) :
    ∃ h', andThen (andThen (andThen (each h (fun _ _ _ => some o.zero) G)
        fun h => (copyInto (copyInto h fresh G) (fresh + List.length G) G, true))
        fun h => andThen (each h (fun _ _ _ => some o.omega) (newBlk fresh G)) fun h => subField o field h (newBlk fresh G))
        (fun h => subStatic o s h (newBlk fresh G)) = (h', true) ∧
      (∀ q ∈ newBlk fresh G, h' q.2 = x q.1) ∧ (∀ q ∈ G, h' q.2 = o.zero) ∧ ∀ i, i < fresh → i ∉ G.ids → h' i = h i := by
  obtain ⟨h1, e1, v1, f1⟩ := each_spec (fun _ _ _ => some o.zero) (fun _ => o.zero) G h hG.2.1 (fun _ _ _ _ _ => rfl)
  rw [e1, andThen_ok, andThen_ok]
  have z1 : ∀ i, i < fresh → copyInto (copyInto h1 fresh G) (fresh + List.length G) G i = zeroed o G h i := by
    intro i hi
    rw [copyInto_old _ _ _ _ (by omega), copyInto_old _ _ _ _ hi]
    unfold zeroed
    split
    · next hm =>
      obtain ⟨q, hq, rfl⟩ := List.mem_map.1 hm
      exact v1 q hq
    · next hm => exact f1 i hm
  generalize copyInto (copyInto h1 fresh G) (fresh + List.length G) G = h2 at z1
  obtain ⟨h3, e3, v3, f3⟩ := each_spec (fun _ _ _ => some o.omega) (fun _ => o.omega) (newBlk fresh G) h2 (newBlk_nodup _ _) (fun _ _ _ _ _ => rfl)
  rw [e3, andThen_ok]
  have out : ∀ i, i < fresh → i ∉ (newBlk fresh G).ids := fun i hi hj => by have := newBlk_ids _ _ _ hj; omega
  have nam : ∀ q ∈ newBlk fresh G, q.1 ∈ G.names := fun q hq => by rw [← newBlk_names G fresh]; exact mem_names hq
  -- the field
  obtain ⟨h4, y, e4, v4, f4, hy⟩ : ∃ (h4 : Heap V) (y : String → V), subField o field h3 (newBlk fresh G) = (h4, true) ∧
      (∀ q ∈ newBlk fresh G, h4 q.2 = y q.1) ∧ (∀ i, i < fresh → h4 i = zeroed o G h i) ∧
      ∀ n ∈ G.names, base o field s (zeroed o G h) n = (match s with | .block S => (get S n).map fun j => o.sub (y n) (zeroed o G h j) | .fn _ => some (y n)) := by
    cases field with
    | none =>
      refine ⟨h3, fun _ => o.omega, rfl, v3, fun i hi => by rw [f3 i (out i hi), z1 i hi], fun n hn => ?_⟩
      unfold base
      cases s <;> rfl
    | some B =>
      have hB := hf B rfl
      have key : ∀ n ∈ G.names, ∃ j, get B n = some j := by
        intro n hn
        cases hg : get B n with
        | some j => exact ⟨j, rfl⟩
        | none =>
          have := hx n hn
          unfold base at this
          simp only [hg, Option.map_none, Option.bind_none] at this
          cases s <;> exact absurd this (by simp)
      obtain ⟨h4, e4, v4, f4⟩ := each_spec (subB o B)
        (fun n => match get B n with | some j => o.sub o.omega (zeroed o G h j) | none => o.omega) (newBlk fresh G) h3 (newBlk_nodup _ _)
        (fun q hq h' ha hb => by
          obtain ⟨j, hj⟩ := key q.1 (nam q hq)
          have hlt := hB j (mem_ids (get_mem hj))
          unfold subB
          rw [hj, Option.map_some, hb, v3 q hq, ha j (out j hlt), f3 j (out j hlt), z1 j hlt])
      refine ⟨h4, fun n => match get B n with | some j => o.sub o.omega (zeroed o G h j) | none => o.omega, e4, v4, fun i hi => by rw [f4 i (out i hi), f3 i (out i hi), z1 i hi], fun n hn => ?_⟩
      obtain ⟨j, hj⟩ := key n hn
      unfold base
      simp only [hj, Option.map_some, Option.bind_some]
      cases s <;> rfl
  rw [e4, andThen_ok]
  have fin : ∀ h5 : Heap V, (∀ i, i < fresh → h5 i = zeroed o G h i) → (∀ q ∈ G, h5 q.2 = o.zero) ∧ ∀ i, i < fresh → i ∉ G.ids → h5 i = h i := by
    intro h5 hz
    refine ⟨fun q hq => ?_, fun i hi hg => ?_⟩
    · rw [hz _ (hG.2.2 _ (mem_ids hq))]
      exact if_pos (mem_ids hq)
    · rw [hz i hi]
      exact if_neg hg
  cases s with
  | fn F =>
    refine ⟨h4, rfl, fun q hq => ?_, fin h4 f4⟩
    have h1 := hx q.1 (nam q hq)
    rw [hy q.1 (nam q hq), Option.some.injEq] at h1
    rw [v4 q hq, h1]
  | block S =>
    have hS := hs S rfl
    obtain ⟨h5, e5, v5, f5⟩ := each_spec (subB o S) x (newBlk fresh G) h4 (newBlk_nodup _ _)
      (fun q hq h' ha hb => by
        have h1 := hx q.1 (nam q hq)
        rw [hy q.1 (nam q hq)] at h1
        simp only at h1
        rw [Option.map_eq_some_iff] at h1
        obtain ⟨j, hj, hv⟩ := h1
        have hlt := hS j (mem_ids (get_mem hj))
        unfold subB
        rw [hj, Option.map_some, hb, v4 q hq, ha j (out j hlt), f4 j hlt, hv])
    exact ⟨h5, e5, v5, fin h5 fun i hi => by rw [f5 i (out i hi), f4 i hi]⟩

theorem body_spec (o : Ops V M W) (hat : M → M) (red : String → V → V) (s : Sigma V M K) (field : Option Blk) (pts : List (W × K × M))
    (G : Blk) (fresh : ℕ) (h : Heap V) (hG : Fine G fresh) (hs : ∀ S, s = .block S → Below S fresh) (hf : ∀ B, field = some B → Below B fresh)
    (hb : Blind s G fresh) (x t : String → V) (hx : ∀ n ∈ G.names, base o field s (zeroed o G h) n = some (x n))
    (ht : ∀ n ∈ G.names, total o hat s h (x n) n o.zero pts = some (t n)) :
    ∃ h', body o hat red s field pts G fresh h = (h', true) ∧ (∀ q ∈ G, h' q.2 = red q.1 (t q.1)) ∧
      ∀ i, i < fresh → i ∉ G.ids → h' i = h i := by
  obtain ⟨h1, e1, v1, z1, f1⟩ := prelude_spec o s field G fresh h hG hs hf x hx
  unfold body
  simp only
  rw [e1, andThen_ok]
  obtain ⟨h2, e2, v2, f2⟩ := loop_spec o hat s G _ _ fresh (lay G fresh hG) hb h x pts h1 (fun _ => o.zero) t v1 z1 f1 ht
  rw [e2, andThen_ok]
  obtain ⟨h3, e3, v3, f3⟩ := each_spec (fun h n i => some (red n (h i))) (fun n => red n (t n)) G h2 hG.2.1
    (fun q hq h' _ hb => by rw [hb, v2 q hq])
  exact ⟨h3, e3, v3, fun i hi hg => by rw [f3 i hg, f2 i hi hg]⟩

/-! ### the call -/

/-- **C190, with a result.**  The blocks of the result hold the sums; what counts of `field` and `Sigma` is what they hold
after the blocks of the result have been set to zero.  No other object that existed before is changed. -/
theorem C190_result (o : Ops V M W) (hat : M → M) (red : String → V → V) (s : Sigma V M K) (model : Blk) (field : Option Blk) (pts : List (W × K × M))
    (G : Blk) (fresh : ℕ) (h : Heap V) (hG : Fine G fresh) (hs : ∀ S, s = .block S → Below S fresh) (hf : ∀ B, field = some B → Below B fresh)
    (hb : Blind s G fresh) (x t : String → V) (hx : ∀ n ∈ G.names, base o field s (zeroed o G h) n = some (x n))
    (ht : ∀ n ∈ G.names, total o hat s h (x n) n o.zero pts = some (t n)) :
    ∃ h', call o hat red s model field pts (some G) fresh h = (G, h', true) ∧ (∀ q ∈ G, h' q.2 = red q.1 (t q.1)) ∧
      ∀ i, i < fresh → i ∉ G.ids → h' i = h i := by
  obtain ⟨h', e, v, f⟩ := body_spec o hat red s field pts G fresh h hG hs hf hb x t hx ht
  exact ⟨h', by rw [call, e], v, f⟩

theorem get_zeroed (o : Ops V M W) (G B : Blk) (h : Heap V) (hd : ∀ i ∈ B.ids, i ∉ G.ids) {n : String} {j : ℕ} (hj : get B n = some j) :
    zeroed o G h j = h j := if_neg (hd j (mem_ids (get_mem hj)))

theorem base_congr (o : Ops V M W) (field : Option Blk) (s : Sigma V M K) (h h' : Heap V) (n : String)
    (hs : ∀ S, s = .block S → ∀ i ∈ S.ids, h i = h' i) (hf : ∀ B, field = some B → ∀ i ∈ B.ids, h i = h' i) :
    base o field s h n = base o field s h' n := by
  have h1 : ∀ B : Blk, (∀ i ∈ B.ids, h i = h' i) → ∀ y, (get B n).map (fun j => o.sub y (h j)) = (get B n).map (fun j => o.sub y (h' j)) := by
    intro B hB y
    cases hg : get B n with
    | none => rfl
    | some j => rw [Option.map_some, Option.map_some, hB j (mem_ids (get_mem hg))]
  unfold base
  cases field with
  | none =>
    cases s with
    | block S => exact congrArg (Option.bind (some o.omega)) (funext fun a => h1 S (hs S rfl) a)
    | fn F => rfl
  | some B =>
    simp only
    rw [h1 B (hf B rfl)]
    cases s with
    | block S => exact congrArg (Option.bind _) (funext fun a => h1 S (hs S rfl) a)
    | fn F => rfl

/-- **C190, separate objects.**  If the result has no block in common with `Sigma` and `field`, the sums are those of
the values the arguments had before the call, and the arguments keep them. -/
theorem C190_separate (o : Ops V M W) (hat : M → M) (red : String → V → V) (s : Sigma V M K) (model : Blk) (field : Option Blk) (pts : List (W × K × M))
    (G : Blk) (fresh : ℕ) (h : Heap V) (hG : Fine G fresh) (hs : ∀ S, s = .block S → Below S fresh ∧ ∀ i ∈ S.ids, i ∉ G.ids)
    (hf : ∀ B, field = some B → Below B fresh ∧ ∀ i ∈ B.ids, i ∉ G.ids) (hb : Blind s G fresh) (x t : String → V)
    (hx : ∀ n ∈ G.names, base o field s h n = some (x n)) (ht : ∀ n ∈ G.names, total o hat s h (x n) n o.zero pts = some (t n)) :
    ∃ h', call o hat red s model field pts (some G) fresh h = (G, h', true) ∧ (∀ q ∈ G, h' q.2 = red q.1 (t q.1)) ∧
      (∀ i, i < fresh → i ∉ G.ids → h' i = h i) ∧ (∀ S, s = .block S → ∀ i ∈ S.ids, h' i = h i) := by
  obtain ⟨h', e, v, f⟩ := C190_result o hat red s model field pts G fresh h hG (fun S e => (hs S e).1) (fun B e => (hf B e).1) hb x t
    (fun n hn => by
      rw [← hx n hn]
      exact base_congr o field s _ _ n (fun S e i hi => if_neg ((hs S e).2 i hi)) (fun B e i hi => if_neg ((hf B e).2 i hi))) ht
  exact ⟨h', e, v, f, fun S e i hi => f i ((hs S e).1 i hi) ((hs S e).2 i hi)⟩

/-- **C190, a new result.**  Without `result` nothing that existed before is changed, and new blocks with the names of the
model hold the sums. -/
theorem C190_new (o : Ops V M W) (hat : M → M) (red : String → V → V) (s : Sigma V M K) (model : Blk) (field : Option Blk) (pts : List (W × K × M))
    (fresh : ℕ) (h : Heap V) (hm : model.names.Nodup) (hs : ∀ S, s = .block S → Below S fresh) (hf : ∀ B, field = some B → Below B fresh)
    (hb : Blind s [] fresh) (x t : String → V) (hx : ∀ n ∈ model.names, base o field s h n = some (x n))
    (ht : ∀ n ∈ model.names, total o hat s h (x n) n o.zero pts = some (t n)) :
    ∃ G h', call o hat red s model field pts none fresh h = (G, h', true) ∧ G.names = model.names ∧ (∀ i ∈ G.ids, fresh ≤ i) ∧
      (∀ q ∈ G, h' q.2 = red q.1 (t q.1)) ∧ ∀ i, i < fresh → h' i = h i := by
  have hlt : ∀ i ∈ (newBlk fresh model).ids, fresh ≤ i ∧ i < fresh + List.length model := fun i hi => newBlk_ids _ _ _ hi
  have hG : Fine (newBlk fresh model) (fresh + List.length model) :=
    ⟨by rw [newBlk_names]; exact hm, newBlk_nodup _ _, fun i hi => (hlt i hi).2⟩
  have hz : ∀ i, i < fresh → zeroed o (newBlk fresh model) (copyInto h fresh model) i = h i := fun i hi => by
    unfold zeroed
    rw [if_neg (fun hj => by have := hlt i hj; omega), copyInto_old _ _ _ _ hi]
  have hb' : Blind s (newBlk fresh model) (fresh + List.length model) := by
    cases s with
    | block S => trivial
    | fn F => exact fun k e h1 h2 hh => hb k e h1 h2 fun i hi _ => hh i (by omega) fun hj => by have := hlt i hj; omega
  have htot : ∀ (n : String) (y : V) (l : List (W × K × M)) (a : V), total o hat s (copyInto h fresh model) y n a l = total o hat s h y n a l := by
    intro n y l
    induction l with
    | nil => intro a; rfl
    | cons p l ih =>
      intro a
      rw [total, total]
      have : term o hat s (copyInto h fresh model) y n p = term o hat s h y n p := by
        cases s with
        | block S => rfl
        | fn F =>
          unfold term
          simp only
          rw [hb p.2.1 p.2.2 (copyInto h fresh model) h fun i hi _ => copyInto_old _ _ _ _ hi]
      rw [this]
      exact congrArg (Option.bind _) (funext fun w => ih _)
  obtain ⟨h', e, v, f⟩ := body_spec o hat red s field pts (newBlk fresh model) (fresh + List.length model) (copyInto h fresh model) hG
    (fun S e i hi => by have := hs S e i hi; omega) (fun B e i hi => by have := hf B e i hi; omega) hb' x t
    (fun n hn => by
      rw [newBlk_names] at hn
      rw [← hx n hn]
      exact base_congr o field s _ _ n (fun S e i hi => hz i (hs S e i hi)) (fun B e i hi => hz i (hf B e i hi)))
    (fun n hn => by rw [newBlk_names] at hn; rw [htot, ht n hn])
  refine ⟨newBlk fresh model, h', by rw [call, e], newBlk_names _ _, fun i hi => (hlt i hi).1, v, fun i hi => ?_⟩
  rw [f i (by omega) (fun hj => by have := hlt i hj; omega), copyInto_old _ _ _ _ hi]

theorem total_block (o : Ops V M W) (hat : M → M) (S : Blk) (h : Heap V) (x : V) (n : String) : ∀ (l : List (W × K × M)) (a : V),
    total o hat (.block S : Sigma V M K) h x n a l = some (l.foldl (fun a p => o.add a (o.scale p.1 (o.inv (o.subM x (hat p.2.2))))) a)
  | [], _ => rfl
  | p :: l, a => by
    rw [total]
    unfold term
    simp only [Option.bind_some]
    exact total_block o hat S h x n l _

/-- **C190, `Sigma` as its own result.**  If the call is to write into the blocks of `Sigma`, the values of `Sigma` are
lost before they are used: the outcome is that of a self-energy zero. -/
theorem C190_alias (o : Ops V M W) (hat : M → M) (red : String → V → V) (model S : Blk) (pts : List (W × K × M)) (fresh : ℕ) (h : Heap V)
    (hG : Fine S fresh) :
    ∃ h', call o hat red (.block S : Sigma V M K) model none pts (some S) fresh h = (S, h', true) ∧
      ∀ q ∈ S, h' q.2 = red q.1 (pts.foldl (fun a p => o.add a (o.scale p.1 (o.inv (o.subM (o.sub o.omega o.zero) (hat p.2.2))))) o.zero) := by
  obtain ⟨h', e, v, _⟩ := C190_result o hat red (.block S : Sigma V M K) model none pts S fresh h hG (fun S' e => by cases e; exact hG.2.2)
    (fun B e => absurd e (by simp)) trivial (fun _ => o.sub o.omega o.zero)
    (fun _ => pts.foldl (fun a p => o.add a (o.scale p.1 (o.inv (o.subM (o.sub o.omega o.zero) (hat p.2.2))))) o.zero)
    (fun n hn => by
      obtain ⟨j, hj⟩ := get_names hn
      unfold base
      simp only [Option.bind_some, hj, Option.map_some]
      rw [zeroed, if_pos (mem_ids (get_mem hj))])
    (fun n _ => total_block o hat S h _ n pts _)
  exact ⟨h', e, v⟩

/-- **C190, failure.**  If `Sigma` lacks a block of the result, the call fails, and the result has been set to zero. -/
theorem C190_missing (o : Ops V M W) (hat : M → M) (red : String → V → V) (model S G : Blk) (pts : List (W × K × M)) (fresh : ℕ) (h : Heap V)
    (hG : Fine G fresh) (n : String) (hn : n ∈ G.names) (hS : get S n = none) :
    ∃ h', call o hat red (.block S : Sigma V M K) model none pts (some G) fresh h = (G, h', false) ∧
      (∀ q ∈ G, h' q.2 = o.zero) ∧ ∀ i, i < fresh → i ∉ G.ids → h' i = h i := by
  obtain ⟨h1, e1, v1, f1⟩ := each_spec (fun _ _ _ => some o.zero) (fun _ => o.zero) G h hG.2.1 (fun _ _ _ _ _ => rfl)
  have out : ∀ i, i < fresh → i ∉ (newBlk fresh G).ids := fun i hi hj => by have := newBlk_ids _ _ _ hj; omega
  have z1 : ∀ i, i < fresh → copyInto (copyInto h1 fresh G) (fresh + List.length G) G i = h1 i := fun i hi => by
    rw [copyInto_old _ _ _ _ (by omega), copyInto_old _ _ _ _ hi]
  obtain ⟨h3, e3, v3, f3⟩ := each_spec (fun _ _ _ => some o.omega) (fun _ => o.omega) (newBlk fresh G)
    (copyInto (copyInto h1 fresh G) (fresh + List.length G) G) (newBlk_nodup _ _) (fun _ _ _ _ _ => rfl)
  have hfail : (each h3 (subB o S) (newBlk fresh G)).2 = false := by
    rw [← newBlk_names G fresh] at hn
    obtain ⟨p, hp, rfl⟩ := List.mem_map.1 hn
    exact each_fails _ _ _ ⟨p, hp, fun h' => by unfold subB; rw [hS]; rfl⟩
  have old : ∀ i, i < fresh → (each h3 (subB o S) (newBlk fresh G)).1 i = h1 i := fun i hi => by
    rw [each_frame _ _ _ _ (out i hi), f3 i (out i hi), z1 i hi]
  refine ⟨(each h3 (subB o S) (newBlk fresh G)).1, ?_, fun q hq => ?_, fun i hi hg => ?_⟩
  · rw [call, body]
    rw [e1, andThen_ok, andThen_ok, e3, andThen_ok]
    unfold subField subStatic
    rw [andThen_ok, andThen_fail (r := each h3 (subB o S) (newBlk fresh G)) _ hfail, andThen_fail _ hfail, ← hfail]
  · rw [old _ (hG.2.2 _ (mem_ids hq)), v1 q hq]
  · rw [old i hi, f1 i hg]

/-! ### Examples -/

/-- numbers instead of Green functions; the inverse is left out -/
def exOps : Ops ℤ ℤ ℤ := ⟨0, 100, (· - ·), (· - ·), id, (· * ·), (· + ·)⟩

def exHeap : Heap ℤ := fun i => if i = 0 then 7 else if i = 1 then 8 else 0

/-- two blocks `up` and `down` (objects 0 and 1), results in objects 2 and 3, two points with energies 1 and 2 -/
example : (fun r : Blk × Heap ℤ × Bool => ([0, 1, 2, 3].map r.2.1, r.2.2))
    (call exOps id (fun _ v => v) (.block [("up", 0), ("down", 1)] : Sigma ℤ ℤ ℕ) [] none [(1, 0, 1), (1, 1, 2)] (some [("down", 2), ("up", 3)]) 4 exHeap)
    = ([7, 8, 181, 183], true) := by decide +kernel

/-- the same into `Sigma`: the self-energy does not count -/
example : (fun r : Blk × Heap ℤ × Bool => ([0, 1].map r.2.1, r.2.2))
    (call exOps id (fun _ v => v) (.block [("up", 0), ("down", 1)] : Sigma ℤ ℤ ℕ) [] none [(1, 0, 1), (1, 1, 2)] (some [("up", 0), ("down", 1)]) 4 exHeap)
    = ([197, 197], true) := by decide +kernel

/-- **C190, shared blocks.**  A result with one object under two names gets the sum of both blocks. -/
theorem C190_shared : (fun r : Blk × Heap ℤ × Bool => r.2.1 2)
    (call exOps id (fun _ v => v) (.block [("up", 0), ("down", 1)] : Sigma ℤ ℤ ℕ) [] none [(1, 0, 1)] (some [("up", 2), ("down", 2)]) 4 exHeap)
    = 92 + 91 := by decide +kernel

/-- **C190, a function that returns the result.**  The self-energy of the second point is then the sum up to the first. -/
theorem C190_function : (fun r : Blk × Heap ℤ × Bool => r.2.1 0)
    (call exOps id (fun _ v => v) (.fn fun _ _ h n => if n = "up" then some (h 0) else none : Sigma ℤ ℤ ℕ) [] none [(1, 0, 1), (1, 1, 2)]
      (some [("up", 0)]) 4 exHeap) = (100 - 1 - 0) + (100 - 2 - (100 - 1 - 0)) := by decide +kernel

/-- a missing block: failure with a result of zero -/
example : (fun r : Blk × Heap ℤ × Bool => ([0, 1, 2].map r.2.1, r.2.2))
    (call exOps id (fun _ v => v) (.block [("up", 0)] : Sigma ℤ ℤ ℕ) [] none [(1, 0, 1)] (some [("up", 1), ("down", 2)]) 4 exHeap)
    = ([7, 0, 0], false) := by decide +kernel

end Verif.SumKHeap
