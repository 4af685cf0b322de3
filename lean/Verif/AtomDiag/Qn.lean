import Mathlib.Algebra.Order.Field.Basic
import Mathlib.Algebra.Order.Group.Abs
import Mathlib.Data.List.Basic
import Mathlib.Tactic.Linarith
import Mathlib.Tactic.NormNum
import Mathlib.Algebra.Order.Field.Rat
import Mathlib.Data.List.Nodup

/-!
# Model of the partition by quantum numbers and of the ordering of subspaces by energy

Source: `/repo/c++/triqs/atom_diag/impl/worker.cpp:129-252` (`partition_with_qn`) and `281-340` (`complete`).
Numbers are an exact ordered field. The quantum numbers of a basis state `r`, the expectation values of the given operators,
are a function `q r`; a creation or annihilation operator maps a basis state to zero (`none`) or to plus or minus a
basis state (`some f`), whose quantum numbers are those of `f`.
-/

namespace Verif.Qn

/-! ## Model -/

variable {K : Type} [Field K] [LinearOrder K] [IsStrictOrderedRing K]

/-- `lt_dbl`, worker.cpp:136-144; `tol` is `1e-8`. The loop runs over the length of the first vector, both have the same length. -/
def ltDbl (tol : K) : List K → List K → Bool
  | a :: v1, b :: v2 => if a < b - tol then true else if b < a - tol then false else ltDbl tol v1 v2
  | _, _ => false

/-- key equivalence of the map -/
def equiv (tol : K) (a b : List K) : Bool := !ltDbl tol a b && !ltDbl tol b a

/-- `map_qn_n`: vectors with their block number -/
abbrev QMap (K : Type) := List (List K × Nat)

/-- lookup in the map; for a comparison that is not a strict weak order the behaviour of `std::map` is undefined, here the
first equivalent key is taken. -/
def find (tol : K) (m : QMap K) (v : List K) : Option Nat := (m.find? (fun e => equiv tol e.1 v)).map (·.2)

structure State (K : Type) where
  map : QMap K
  /-- `sub_hilbert_spaces`: the states of each block, in the order of insertion -/
  blocks : List (List Nat)
  /-- `quantum_numbers` -/
  qns : List (List K)

/-- one basis state, worker.cpp:168-191. -/
def addState (tol : K) (q : Nat → List K) (s : State K) (r : Nat) : State K :=
  match find tol s.map (q r) with
  | none => { map := s.map ++ [(q r, s.blocks.length)], blocks := s.blocks ++ [[r]], qns := s.qns ++ [q r] }
  | some b => { s with blocks := s.blocks.modify b (fun l => l ++ [r]) }

/-- the first loop, worker.cpp:168-192. -/
def partition (tol : K) (q : Nat → List K) (n : Nat) : State K := (List.range n).foldl (addState tol q) ⟨[], [], []⟩

/-- one basis state in the second loop, worker.cpp:226-233: `none` is the exception. The table has `-1` as `none`.
Simplification: the test of `creation_map` and the assignment of `creation_connection` use one table, both hold the same numbers. -/
def connStep (tol : K) (q : Nat → List K) (s : State K) (op : Nat → Option Nat) (t : Option (Nat → Option Nat)) (r : Nat) : Option (Nat → Option Nat) :=
  match t with
  | none => none
  | some t => match op r with
    | none => some t
    | some f => match find tol s.map (q r), find tol s.map (q f) with
      | some origin, some target =>
        if t origin = none ∨ t origin = some target then some (Function.update t origin (some target)) else none
      | _, _ => none

/-- the second loop for one operator, worker.cpp:215-248. -/
def connections (tol : K) (q : Nat → List K) (n : Nat) (op : Nat → Option Nat) : Option (Nat → Option Nat) :=
  (List.range n).foldl (connStep tol q (partition tol q n) op) (some (fun _ => none))

/-! ## Specification -/

/-- quantum numbers that differ at all differ by more than the tolerance, and there is one per operator -/
structure Separated (tol : K) (q : Nat → List K) (n : Nat) : Prop where
  nonneg : 0 ≤ tol
  len : ∃ m, ∀ r < n, (q r).length = m
  sep : ∀ r < n, ∀ r' < n, ∀ (k : Nat) x y, (q r)[k]? = some x → (q r')[k]? = some y → x = y ∨ tol < |x - y|

/-- block of a state: the position of the block that contains it -/
def InBlock (s : State K) (r b : Nat) : Prop := ∃ l, s.blocks[b]? = some l ∧ r ∈ l

/-! ## Proofs -/

theorem equiv_iff (tol : K) (h0 : 0 ≤ tol) : ∀ (a b : List K), a.length = b.length →
    (∀ (k : Nat) x y, a[k]? = some x → b[k]? = some y → x = y ∨ tol < |x - y|) → (equiv tol a b = true ↔ a = b) := by
  intro a
  induction a with
  | nil =>
    intro b hl _
    cases b with
    | nil => simp [equiv, ltDbl]
    | cons y b => simp at hl
  | cons x a ih =>
    intro b hl hs
    cases b with
    | nil => simp at hl
    | cons y b =>
      have ih := ih b (by simpa using hl) (fun k x y hx hy => hs (k + 1) x y (by simpa using hx) (by simpa using hy))
      have hxy := hs 0 x y rfl rfl
      by_cases he : x = y
      · subst he
        have h1 : ¬ x < x - tol := by linarith
        have : equiv tol (x :: a) (x :: b) = equiv tol a b := by simp [equiv, ltDbl, h1]
        rw [this, ih]
        simp
      · have hgt := hxy.resolve_left he
        simp only [List.cons.injEq, he, false_and, iff_false]
        rcases lt_or_gt_of_ne he with h | h
        · have h1 : x < y - tol := by rw [abs_of_neg (by linarith)] at hgt; linarith
          simp [equiv, ltDbl, h1]
        · have h1 : y < x - tol := by rw [abs_of_pos (by linarith)] at hgt; linarith
          have h2 : ¬ x < y - tol := by linarith
          simp [equiv, ltDbl, h1, h2]

/-- invariant of the first loop after the states `0..m-1` -/
structure Inv (q : Nat → List K) (m : Nat) (s : State K) : Prop where
  qlen : s.qns.length = s.blocks.length
  nodup : s.qns.Nodup
  keys : ∀ v b, (v, b) ∈ s.map ↔ s.qns[b]? = some v
  mem : ∀ (b : Nat) l, s.blocks[b]? = some l → ∀ r, r ∈ l ↔ r < m ∧ s.qns[b]? = some (q r)
  cover : ∀ r < m, q r ∈ s.qns
  count : ∀ (b : Nat) l, s.blocks[b]? = some l → l.Nodup
  from' : ∀ v ∈ s.qns, ∃ r < m, v = q r

theorem find_spec {tol : K} {q : Nat → List K} {n m : Nat} (hsep : Separated tol q n) {s : State K} (hi : Inv q m s) (hm : m ≤ n) {r : Nat} (hr : r < n) (b : Nat) :
    find tol s.map (q r) = some b ↔ s.qns[b]? = some (q r) := by
  have heq : ∀ e ∈ s.map, (equiv tol e.1 (q r) = true ↔ e.1 = q r) := by
    intro e he
    have h1 := (hi.keys e.1 e.2).mp he
    obtain ⟨hb, h2⟩ := List.getElem?_eq_some_iff.mp h1
    obtain ⟨r', hr', h3⟩ := hi.from' e.1 (by rw [← h2]; exact List.getElem_mem hb)
    obtain ⟨mm, hlen⟩ := hsep.len
    rw [h3]
    exact equiv_iff tol hsep.nonneg _ _ (by rw [hlen r' (by omega), hlen r hr]) (fun k x y hx hy => hsep.sep r' (by omega) r hr k x y hx hy)
  unfold find
  constructor
  · intro h
    simp only [Option.map_eq_some_iff] at h
    obtain ⟨e, he, rfl⟩ := h
    have h1 := List.mem_of_find?_eq_some he
    have h2 := (heq e h1).mp (by simpa using List.find?_some he)
    rw [← h2]
    exact (hi.keys e.1 e.2).mp h1
  · intro h
    have hmem := (hi.keys (q r) b).mpr h
    cases hf : s.map.find? (fun e => equiv tol e.1 (q r)) with
    | none =>
      have := List.find?_eq_none.mp hf _ hmem
      exact absurd ((heq _ hmem).mpr rfl) this
    | some e =>
      have h1 := List.mem_of_find?_eq_some hf
      have h2 := (heq e h1).mp (by simpa using List.find?_some hf)
      have h3 := (hi.keys e.1 e.2).mp h1
      rw [h2] at h3
      simp only [Option.map_some, Option.some.injEq]
      obtain ⟨hb, hb'⟩ := List.getElem?_eq_some_iff.mp h
      obtain ⟨hb2, hb2'⟩ := List.getElem?_eq_some_iff.mp h3
      exact (List.Nodup.getElem_inj_iff hi.nodup).mp (hb2'.trans hb'.symm)

theorem addState_inv {tol : K} {q : Nat → List K} {n m : Nat} (hsep : Separated tol q n) {s : State K} (hi : Inv q m s) (hm : m < n) :
    Inv q (m + 1) (addState tol q s m) := by
  have hf := fun b => find_spec hsep hi (le_of_lt hm) hm b
  unfold addState
  cases h : find tol s.map (q m) with
  | none =>
    have hnew : q m ∉ s.qns := by
      intro hmem
      obtain ⟨b, hb, he⟩ := List.mem_iff_getElem.mp hmem
      have := (hf b).mpr (List.getElem?_eq_some_iff.mpr ⟨hb, he⟩)
      rw [h] at this; cases this
    refine ⟨by simp [hi.qlen], ?_, ?_, ?_, ?_, ?_, ?_⟩
    · simp only
      rw [List.nodup_append]
      refine ⟨hi.nodup, by simp, ?_⟩
      intro a ha b hb
      simp only [List.mem_singleton] at hb
      rintro rfl
      exact hnew (hb ▸ ha)
    · intro v b
      simp only [List.mem_append, List.mem_singleton, Prod.mk.injEq]
      rw [hi.keys, List.getElem?_append]
      split
      · rename_i hb
        constructor
        · rintro (h | ⟨_, rfl⟩)
          · exact h
          · rw [← hi.qlen] at hb; omega
        · exact Or.inl
      · rename_i hb
        rw [List.getElem?_eq_none (by omega)]
        simp only [reduceCtorEq, false_or]
        constructor
        · rintro ⟨rfl, rfl⟩; simp [hi.qlen]
        · intro hv
          have : b - s.qns.length = 0 := by
            by_contra hne
            rw [List.getElem?_eq_none (by simp; omega)] at hv
            cases hv
          rw [this] at hv
          simp only [List.getElem?_cons_zero, Option.some.injEq] at hv
          exact ⟨hv.symm, by rw [← hi.qlen]; omega⟩
    · intro b l hl r
      simp only at hl ⊢
      rw [List.getElem?_append] at hl
      rw [List.getElem?_append]
      split at hl
      · rename_i hb
        rw [if_pos (by rw [hi.qlen]; exact hb), hi.mem b l hl r]
        constructor
        · rintro ⟨h1, h2⟩; exact ⟨by omega, h2⟩
        · rintro ⟨h1, h2⟩
          refine ⟨?_, h2⟩
          by_contra hr
          have : r = m := by omega
          subst this
          have := (hf b).mpr h2
          rw [h] at this; cases this
      · rename_i hb
        rw [if_neg (by rw [hi.qlen]; exact hb)]
        have h0 : b - s.blocks.length = 0 := by
          by_contra hne
          rw [List.getElem?_eq_none (by simp; omega)] at hl
          cases hl
        rw [h0] at hl
        rw [hi.qlen, h0]
        simp only [List.getElem?_cons_zero, Option.some.injEq] at hl ⊢
        subst hl
        simp only [List.mem_singleton]
        constructor
        · rintro rfl; exact ⟨by omega, rfl⟩
        · rintro ⟨h1, h2⟩
          by_contra hne
          exact hnew (h2 ▸ hi.cover r (by omega))
    · intro r hr
      simp only [List.mem_append, List.mem_singleton]
      by_cases h : r = m
      · right; rw [h]
      · left; exact hi.cover r (by omega)
    · intro b l hl
      simp only at hl
      rw [List.getElem?_append] at hl
      split at hl
      · exact hi.count b l hl
      · have h0 : b - s.blocks.length = 0 := by
          by_contra hne
          rw [List.getElem?_eq_none (by simp; omega)] at hl
          cases hl
        rw [h0] at hl
        simp only [List.getElem?_cons_zero, Option.some.injEq] at hl
        subst hl; simp
    · intro v hv
      simp only [List.mem_append, List.mem_singleton] at hv
      rcases hv with hv | hv
      · obtain ⟨r, hr, h⟩ := hi.from' v hv
        exact ⟨r, by omega, h⟩
      · exact ⟨m, by omega, hv⟩
  | some b0 =>
    have hb0 := (hf b0).mp h
    have hmod : ∀ (b : Nat) l, (s.blocks.modify b0 (fun l => l ++ [m]))[b]? = some l →
        ∃ l0, s.blocks[b]? = some l0 ∧ l = if b = b0 then l0 ++ [m] else l0 := by
      intro b l hl
      rw [List.getElem?_modify] at hl
      cases hb : s.blocks[b]? with
      | none => rw [hb] at hl; simp at hl
      | some l0 =>
        rw [hb] at hl
        simp only [Option.map_eq_map, Option.map_some, Option.some.injEq] at hl
        refine ⟨l0, rfl, ?_⟩
        rw [← hl]
        by_cases h : b0 = b
        · simp [h]
        · have : ¬ b = b0 := fun e => h e.symm
          simp [h, this]
    refine ⟨by simp [hi.qlen], hi.nodup, hi.keys, ?_, ?_, ?_, ?_⟩
    · intro b l hl r
      simp only at hl ⊢
      obtain ⟨l0, h1, rfl⟩ := hmod b l hl
      have hm0 := hi.mem b l0 h1 r
      by_cases hbb : b = b0
      · subst hbb
        simp only [if_true, List.mem_append, List.mem_singleton, hm0]
        constructor
        · rintro (⟨h1, h2⟩ | rfl)
          · exact ⟨by omega, h2⟩
          · exact ⟨by omega, hb0⟩
        · rintro ⟨h1, h2⟩
          by_cases hr : r = m
          · exact Or.inr hr
          · exact Or.inl ⟨by omega, h2⟩
      · rw [if_neg hbb, hm0]
        constructor
        · rintro ⟨h1, h2⟩; exact ⟨by omega, h2⟩
        · rintro ⟨h1, h2⟩
          refine ⟨?_, h2⟩
          by_contra hr
          have : r = m := by omega
          subst this
          obtain ⟨x, hx⟩ := List.getElem?_eq_some_iff.mp hb0
          obtain ⟨y, hy⟩ := List.getElem?_eq_some_iff.mp h2
          exact hbb ((List.Nodup.getElem_inj_iff hi.nodup).mp (hy.trans hx.symm))
    · intro r hr
      by_cases h : r = m
      · subst h
        obtain ⟨x, hx⟩ := List.getElem?_eq_some_iff.mp hb0
        simp only
        rw [← hx]; exact List.getElem_mem x
      · exact hi.cover r (by omega)
    · intro b l hl
      simp only at hl
      obtain ⟨l0, h1, rfl⟩ := hmod b l hl
      have hn := hi.count b l0 h1
      split
      · rw [List.nodup_append]
        refine ⟨hn, by simp, ?_⟩
        intro a ha b' hb'
        simp only [List.mem_singleton] at hb'
        subst hb'
        have := ((hi.mem b l0 h1 a).mp ha).1
        omega
      · exact hn
    · intro v hv
      obtain ⟨r, hr, h⟩ := hi.from' v hv
      exact ⟨r, by omega, h⟩

theorem partition_inv {tol : K} {q : Nat → List K} {n : Nat} (hsep : Separated tol q n) : Inv q n (partition tol q n) := by
  have : ∀ m, m ≤ n → Inv q m ((List.range m).foldl (addState tol q) ⟨[], [], []⟩) := by
    intro m
    induction m with
    | zero => intro _; exact ⟨rfl, List.nodup_nil, by simp, by simp, by simp, by simp, by simp⟩
    | succ m ih =>
      intro hm
      rw [List.range_succ, List.foldl_append]
      exact addState_inv hsep (ih (by omega)) (by omega)
  exact this n (Nat.le_refl _)

/-- **C65, subspaces.** For all quantum numbers that are separated by more than the tolerance: two basis states are in the same block
iff all their quantum numbers agree, every state is in exactly one block and once, and the stored quantum numbers of a block
are those of its states. -/
theorem C65_blocks (tol : K) (q : Nat → List K) (n : Nat) (hsep : Separated tol q n) :
    (∀ r < n, ∃! b, InBlock (partition tol q n) r b) ∧
    (∀ r < n, ∀ r' < n, (∃ b, InBlock (partition tol q n) r b ∧ InBlock (partition tol q n) r' b) ↔ q r = q r') ∧
    (∀ (b : Nat) l, (partition tol q n).blocks[b]? = some l → l.Nodup ∧ ∀ r ∈ l, r < n ∧ (partition tol q n).qns[b]? = some (q r)) := by
  have hi := partition_inv hsep
  have hin : ∀ r b, InBlock (partition tol q n) r b ↔ r < n ∧ (partition tol q n).qns[b]? = some (q r) := by
    intro r b
    unfold InBlock
    constructor
    · rintro ⟨l, hl, hr⟩; exact (hi.mem b l hl r).mp hr
    · rintro ⟨h1, h2⟩
      have hb : b < (partition tol q n).blocks.length := by rw [← hi.qlen]; exact (List.getElem?_eq_some_iff.mp h2).1
      exact ⟨_, List.getElem?_eq_getElem hb, (hi.mem b _ (List.getElem?_eq_getElem hb) r).mpr ⟨h1, h2⟩⟩
  have huniq : ∀ (b b' : Nat) v, (partition tol q n).qns[b]? = some v → (partition tol q n).qns[b']? = some v → b = b' := by
    intro b b' v h h'
    obtain ⟨x, hx⟩ := List.getElem?_eq_some_iff.mp h
    obtain ⟨y, hy⟩ := List.getElem?_eq_some_iff.mp h'
    exact (List.Nodup.getElem_inj_iff hi.nodup).mp (hx.trans hy.symm)
  refine ⟨?_, ?_, ?_⟩
  · intro r hr
    obtain ⟨b, hb, he⟩ := List.mem_iff_getElem.mp (hi.cover r hr)
    have hb' := List.getElem?_eq_some_iff.mpr ⟨hb, he⟩
    exact ⟨b, (hin r b).mpr ⟨hr, hb'⟩, fun b2 h2 => huniq _ _ _ ((hin r b2).mp h2).2 hb'⟩
  · intro r hr r' hr'
    constructor
    · rintro ⟨b, h1, h2⟩
      have a := ((hin r b).mp h1).2
      rw [((hin r' b).mp h2).2] at a
      exact (Option.some.inj a).symm
    · intro h
      obtain ⟨b, hb, he⟩ := List.mem_iff_getElem.mp (hi.cover r hr)
      have hb' := List.getElem?_eq_some_iff.mpr ⟨hb, he⟩
      exact ⟨b, (hin r b).mpr ⟨hr, hb'⟩, (hin r' b).mpr ⟨hr', h ▸ hb'⟩⟩
  · intro b l hl
    exact ⟨hi.count b l hl, fun r hr => (hi.mem b l hl r).mp hr⟩

/-- **C65, connections.** The second loop throws exactly when the operator takes two states of one block to different blocks; otherwise
the table is exactly the connection of blocks. -/
theorem C65_connections (tol : K) (q : Nat → List K) (n : Nat) (hsep : Separated tol q n) (op : Nat → Option Nat) (hop : ∀ r < n, ∀ f, op r = some f → f < n) :
    (connections tol q n op = none ↔ ∃ r r' f f', r < n ∧ r' < n ∧ op r = some f ∧ op r' = some f' ∧ q r = q r' ∧ q f ≠ q f') ∧
    (∀ t, connections tol q n op = some t → ∀ b b', t b = some b' ↔
      ∃ r f, r < n ∧ op r = some f ∧ InBlock (partition tol q n) r b ∧ InBlock (partition tol q n) f b') := by
  have hi := partition_inv hsep
  generalize hs : partition tol q n = s at *
  have hin : ∀ r b, InBlock s r b ↔ r < n ∧ s.qns[b]? = some (q r) := by
    intro r b
    unfold InBlock
    constructor
    · rintro ⟨l, hl, hr⟩; exact (hi.mem b l hl r).mp hr
    · rintro ⟨h1, h2⟩
      have hb : b < s.blocks.length := by rw [← hi.qlen]; exact (List.getElem?_eq_some_iff.mp h2).1
      exact ⟨_, List.getElem?_eq_getElem hb, (hi.mem b _ (List.getElem?_eq_getElem hb) r).mpr ⟨h1, h2⟩⟩
  have huniq : ∀ (b b' : Nat) v, s.qns[b]? = some v → s.qns[b']? = some v → b = b' := by
    intro b b' v h h'
    obtain ⟨x, hx⟩ := List.getElem?_eq_some_iff.mp h
    obtain ⟨y, hy⟩ := List.getElem?_eq_some_iff.mp h'
    exact (List.Nodup.getElem_inj_iff hi.nodup).mp (hx.trans hy.symm)
  have hblk : ∀ r < n, ∃ b, find tol s.map (q r) = some b ∧ s.qns[b]? = some (q r) := by
    intro r hr
    obtain ⟨b, hb, he⟩ := List.mem_iff_getElem.mp (hi.cover r hr)
    have hb' := List.getElem?_eq_some_iff.mpr ⟨hb, he⟩
    exact ⟨b, (find_spec hsep hi (le_refl n) hr b).mpr hb', hb'⟩
  -- invariant over the first `m` states
  have key : ∀ m, m ≤ n →
      ((List.range m).foldl (connStep tol q s op) (some (fun _ => none)) = none ↔
        ∃ r r' f f', r < m ∧ r' < m ∧ op r = some f ∧ op r' = some f' ∧ q r = q r' ∧ q f ≠ q f') ∧
      (∀ t, (List.range m).foldl (connStep tol q s op) (some (fun _ => none)) = some t → ∀ b b', t b = some b' ↔
        ∃ r f, r < m ∧ op r = some f ∧ s.qns[b]? = some (q r) ∧ s.qns[b']? = some (q f)) := by
    intro m
    induction m with
    | zero => intro _; simp
    | succ m ih =>
      intro hm
      obtain ⟨ih1, ih2⟩ := ih (by omega)
      rw [List.range_succ, List.foldl_append]
      simp only [List.foldl_cons, List.foldl_nil]
      generalize (List.range m).foldl (connStep tol q s op) (some (fun _ => none)) = t0 at *
      cases t0 with
      | none =>
        have h1 := ih1.mp rfl
        refine ⟨⟨fun _ => ?_, fun _ => rfl⟩, fun t ht => by cases ht⟩
        obtain ⟨r, r', f, f', a, b, c⟩ := h1
        exact ⟨r, r', f, f', by omega, by omega, c⟩
      | some t0 =>
        have hno := (not_congr ih1).mp (by simp)
        have ht0 := ih2 t0 rfl
        unfold connStep
        simp only
        cases hopm : op m with
        | none =>
          simp only [reduceCtorEq, false_iff, Option.some.injEq]
          constructor
          · rintro ⟨r, r', f, f', h1, h2, h3, h4, h5⟩
            have hr : r ≠ m := by rintro rfl; rw [hopm] at h3; cases h3
            have hr' : r' ≠ m := by rintro rfl; rw [hopm] at h4; cases h4
            exact hno ⟨r, r', f, f', by omega, by omega, h3, h4, h5⟩
          · rintro t rfl b b'
            rw [ht0]
            constructor
            · rintro ⟨r, f, h1, h2⟩; exact ⟨r, f, by omega, h2⟩
            · rintro ⟨r, f, h1, h2, h3⟩
              have hr : r ≠ m := by rintro rfl; rw [hopm] at h2; cases h2
              exact ⟨r, f, by omega, h2, h3⟩
        | some f0 =>
          obtain ⟨o, ho, ho'⟩ := hblk m (by omega)
          obtain ⟨g, hg, hg'⟩ := hblk f0 (hop m (by omega) f0 hopm)
          simp only [ho, hg]
          by_cases hc : t0 o = none ∨ t0 o = some g
          · rw [if_pos hc]
            -- no conflict with an earlier state
            have hnc : ∀ r f, r < m → op r = some f → q r = q m → q f = q f0 := by
              intro r f hr hf hq
              obtain ⟨gf, _, hgf⟩ := hblk f (hop r (by omega) f hf)
              have := (ht0 o gf).mpr ⟨r, f, hr, hf, by rw [hq]; exact ho', hgf⟩
              rcases hc with h | h
              · rw [h] at this; cases this
              · rw [h] at this
                have := Option.some.inj this
                subst this
                rw [hg'] at hgf
                exact (Option.some.inj hgf).symm
            refine ⟨⟨fun h => (by cases h), ?_⟩, ?_⟩
            · rintro ⟨r, r', f, f', h1, h2, h3, h4, h5, h6⟩
              exfalso
              by_cases hr : r = m
              · subst hr
                rw [hopm] at h3
                have := Option.some.inj h3; subst this
                by_cases hr' : r' = r
                · subst hr'; rw [hopm] at h4; have := Option.some.inj h4; subst this; exact h6 rfl
                · exact h6 (hnc r' f' (by omega) h4 h5.symm).symm
              · by_cases hr' : r' = m
                · subst hr'
                  rw [hopm] at h4
                  have := Option.some.inj h4; subst this
                  exact h6 (hnc r f (by omega) h3 h5)
                · exact hno ⟨r, r', f, f', by omega, by omega, h3, h4, h5, h6⟩
            · intro t ht b b'
              simp only [Option.some.injEq] at ht
              subst ht
              by_cases hbo : b = o
              · subst hbo
                rw [Function.update_self]
                constructor
                · intro h
                  have := Option.some.inj h; subst this
                  exact ⟨m, f0, by omega, hopm, ho', hg'⟩
                · rintro ⟨r, f, h1, h2, h3, h4⟩
                  have hq : q r = q m := by rw [ho'] at h3; exact (Option.some.inj h3).symm
                  have : q f = q f0 := by
                    by_cases hr : r = m
                    · subst hr; rw [hopm] at h2; have := Option.some.inj h2; subst this; rfl
                    · exact hnc r f (by omega) h2 hq
                  rw [this] at h4
                  rw [huniq g b' _ hg' h4]
              · rw [Function.update_of_ne hbo, ht0]
                constructor
                · rintro ⟨r, f, h1, h2⟩; exact ⟨r, f, by omega, h2⟩
                · rintro ⟨r, f, h1, h2, h3, h4⟩
                  have hr : r ≠ m := by rintro rfl; exact hbo (huniq b o _ h3 ho')
                  exact ⟨r, f, by omega, h2, h3, h4⟩
          · rw [if_neg hc]
            refine ⟨⟨fun _ => ?_, fun _ => rfl⟩, fun t ht => by cases ht⟩
            rw [not_or] at hc
            obtain ⟨g', hgg⟩ := Option.ne_none_iff_exists'.mp hc.1
            obtain ⟨r, f, h1, h2, h3, h4⟩ := (ht0 o g').mp hgg
            refine ⟨r, m, f, f0, by omega, by omega, h2, hopm, ?_, ?_⟩
            · rw [ho'] at h3; exact (Option.some.inj h3).symm
            · intro he
              rw [he] at h4
              have := huniq g' g _ h4 hg'
              subst this
              exact hc.2 hgg
  obtain ⟨k1, k2⟩ := key n (le_refl n)
  unfold connections
  rw [hs]
  refine ⟨k1, fun t ht b b' => ?_⟩
  rw [k2 t ht b b']
  constructor
  · rintro ⟨r, f, h1, h2, h3, h4⟩
    exact ⟨r, f, h1, h2, (hin r b).mpr ⟨h1, h3⟩, (hin f b').mpr ⟨hop r h1 f h2, h4⟩⟩
  · rintro ⟨r, f, h1, h2, h3, h4⟩
    exact ⟨r, f, h1, h2, ((hin r b).mp h3).2, ((hin f b').mp h4).2⟩

/-- total number of particles of two orbitals -/
def exQ : Nat → List ℚ := fun r => match r with | 0 => [0] | 1 => [1] | 2 => [1] | _ => [2]

example : (partition (1 / 100000000) exQ 4).blocks = [[0], [1, 2], [3]] ∧
    (connections (1 / 100000000) exQ 4 (fun r => if r = 0 then some 1 else if r = 2 then some 3 else none)).map (fun t => [t 0, t 1, t 2]) =
      some [some 1, some 2, none] := by decide +kernel

example : Separated (1 / 100000000) exQ 4 := by
  refine ⟨by norm_num, ⟨1, ?_⟩, ?_⟩
  · intro r hr
    have : r = 0 ∨ r = 1 ∨ r = 2 ∨ r = 3 := by omega
    rcases this with rfl | rfl | rfl | rfl <;> rfl
  · intro r hr r' hr' k x y hx hy
    have : r = 0 ∨ r = 1 ∨ r = 2 ∨ r = 3 := by omega
    have : r' = 0 ∨ r' = 1 ∨ r' = 2 ∨ r' = 3 := by omega
    rcases ‹r = 0 ∨ r = 1 ∨ r = 2 ∨ r = 3› with rfl | rfl | rfl | rfl <;>
      rcases ‹r' = 0 ∨ r' = 1 ∨ r' = 2 ∨ r' = 3› with rfl | rfl | rfl | rfl <;>
      (cases k with
       | zero =>
          simp only [exQ, List.getElem?_cons_zero, Option.some.injEq] at hx hy
          subst hx; subst hy; norm_num
       | succ k => simp [exQ] at hx)

/-- **C65, precondition of the map.** Between the quantum numbers that occur, the tolerant comparison is the strict lexicographic order,
so that the map behaves as a map with the vectors themselves as keys. -/
theorem C65_comparison_is_lexicographic (tol : K) (q : Nat → List K) (n : Nat) (hsep : Separated tol q n) (r r' : Nat) (hr : r < n) (hr' : r' < n) :
    ltDbl tol (q r) (q r') = true ↔ List.Lex (· < ·) (q r) (q r') := by
  have gen : ∀ (a b : List K), a.length = b.length →
      (∀ (k : Nat) x y, a[k]? = some x → b[k]? = some y → x = y ∨ tol < |x - y|) → (ltDbl tol a b = true ↔ List.Lex (· < ·) a b) := by
    intro a
    induction a with
    | nil =>
      intro b hl _
      cases b with
      | nil => simp [ltDbl]
      | cons y b => simp at hl
    | cons x a ih =>
      intro b hl hs
      cases b with
      | nil => simp at hl
      | cons y b =>
        have ih := ih b (by simpa using hl) (fun k x y hx hy => hs (k + 1) x y (by simpa using hx) (by simpa using hy))
        rw [List.cons_lex_cons_iff]
        have h0 := hsep.nonneg
        rcases lt_trichotomy x y with h | h | h
        · have hgt := (hs 0 x y rfl rfl).resolve_left h.ne
          have h1 : x < y - tol := by rw [abs_of_neg (by linarith)] at hgt; linarith
          simp [ltDbl, h1, h]
        · subst h
          have h1 : ¬ x < x - tol := by linarith
          simp [ltDbl, h1, ih]
        · have hgt := (hs 0 x y rfl rfl).resolve_left h.ne'
          have h1 : y < x - tol := by rw [abs_of_pos (by linarith)] at hgt; linarith
          have h2 : ¬ x < y - tol := by linarith
          simp [ltDbl, h1, h2, h.not_gt, h.ne']
  obtain ⟨m, hm⟩ := hsep.len
  exact gen _ _ ((hm r hr).trans (hm r' hr').symm) (fun k x y hx hy => hsep.sep r hr r' hr' k x y hx hy)

example : ltDbl (1 / 100 : ℚ) [2, 1] [1, 2] = false ∧ ltDbl (1 / 100 : ℚ) [1, 2] [2, 1] = true ∧ ltDbl (1 / 100 : ℚ) [1, 2] [1, 3] = true := by
  decide +kernel

/-- Without separation the comparison is not a strict weak order (equivalence is not transitive), so that the map may not be used
with it. -/
theorem C65_comparison_not_transitive (tol : K) (h : 0 < tol) :
    equiv tol [0] [tol] = true ∧ equiv tol [tol] [2 * tol] = true ∧ equiv tol [0] [2 * tol] = false := by
  have h1 : ¬ tol < 0 - tol := by linarith
  have h2 : ¬ 2 * tol < tol - tol := by linarith
  have h3 : ¬ tol < 2 * tol - tol := by linarith
  have h4 : (0 : K) < 2 * tol - tol := by linarith
  refine ⟨?_, ?_, ?_⟩
  · simp [equiv, ltDbl]; linarith
  · simp [equiv, ltDbl, h3]; linarith
  · simp [equiv, ltDbl, h4]

end Verif.Qn
