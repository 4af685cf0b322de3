import Verif.Hilbert.PartitionModel
import Mathlib.Logic.Relation
import Mathlib.Data.List.Nodup
import Mathlib.Tactic.Common
import Mathlib.Data.List.Perm.Basic

/-!
# Properties of the automatic partition
-/

namespace Verif.Partition

open Relation

/-! ## Specification -/

/-- `op` has a non-zero matrix element from basis state `i` to basis state `f` -/
def Connects {K : Type} [Zero K] (op : Op K) (i f : Nat) : Prop := ∃ v, v ≠ 0 ∧ (f, v) ∈ op i

/-- the operator maps basis states of the space into the space -/
def Op.Within {K : Type} (op : Op K) (size : Nat) : Prop := ∀ i < size, ∀ e ∈ op i, e.1 < size

/-- Phase I: single Hamiltonian (or hybridisation) step -/
def HStep {K : Type} [Zero K] (size : Nat) (H : Op K) (Hyb : Option (Op K)) (i f : Nat) : Prop :=
  i < size ∧ (Connects H i f ∨ ∃ Y, Hyb = some Y ∧ Connects Y i f)

/-- Phase II: what must be joined, given the old partition `same` -/
inductive MergeStep {K : Type} [Zero K] (size : Nat) (same : Nat → Nat → Prop) (Cd : Op K) : Nat → Nat → Prop
  /-- subspaces are not split -/
  | old {i j} : same i j → MergeStep size same Cd i j
  /-- both reached by `Cd` from one old subspace -/
  | reached {k l i j} : k < size → l < size → same k l → Connects Cd k i → Connects Cd l j → MergeStep size same Cd i j
  /-- `Cd` reaches one old subspace from both -/
  | reaching {k l i j} : i < size → j < size → same k l → Connects Cd i k → Connects Cd j l → MergeStep size same Cd i j

/-- the partition `u` is exactly the equivalence generated by `G` -/
def Gen (u : UF) (G : Nat → Nat → Prop) : Prop := ∀ i j, find u i = find u j ↔ EqvGen G i j

/-- states of the union-find structure that occur -/
structure Valid (u : UF) (size : Nat) : Prop where
  len : u.length = size
  lt : ∀ i < size, find u i < size
  idem : ∀ i, find u (find u i) = find u i

/-! ## Proofs -/

variable {K : Type} [DecidableEq K] [Zero K]

theorem find_ge {u : UF} {i : Nat} (h : u.length ≤ i) : find u i = i := by
  simp [find, List.getD, h]

theorem find_map {u : UF} {i : Nat} (f : Nat → Nat) (h : i < u.length) : find (u.map f) i = f (find u i) := by
  simp [find, List.getD, h]

theorem Valid.lt_iff {u : UF} {n : Nat} (hv : Valid u n) (i : Nat) : find u i < n ↔ i < n := by
  constructor
  · intro h
    by_contra hi
    rw [find_ge (by rw [hv.len]; omega)] at h
    exact hi h
  · exact hv.lt i

theorem find_link (w : UF → Nat → Nat → Bool) {u : UF} {n : Nat} (hv : Valid u n) {x y : Nat} (hx : x < n) (hy : y < n) (i : Nat) :
    find (link w u x y) i =
      if find u x = find u y then find u i
      else if w u (find u x) (find u y) then (if find u i = find u y then find u x else find u i)
      else (if find u i = find u x then find u y else find u i) := by
  have hxl := hv.lt x hx
  have hyl := hv.lt y hy
  unfold link
  by_cases hi : i < n
  · split
    · rfl
    · split <;> rw [find_map _ (by rw [hv.len]; exact hi)]
  · have hfi : find u i = i := find_ge (by rw [hv.len]; omega)
    split
    · rfl
    · split
      · rw [find_ge (by rw [List.length_map, hv.len]; omega), hfi, if_neg (by omega)]
      · rw [find_ge (by rw [List.length_map, hv.len]; omega), hfi, if_neg (by omega)]

theorem link_rel (w : UF → Nat → Nat → Bool) {u : UF} {n : Nat} (hv : Valid u n) {x y : Nat} (hx : x < n) (hy : y < n) (i j : Nat) :
    find (link w u x y) i = find (link w u x y) j ↔
      (find u i = find u j ∨ (find u i = find u x ∧ find u j = find u y) ∨ (find u i = find u y ∧ find u j = find u x)) := by
  rw [find_link w hv hx hy, find_link w hv hx hy]
  by_cases h1 : find u x = find u y
  · simp only [h1, if_true]
    constructor
    · intro h; exact Or.inl h
    · rintro (h | ⟨h, h'⟩ | ⟨h, h'⟩)
      · exact h
      · rw [h, h']
      · rw [h, h']
  · simp only [h1, if_false]
    split <;> split <;> split <;> (try simp_all) <;> (constructor <;> intro h <;> (try simp_all) <;> tauto)

theorem link_valid (w : UF → Nat → Nat → Bool) {u : UF} {n : Nat} (hv : Valid u n) {x y : Nat} (hx : x < n) (hy : y < n) :
    Valid (link w u x y) n := by
  have hxl := hv.lt x hx
  have hyl := hv.lt y hy
  refine ⟨?_, ?_, ?_⟩
  · unfold link
    split
    · exact hv.len
    · split <;> rw [List.length_map, hv.len]
  · intro i hi
    have := hv.lt i hi
    rw [find_link w hv hx hy]
    repeat' split
    all_goals omega
  · intro i
    have h1 := hv.idem i
    have h2 := hv.idem x
    have h3 := hv.idem y
    rw [find_link w hv hx hy i]
    split
    · rw [find_link w hv hx hy]; simp_all
    · split
      · split <;> rw [find_link w hv hx hy] <;> simp_all
      · split <;> rw [find_link w hv hx hy] <;> simp_all

theorem eqvGen_of_le {G : Nat → Nat → Prop} {R : Nat → Nat → Prop} (hR : Equivalence R) (h : ∀ a b, G a b → R a b) {i j : Nat}
    (hij : EqvGen G i j) : R i j := by
  induction hij with
  | rel a b hab => exact h a b hab
  | refl a => exact hR.refl a
  | symm a b _ ih => exact hR.symm ih
  | trans a b c _ _ ih1 ih2 => exact hR.trans ih1 ih2

theorem eqvGen_lift {G G' : Nat → Nat → Prop} (h : ∀ a b, G a b → EqvGen G' a b) {i j : Nat} (hij : EqvGen G i j) : EqvGen G' i j :=
  eqvGen_of_le (EqvGen.is_equivalence G') h hij

theorem Gen.congr {u : UF} {G G' : Nat → Nat → Prop} (hg : Gen u G) (h1 : ∀ a b, G a b → EqvGen G' a b) (h2 : ∀ a b, G' a b → EqvGen G a b) :
    Gen u G' := fun i j => (hg i j).trans ⟨eqvGen_lift h1, eqvGen_lift h2⟩

theorem gen_link (w : UF → Nat → Nat → Bool) {u : UF} {n : Nat} (hv : Valid u n) {G : Nat → Nat → Prop} (hg : Gen u G) {x y : Nat}
    (hx : x < n) (hy : y < n) : Gen (link w u x y) (fun a b => G a b ∨ (a = x ∧ b = y)) := by
  intro i j
  have up : ∀ {a b : Nat}, EqvGen G a b → EqvGen (fun a b => G a b ∨ (a = x ∧ b = y)) a b :=
    fun h => eqvGen_lift (fun a b hab => EqvGen.rel _ _ (Or.inl hab)) h
  have xy : EqvGen (fun a b => G a b ∨ (a = x ∧ b = y)) x y := EqvGen.rel _ _ (Or.inr ⟨rfl, rfl⟩)
  constructor
  · intro h
    rcases (link_rel w hv hx hy i j).mp h with h | ⟨h, h'⟩ | ⟨h, h'⟩
    · exact up ((hg i j).mp h)
    · exact ((up ((hg i x).mp h)).trans _ _ _ xy).trans _ _ _ ((up ((hg j y).mp h')).symm _ _)
    · exact ((up ((hg i y).mp h)).trans _ _ _ (xy.symm _ _)).trans _ _ _ ((up ((hg j x).mp h')).symm _ _)
  · intro h
    refine eqvGen_of_le (R := fun i j => find (link w u x y) i = find (link w u x y) j) ⟨fun _ => rfl, fun h => h.symm, fun h h' => h.trans h'⟩ ?_ h
    rintro a b (hab | ⟨rfl, rfl⟩)
    · exact (link_rel w hv hx hy a b).mpr (Or.inl ((hg a b).mpr (EqvGen.rel _ _ hab)))
    · exact (link_rel w hv hx hy a b).mpr (Or.inr (Or.inl ⟨rfl, rfl⟩))

theorem mapping_gen (w : UF → Nat → Nat → Bool) (store : Bool) {n : Nat} {s : UF × Elems K} (hv : Valid s.1 n) {G : Nat → Nat → Prop}
    (hg : Gen s.1 G) {i : Nat} (hi : i < n) (fa : Nat × K) (hf : fa.1 < n) :
    Valid (mapping w store i s fa).1 n ∧ Gen (mapping w store i s fa).1 (fun a b => G a b ∨ (a = i ∧ b = fa.1 ∧ fa.2 ≠ 0)) := by
  unfold mapping
  by_cases h0 : fa.2 = 0
  · rw [if_pos h0]
    refine ⟨hv, hg.congr (fun a b h => EqvGen.rel _ _ (Or.inl h)) ?_⟩
    rintro a b (h | ⟨_, _, h⟩)
    · exact EqvGen.rel _ _ h
    · exact absurd h0 h
  · rw [if_neg h0]
    simp only
    have hfi := hv.lt i hi
    have hff := hv.lt fa.1 hf
    by_cases hne : find s.1 i ≠ find s.1 fa.1
    · rw [if_pos hne]
      refine ⟨link_valid w hv hfi hff, (gen_link w hv hg hfi hff).congr ?_ ?_⟩
      · have hl : ∀ {a b : Nat}, find s.1 a = find s.1 b → EqvGen (fun a b => G a b ∨ (a = i ∧ b = fa.1 ∧ fa.2 ≠ 0)) a b :=
          fun h => eqvGen_lift (fun a b hab => EqvGen.rel _ _ (Or.inl hab)) ((hg _ _).mp h)
        rintro a b (h | ⟨rfl, rfl⟩)
        · exact EqvGen.rel _ _ (Or.inl h)
        · exact ((hl (hv.idem i)).trans _ _ _ (EqvGen.rel _ _ (Or.inr ⟨rfl, rfl, h0⟩))).trans _ _ _ (hl (hv.idem fa.1).symm)
      · have hl : ∀ {a b : Nat}, find s.1 a = find s.1 b → EqvGen (fun a b => G a b ∨ (a = find s.1 i ∧ b = find s.1 fa.1)) a b :=
          fun h => eqvGen_lift (fun a b hab => EqvGen.rel _ _ (Or.inl hab)) ((hg _ _).mp h)
        rintro a b (h | ⟨rfl, rfl, _⟩)
        · exact EqvGen.rel _ _ (Or.inl h)
        · exact ((hl (hv.idem a).symm).trans _ _ _ (EqvGen.rel _ _ (Or.inr ⟨rfl, rfl⟩))).trans _ _ _ (hl (hv.idem fa.1))
    · rw [if_neg hne]
      refine ⟨hv, hg.congr (fun a b h => EqvGen.rel _ _ (Or.inl h)) ?_⟩
      rintro a b (h | ⟨rfl, rfl, _⟩)
      · exact EqvGen.rel _ _ h
      · exact (hg _ _).mp (by simpa using hne)

theorem fold_mapping_gen (w : UF → Nat → Nat → Bool) (store : Bool) {n i : Nat} (hi : i < n) :
    ∀ (l : List (Nat × K)) (s : UF × Elems K) (G : Nat → Nat → Prop), (∀ e ∈ l, e.1 < n) → Valid s.1 n → Gen s.1 G →
      Valid (l.foldl (mapping w store i) s).1 n ∧
      Gen (l.foldl (mapping w store i) s).1 (fun a b => G a b ∨ (a = i ∧ ∃ v, v ≠ 0 ∧ (b, v) ∈ l)) := by
  intro l
  induction l with
  | nil =>
    intro s G _ hv hg
    refine ⟨hv, hg.congr (fun a b h => EqvGen.rel _ _ (Or.inl h)) ?_⟩
    rintro a b (h | ⟨_, v, _, h⟩)
    · exact EqvGen.rel _ _ h
    · cases h
  | cons e l ih =>
    intro s G hl hv hg
    obtain ⟨h1, h2⟩ := mapping_gen w store hv hg hi e (hl e (by simp))
    obtain ⟨h3, h4⟩ := ih _ _ (fun e' he => hl e' (by simp [he])) h1 h2
    refine ⟨h3, h4.congr ?_ ?_⟩
    · rintro a b ((h | ⟨rfl, rfl, h⟩) | ⟨rfl, v, hv0, h⟩)
      · exact EqvGen.rel _ _ (Or.inl h)
      · exact EqvGen.rel _ _ (Or.inr ⟨rfl, e.2, h, by simp⟩)
      · exact EqvGen.rel _ _ (Or.inr ⟨rfl, v, hv0, by simp [h]⟩)
    · rintro a b (h | ⟨rfl, v, hv0, h⟩)
      · exact EqvGen.rel _ _ (Or.inl (Or.inl h))
      · rcases List.mem_cons.mp h with h | h
        · subst h; exact EqvGen.rel _ _ (Or.inl (Or.inr ⟨rfl, rfl, hv0⟩))
        · exact EqvGen.rel _ _ (Or.inr ⟨rfl, v, hv0, h⟩)

theorem ctorStep_gen (w : UF → Nat → Nat → Bool) (store : Bool) {n i : Nat} (hi : i < n) (H : Op K) (Hyb : Option (Op K))
    (hH : H.Within n) (hY : ∀ Y, Hyb = some Y → Op.Within Y n) (s : UF × Elems K) (G : Nat → Nat → Prop) (hv : Valid s.1 n) (hg : Gen s.1 G) :
    Valid (ctorStep w store H Hyb s i).1 n ∧
      Gen (ctorStep w store H Hyb s i).1 (fun a b => G a b ∨ (a = i ∧ HStep n H Hyb i b)) := by
  obtain ⟨h1, h2⟩ := fold_mapping_gen w store hi (H i) s G (hH i hi) hv hg
  unfold ctorStep
  cases Hyb with
  | none =>
    refine ⟨h1, h2.congr ?_ ?_⟩
    · rintro a b (h | ⟨rfl, h⟩)
      · exact EqvGen.rel _ _ (Or.inl h)
      · exact EqvGen.rel _ _ (Or.inr ⟨rfl, hi, Or.inl h⟩)
    · rintro a b (h | ⟨rfl, _, h | ⟨Y, hY, _⟩⟩)
      · exact EqvGen.rel _ _ (Or.inl h)
      · exact EqvGen.rel _ _ (Or.inr ⟨rfl, h⟩)
      · cases hY
  | some Y =>
    obtain ⟨h3, h4⟩ := fold_mapping_gen w store hi (Y i) _ _ (hY Y rfl i hi) h1 h2
    refine ⟨h3, h4.congr ?_ ?_⟩
    · rintro a b ((h | ⟨rfl, h⟩) | ⟨rfl, h⟩)
      · exact EqvGen.rel _ _ (Or.inl h)
      · exact EqvGen.rel _ _ (Or.inr ⟨rfl, hi, Or.inl h⟩)
      · exact EqvGen.rel _ _ (Or.inr ⟨rfl, hi, Or.inr ⟨Y, rfl, h⟩⟩)
    · rintro a b (h | ⟨rfl, _, h | ⟨Y', hY', h⟩⟩)
      · exact EqvGen.rel _ _ (Or.inl (Or.inl h))
      · exact EqvGen.rel _ _ (Or.inl (Or.inr ⟨rfl, h⟩))
      · simp only [Option.some.injEq] at hY'
        subst hY'
        exact EqvGen.rel _ _ (Or.inr ⟨rfl, h⟩)

theorem fold_ctor_gen (w : UF → Nat → Nat → Bool) (store : Bool) {n : Nat} (H : Op K) (Hyb : Option (Op K))
    (hH : H.Within n) (hY : ∀ Y, Hyb = some Y → Op.Within Y n) :
    ∀ (l : List Nat) (s : UF × Elems K) (G : Nat → Nat → Prop), (∀ i ∈ l, i < n) → Valid s.1 n → Gen s.1 G →
      Valid (l.foldl (ctorStep w store H Hyb) s).1 n ∧
      Gen (l.foldl (ctorStep w store H Hyb) s).1 (fun a b => G a b ∨ (a ∈ l ∧ HStep n H Hyb a b)) := by
  intro l
  induction l with
  | nil =>
    intro s G _ hv hg
    refine ⟨hv, hg.congr (fun a b h => EqvGen.rel _ _ (Or.inl h)) ?_⟩
    rintro a b (h | ⟨h, _⟩)
    · exact EqvGen.rel _ _ h
    · cases h
  | cons i l ih =>
    intro s G hl hv hg
    obtain ⟨h1, h2⟩ := ctorStep_gen w store (hl i (by simp)) H Hyb hH hY s G hv hg
    obtain ⟨h3, h4⟩ := ih _ _ (fun e' he => hl e' (by simp [he])) h1 h2
    refine ⟨h3, h4.congr ?_ ?_⟩
    · rintro a b ((h | ⟨rfl, h⟩) | ⟨hm, h⟩)
      · exact EqvGen.rel _ _ (Or.inl h)
      · exact EqvGen.rel _ _ (Or.inr ⟨by simp, h⟩)
      · exact EqvGen.rel _ _ (Or.inr ⟨by simp [hm], h⟩)
    · rintro a b (h | ⟨hm, h⟩)
      · exact EqvGen.rel _ _ (Or.inl (Or.inl h))
      · rcases List.mem_cons.mp hm with rfl | hm
        · exact EqvGen.rel _ _ (Or.inl (Or.inr ⟨rfl, h⟩))
        · exact EqvGen.rel _ _ (Or.inr ⟨hm, h⟩)

theorem find_range (n i : Nat) : find (List.range n) i = i := by
  unfold find List.getD
  by_cases h : i < n
  · simp [h]
  · simp [h]

theorem range_valid (n : Nat) : Valid (List.range n) n :=
  ⟨List.length_range, fun i hi => by rw [find_range]; exact hi, fun i => by simp only [find_range]⟩

theorem range_gen (n : Nat) : Gen (List.range n) (fun _ _ => False) := by
  intro i j
  rw [find_range, find_range]
  constructor
  · rintro rfl; exact EqvGen.refl _
  · intro h
    exact eqvGen_of_le (R := fun a b => a = b) ⟨fun _ => rfl, fun h => h.symm, fun h h' => h.trans h'⟩ (fun _ _ h => h.elim) h

theorem ctor_gen (w : UF → Nat → Nat → Bool) (store : Bool) (n : Nat) (H : Op K) (Hyb : Option (Op K))
    (hH : H.Within n) (hY : ∀ Y, Hyb = some Y → Op.Within Y n) :
    Valid (ctor w n H store Hyb).1 n ∧ Gen (ctor w n H store Hyb).1 (HStep n H Hyb) := by
  obtain ⟨h1, h2⟩ := fold_ctor_gen w store H Hyb hH hY (List.range n) (List.range n, []) (fun _ _ => False)
    (fun i hi => List.mem_range.mp hi) (range_valid n) (range_gen n)
  refine ⟨h1, h2.congr ?_ ?_⟩
  · rintro a b (h | ⟨_, h⟩)
    · exact h.elim
    · exact EqvGen.rel _ _ h
  · intro a b h
    exact EqvGen.rel _ _ (Or.inr ⟨List.mem_range.mpr h.1, h⟩)

/-! ### numbering -/

theorem updateIndex_spec (u : UF) : ∀ (l m : List Nat), m.Nodup →
    (l.foldl (fun m n => if find u n ∈ m then m else m ++ [find u n]) m).Nodup ∧
    (∀ r, r ∈ l.foldl (fun m n => if find u n ∈ m then m else m ++ [find u n]) m ↔ r ∈ m ∨ ∃ n ∈ l, find u n = r) ∧
    m <+: l.foldl (fun m n => if find u n ∈ m then m else m ++ [find u n]) m := by
  intro l
  induction l with
  | nil => intro m hm; simp [hm]
  | cons n l ih =>
    intro m hm
    rw [List.foldl_cons]
    by_cases h : find u n ∈ m
    · rw [if_pos h]
      obtain ⟨h1, h2, h3⟩ := ih m hm
      refine ⟨h1, fun r => ?_, h3⟩
      rw [h2]
      constructor
      · rintro (h | ⟨x, hx, h⟩)
        · exact Or.inl h
        · exact Or.inr ⟨x, by simp [hx], h⟩
      · rintro (h' | ⟨x, hx, h'⟩)
        · exact Or.inl h'
        · rcases List.mem_cons.mp hx with rfl | hx
          · exact Or.inl (h' ▸ h)
          · exact Or.inr ⟨x, hx, h'⟩
    · rw [if_neg h]
      have hm' : (m ++ [find u n]).Nodup := by
        rw [List.nodup_append]
        refine ⟨hm, by simp, ?_⟩
        intro a ha b hb
        simp only [List.mem_singleton] at hb
        rintro rfl
        exact h (hb ▸ ha)
      obtain ⟨h1, h2, h3⟩ := ih _ hm'
      refine ⟨h1, fun r => ?_, (List.prefix_append _ _).trans h3⟩
      rw [h2]
      simp only [List.mem_append, List.mem_cons, List.not_mem_nil, or_false]
      constructor
      · rintro ((h | h) | ⟨x, hx, h⟩)
        · exact Or.inl h
        · exact Or.inr ⟨n, Or.inl rfl, h.symm⟩
        · exact Or.inr ⟨x, Or.inr hx, h⟩
      · rintro (h' | ⟨x, rfl | hx, h'⟩)
        · exact Or.inl (Or.inl h')
        · exact Or.inl (Or.inr h'.symm)
        · exact Or.inr ⟨x, hx, h'⟩

theorem mem_updateIndex (u : UF) (n i : Nat) (hi : i < n) : find u i ∈ updateIndex u n :=
  ((updateIndex_spec u (List.range n) [] List.nodup_nil).2.1 _).mpr (Or.inr ⟨i, List.mem_range.mpr hi, rfl⟩)

theorem idxOf_inj {l : List Nat} {a b : Nat} (ha : a ∈ l) (h : l.idxOf a = l.idxOf b) : a = b := by
  have h1 := List.getElem_idxOf (List.idxOf_lt_length_iff.mpr ha)
  have hb : l.idxOf b < l.length := h ▸ List.idxOf_lt_length_iff.mpr ha
  have h2 := List.getElem_idxOf hb
  rw [← h1, ← h2]
  simp [h]

theorem lookup_eq_iff (u : UF) (n i j : Nat) (hi : i < n) : lookup u n i = lookup u n j ↔ find u i = find u j :=
  ⟨fun h => idxOf_inj (mem_updateIndex u n i hi) h, fun h => by unfold lookup; rw [h]⟩

/-- number of subspaces met among the first states: the numbering rule -/
theorem lookup_first (u : UF) : ∀ (n : Nat) (i : Nat), i < n → (∀ j < i, find u j ≠ find u i) →
    lookup u n i = (updateIndex u i).length := by
  intro n i hi hfirst
  have hsplit : updateIndex u n = ((List.range n).drop i).foldl (fun m n => if find u n ∈ m then m else m ++ [find u n]) (updateIndex u i) := by
    unfold updateIndex
    rw [← List.foldl_append]
    congr 1
    have : List.range i = (List.range n).take i := by
      rw [List.take_range, Nat.min_eq_left (by omega)]
    rw [this, List.take_append_drop]
  have hdrop : (List.range n).drop i = i :: (List.range n).drop (i + 1) := by
    rw [List.drop_eq_getElem_cons (by simpa using hi)]
    simp
  have hnot : find u i ∉ updateIndex u i := by
    intro h
    rcases ((updateIndex_spec u (List.range i) [] List.nodup_nil).2.1 _).mp h with h | ⟨j, hj, h⟩
    · cases h
    · exact hfirst j (List.mem_range.mp hj) h
  have hpre : updateIndex u i ++ [find u i] <+: updateIndex u n := by
    rw [hsplit, hdrop, List.foldl_cons, if_neg hnot]
    apply (updateIndex_spec u _ _ _).2.2
    rw [List.nodup_append]
    refine ⟨(updateIndex_spec u (List.range i) [] List.nodup_nil).1, by simp, ?_⟩
    intro a ha b hb
    simp only [List.mem_singleton] at hb
    rintro rfl
    exact hnot (hb ▸ ha)
  obtain ⟨t, ht⟩ := hpre
  unfold lookup
  rw [← ht, List.append_assoc, List.idxOf_append_of_notMem hnot]
  simp

/-- **C16.** For every partition: two basis states have the same subspace number iff they are in the same
set, the numbers are exactly `0..n_subspaces-1`, and the number of a subspace is the number of subspaces met
before its first basis state. -/
theorem C16_numbering (u : UF) (n : Nat) :
    (∀ i j, i < n → j < n → (lookup u n i = lookup u n j ↔ find u i = find u j)) ∧
    (∀ i < n, lookup u n i < nSubspaces u n) ∧
    (∀ k < nSubspaces u n, ∃ i < n, lookup u n i = k) ∧
    (∀ i < n, (∀ j < i, find u j ≠ find u i) → lookup u n i = nSubspaces u i) := by
  refine ⟨fun i j hi _ => lookup_eq_iff u n i j hi, fun i hi => List.idxOf_lt_length_iff.mpr (mem_updateIndex u n i hi), ?_,
    fun i hi h => lookup_first u n i hi h⟩
  intro k hk
  obtain ⟨hnd, hmem, _⟩ := updateIndex_spec u (List.range n) [] List.nodup_nil
  have hk' : (updateIndex u n)[k]'hk ∈ updateIndex u n := List.getElem_mem hk
  rcases (hmem _).mp hk' with h | ⟨i, hi, h⟩
  · cases h
  · refine ⟨i, List.mem_range.mp hi, ?_⟩
    unfold lookup
    rw [h]
    exact List.Nodup.idxOf_getElem hnd k hk

example : (List.range 6).map (lookup [5, 1, 5, 3, 1, 5] 6) = [0, 1, 0, 2, 1, 0] ∧ nSubspaces [5, 1, 5, 3, 1, 5] 6 = 3 := by decide

/-- **C15.** For every Hamiltonian and optional hybridisation, whatever the union-find does about
representatives: two basis states get the same subspace number iff they are connected by a chain of non-zero
matrix elements (taken in any direction). -/
theorem C15_phase_one (w : UF → Nat → Nat → Bool) (store : Bool) (n : Nat) (H : Op K) (Hyb : Option (Op K))
    (hH : H.Within n) (hY : ∀ Y, Hyb = some Y → Op.Within Y n) (i j : Nat) (hi : i < n) (_hj : j < n) :
    lookup (ctor w n H store Hyb).1 n i = lookup (ctor w n H store Hyb).1 n j ↔ EqvGen (HStep n H Hyb) i j := by
  rw [lookup_eq_iff _ _ _ _ hi]
  exact (ctor_gen w store n H Hyb hH hY).2 i j

/-- Consequences: every subspace is invariant, and every other invariant partition is coarser. -/
theorem C15_invariant_and_finest (w : UF → Nat → Nat → Bool) (store : Bool) (n : Nat) (H : Op K) (hH : H.Within n) :
    (∀ i < n, ∀ f, Connects H i f → lookup (ctor w n H store none).1 n i = lookup (ctor w n H store none).1 n f) ∧
    (∀ P : Nat → Nat, (∀ i < n, ∀ f, Connects H i f → P i = P f) →
      ∀ i < n, ∀ j < n, lookup (ctor w n H store none).1 n i = lookup (ctor w n H store none).1 n j → P i = P j) := by
  constructor
  · intro i hi f hf
    obtain ⟨v, _, hm⟩ := id hf
    exact (C15_phase_one w store n H none hH (by simp) i f hi (hH i hi _ hm)).mpr (EqvGen.rel _ _ ⟨hi, Or.inl hf⟩)
  · intro P hP i hi j hj h
    have h := (C15_phase_one w store n H none hH (by simp) i j hi hj).mp h
    refine eqvGen_of_le (R := fun a b => P a = P b) ⟨fun _ => rfl, fun h => h.symm, fun h h' => h.trans h'⟩ ?_ h
    rintro a b ⟨ha, hab | ⟨Y, hY, _⟩⟩
    · exact hP a ha b hab
    · cases hY

/-- four states, `H` connects 0 - 2 and 2 - 3 -/
def exH : Op Int := fun i => match i with | 0 => [(0, 5), (2, 1)] | 2 => [(0, 1), (3, 4), (1, 0)] | 3 => [(2, 4)] | _ => []

example : exH.Within 4 ∧ (List.range 4).map (lookup (ctor (fun _ _ _ => true) 4 exH true none).1 4) = [0, 1, 0, 0] := by
  refine ⟨?_, by decide⟩
  intro i hi
  have : i = 0 ∨ i = 1 ∨ i = 2 ∨ i = 3 := by omega
  rcases this with rfl | rfl | rfl | rfl <;> decide

/-! ### stored matrix elements -/

theorem getEl_setElem (m : Elems K) (k k' : Nat × Nat) (v : K) :
    getEl (setElem m k v) k' = if k' = k then some v else getEl m k' := by
  unfold getEl setElem
  by_cases h : k' = k
  · subst h; simp
  · have h' : ¬ k = k' := fun e => h e.symm
    simp only [List.find?_cons, h', decide_false, if_neg h]
    congr 1
    induction m with
    | nil => simp
    | cons e m ih =>
      by_cases he : e.1 = k
      · have : ¬ e.1 = k' := by rw [he]; exact h'
        simpa [he, h'] using ih
      · by_cases he' : e.1 = k'
        · simp [he', h]
        · simpa [he, he'] using ih

theorem fold_storeOne (i : Nat) : ∀ (l : List (Nat × K)) (m : Elems K), (l.map (·.1)).Nodup → ∀ a b v,
    getEl (l.foldl (storeOne i) m) (a, b) = some v ↔
      (a = i ∧ (b, v) ∈ l ∧ v ≠ 0) ∨ ((¬ (a = i ∧ ∃ v', v' ≠ 0 ∧ (b, v') ∈ l)) ∧ getEl m (a, b) = some v) := by
  intro l
  induction l with
  | nil => intro m _ a b v; simp
  | cons e l ih =>
    intro m hnd a b v
    simp only [List.map_cons, List.nodup_cons] at hnd
    rw [List.foldl_cons, ih _ hnd.2]
    have hno : ∀ v', (e.1, v') ∉ l := fun v' h => hnd.1 (List.mem_map.mpr ⟨_, h, rfl⟩)
    unfold storeOne
    by_cases h0 : e.2 = 0
    · rw [if_pos h0]
      have : ∀ v', v' ≠ 0 → ((b, v') ∈ e :: l ↔ (b, v') ∈ l) := by
        intro v' hv'
        simp only [List.mem_cons, or_iff_right_iff_imp]
        rintro rfl
        exact absurd h0 hv'
      constructor
      · rintro (⟨h1, h2, h3⟩ | ⟨h1, h2⟩)
        · exact Or.inl ⟨h1, by simp [h2], h3⟩
        · refine Or.inr ⟨?_, h2⟩
          rintro ⟨hai, v', hv', hm⟩
          exact h1 ⟨hai, v', hv', (this v' hv').mp hm⟩
      · rintro (⟨h1, h2, h3⟩ | ⟨h1, h2⟩)
        · exact Or.inl ⟨h1, (this v h3).mp h2, h3⟩
        · refine Or.inr ⟨?_, h2⟩
          rintro ⟨hai, v', hv', hm⟩
          exact h1 ⟨hai, v', hv', (this v' hv').mpr hm⟩
    · rw [if_neg h0, getEl_setElem]
      by_cases hk : (a, b) = (i, e.1)
      · simp only [Prod.mk.injEq] at hk
        obtain ⟨rfl, rfl⟩ := hk
        simp only [if_true, Option.some.injEq, true_and]
        constructor
        · rintro (⟨h1, _⟩ | ⟨_, h⟩)
          · exact absurd h1 (hno v)
          · subst h; exact Or.inl ⟨by simp, h0⟩
        · rintro (⟨h1, h2⟩ | ⟨h1, _⟩)
          · rcases List.mem_cons.mp h1 with h | h
            · exact Or.inr ⟨fun ⟨v', _, h'⟩ => hno v' h', by rw [← h]⟩
            · exact absurd h (hno v)
          · exact absurd ⟨e.2, h0, by simp⟩ h1
      · rw [if_neg hk]
        have : ∀ v', a = i → ((b, v') ∈ e :: l ↔ (b, v') ∈ l) := by
          intro v' hai
          simp only [List.mem_cons, or_iff_right_iff_imp]
          rintro rfl
          exact absurd (by rw [hai]) hk
        constructor
        · rintro (⟨h1, h2, h3⟩ | ⟨h1, h2⟩)
          · exact Or.inl ⟨h1, by simp [h2], h3⟩
          · refine Or.inr ⟨?_, h2⟩
            rintro ⟨hai, v', hv', hm⟩
            exact h1 ⟨hai, v', hv', (this v' hai).mp hm⟩
        · rintro (⟨h1, h2, h3⟩ | ⟨h1, h2⟩)
          · exact Or.inl ⟨h1, (this v h1).mp h2, h3⟩
          · refine Or.inr ⟨?_, h2⟩
            rintro ⟨hai, v', hv', hm⟩
            exact h1 ⟨hai, v', hv', (this v' hai).mpr hm⟩

theorem fold_store (op : Op K) (hnd : ∀ i, ((op i).map (·.1)).Nodup) : ∀ (l : List Nat), l.Nodup → ∀ (m : Elems K) a b v,
    getEl (l.foldl (fun m i => (op i).foldl (storeOne i) m) m) (a, b) = some v ↔
      (a ∈ l ∧ (b, v) ∈ op a ∧ v ≠ 0) ∨ (¬ (a ∈ l ∧ Connects op a b) ∧ getEl m (a, b) = some v) := by
  intro l
  induction l with
  | nil => intro _ m a b v; simp
  | cons i l ih =>
    intro hl m a b v
    rw [List.nodup_cons] at hl
    rw [List.foldl_cons, ih hl.2, fold_storeOne i (op i) m (hnd i)]
    unfold Connects
    by_cases hai : a = i
    · subst hai
      simp only [hl.1, false_and, not_false_eq_true, true_and, false_or, List.mem_cons, true_or]
    · simp [hai]

/-- The matrix elements returned by `merge_subspaces` are exactly the non-zero ones of the operator (each final
state visited once). -/
theorem C18_stored_elements (n : Nat) (op : Op K) (hnd : ∀ i, ((op i).map (·.1)).Nodup) (a b : Nat) (v : K) :
    getEl (storeElems n op) (a, b) = some v ↔ a < n ∧ (b, v) ∈ op a ∧ v ≠ 0 := by
  unfold storeElems
  rw [fold_store op hnd _ List.nodup_range]
  simp [getEl]

example : getEl (storeElems 4 exH) (2, 3) = some 4 ∧ getEl (storeElems 4 exH) (2, 1) = none := by decide

/-- `get_matrix_elements` is documented as the matrix elements of the Hamiltonian. When a hybridisation is given
and has an element at the same place, it replaces the one of the Hamiltonian. -/
theorem C15_hybridisation_overwrites_elements (w : UF → Nat → Nat → Bool) :
    ∃ H Y : Op Int, H.Within 2 ∧ Y.Within 2 ∧ (1, 3) ∈ H 0 ∧
      getEl (ctor w 2 H true none).2 (0, 1) = some 3 ∧ getEl (ctor w 2 H true (some Y)).2 (0, 1) = some 7 := by
  refine ⟨fun i => if i = 0 then [(1, 3)] else [], fun i => if i = 0 then [(1, 7)] else [], ?_, ?_, by simp, ?_, ?_⟩
  · intro i _ e he
    dsimp only at he
    split at he
    · simp only [List.mem_singleton] at he; subst he; decide
    · cases he
  · intro i _ e he
    dsimp only at he
    split at he
    · simp only [List.mem_singleton] at he; subst he; decide
    · cases he
  · simp [ctor, ctorStep, mapping, List.range_succ, getEl, setElem]
  · simp [ctor, ctorStep, mapping, List.range_succ, getEl, setElem]

/-! ### find_mappings -/

theorem mem_fold_mapOne (u : UF) (n : Nat) (diag : Bool) (i : Nat) : ∀ (l : List (Nat × K)) (m : List (Nat × Nat)) (p : Nat × Nat),
    p ∈ l.foldl (mapOne u n diag i) m ↔ p ∈ m ∨ ∃ f v, v ≠ 0 ∧ (f, v) ∈ l ∧ (diag = true → find u i = find u f) ∧
      p = ((updateIndex u n).idxOf (find u i), (updateIndex u n).idxOf (find u f)) := by
  intro l
  induction l with
  | nil => intro m p; simp
  | cons e l ih =>
    intro m p
    rw [List.foldl_cons, ih]
    unfold mapOne
    by_cases h0 : e.2 = 0
    · rw [if_pos h0]
      constructor
      · rintro (h | ⟨f, v, h1, h2, h3⟩)
        · exact Or.inl h
        · exact Or.inr ⟨f, v, h1, by simp [h2], h3⟩
      · rintro (h | ⟨f, v, h1, h2, h3⟩)
        · exact Or.inl h
        · rcases List.mem_cons.mp h2 with h | h
          · exact absurd (by rw [← h] at h0; exact h0) h1
          · exact Or.inr ⟨f, v, h1, h, h3⟩
    · rw [if_neg h0]
      by_cases hd : diag = true → find u i = find u e.1
      · have hc : ((!diag) || find u i == find u e.1) = true := by
          cases diag
          · rfl
          · simpa using hd rfl
        rw [if_pos hc]
        simp only
        have hmem : ∀ q : Nat × Nat, (p ∈ (if q ∈ m then m else m ++ [q]) ↔ p ∈ m ∨ p = q) := by
          intro q
          split
          · constructor
            · exact Or.inl
            · rintro (h | rfl) <;> assumption
          · simp
        rw [hmem]
        constructor
        · rintro ((h | h) | ⟨f, v, h1, h2, h3⟩)
          · exact Or.inl h
          · exact Or.inr ⟨e.1, e.2, h0, by simp, hd, h⟩
          · exact Or.inr ⟨f, v, h1, by simp [h2], h3⟩
        · rintro (h | ⟨f, v, h1, h2, h3, h4⟩)
          · exact Or.inl (Or.inl h)
          · rcases List.mem_cons.mp h2 with h | h
            · subst h; exact Or.inl (Or.inr h4)
            · exact Or.inr ⟨f, v, h1, h, h3, h4⟩
      · have hc : ¬ ((!diag) || find u i == find u e.1) = true := by
          cases diag
          · exact absurd (fun h => by cases h) hd
          · simpa using hd
        rw [if_neg hc]
        constructor
        · rintro (h | ⟨f, v, h1, h2, h3⟩)
          · exact Or.inl h
          · exact Or.inr ⟨f, v, h1, by simp [h2], h3⟩
        · rintro (h | ⟨f, v, h1, h2, h3⟩)
          · exact Or.inl h
          · rcases List.mem_cons.mp h2 with h | h
            · subst h; exact absurd h3.1 hd
            · exact Or.inr ⟨f, v, h1, h, h3⟩

theorem mem_fold_findMappings (u : UF) (n : Nat) (op : Op K) (diag : Bool) : ∀ (l : List Nat) (m : List (Nat × Nat)) (p : Nat × Nat),
    p ∈ l.foldl (fun m i => (op i).foldl (mapOne u n diag i) m) m ↔ p ∈ m ∨ ∃ i ∈ l, ∃ f, Connects op i f ∧ (diag = true → find u i = find u f) ∧
      p = (lookup u n i, lookup u n f) := by
  intro l
  induction l with
  | nil => intro m p; simp
  | cons i l ih =>
    intro m p
    rw [List.foldl_cons, ih, mem_fold_mapOne]
    constructor
    · rintro ((h | ⟨f, v, h1, h2, h3, h4⟩) | ⟨j, hj, h⟩)
      · exact Or.inl h
      · exact Or.inr ⟨i, by simp, f, ⟨v, h1, h2⟩, h3, h4⟩
      · exact Or.inr ⟨j, by simp [hj], h⟩
    · rintro (h | ⟨j, hj, f, ⟨v, h1, h2⟩, h3, h4⟩)
      · exact Or.inl (Or.inl h)
      · rcases List.mem_cons.mp hj with rfl | hj
        · exact Or.inl (Or.inr ⟨f, v, h1, h2, h3, h4⟩)
        · exact Or.inr ⟨j, hj, f, ⟨v, h1, h2⟩, h3, h4⟩

/-- **C18.** `find_mappings` returns exactly the pairs of subspace numbers connected by a non-zero matrix element,
and with `diagonal_only` exactly the pairs of equal numbers among them. -/
theorem C18_find_mappings (u : UF) (n : Nat) (op : Op K) (s t : Nat) :
    ((s, t) ∈ findMappings u n op false ↔ ∃ i f, i < n ∧ Connects op i f ∧ lookup u n i = s ∧ lookup u n f = t) ∧
    ((s, t) ∈ findMappings u n op true ↔ ∃ i f, i < n ∧ Connects op i f ∧ lookup u n i = s ∧ lookup u n f = t ∧ s = t) := by
  unfold findMappings
  constructor
  · rw [mem_fold_findMappings]
    constructor
    · rintro (h | ⟨i, hi, f, h1, _, h3⟩)
      · cases h
      · simp only [Prod.mk.injEq] at h3
        exact ⟨i, f, List.mem_range.mp hi, h1, h3.1.symm, h3.2.symm⟩
    · rintro ⟨i, f, hi, h1, rfl, rfl⟩
      exact Or.inr ⟨i, List.mem_range.mpr hi, f, h1, by simp, rfl⟩
  · rw [mem_fold_findMappings]
    constructor
    · rintro (h | ⟨i, hi, f, h1, h2, h3⟩)
      · cases h
      · simp only [Prod.mk.injEq] at h3
        obtain ⟨rfl, rfl⟩ := h3
        exact ⟨i, f, List.mem_range.mp hi, h1, rfl, rfl, by unfold lookup; rw [h2 rfl]⟩
    · rintro ⟨i, f, hi, h1, rfl, rfl, h2⟩
      exact Or.inr ⟨i, List.mem_range.mpr hi, f, h1, fun _ => (lookup_eq_iff u n i f hi).mp h2, rfl⟩

example : findMappings [0, 1, 0, 3] 4 exH false = [(0, 0), (0, 2), (2, 0)] ∧ findMappings [0, 1, 0, 3] 4 exH true = [(0, 0)] := by decide

end Verif.Partition
