import Verif.Hilbert.SpaceModel
import Verif.Hilbert.FopsProps
import Mathlib.Data.List.Nodup
import Mathlib.Data.Finset.Card
import Mathlib.Order.Interval.Finset.Nat
import Mathlib.Algebra.Order.BigOperators.Group.Finset

/-! # Property C12: state indexing in Hilbert spaces -/

namespace Verif.HSpace
open Verif.Fops (toInt32)

theorem pow_le_30 {n : Nat} (h : n ≤ 30) : 2 ^ n ≤ 2 ^ 30 := Nat.pow_le_pow_right (by norm_num) h

theorem ofOrbitals_dim {n : Nat} (h : n ≤ 30) : Full.ofOrbitals n = some ⟨2 ^ n⟩ := by
  have h1 := pow_le_30 h
  have h2 : (2 : Int) ^ n = ((2 ^ n : Nat) : Int) := by push_cast; rfl
  have h3 : (2 : Nat) ^ 30 = 1073741824 := by norm_num
  simp only [Full.ofOrbitals, show n < 64 by omega, if_true, toInt32, h2, Option.some.injEq,
    Full.mk.injEq]
  generalize (2 : Nat) ^ n = N at *
  omega

/-- **C12, full space** (partial: up to 30 orbitals and non-negative indices; the theorems below
show that the claim fails outside). The space of `n` orbitals has dimension `2^n`;
`get_state_index` and `get_fock_state` are mutually inverse on exactly the words below `2^n`
and the indices `0..2^n-1`, and throw elsewhere. -/
theorem C12_full_space_partial (n : Nat) (hn : n ≤ 30) :
    ∃ h, Full.ofOrbitals n = some h ∧ h.dim = 2 ^ n ∧
      (∀ f : BitVec 64, h.hasState f = true ↔ f.toNat < 2 ^ n) ∧
      (∀ f : BitVec 64, h.stateIndex f = none ↔ ¬ f.toNat < 2 ^ n) ∧
      (∀ i : Int, 0 ≤ i → (h.fockState i = none ↔ ¬ i < 2 ^ n)) ∧
      (∀ (f : BitVec 64) (i : Int), 0 ≤ i → (h.stateIndex f = some i ↔ h.fockState i = some f)) := by
  have h1 := pow_le_30 hn
  have h3 : (2 : Nat) ^ 30 = 1073741824 := by norm_num
  have h2 : (2 : Int) ^ n = ((2 ^ n : Nat) : Int) := by push_cast; rfl
  refine ⟨_, ofOrbitals_dim hn, rfl, ?_⟩
  have hu : (Full.mk (2 ^ n)).udim = 2 ^ n := by
    simp only [Full.udim, h2]
    generalize (2 : Nat) ^ n = N at *
    omega
  refine ⟨?_, ?_, ?_, ?_⟩
  · intro f; simp [Full.hasState, hu]
  · intro f; simp only [Full.stateIndex, hu]; split <;> simp <;> omega
  · intro i hi; simp only [Full.fockState]; split <;> simp <;> omega
  · intro f i hi
    simp only [Full.stateIndex, hu, Full.fockState]
    constructor
    · intro h
      split at h
      · simp at h
      · rename_i hf
        simp only [Option.some.injEq, toInt32] at h
        have he : i = f.toNat := by omega
        rw [if_neg (by omega)]
        subst he
        simp
    · intro h
      split at h
      · simp at h
      · rename_i hf
        simp only [Option.some.injEq] at h
        have he : f.toNat = i := by
          rw [← h, BitVec.toNat_ofInt]
          omega
        rw [if_neg (by omega)]
        simp only [Option.some.injEq, toInt32]
        omega

example : (5 : Nat) ≤ 30 := by decide

/-- With 31 orbitals the dimension is negative, with 32 to 63 orbitals it is zero. -/
theorem C12_dimension_overflows :
    Full.ofOrbitals 31 = some ⟨-2147483648⟩ ∧ ∀ n, 32 ≤ n → n < 64 → Full.ofOrbitals n = some ⟨0⟩ := by
  refine ⟨by decide, ?_⟩
  intro n h1 h2
  obtain ⟨k, rfl⟩ := Nat.exists_eq_add_of_le h1
  simp only [Full.ofOrbitals, h2, if_true, toInt32, Option.some.injEq, Full.mk.injEq]
  rw [pow_add]
  have : (2 ^ 32 * 2 ^ k + 2 ^ 31 : Int) % 2 ^ 32 = 2 ^ 31 % 2 ^ 32 := by
    rw [Int.add_comm, Int.add_mul_emod_self_left]
  rw [this]; decide

/-- `get_fock_state` does not refuse a negative index: it returns a word outside the space. -/
theorem C12_negative_index_accepted :
    (Full.ofOrbitals 3).bind (fun h => h.fockState (-1)) = some (BitVec.allOnes 64) := by decide

/-! ### sub-spaces -/

/-- the state of a sub-space after adding the states `l` in order -/
def Sub.build (l : List (BitVec 64)) : Sub := l.foldl Sub.add Sub.empty

theorem lookup_append (m m' : List (BitVec 64 × Nat)) (f : BitVec 64) :
    lookup f (m ++ m') = (lookup f m).or (lookup f m') := by
  induction m with
  | nil => simp [lookup]
  | cons e m ih => simp only [List.cons_append, lookup]; split <;> simp [ih]

theorem lookup_mapInsert (m : List (BitVec 64 × Nat)) (f g : BitVec 64) (i : Nat) :
    lookup g (mapInsert m f i) = (lookup g m).or (if f = g then some i else none) := by
  unfold mapInsert
  split
  · rename_i j hj
    by_cases hfg : f = g
    · subst hfg; simp [hj]
    · simp [hfg]
  · rw [lookup_append]; simp [lookup]

theorem build_states (l : List (BitVec 64)) (s : Sub) :
    (l.foldl Sub.add s).states = s.states ++ l := by
  induction l generalizing s with
  | nil => simp
  | cons f l ih => simp [ih, Sub.add]

theorem find_append {ι : Type} [DecidableEq ι] (t : ι) (l l' : List ι) :
    Fops.find t (l ++ l') = (Fops.find t l).or ((Fops.find t l').map (· + l.length)) := by
  induction l with
  | nil => simp [Fops.find]
  | cons x l ih =>
    simp only [List.cons_append, Fops.find, ih]
    split
    · simp
    · cases Fops.find t l <;> cases Fops.find t l' <;> simp; omega

theorem build_map (l : List (BitVec 64)) (s : Sub) (f : BitVec 64)
    (hs : ∀ g, lookup g s.map = Fops.find g s.states) :
    lookup f (l.foldl Sub.add s).map = Fops.find f (l.foldl Sub.add s).states := by
  induction l generalizing s with
  | nil => exact hs f
  | cons g l ih =>
    apply ih
    intro g'
    simp only [Sub.add, lookup_mapInsert, find_append, hs, Fops.find]
    split <;> simp

/-- **C12, sub-spaces.** After adding any list of distinct Fock states, `get_state_index` and
`get_fock_state` are mutually inverse on exactly the added states and the indices `0..size-1`,
and `has_state` holds exactly for the added states. -/
theorem C12_sub_space (l : List (BitVec 64)) (hl : l.Nodup) :
    (∀ f i, (Sub.build l).stateIndex f = some i ↔ (Sub.build l).fockState i = some f) ∧
    (∀ f, (Sub.build l).hasState f = true ↔ f ∈ l) ∧
    (∀ i, (Sub.build l).fockState i = l[i]?) := by
  have hst : (Sub.build l).states = l := by simp [Sub.build, build_states, Sub.empty]
  have hm : ∀ f, lookup f (Sub.build l).map = Fops.find f l := by
    intro f
    have := build_map l Sub.empty f (by simp [Sub.empty, lookup, Fops.find])
    rw [show l.foldl Sub.add Sub.empty = Sub.build l from rfl, hst] at this
    exact this
  refine ⟨?_, ?_, ?_⟩
  · intro f i
    simp only [Sub.stateIndex, hm, Sub.fockState, hst]
    exact ⟨Fops.find_eq_some, Fops.find_of_nodup hl⟩
  · intro f
    simp only [Sub.hasState, hm]
    have := Fops.find_eq_none (t := f) (l := l)
    cases hf : Fops.find f l with
    | none => simp [this.mp hf]
    | some k => simpa using List.mem_of_getElem? (Fops.find_eq_some hf)
  · intro i; simp [Sub.fockState, hst]

example : ([5, 3, 12] : List (BitVec 64)).Nodup := by decide

theorem ofArchive_map (l : List (BitVec 64)) (m : List (BitVec 64 × Nat)) (seen : List (BitVec 64))
    (hlen : m.length = seen.length) (hm : ∀ g, lookup g m = Fops.find g seen)
    (hn : (seen ++ l).Nodup) (f : BitVec 64) :
    lookup f (l.foldl (fun m f => mapInsert m f m.length) m) = Fops.find f (seen ++ l) := by
  induction l generalizing m seen with
  | nil => simpa using hm f
  | cons g l ih =>
    simp only [List.foldl_cons]
    have hg : g ∉ seen := by
      intro h
      rw [List.nodup_append] at hn
      exact hn.2.2 g h g (by simp) rfl
    have hnone : lookup g m = none := by rw [hm]; exact Fops.find_eq_none.mpr hg
    have := ih (mapInsert m g m.length) (seen ++ [g]) ?_ ?_ ?_
    · simpa using this
    · simp [mapInsert, hnone, hlen]
    · intro g'
      rw [lookup_mapInsert, find_append, hm, hlen]
      simp only [Fops.find]
      split <;> simp
    · simpa using hn

/-- **C12, archive of a sub-space.** Writing and reading a sub-space of distinct states preserves
every index. -/
theorem C12_sub_space_archive (l : List (BitVec 64)) (hl : l.Nodup) :
    (Sub.ofArchive (Sub.build l).states).states = (Sub.build l).states ∧
    ∀ f, (Sub.ofArchive (Sub.build l).states).stateIndex f = (Sub.build l).stateIndex f := by
  have hst : (Sub.build l).states = l := by simp [Sub.build, build_states, Sub.empty]
  refine ⟨rfl, ?_⟩
  intro f
  have h1 := build_map l Sub.empty f (by simp [Sub.empty, lookup, Fops.find])
  rw [show l.foldl Sub.add Sub.empty = Sub.build l from rfl, hst] at h1
  rw [Sub.stateIndex, Sub.stateIndex, h1, hst]
  have := ofArchive_map l [] [] rfl (by simp [lookup, Fops.find]) (by simpa using hl) f
  simpa [Sub.ofArchive] using this

/-- With a state added twice the archive changes indices: the third entry moves from 2 to 1. -/
theorem C12_archive_fails_with_duplicates :
    (Sub.build [5, 5, 7]).stateIndex 7 = some 2 ∧
    (Sub.ofArchive (Sub.build [5, 5, 7]).states).stateIndex 7 = some 1 := by decide

/-! ### Fock state of a set of labels -/

theorem intShift_eq {p : Nat} (h : p ≤ 30) : intShift p = some (BitVec.ofNat 64 (2 ^ p)) := by
  have h1 := pow_le_30 h
  have h3 : (2 : Nat) ^ 30 = 1073741824 := by norm_num
  have h2 : (2 : Int) ^ p = ((2 ^ p : Nat) : Int) := by push_cast; rfl
  have : toInt32 (2 ^ p) = ((2 ^ p : Nat) : Int) := by
    simp only [toInt32, h2]
    generalize (2 : Nat) ^ p = N at *
    omega
  simp only [intShift, show p < 32 by omega, if_true, this, BitVec.ofInt_natCast]

/-- **C12, labels to Fock state.** For at most 31 orbitals and any set of known labels (a list
without repetition), `get_fock_state(fops, labels)` has value `Σ 2^position(label)`. -/
theorem C12_fock_state_of_labels {ι : Type} [DecidableEq ι] (f : Fops.Fops ι) (hf : f.length ≤ 31)
    (ls : List ι) (hl : ∀ t ∈ ls, t ∈ f) (hn : ls.Nodup) :
    ∃ w, fockStateOf f ls 0 = some w ∧
      w.toNat = ∑ p ∈ (Finset.range f.length).filter (fun p => ∃ t ∈ ls, Fops.position f t = some p), 2 ^ p := by
  suffices H : ∀ (ls : List ι) (acc : BitVec 64) (A : Finset Nat), (∀ t ∈ ls, t ∈ f) → ls.Nodup →
      A ⊆ Finset.range f.length → acc.toNat = ∑ p ∈ A, 2 ^ p →
      (∀ t ∈ ls, ∀ p, Fops.position f t = some p → p ∉ A) →
      ∃ w, fockStateOf f ls acc = some w ∧
        w.toNat = ∑ p ∈ A ∪ (Finset.range f.length).filter (fun p => ∃ t ∈ ls, Fops.position f t = some p), 2 ^ p by
    obtain ⟨w, h1, h2⟩ := H ls 0 ∅ hl hn (by simp) (by simp) (by simp)
    exact ⟨w, h1, by simpa using h2⟩
  intro ls
  induction ls with
  | nil => intro acc A _ _ _ h _; exact ⟨acc, rfl, by simpa using h⟩
  | cons t ts ih =>
    intro acc A hm hn hA hacc hdis
    obtain ⟨p, hp⟩ : ∃ p, Fops.position f t = some p := by
      cases h : Fops.position f t with
      | none => exact absurd (hm t (by simp)) (Fops.find_eq_none.mp h)
      | some p => exact ⟨p, rfl⟩
    have hlt : p < f.length := by
      have := Fops.find_eq_some hp
      exact (List.getElem?_eq_some_iff.mp this).1
    have hpA : p ∉ A := hdis t (by simp) p hp
    have hsum : ∑ q ∈ insert p A, 2 ^ q = 2 ^ p + acc.toNat := by
      rw [Finset.sum_insert hpA, hacc]
    have hbound : ∑ q ∈ insert p A, 2 ^ q < 2 ^ 31 := by
      have hsub : insert p A ⊆ Finset.range 31 := by
        intro q hq
        rcases Finset.mem_insert.mp hq with rfl | hq
        · exact Finset.mem_range.mpr (by omega)
        · have := Finset.mem_range.mp (hA hq); exact Finset.mem_range.mpr (by omega)
      calc ∑ q ∈ insert p A, 2 ^ q ≤ ∑ q ∈ Finset.range 31, 2 ^ q :=
            Finset.sum_le_sum_of_subset hsub
        _ < 2 ^ 31 := by decide
    have hacc' : (acc + BitVec.ofNat 64 (2 ^ p)).toNat = ∑ q ∈ insert p A, 2 ^ q := by
      rw [BitVec.toNat_add, BitVec.toNat_ofNat]
      have h31 : (2 : Nat) ^ 31 = 2147483648 := by norm_num
      omega
    obtain ⟨w, h1, h2⟩ := ih (acc + BitVec.ofNat 64 (2 ^ p)) (insert p A)
      (fun t ht => hm t (by simp [ht])) (List.nodup_cons.mp hn).2
      (by
        intro q hq
        rcases Finset.mem_insert.mp hq with rfl | hq
        · exact Finset.mem_range.mpr hlt
        · exact hA hq)
      hacc'
      (by
        intro u hu q hq hmem
        rcases Finset.mem_insert.mp hmem with rfl | hmem
        · have e1 := Fops.find_eq_some hp
          have e2 := Fops.find_eq_some hq
          rw [e1] at e2
          simp at e2
          subst e2
          exact (List.nodup_cons.mp hn).1 hu
        · exact hdis u (by simp [hu]) q hq hmem)
    refine ⟨w, ?_, ?_⟩
    · simp only [fockStateOf, hp, intShift_eq (show p ≤ 30 by omega)]; exact h1
    · rw [h2]
      apply Finset.sum_congr _ (fun _ _ => rfl)
      ext q
      simp only [Finset.mem_union, Finset.mem_insert, Finset.mem_filter, Finset.mem_range,
        List.exists_mem_cons_iff, hp, Option.some.injEq]
      constructor
      · rintro ((rfl | h) | h)
        · exact Or.inr ⟨hlt, Or.inl rfl⟩
        · exact Or.inl h
        · exact Or.inr ⟨h.1, Or.inr h.2⟩
      · rintro (h | ⟨h, rfl | h'⟩)
        · exact Or.inl (Or.inr h)
        · exact Or.inl (Or.inl rfl)
        · exact Or.inr ⟨h, h'⟩

example : fockStateOf (Fops.ofInserts ["a", "b", "c"]) ["c", "a"] 0 = some 5 := by decide

/-- With 32 orbitals the label at position 31 gives a sign-extended word instead of `2^31`. -/
theorem C12_fock_state_of_labels_fails_at_32 :
    fockStateOf (Fops.ofInserts (List.range 32)) [31] 0 = some 0xFFFFFFFF80000000 := by decide

end Verif.HSpace
