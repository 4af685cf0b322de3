import Verif.DetManip.Algebra
import Mathlib.Data.List.InsertIdx
import Mathlib.Data.List.Rotate

/-!
# Lemmas on the tables `row_num`, `col_num` and on argument lists
-/

namespace Verif.DetManip

section
variable {α β : Type} [Inhabited α] [Inhabited β]

theorem nth_eq_getElem {l : List α} {i : Nat} (h : i < l.length) : nth l i = l[i] := by
  unfold nth; exact List.getD_eq_getElem _ _ h

theorem nth_map {l : List Nat} {i : Nat} (h : Nat → α) (hi : i < l.length) : nth (l.map h) i = h (l.getD i 0) := by
  rw [nth_eq_getElem (by simpa using hi), List.getElem_map, List.getD_eq_getElem _ _ hi]

theorem nth_append_left {l l' : List α} {i : Nat} (h : i < l.length) : nth (l ++ l') i = nth l i := List.getD_append _ _ _ _ h

theorem nth_append_right {l l' : List α} {i : Nat} (h : l.length ≤ i) : nth (l ++ l') i = nth l' (i - l.length) := List.getD_append_right _ _ _ _ h

theorem ext_nth {l l' : List α} (hl : l.length = l'.length) (h : ∀ i < l.length, nth l i = nth l' i) : l = l' := by
  apply List.ext_getElem hl
  intro i h1 h2
  rw [← nth_eq_getElem h1, ← nth_eq_getElem h2]
  exact h i h1

theorem ext_getD {l l' : List Nat} (hl : l.length = l'.length) (h : ∀ i < l.length, l.getD i 0 = l'.getD i 0) : l = l' := ext_nth hl h

theorem map_nth_range (l : List α) : (List.range l.length).map (fun p => nth l p) = l := by
  apply ext_nth
  · simp
  · intro i hi
    rw [nth_map _ (by simpa using hi)]
    simp at hi
    simp [hi]

theorem getD_set {l : List Nat} {i j v : Nat} (hi : i < l.length) : (l.set i v).getD j 0 = if j = i then v else l.getD j 0 := by
  rw [List.getD_eq_getElem?_getD, List.getElem?_set]
  by_cases h : j = i
  · subst h; simp [hi]
  · rw [if_neg (fun h' => h h'.symm), if_neg h]; rfl

theorem nth_set {l : List α} {i j : Nat} {v : α} (hi : i < l.length) : nth (l.set i v) j = if j = i then v else nth l j := by
  unfold nth
  rw [List.getD_eq_getElem?_getD, List.getElem?_set]
  by_cases h : j = i
  · subst h; simp [hi]
  · rw [if_neg (fun h' => h h'.symm), if_neg h]; rfl

/-! ### selections -/

theorem removeAt_map (I : List Nat) (h : Nat → α) (v : List Nat) : removeAt I (v.map h) = (removeAt I v).map h := by
  unfold removeAt
  rw [List.map_filterMap, List.length_map]
  apply List.filterMap_congr
  intro p _
  by_cases hp : p ∈ I <;> simp [hp]

theorem select_map (I : List Nat) (h : Nat → α) (v : List Nat) (hI : ∀ i ∈ I, i < v.length) : select I (v.map h) = (select I v).map h := by
  unfold select
  rw [List.map_map]
  apply List.map_congr_left
  intro i hi
  rw [nth_map h (hI i hi)]
  rfl

/-- the entries before and after a removed position -/
theorem removeAt_singleton (v : List α) (i : Nat) (hi : i < v.length) : removeAt [i] v = v.eraseIdx i := by
  obtain ⟨b, h1, h2⟩ := removeAt_cons v i [] hi (by simp)
  rw [removeAt_nil] at h1
  rw [h2]
  conv_rhs => rw [h1]
  rw [List.eraseIdx_append_of_length_le (by simp)]
  simp [Nat.min_eq_left (Nat.le_of_lt hi)]

theorem select_singleton (v : List α) (i : Nat) : select [i] v = [nth v i] := rfl

theorem removeAt_congr {I J : List Nat} (h : ∀ p, p ∈ I ↔ p ∈ J) (v : List α) : removeAt I v = removeAt J v := by
  unfold removeAt
  apply List.filterMap_congr
  intro p _
  simp [h p]

/-! ### the loops -/

theorem shiftUp_spec (r : List Nat) (n lo : Nat) (hn : 1 ≤ n) (hr : n ≤ r.length) (hlo : lo ≤ n - 1) :
    (shiftUp r n lo).length = r.length ∧ ∀ i, (shiftUp r n lo).getD i 0 = if lo < i ∧ i < n then r.getD (i - 1) 0 else r.getD i 0 := by
  have key : ∀ m, m ≤ n - 1 - lo → ((List.range m).foldl (fun r t => r.set (n - 2 - t + 1) (r.getD (n - 2 - t) 0)) r).length = r.length ∧
      ∀ i, ((List.range m).foldl (fun r t => r.set (n - 2 - t + 1) (r.getD (n - 2 - t) 0)) r).getD i 0 =
        if n - 1 - m < i ∧ i < n then r.getD (i - 1) 0 else r.getD i 0 := by
    intro m
    induction m with
    | zero => intro _; refine ⟨rfl, fun i => ?_⟩; rw [if_neg (by omega)]; rfl
    | succ m ih =>
      intro hm
      obtain ⟨h1, h2⟩ := ih (by omega)
      rw [List.range_succ, List.foldl_append]
      simp only [List.foldl_cons, List.foldl_nil]
      generalize (List.range m).foldl (fun r t => r.set (n - 2 - t + 1) (r.getD (n - 2 - t) 0)) r = r' at h1 h2 ⊢
      refine ⟨by simp [h1], fun i => ?_⟩
      rw [getD_set (by rw [h1]; omega), h2, h2]
      by_cases h : i = n - 2 - m + 1
      · rw [if_pos h, if_neg (by omega), if_pos (by omega)]
        congr 1; omega
      · rw [if_neg h]
        by_cases h' : n - 1 - m < i ∧ i < n
        · rw [if_pos h', if_pos (by omega)]
        · rw [if_neg h', if_neg (by omega)]
  obtain ⟨h1, h2⟩ := key (n - 1 - lo) (le_refl _)
  refine ⟨h1, fun i => ?_⟩
  have := h2 i
  unfold shiftUp
  rw [this]
  by_cases h : lo < i ∧ i < n
  · rw [if_pos (by omega), if_pos h]
  · rw [if_neg (by omega), if_neg h]

theorem shiftDown_spec (r : List Nat) (n : Nat) (hr : n ≤ r.length) :
    (shiftDown r n).length = r.length ∧ ∀ i, (shiftDown r n).getD i 0 = if i + 1 < n then r.getD (i + 1) 0 else r.getD i 0 := by
  have key : ∀ m, m ≤ n - 1 → ((List.range m).foldl (fun r i => r.set i (r.getD (i + 1) 0)) r).length = r.length ∧
      ∀ i, ((List.range m).foldl (fun r i => r.set i (r.getD (i + 1) 0)) r).getD i 0 = if i < m then r.getD (i + 1) 0 else r.getD i 0 := by
    intro m
    induction m with
    | zero => intro _; exact ⟨rfl, fun i => rfl⟩
    | succ m ih =>
      intro hm
      obtain ⟨h1, h2⟩ := ih (by omega)
      rw [List.range_succ, List.foldl_append]
      simp only [List.foldl_cons, List.foldl_nil]
      generalize (List.range m).foldl (fun r i => r.set i (r.getD (i + 1) 0)) r = r' at h1 h2 ⊢
      refine ⟨by simp [h1], fun i => ?_⟩
      rw [getD_set (by rw [h1]; omega), h2, h2]
      by_cases h : i = m
      · subst h; rw [if_pos rfl, if_neg (by omega), if_pos (by omega)]
      · rw [if_neg h]
        by_cases h' : i < m
        · rw [if_pos h', if_pos (by omega)]
        · rw [if_neg h', if_neg (by omega)]
  obtain ⟨h1, h2⟩ := key (n - 1) (le_refl _)
  refine ⟨h1, fun i => ?_⟩
  unfold shiftDown
  rw [h2 i]
  by_cases h : i + 1 < n
  · rw [if_pos (by omega), if_pos h]
  · rw [if_neg (by omega), if_neg h]

theorem getD_insertIdx (r : List Nat) (p v i : Nat) (hp : p ≤ r.length) :
    (r.insertIdx p v).getD i 0 = if i < p then r.getD i 0 else if i = p then v else r.getD (i - 1) 0 := by
  rw [List.getD_eq_getElem?_getD, List.getElem?_insertIdx]
  split
  · rfl
  · split
    · rw [if_pos (by omega)]; rfl
    · rfl

theorem insertNum_eq (r tail : List Nat) (p : Nat) (hp : p ≤ r.length) (z : Nat) :
    insertNum (r ++ z :: tail) (r.length + 1) p = r.insertIdx p r.length ++ tail := by
  unfold insertNum
  obtain ⟨h1, h2⟩ := shiftUp_spec (r ++ z :: tail) (r.length + 1) p (by omega) (by simp) (by omega)
  have hli : (r.insertIdx p r.length).length = r.length + 1 := by simp [List.length_insertIdx, hp]
  apply ext_getD
  · rw [List.length_set, h1, List.length_append, List.length_append, hli]; simp; omega
  · intro i hi
    rw [getD_set (by rw [h1]; simp; omega), h2, Nat.add_sub_cancel]
    by_cases hi' : i < r.length + 1
    · rw [List.getD_append (r.insertIdx p r.length) _ _ _ (by rw [hli]; exact hi'), getD_insertIdx _ _ _ _ hp]
      by_cases ha : i = p
      · rw [if_pos ha, if_neg (by omega), if_pos ha]
      · rw [if_neg ha]
        by_cases hb : i < p
        · rw [if_neg (by omega), if_pos hb, List.getD_append _ _ _ _ (by omega)]
        · rw [if_pos (by omega), if_neg hb, if_neg ha, List.getD_append _ _ _ _ (by omega)]
    · rw [if_neg (by omega), if_neg (by omega), List.getD_append_right _ _ _ _ (by omega), List.getD_append_right _ _ _ _ (by rw [hli]; omega), hli]
      obtain ⟨t, ht⟩ : ∃ t, i = r.length + 1 + t := ⟨i - (r.length + 1), by omega⟩
      subst ht
      rw [show r.length + 1 + t - r.length = t + 1 by omega, show r.length + 1 + t - (r.length + 1) = t by omega]
      simp

theorem nth_insertIdx (r : List α) (p : Nat) (v : α) (i : Nat) (hp : p ≤ r.length) :
    nth (r.insertIdx p v) i = if i < p then nth r i else if i = p then v else nth r (i - 1) := by
  unfold nth
  rw [List.getD_eq_getElem?_getD, List.getElem?_insertIdx]
  split
  · rfl
  · split
    · rw [if_pos (by omega)]; rfl
    · rfl

theorem map_insertIdx' (h : Nat → α) (r : List Nat) (p v : Nat) (hp : p ≤ r.length) : (r.insertIdx p v).map h = (r.map h).insertIdx p (h v) := by
  apply ext_nth
  · simp [List.length_insertIdx]
  · intro i hi
    have hi' : i < r.length + 1 := by simpa [List.length_insertIdx, hp] using hi
    rw [nth_map h (by simpa [List.length_insertIdx, hp] using hi'), getD_insertIdx _ _ _ _ hp, nth_insertIdx _ _ _ _ (by simpa using hp)]
    split
    · rw [nth_map h (by omega)]
    · split
      · rfl
      · rw [nth_map h (by omega)]

theorem IsPerm.insertIdx {n : Nat} {r : List Nat} (h : IsPerm n r) (p : Nat) (hp : p ≤ n) : IsPerm (n + 1) (r.insertIdx p n) := by
  refine List.Perm.trans (List.perm_insertIdx n r (by rw [h.length]; exact hp)) ?_
  rw [List.range_succ]
  refine List.Perm.trans (List.Perm.cons n h) ?_
  exact (List.perm_append_singleton n (List.range n)).symm

/-! ### exchange of two numbers -/

theorem sw_sw (a b i : Nat) : sw a b (sw a b i) = i := by unfold sw; split_ifs <;> omega

theorem sw_lt {n a b i : Nat} (ha : a < n) (hb : b < n) (hi : i < n) : sw a b i < n := by unfold sw; split_ifs <;> omega

theorem swapNums_eq {n : Nat} {r : List Nat} (h : IsPerm n r) {a b : Nat} (ha : a < n) (hb : b < n) (hab : a ≠ b) :
    swapNums r a b = r.map (sw a b) := by
  have ia : r.idxOf a < r.length := List.idxOf_lt_length_iff.mpr (h.mem ha)
  have ib : r.idxOf b < r.length := List.idxOf_lt_length_iff.mpr (h.mem hb)
  have ga : r.getD (r.idxOf a) 0 = a := by rw [List.getD_eq_getElem _ _ ia]; exact List.getElem_idxOf ia
  have gb : r.getD (r.idxOf b) 0 = b := by rw [List.getD_eq_getElem _ _ ib]; exact List.getElem_idxOf ib
  have hl := h.length
  unfold swapNums swapAt
  apply ext_getD
  · simp
  · intro i hi
    have hi' : i < r.length := by simpa using hi
    have hm : (r.map (sw a b)).getD i 0 = sw a b (r.getD i 0) := nth_map (sw a b) hi'
    rw [getD_set (by simpa using ib), getD_set ia, hm, ga, gb]
    by_cases h1 : i = r.idxOf b
    · subst h1; rw [if_pos rfl, gb]; unfold sw; rw [if_neg (fun h => hab h.symm), if_pos rfl]
    · rw [if_neg h1]
      by_cases h2 : i = r.idxOf a
      · subst h2; rw [if_pos rfl, ga]; unfold sw; rw [if_pos rfl]
      · rw [if_neg h2]
        have n1 : r.getD i 0 ≠ a := fun he => h2 (h.inj (by omega) (by omega) (by rw [he, ga]))
        have n2 : r.getD i 0 ≠ b := fun he => h1 (h.inj (by omega) (by omega) (by rw [he, gb]))
        unfold sw; rw [if_neg n1, if_neg n2]

theorem IsPerm.map_sw {n : Nat} {r : List Nat} (h : IsPerm n r) {a b : Nat} (ha : a < n) (hb : b < n) : IsPerm n (r.map (sw a b)) := by
  refine List.Perm.trans (List.Perm.map _ h) ?_
  rw [List.perm_ext_iff_of_nodup]
  · intro i
    simp only [List.mem_map, List.mem_range]
    constructor
    · rintro ⟨j, hj, rfl⟩; exact sw_lt ha hb hj
    · intro hi; exact ⟨sw a b i, sw_lt ha hb hi, sw_sw a b i⟩
  · apply List.Nodup.map _ List.nodup_range
    intro i j hij
    have := congrArg (sw a b) hij
    rwa [sw_sw, sw_sw] at this
  · exact List.nodup_range

end

end Verif.DetManip
