import Verif.Hilbert.FopsModel
import Mathlib.Data.Nat.Digits.Lemmas
import Mathlib.Data.List.Nodup
import Mathlib.Tactic.IntervalCases

/-! # Properties C10, C11: fundamental operator sets -/

namespace Verif.Fops

section
variable {ι : Type} [DecidableEq ι]

theorem find_eq_some {t : ι} : ∀ {l : List ι} {k : Nat}, find t l = some k → l[k]? = some t
  | [], _, h => by simp [find] at h
  | x :: xs, k, h => by
    unfold find at h
    split at h
    · rename_i hx; simp at h; subst h; simp [hx]
    · cases hf : find t xs with
      | none => simp [hf] at h
      | some j => simp [hf] at h; subst h; simpa using find_eq_some hf

theorem find_eq_none {t : ι} : ∀ {l : List ι}, find t l = none ↔ t ∉ l
  | [] => by simp [find]
  | x :: xs => by
    unfold find
    split
    · rename_i h; simp [h]
    · rename_i h
      simp only [Option.map_eq_none_iff, find_eq_none, List.mem_cons, not_or]
      exact ⟨fun h2 => ⟨fun e => h e.symm, h2⟩, fun h2 => h2.2⟩

theorem find_of_nodup {t : ι} : ∀ {l : List ι} {k : Nat}, l.Nodup → l[k]? = some t → find t l = some k
  | [], _, _, h => by simp at h
  | x :: xs, 0, _, h => by simp at h; simp [find, h]
  | x :: xs, k + 1, hn, h => by
    simp at h
    rw [List.nodup_cons] at hn
    have hm : t ∈ xs := List.mem_of_getElem? h
    have hx : x ≠ t := fun e => hn.1 (e ▸ hm)
    simp [find, hx, find_of_nodup hn.2 h]

theorem insert_nodup {f : Fops ι} (h : f.Nodup) (t : ι) : (insert f t).Nodup := by
  unfold insert hasIndices
  split
  · exact h
  · rename_i hc
    simp at hc
    rw [List.nodup_append]
    refine ⟨h, by simp, ?_⟩
    intro a ha b hb
    simp at hb; subst hb
    exact fun e => hc (e ▸ ha)

theorem foldl_insert_nodup (l : List ι) (f : Fops ι) (h : f.Nodup) : (l.foldl insert f).Nodup := by
  induction l generalizing f with
  | nil => exact h
  | cons x l ih => exact ih _ (insert_nodup h x)

theorem insert_prefix (f : Fops ι) (t : ι) : f <+: insert f t := by
  unfold insert
  split
  · exact List.prefix_rfl
  · exact List.prefix_append _ _

theorem foldl_insert_prefix (l : List ι) (f : Fops ι) : f <+: l.foldl insert f := by
  induction l generalizing f with
  | nil => exact List.prefix_rfl
  | cons x l ih => exact (insert_prefix f x).trans (ih _)

theorem mem_insert {f : Fops ι} {t x : ι} : x ∈ insert f t ↔ x ∈ f ∨ x = t := by
  unfold insert hasIndices
  split
  · rename_i h
    simp at h
    exact ⟨Or.inl, fun h' => h'.elim id (fun e => e ▸ h)⟩
  · simp

theorem mem_foldl_insert (l : List ι) (f : Fops ι) (x : ι) :
    x ∈ l.foldl insert f ↔ x ∈ f ∨ x ∈ l := by
  induction l generalizing f with
  | nil => simp
  | cons y l ih => simp [ih, mem_insert]; tauto

theorem position_of_prefix {f g : Fops ι} (h : f <+: g) (hg : g.Nodup) {t : ι} {k : Nat}
    (hk : position f t = some k) : position g t = some k := by
  have h1 := find_eq_some hk
  obtain ⟨r, rfl⟩ := h
  apply find_of_nodup hg
  have hlt : k < f.length := by
    rw [List.getElem?_eq_some_iff] at h1; exact h1.1
  rw [List.getElem?_append_left hlt]; exact h1

/-- The order of first insertion: the list without later repetitions. -/
def firstOccurrences : List ι → List ι
  | [] => []
  | x :: xs => x :: (firstOccurrences xs).filter (· ≠ x)

theorem foldl_insert_eq (l : List ι) (f : Fops ι) :
    l.foldl insert f = f ++ (firstOccurrences l).filter (fun x => !f.contains x) := by
  induction l generalizing f with
  | nil => simp [firstOccurrences]
  | cons x l ih =>
    simp only [List.foldl_cons, ih, firstOccurrences]
    unfold insert hasIndices
    by_cases hx : f.contains x = true
    · simp only [hx, if_true, List.filter_cons, Bool.not_true, Bool.false_eq_true, if_false,
        List.filter_filter]
      congr 1
      apply List.filter_congr
      intro y _
      by_cases hy : y = x
      · subst hy; rw [hx]; simp
      · simp [hy]
    · simp only [hx, if_false, List.filter_cons, List.append_assoc, List.filter_filter]
      simp only [Bool.not_eq_true] at hx
      simp only [hx, Bool.not_false, if_true, Bool.false_eq_true, if_false,  List.append_assoc, List.singleton_append]
      congr 2
      apply List.filter_congr
      intro y _
      simp only [List.contains_eq_mem, List.mem_append, List.mem_singleton]
      by_cases hy : y = x <;> by_cases hf : y ∈ f <;> simp [hy, hf]

/-- **C10.** For every sequence `l` of insertions into an empty set, and every later sequence `l'`:
the labels are numbered bijectively by `0..n-1` in the order of first insertion, unknown labels
throw, re-insertion changes nothing, and numbers never change. -/
theorem C10_stable_numbering (l l' : List ι) :
    -- the data vector lists the distinct labels in order of first insertion
    ofInserts l = firstOccurrences l ∧
    -- position and data vector are inverse to each other
    (∀ t k, position (ofInserts l) t = some k ↔ (ofInserts l)[k]? = some t) ∧
    -- known labels are exactly the inserted ones, unknown ones throw
    (∀ t, hasIndices (ofInserts l) t = true ↔ t ∈ l) ∧
    (∀ t, position (ofInserts l) t = none ↔ t ∉ l) ∧
    -- inserting a known label changes nothing
    (∀ t, t ∈ l → insert (ofInserts l) t = ofInserts l) ∧
    -- later insertions keep every number
    (∀ t k, position (ofInserts l) t = some k → position (ofInserts (l ++ l')) t = some k) := by
  have hn : (ofInserts l).Nodup := foldl_insert_nodup l [] List.nodup_nil
  have hm : ∀ x, x ∈ ofInserts l ↔ x ∈ l := fun x => by simp [ofInserts, mem_foldl_insert]
  refine ⟨?_, ?_, ?_, ?_, ?_, ?_⟩
  · have := foldl_insert_eq l []
    simpa [ofInserts] using this
  · exact fun t k => ⟨find_eq_some, find_of_nodup hn⟩
  · intro t; simp [hasIndices, hm]
  · intro t; rw [← hm]; exact find_eq_none
  · intro t ht
    have : hasIndices (ofInserts l) t = true := by simp [hasIndices, hm, ht]
    simp [insert, this]
  · intro t k hk
    have h1 : ofInserts (l ++ l') = l'.foldl insert (ofInserts l) := by simp [ofInserts]
    rw [h1]
    exact position_of_prefix (foldl_insert_prefix _ _) (foldl_insert_nodup _ _ hn) hk

example : ofInserts [3, 1, 3, 2, 1] = [3, 1, 2] ∧ position (ofInserts [3, 1, 3, 2, 1]) 2 = some 2 ∧
    position (ofInserts [3, 1, 3, 2, 1]) 7 = none := by decide

/-- The constructor from a data vector does not remove duplicates: the numbering is then not
a bijection (label `1` sits at positions 0 and 1). -/
theorem C10_vector_constructor_keeps_duplicates :
    (ofVector [1, 1] : Fops Nat).length = 2 ∧ (ofVector [1, 1] : Fops Nat)[1]? = some 1 ∧
    position (ofVector [1, 1] : Fops Nat) 1 ≠ some 1 := by decide
end

/-! ## C11 -/

theorem char_digit (d : Nat) (h : d < 10) :
    isDigit (Char.ofNat (48 + d)) = true ∧ (Char.ofNat (48 + d)).toNat - 48 = d ∧
    Char.ofNat (48 + d) ≠ '-' ∧ Char.ofNat (48 + d) ≠ Char.ofNat 0 := by
  interval_cases d <;> decide

theorem foldl_digits (ds : List Nat) (h : ∀ d ∈ ds, d < 10) (acc : Nat) :
    (ds.map (fun d => Char.ofNat (48 + d))).foldl (fun acc c => 10 * acc + (c.toNat - 48)) acc
      = ds.foldl (fun acc d => 10 * acc + d) acc := by
  induction ds generalizing acc with
  | nil => rfl
  | cons d ds ih =>
    simp only [List.map_cons, List.foldl_cons]
    rw [(char_digit d (h d (by simp))).2.1]
    exact ih (fun d hd => h d (by simp [hd])) _

theorem foldl_reverse_digits (ds : List Nat) :
    ds.reverse.foldl (fun acc d => 10 * acc + d) 0 = Nat.ofDigits 10 ds := by
  induction ds with
  | nil => simp
  | cons d ds ih => simp [List.foldl_append, ih, Nat.ofDigits_cons]; ring

theorem takeWhile_all {α : Type} (p : α → Bool) (l : List α) (h : ∀ x ∈ l, p x = true) :
    l.takeWhile p = l := by
  induction l with
  | nil => rfl
  | cons x l ih => simp [List.takeWhile_cons, h x (by simp), ih (fun y hy => h y (by simp [hy]))]

theorem natToString_spec (n : Nat) :
    (∀ c ∈ natToString n, isDigit c = true ∧ c ≠ Char.ofNat 0) ∧ parseNat (natToString n) = some n ∧
    ∃ c t, natToString n = c :: t ∧ c ≠ '-' := by
  unfold natToString
  split
  · rename_i h; subst h
    exact ⟨by decide, by decide, '0', [], rfl, by decide⟩
  · rename_i h
    have hd : ∀ d ∈ (Nat.digits 10 n).reverse, d < 10 := fun d hd =>
      Nat.digits_lt_base (by norm_num) (List.mem_reverse.mp hd)
    have hc : ∀ c ∈ (Nat.digits 10 n).reverse.map (fun d => Char.ofNat (48 + d)),
        isDigit c = true ∧ c ≠ Char.ofNat 0 := by
      intro c hc
      obtain ⟨d, hd', rfl⟩ := List.mem_map.mp hc
      exact ⟨(char_digit d (hd d hd')).1, (char_digit d (hd d hd')).2.2.2⟩
    have hne : (Nat.digits 10 n).reverse ≠ [] := by
      simpa using Nat.digits_ne_nil_iff_ne_zero.mpr h
    refine ⟨hc, ?_, ?_⟩
    · unfold parseNat
      simp only
      rw [takeWhile_all _ _ (fun c h => (hc c h).1)]
      simp only [List.map_eq_nil_iff, hne, if_false]
      rw [foldl_digits _ hd, foldl_reverse_digits, Nat.ofDigits_digits]
    · cases hr : (Nat.digits 10 n).reverse with
      | nil => exact absurd hr hne
      | cons d ds =>
        refine ⟨_, _, rfl, ?_⟩
        exact (char_digit d (hd d (by rw [hr]; simp))).2.2.1

theorem stoi_intToString (n : Int) (h : - 2 ^ 31 ≤ n ∧ n < 2 ^ 31) :
    stoi (cstr (intToString n)) = some n := by
  obtain ⟨hc, hp, c, t, he, hne⟩ := natToString_spec n.natAbs
  have hz : cstr (intToString n) = intToString n := by
    apply takeWhile_all
    intro x hx
    unfold intToString at hx
    split at hx
    · rcases List.mem_cons.mp hx with rfl | hx
      · decide
      · simpa using (hc x hx).2
    · simpa using (hc x hx).2
  have hk : checkInt n = some n := by unfold checkInt; rw [if_pos]; simpa using h
  have hp' : parseInt (intToString n) = some n := by
    unfold intToString
    split
    · have e : - (n.natAbs : Int) = n := by omega
      simp only [parseInt, if_true, hp, Option.map_some, e]
    · have e : (n.natAbs : Int) = n := by omega
      rw [he]
      simp only [parseInt, hne, if_false]
      rw [← he, hp, Option.map_some, e]
  rw [hz, stoi, hp', Option.bind_some, hk]

/-- components that survive the archive: integers representable in 32 bits, NUL-free strings -/
def Representable : Comp → Prop
  | .int n => - 2 ^ 31 ≤ n ∧ n < 2 ^ 31
  | .str s => Char.ofNat 0 ∉ s

theorem decode_encode_comp (c : Comp) (h : Representable c) :
    decodeComp (encodeComp c) = some c ∧ (encodeComp c).isEmpty = false := by
  cases c with
  | int n =>
    have h' : - 2 ^ 31 ≤ n ∧ n < 2 ^ 31 := h
    have e : toInt32 n = n := by unfold toInt32; omega
    simp [encodeComp, decodeComp, e, stoi_intToString n h']
  | str s =>
    have hz : cstr s = s := by
      apply takeWhile_all
      intro x hx
      have hne : x ≠ Char.ofNat 0 := fun e => h (e ▸ hx)
      simpa using hne
    simp [encodeComp, decodeComp, hz]

theorem toIndices_encode (ix : List Comp) (k : Nat) (h : ∀ c ∈ ix, Representable c) :
    toIndices (ix.map encodeComp ++ List.replicate k []) = some ix := by
  induction ix with
  | nil =>
    simp only [List.map_nil, List.nil_append]
    induction k with
    | zero => rfl
    | succ k ih => simp [List.replicate_succ, toIndices, ih]
  | cons c ix ih =>
    obtain ⟨h1, h2⟩ := decode_encode_comp c (h c (by simp))
    simp only [List.map_cons, List.cons_append, toIndices, h2, h1,
      ih (fun c hc => h c (by simp [hc]))]
    rfl

/-- **C11** (partial). Archive round trip for all operator sets whose integer components fit in
32 bits and whose string components contain no NUL, for every padding width. Missing: the
components excluded by `Representable`, for which the two theorems below show the round trip fails. -/
theorem C11_archive_round_trip_partial (f : Fops (List Comp)) (w : Nat)
    (h : ∀ ix ∈ f, ∀ c ∈ ix, Representable c) : decode (pad w (encode f)) = some f := by
  induction f with
  | nil => rfl
  | cons ix f ih =>
    have h1 := toIndices_encode ix (w - (ix.map encodeComp).length) (h ix (by simp))
    have h2 := ih (fun ix hix => h ix (by simp [hix]))
    simp only [encode, pad, List.map_cons, decode] at h2 ⊢
    simp only [h1, h2]

example : ∀ ix ∈ [[Comp.str "up".toList, .int 0], [.str "down".toList, .int (-3), .int 2147483647]],
    ∀ c ∈ ix, Representable c := by
  simp [Representable]

/-- **C11** fails for an integer label outside 32 bits: `2^31` comes back as `-2^31`. -/
theorem C11_fails_for_wide_integers :
    decode (pad 1 (encode [[.int (2 ^ 31)]])) = some [[.int (- 2 ^ 31)]] := by
  have e : toInt32 (2 ^ 31) = - 2 ^ 31 := by decide
  have h := stoi_intToString (- 2 ^ 31) (by decide)
  simp only [encode, pad, List.map_cons, List.map_nil, decode, encodeComp, e]
  simp only [List.length_singleton, Nat.sub_self, List.replicate_zero, List.append_nil, toIndices,
    List.isEmpty_cons, decodeComp, h]
  rfl

/-- **C11** fails for a string label with an embedded NUL character. -/
theorem C11_fails_for_nul_strings :
    decode (pad 1 (encode [[.str ['a', Char.ofNat 0, 'b']]])) = some [[.str ['a']]] := by decide

end Verif.Fops
