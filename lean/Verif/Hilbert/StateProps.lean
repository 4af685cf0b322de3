import Verif.Hilbert.StateModel
import Verif.Hilbert.SpaceProps
import Mathlib.Algebra.BigOperators.Group.Finset.Basic
import Mathlib.Algebra.Field.Basic
import Mathlib.Algebra.Star.Rat
import Mathlib.Algebra.Field.Rat
import Mathlib.Tactic.Ring

/-! # Property C14: sparse and dense states implement the same vectors -/

namespace Verif.State

variable {R : Type} [Field R] [DecidableEq R]

/-! ## Specification: histories of operations and the vectors they denote -/

/-- how a state was computed -/
inductive Hist (R : Type) where
  | zero
  | basis (i : Nat)
  | set (h : Hist R) (i : Nat) (v : R)      -- `st(i) = v`
  | read (h : Hist R) (i : Nat)             -- `st(i)` evaluated on a non-const state
  | add (h h' : Hist R)
  | sub (h h' : Hist R)
  | scale (h : Hist R) (x : R)
  | div (h : Hist R) (x : R)

/-- the mathematical vector -/
def Hist.vec : Hist R → Nat → R
  | .zero, _ => 0
  | .basis j, i => if i = j then 1 else 0
  | .set h j v, i => if i = j then v else h.vec i
  | .read h _, i => h.vec i
  | .add h h', i => h.vec i + h'.vec i
  | .sub h h', i => h.vec i - h'.vec i
  | .scale h x, i => h.vec i * x
  | .div h x, i => h.vec i / x

/-- all indices used are inside the space of dimension `n` -/
def Hist.inRange (n : Nat) : Hist R → Prop
  | .zero => True
  | .basis j => j < n
  | .set h j _ => h.inRange n ∧ j < n
  | .read h j => h.inRange n ∧ j < n
  | .add h h' => h.inRange n ∧ h'.inRange n
  | .sub h h' => h.inRange n ∧ h'.inRange n
  | .scale h _ => h.inRange n
  | .div h _ => h.inRange n

/-! ## Running the code -/

def Hist.sparse : Hist R → Sparse R
  | .zero => []
  | .basis j => Sparse.basis j
  | .set h j v => Sparse.set h.sparse j v
  | .read h j => Sparse.touch h.sparse j
  | .add h h' => Sparse.add h.sparse h'.sparse
  | .sub h h' => Sparse.sub h.sparse h'.sparse
  | .scale h x => Sparse.scale h.sparse x
  | .div h x => Sparse.div h.sparse x

def Hist.dense (n : Nat) : Hist R → Option (Dense R)
  | .zero => some (Dense.zero n)
  | .basis j => Dense.basis n j
  | .set h j v => (h.dense n).bind (fun s => Dense.set s j v)
  | .read h j => (h.dense n).bind (fun s => (Dense.get s j).map (fun _ => s))
  | .add h h' => (h.dense n).bind (fun s => (h'.dense n).bind (fun s' => Dense.add s s'))
  | .sub h h' => (h.dense n).bind (fun s => (h'.dense n).bind (fun s' => Dense.sub s s'))
  | .scale h x => (h.dense n).map (fun s => Dense.scale s x)
  | .div h x => (h.dense n).map (fun s => Dense.div s x)

/-! ## Lemmas -/

/-- keys are distinct -/
def Keys (s : Sparse R) : Prop := (s.map (·.1)).Nodup

namespace Sparse

omit [DecidableEq R] in
theorem get_nil (i : Nat) : get ([] : Sparse R) i = 0 := rfl

omit [DecidableEq R] in
theorem get_cons (e : Nat × R) (s : Sparse R) (i : Nat) :
    get (e :: s) i = if e.1 = i then e.2 else get s i := by
  unfold get
  by_cases h : e.1 = i <;> simp [List.find?_cons, h]

omit [Field R] [DecidableEq R] in
theorem has_cons (e : Nat × R) (s : Sparse R) (i : Nat) : has (e :: s) i = (e.1 == i || has s i) := rfl

omit [Field R] [DecidableEq R] in
theorem has_iff (s : Sparse R) (i : Nat) : has s i = true ↔ i ∈ s.map (·.1) := by
  simp [has]

omit [DecidableEq R] in
theorem get_of_not_has (s : Sparse R) (i : Nat) (h : ¬ has s i = true) : get s i = 0 := by
  induction s with
  | nil => rfl
  | cons e s ih =>
    rw [has_cons] at h
    simp at h
    rw [get_cons, if_neg h.1, ih (by simp [h.2])]

omit [DecidableEq R] in
theorem get_append (s t : Sparse R) (i : Nat) : get (s ++ t) i = if has s i then get s i else get t i := by
  induction s with
  | nil => simp [has]
  | cons e s ih =>
    simp only [List.cons_append, get_cons, has_cons, ih]
    by_cases h : e.1 = i <;> simp [h]

theorem get_map (s : Sparse R) (k : Nat) (g : R → R) (i : Nat) :
    get (s.map (fun e => if e.1 = k then (e.1, g e.2) else e)) i =
      if i = k ∧ has s k then g (get s k) else get s i := by
  induction s with
  | nil => simp [has, get_nil]
  | cons e s ih =>
    simp only [List.map_cons, get_cons, ih, has_cons]
    by_cases h1 : e.1 = k
    · by_cases h2 : k = i
      · simp [h1, h2]
      · simp [h1, h2, Ne.symm h2]
    · by_cases h2 : e.1 = i
      · have : i ≠ k := fun h => h1 (h2.trans h)
        simp [h1, h2, this]
      · simp [h1, h2]

theorem keys_map (s : Sparse R) (k : Nat) (g : R → R) :
    (s.map (fun e => if e.1 = k then (e.1, g e.2) else e)).map (·.1) = s.map (·.1) := by
  rw [List.map_map]
  apply List.map_congr_left
  intro e _
  simp only [Function.comp]
  split <;> rfl

theorem get_prune (s : Sparse R) (h : Keys s) (i : Nat) : get (prune s) i = get s i := by
  induction s with
  | nil => rfl
  | cons e s ih =>
    have hk := List.nodup_cons.mp h
    unfold prune at ih ⊢
    rw [List.filter_cons]
    split
    · rw [get_cons, get_cons, ih hk.2]
    · rename_i hz
      simp only [ne_eq, decide_not, Bool.not_eq_eq_eq_not, Bool.not_true, decide_eq_false_iff_not, not_not] at hz
      rw [ih hk.2, get_cons]
      split
      · rename_i hi
        rw [hz, ← hi]
        exact get_of_not_has s e.1 (fun h' => hk.1 ((has_iff s e.1).mp h'))
      · rfl

theorem keys_prune (s : Sparse R) (h : Keys s) : Keys (prune s) := by
  unfold Keys prune at *
  exact h.sublist (List.filter_sublist.map _)

omit [DecidableEq R] in
theorem keys_snoc (s : Sparse R) (k : Nat) (v : R) (h : Keys s) (hk : ¬ has s k = true) : Keys (s ++ [(k, v)]) := by
  unfold Keys at *
  rw [List.map_append, List.nodup_append]
  refine ⟨h, by simp, ?_⟩
  intro a ha b hb
  simp at hb; subst hb
  exact fun e => hk ((has_iff s b).mpr (e ▸ ha))

theorem insertAdd_spec (s : Sparse R) (h : Keys s) (k : Nat) (v : R) :
    Keys (insertAdd s k v) ∧ ∀ i, get (insertAdd s k v) i = get s i + (if i = k then v else 0) := by
  unfold insertAdd
  split
  · rename_i hk
    refine ⟨by unfold Keys; rw [keys_map s k (· + v)]; exact h, fun i => ?_⟩
    rw [get_map s k (· + v)]
    by_cases hi : i = k
    · subst hi; simp [hk]
    · simp [hi]
  · rename_i hk
    refine ⟨keys_snoc s k v h hk, fun i => ?_⟩
    rw [get_append, get_cons, get_nil]
    by_cases hi : has s i = true
    · have : i ≠ k := fun e => hk (e ▸ hi)
      simp [hi, this]
    · rw [if_neg hi, get_of_not_has s i hi, zero_add]
      simp only [eq_comm]

theorem insertSub_spec (s : Sparse R) (h : Keys s) (k : Nat) (v : R) :
    Keys (insertSub s k v) ∧ ∀ i, get (insertSub s k v) i = get s i - (if i = k then v else 0) := by
  unfold insertSub
  split
  · rename_i hk
    refine ⟨by unfold Keys; rw [keys_map s k (· - v)]; exact h, fun i => ?_⟩
    rw [get_map s k (· - v)]
    by_cases hi : i = k
    · subst hi; simp [hk]
    · simp [hi]
  · rename_i hk
    refine ⟨keys_snoc s k (-v) h hk, fun i => ?_⟩
    rw [get_append, get_cons, get_nil]
    by_cases hi : has s i = true
    · have : i ≠ k := fun e => hk (e ▸ hi)
      simp [hi, this]
    · rw [if_neg hi, get_of_not_has s i hi, zero_sub]
      by_cases h' : k = i
      · simp [h']
      · simp [h', Ne.symm h']

theorem sum_single (s : Sparse R) (h : Keys s) (i : Nat) :
    (s.map (fun e => if i = e.1 then e.2 else 0)).sum = get s i := by
  induction s with
  | nil => rfl
  | cons e s ih =>
    have hk := List.nodup_cons.mp h
    rw [List.map_cons, List.sum_cons, ih hk.2, get_cons]
    by_cases hi : i = e.1
    · rw [if_pos hi, if_pos hi.symm, hi, get_of_not_has s e.1 (fun h' => hk.1 ((has_iff s e.1).mp h')), add_zero]
    · rw [if_neg hi, if_neg (fun h => hi h.symm), zero_add]

theorem add_spec (s s2 : Sparse R) (h : Keys s) (h2 : Keys s2) :
    Keys (add s s2) ∧ ∀ i, get (add s s2) i = get s i + get s2 i := by
  have key : ∀ (l s : Sparse R), Keys s → Keys (l.foldl (fun s e => insertAdd s e.1 e.2) s) ∧
      ∀ i, get (l.foldl (fun s e => insertAdd s e.1 e.2) s) i
        = get s i + (l.map (fun e => if i = e.1 then e.2 else 0)).sum := by
    intro l
    induction l with
    | nil => intro s hs; exact ⟨hs, fun i => by simp⟩
    | cons e l ih =>
      intro s hs
      obtain ⟨h1, h2⟩ := insertAdd_spec s hs e.1 e.2
      obtain ⟨h3, h4⟩ := ih _ h1
      exact ⟨h3, fun i => by rw [List.foldl_cons, h4 i, h2 i, List.map_cons, List.sum_cons, add_assoc]⟩
  obtain ⟨h3, h4⟩ := key s2 s h
  refine ⟨keys_prune _ h3, fun i => ?_⟩
  rw [add, get_prune _ h3, h4, sum_single s2 h2]

theorem sub_spec (s s2 : Sparse R) (h : Keys s) (h2 : Keys s2) :
    Keys (sub s s2) ∧ ∀ i, get (sub s s2) i = get s i - get s2 i := by
  have key : ∀ (l s : Sparse R), Keys s → Keys (l.foldl (fun s e => insertSub s e.1 e.2) s) ∧
      ∀ i, get (l.foldl (fun s e => insertSub s e.1 e.2) s) i
        = get s i - (l.map (fun e => if i = e.1 then e.2 else 0)).sum := by
    intro l
    induction l with
    | nil => intro s hs; exact ⟨hs, fun i => by simp⟩
    | cons e l ih =>
      intro s hs
      obtain ⟨h1, h2⟩ := insertSub_spec s hs e.1 e.2
      obtain ⟨h3, h4⟩ := ih _ h1
      exact ⟨h3, fun i => by rw [List.foldl_cons, h4 i, h2 i, List.map_cons, List.sum_cons]; ring⟩
  obtain ⟨h3, h4⟩ := key s2 s h
  refine ⟨keys_prune _ h3, fun i => ?_⟩
  rw [sub, get_prune _ h3, h4, sum_single s2 h2]

theorem scale_spec (s : Sparse R) (h : Keys s) (x : R) :
    Keys (scale s x) ∧ ∀ i, get (scale s x) i = get s i * x := by
  have hk : Keys (s.map (fun e => (e.1, e.2 * x))) := by
    unfold Keys at *; rw [List.map_map]; exact h
  refine ⟨keys_prune _ hk, fun i => ?_⟩
  rw [scale, get_prune _ hk]
  clear h hk
  induction s with
  | nil => simp [get_nil]
  | cons e s ih => rw [List.map_cons, get_cons, get_cons, ih]; split <;> rfl

theorem touch_spec (s : Sparse R) (h : Keys s) (k : Nat) :
    Keys (touch s k) ∧ (∀ i, get (touch s k) i = get s i) ∧ has (touch s k) k = true := by
  unfold touch
  split
  · rename_i hk; exact ⟨h, fun _ => rfl, hk⟩
  · rename_i hk
    refine ⟨keys_snoc s k 0 h hk, fun i => ?_, ?_⟩
    · rw [get_append, get_cons, get_nil]
      split
      · rfl
      · rename_i hi; rw [get_of_not_has s i hi]; split <;> rfl
    · rw [has_iff]; simp

theorem set_spec (s : Sparse R) (h : Keys s) (k : Nat) (v : R) :
    Keys (set s k v) ∧ ∀ i, get (set s k v) i = if i = k then v else get s i := by
  obtain ⟨h1, h2, h3⟩ := touch_spec s h k
  refine ⟨by unfold Keys set; rw [keys_map (touch s k) k (fun _ => v)]; exact h1, fun i => ?_⟩
  rw [set, get_map (touch s k) k (fun _ => v)]
  by_cases hi : i = k
  · simp [hi, h3]
  · simp [hi, h2]

end Sparse

theorem sparse_spec (h : Hist R) : Keys h.sparse ∧ ∀ i, Sparse.get h.sparse i = h.vec i := by
  induction h with
  | zero => exact ⟨List.nodup_nil, fun _ => rfl⟩
  | basis j =>
    obtain ⟨h1, h2⟩ := Sparse.set_spec ([] : Sparse R) List.nodup_nil j 1
    exact ⟨h1, fun i => (h2 i).trans rfl⟩
  | set h j v ih =>
    obtain ⟨h1, h2⟩ := Sparse.set_spec _ ih.1 j v
    exact ⟨h1, fun i => by rw [Hist.sparse, h2, ih.2]; rfl⟩
  | read h j ih =>
    obtain ⟨h1, h2, _⟩ := Sparse.touch_spec _ ih.1 j
    exact ⟨h1, fun i => by rw [Hist.sparse, h2, ih.2]; rfl⟩
  | add h h' ih ih' =>
    obtain ⟨h1, h2⟩ := Sparse.add_spec _ _ ih.1 ih'.1
    exact ⟨h1, fun i => by rw [Hist.sparse, h2, ih.2, ih'.2]; rfl⟩
  | sub h h' ih ih' =>
    obtain ⟨h1, h2⟩ := Sparse.sub_spec _ _ ih.1 ih'.1
    exact ⟨h1, fun i => by rw [Hist.sparse, h2, ih.2, ih'.2]; rfl⟩
  | scale h x ih =>
    obtain ⟨h1, h2⟩ := Sparse.scale_spec _ ih.1 x
    exact ⟨h1, fun i => by rw [Hist.sparse, h2, ih.2]; rfl⟩
  | div h x ih =>
    obtain ⟨h1, h2⟩ := Sparse.scale_spec _ ih.1 (1 / x)
    exact ⟨h1, fun i => by rw [Hist.sparse, Sparse.div, h2, ih.2, Hist.vec, mul_one_div]⟩

theorem dense_spec (n : Nat) (h : Hist R) (hr : h.inRange n) :
    h.dense n = some ((List.range n).map h.vec) := by
  induction h with
  | zero =>
    simp only [Hist.dense, Dense.zero, Option.some.injEq]
    apply List.ext_getElem <;> simp [Hist.vec]
  | basis j =>
    have hj : j < n := hr
    simp only [Hist.dense, Dense.basis, Dense.set, Dense.zero, List.length_replicate, hj, if_true,
      Option.some.injEq]
    apply List.ext_getElem
    · simp
    · intro i h1 h2; simp [Hist.vec, List.getElem_set, eq_comm]
  | set h j v ih =>
    simp only [Hist.dense, ih hr.1, Option.bind_some, Dense.set, List.length_map, List.length_range,
      show j < n from hr.2, if_true, Option.some.injEq]
    apply List.ext_getElem
    · simp
    · intro i h1 h2; simp [Hist.vec, List.getElem_set, eq_comm]
  | read h j ih =>
    simp only [Hist.dense, ih hr.1, Option.bind_some, Dense.get]
    have : j < ((List.range n).map h.vec).length := by simpa using hr.2
    rw [List.getElem?_eq_getElem this]
    rfl
  | add h h' ih ih' =>
    simp only [Hist.dense, ih hr.1, ih' hr.2, Option.bind_some, Dense.add, List.length_map, if_true,
      Option.some.injEq]
    apply List.ext_getElem <;> simp [Hist.vec]
  | sub h h' ih ih' =>
    simp only [Hist.dense, ih hr.1, ih' hr.2, Option.bind_some, Dense.sub, List.length_map, if_true,
      Option.some.injEq]
    apply List.ext_getElem <;> simp [Hist.vec]
  | scale h x ih =>
    simp only [Hist.dense, ih hr, Option.map_some, Dense.scale, Option.some.injEq]
    apply List.ext_getElem <;> simp [Hist.vec]
  | div h x ih =>
    simp only [Hist.dense, ih hr, Option.map_some, Dense.div, Option.some.injEq]
    apply List.ext_getElem <;> simp [Hist.vec]

theorem vec_out_of_range (n : Nat) (h : Hist R) (hr : h.inRange n) (i : Nat) (hi : n ≤ i) : h.vec i = 0 := by
  induction h with
  | zero => rfl
  | basis j => have : j < n := hr; simp [Hist.vec]; omega
  | set h j v ih => have : j < n := hr.2; simp [Hist.vec, ih hr.1]; omega
  | read h j ih => exact ih hr.1
  | add h h' ih ih' => simp [Hist.vec, ih hr.1, ih' hr.2]
  | sub h h' ih ih' => simp [Hist.vec, ih hr.1, ih' hr.2]
  | scale h x ih => simp [Hist.vec, ih hr]
  | div h x ih => simp [Hist.vec, ih hr]

theorem foldl_add_acc (l : List R) (a : R) : l.foldl (· + ·) a = a + l.sum := by
  induction l generalizing a with
  | nil => simp
  | cons x l ih => rw [List.foldl_cons, ih, List.sum_cons, add_assoc]

theorem sparse_dot [StarRing R] (n : Nat) (s1 s2 : Sparse R) (h1 : Keys s1)
    (hr : ∀ i, n ≤ i → Sparse.get s1 i = 0) :
    Sparse.dot s1 s2 = ∑ i ∈ Finset.range n, star (Sparse.get s1 i) * Sparse.get s2 i := by
  have hfold : ∀ (l : Sparse R) (r : R),
      l.foldl (fun res a => if Sparse.has s2 a.1 then res + star a.2 * Sparse.get s2 a.1 else res) r
        = r + (l.map (fun a => star a.2 * Sparse.get s2 a.1)).sum := by
    intro l
    induction l with
    | nil => intro r; simp
    | cons a l ih =>
      intro r
      rw [List.foldl_cons, ih, List.map_cons, List.sum_cons]
      split
      · rw [add_assoc]
      · rename_i hn; rw [Sparse.get_of_not_has s2 a.1 hn]; simp
  rw [Sparse.dot, hfold, zero_add]
  induction s1 with
  | nil => simp [Sparse.get_nil]
  | cons e s1 ih =>
    have hk := List.nodup_cons.mp h1
    have hnot : Sparse.get s1 e.1 = 0 := Sparse.get_of_not_has s1 e.1 (fun h' => hk.1 ((Sparse.has_iff s1 e.1).mp h'))
    rw [List.map_cons, List.sum_cons, ih hk.2 (by
      intro i hi
      have := hr i hi
      rw [Sparse.get_cons] at this
      by_cases he : e.1 = i
      · rw [← he]; exact hnot
      · rwa [if_neg he] at this)]
    have hsplit : ∀ i, star (Sparse.get (e :: s1) i) * Sparse.get s2 i
        = (if i = e.1 then star e.2 * Sparse.get s2 e.1 else 0) + star (Sparse.get s1 i) * Sparse.get s2 i := by
      intro i
      rw [Sparse.get_cons]
      by_cases hi : e.1 = i
      · rw [if_pos hi, if_pos hi.symm, ← hi, hnot]; simp
      · rw [if_neg hi, if_neg (fun h => hi h.symm), zero_add]
    rw [Finset.sum_congr rfl (fun i _ => hsplit i), Finset.sum_add_distrib]
    congr 1
    rw [Finset.sum_ite_eq' (Finset.range n) e.1]
    split
    · rfl
    · rename_i hn
      have := hr e.1 (by simpa using hn)
      rw [Sparse.get_cons, if_pos rfl] at this
      rw [this]; simp

/-! ## C14 -/

/-- **C14.** For every history of operations inside the space of dimension `n`, both state classes
hold the amplitudes of the mathematical vector, both dot products are the Hermitian product
(conjugate-linear in the first argument), and `foreach` presents every non-zero amplitude
exactly once. -/
theorem C14_states_agree [StarRing R] (n : Nat) (h g : Hist R) (hr : h.inRange n) (gr : g.inRange n) :
    (∀ i, Sparse.get h.sparse i = h.vec i) ∧
    (∃ d, h.dense n = some d ∧ d.length = n ∧ ∀ i < n, d[i]? = some (h.vec i)) ∧
    Sparse.dot h.sparse g.sparse = ∑ i ∈ Finset.range n, star (h.vec i) * g.vec i ∧
    (∃ d e, h.dense n = some d ∧ g.dense n = some e ∧
      Dense.dot d e = some (∑ i ∈ Finset.range n, star (h.vec i) * g.vec i)) ∧
    ((Sparse.visits h.sparse).map (·.1)).Nodup ∧
    (∀ i v, (i, v) ∈ Sparse.visits h.sparse ↔ v = h.vec i ∧ v ≠ 0) ∧
    (∃ d, h.dense n = some d ∧ Dense.visits d = (List.range n).map (fun i => (i, h.vec i))) := by
  obtain ⟨hk, hv⟩ := sparse_spec h
  obtain ⟨gk, gv⟩ := sparse_spec g
  have hd := dense_spec n h hr
  have gd := dense_spec n g gr
  refine ⟨hv, ⟨_, hd, by simp, ?_⟩, ?_, ⟨_, _, hd, gd, ?_⟩, Sparse.keys_prune _ hk, ?_, ⟨_, hd, ?_⟩⟩
  · intro i hi; simp [hi]
  · rw [sparse_dot n _ _ hk (fun i hi => by rw [hv]; exact vec_out_of_range n h hr i hi)]
    exact Finset.sum_congr rfl (fun i _ => by rw [hv, gv])
  · simp only [Dense.dot, List.length_map, if_true, Option.some.injEq, foldl_add_acc, zero_add]
    rw [List.zipWith_map_left, List.zipWith_map_right, List.zipWith_self]
    rw [← List.sum_toFinset _ List.nodup_range]
    apply Finset.sum_congr _ (fun _ _ => rfl)
    ext i; simp
  · intro i v
    have hmem : ∀ (s : Sparse R), Keys s → ((i, v) ∈ Sparse.prune s ↔ v = Sparse.get s i ∧ v ≠ 0) := by
      intro s hs
      simp only [Sparse.prune, List.mem_filter, decide_eq_true_eq, and_congr_left_iff]
      intro hne
      induction s with
      | nil => simpa [Sparse.get_nil] using hne
      | cons e s ih =>
        have hk := List.nodup_cons.mp hs
        rw [List.mem_cons, ih hk.2, Sparse.get_cons]
        have hnot : Sparse.get s e.1 = 0 := Sparse.get_of_not_has s e.1 (fun h' => hk.1 ((Sparse.has_iff s e.1).mp h'))
        by_cases hi : e.1 = i
        · rw [if_pos hi, ← hi, hnot]
          constructor
          · rintro (h | h)
            · rw [← h]
            · exact absurd h hne
          · intro h; exact Or.inl (by rw [h])
        · rw [if_neg hi]
          constructor
          · rintro (h | h)
            · exact absurd (by rw [← h]) hi
            · exact h
          · exact Or.inr
    rw [Sparse.visits, hmem _ hk, hv]
  · simp only [Dense.visits]
    apply List.ext_getElem <;> simp

/-- a history with a cancellation, a division and a read -/
def exHist : Hist ℚ :=
  .div (.sub (.read (.add (.set (.basis 1) 2 3) (.basis 0)) 3) (.scale (.basis 1) 1)) 2

example : exHist.inRange 4 ∧ exHist.sparse = [(2, 3 / 2), (0, 1 / 2)] ∧
    exHist.dense 4 = some [1 / 2, 0, 3 / 2, 0] := by
  refine ⟨by simp [exHist, Hist.inRange], by decide +kernel, by decide +kernel⟩

/-! ## Projection -/

/-- `project` onto a sub-space is the restriction of the amplitudes: the `j`-th amplitude of the
result is the amplitude of the source at the `j`-th Fock state of the sub-space. -/
theorem C14_project_is_restriction (h : Hist R) (l : List (BitVec 64)) (hl : l.Nodup)
    (n : Nat) (hn : n ≤ 2 ^ 64) (hr : h.inRange n) (j : Nat) (hj : j < l.length) :
    Sparse.get (projectSub (Sparse.visits h.sparse) (HSpace.Sub.build l)) j = h.vec (l[j].toNat) := by
  obtain ⟨hk, hv⟩ := sparse_spec h
  obtain ⟨hidx, hhas, hfs⟩ := HSpace.C12_sub_space l hl
  have hlj : (HSpace.Sub.build l).stateIndex l[j] = some j := by
    rw [hidx, hfs]; simp [hj]
  -- generalise over the visited list
  have key : ∀ (vis : List (Nat × R)) (t : Sparse R), Keys t → (vis.map (·.1)).Nodup →
      (∀ e ∈ vis, e.1 < n) →
      Keys (vis.foldl (projectStep (HSpace.Sub.build l)) t) ∧
      Sparse.get (vis.foldl (projectStep (HSpace.Sub.build l)) t) j
        = if Sparse.has vis l[j].toNat then Sparse.get vis l[j].toNat else Sparse.get t j := by
    intro vis
    induction vis with
    | nil => intro t ht _ _; exact ⟨ht, by simp [Sparse.has]⟩
    | cons e vis ih =>
      intro t ht hnd hlt
      have hk := List.nodup_cons.mp hnd
      have he : e.1 < n := hlt e (by simp)
      rw [List.foldl_cons]
      have hstep : Keys (projectStep (HSpace.Sub.build l) t e) ∧
          Sparse.get (projectStep (HSpace.Sub.build l) t e) j = if e.1 = l[j].toNat then e.2 else Sparse.get t j := by
        have hto : (BitVec.ofNat 64 e.1).toNat = e.1 := by
          rw [BitVec.toNat_ofNat]; exact Nat.mod_eq_of_lt (by omega)
        unfold projectStep
        cases hs : (HSpace.Sub.build l).stateIndex (BitVec.ofNat 64 e.1) with
        | none =>
          refine ⟨ht, ?_⟩
          rw [if_neg]
          intro h'
          have : BitVec.ofNat 64 e.1 = l[j] := by rw [h']; simp
          rw [this, hlj] at hs
          cases hs
        | some k =>
          obtain ⟨h1, h2⟩ := Sparse.set_spec t ht k e.2
          refine ⟨h1, ?_⟩
          rw [h2]
          by_cases hjk : j = k
          · subst hjk
            have h3 : (HSpace.Sub.build l).fockState j = some (BitVec.ofNat 64 e.1) := (hidx _ _).mp hs
            rw [hfs] at h3
            simp [hj] at h3
            rw [if_pos rfl, if_pos]
            rw [h3, hto]
          · rw [if_neg hjk, if_neg]
            intro h'
            have : BitVec.ofNat 64 e.1 = l[j] := by rw [h']; simp
            rw [this, hlj] at hs
            simp at hs
            exact hjk hs
      obtain ⟨g1, g2⟩ := ih _ hstep.1 hk.2 (fun e' h' => hlt e' (by simp [h']))
      refine ⟨g1, ?_⟩
      rw [g2, hstep.2, Sparse.has_cons, Sparse.get_cons]
      by_cases h1 : e.1 = l[j].toNat
      · have : ¬ Sparse.has vis l[j].toNat = true := fun h' => hk.1 (by
          have := (Sparse.has_iff vis _).mp h'; rw [← h1] at this; exact this)
        simp [h1, this]
      · simp [h1]
  have hlt : ∀ e ∈ Sparse.visits h.sparse, e.1 < n := by
    intro e he
    by_contra hge
    have h0 := vec_out_of_range n h hr e.1 (by omega)
    simp only [Sparse.visits, Sparse.prune, List.mem_filter, decide_eq_true_eq] at he
    have hg : Sparse.get h.sparse e.1 = e.2 := by
      have : ∀ (s : Sparse R), Keys s → e ∈ s → Sparse.get s e.1 = e.2 := by
        intro s hs hm
        induction s with
        | nil => cases hm
        | cons x s ih =>
          have hk := List.nodup_cons.mp hs
          rw [Sparse.get_cons]
          rcases List.mem_cons.mp hm with rfl | hm
          · simp
          · rw [if_neg (fun hx : x.1 = e.1 => hk.1 (List.mem_map.mpr ⟨e, hm, hx.symm⟩)), ih hk.2 hm]
      exact this _ hk he.1
    rw [hv] at hg
    exact he.2 (hg.symm.trans h0)
  have h2 := (key (Sparse.visits h.sparse) [] List.nodup_nil (Sparse.keys_prune _ hk) hlt).2
  rw [projectSub, h2, ← hv, Sparse.visits, Sparse.get_prune _ hk]
  split
  · rfl
  · rename_i hn
    have := Sparse.get_of_not_has _ _ hn
    rw [Sparse.get_prune _ hk] at this
    rw [this]; rfl

example : ([2, 0] : List (BitVec 64)).Nodup ∧
    projectSub (Sparse.visits exHist.sparse) (HSpace.Sub.build [2, 0]) = [(0, 3 / 2), (1, 1 / 2)] := by
  refine ⟨by decide, by decide +kernel⟩

end Verif.State
