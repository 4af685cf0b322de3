import Verif.DetManip.Change

/-!
# det_manip: insertion of several rows and columns
-/

namespace Verif.DetManip

open Matrix

set_option linter.unusedSectionVars false

section lists
variable {α : Type} [Inhabited α]

theorem insertIdx_split (l : List α) (i : Nat) (x : α) (h : i ≤ l.length) : l.insertIdx i x = l.take i ++ x :: l.drop i := by
  induction l generalizing i with
  | nil => simp at h; subst h; rfl
  | cons a l ih =>
    cases i with
    | zero => rfl
    | succ i => simp only [List.insertIdx_succ_cons, List.take_succ_cons, List.drop_succ_cons, List.cons_append]; rw [ih i (by simpa using h)]

/-- insertion one after the other -/
def insertMany : List (Nat × α) → List α → List α
  | [], l => l
  | (i, x) :: ps, l => insertMany ps (l.insertIdx i x)

theorem insertMany_map (h : Nat → α) : ∀ (I v : List Nat) (l : List Nat), (∀ q (hq : q < I.length), I[q] ≤ l.length + q) →
    (insertMany (I.zip v) l).map h = insertMany (I.zip (v.map h)) (l.map h) := by
  intro I
  induction I with
  | nil => intro v l _; rfl
  | cons i I ih =>
    intro v l hb
    cases v with
    | nil => rfl
    | cons a v =>
      simp only [List.zip_cons_cons, List.map_cons, insertMany]
      have h0 : i ≤ l.length := by have := hb 0 (by simp); simpa using this
      rw [ih v (l.insertIdx i a)]
      · rw [map_insertIdx' h _ _ _ h0]
      · intro q hq
        have := hb (q + 1) (by simpa using hq)
        rw [List.length_insertIdx, if_pos h0]
        simp at this
        omega

/-- removing and putting back -/
theorem insertMany_select (v : List α) : ∀ (I : List Nat), I.Pairwise (· < ·) → (∀ i ∈ I, i < v.length) →
    insertMany (I.zip (select I v)) (removeAt I v) = v := by
  intro I
  induction I with
  | nil => intro _ _; exact removeAt_nil v
  | cons i I ih =>
    intro hs hb
    have hi := hb i (by simp)
    obtain ⟨b, h1, h2⟩ := removeAt_cons v i I hi (fun p hp => (List.pairwise_cons.mp hs).1 p hp)
    simp only [select, List.map_cons, List.zip_cons_cons, insertMany]
    rw [h2]
    have : (v.take i ++ b).insertIdx i (nth v i) = removeAt I v := by
      rw [h1]
      have hl : (v.take i).length = i := by simp; omega
      rw [insertIdx_split _ _ _ (by simp; omega), List.take_left' hl, List.drop_left' hl]
    rw [this]
    exact ih (List.pairwise_cons.mp hs).2 (fun p hp => hb p (by simp [hp]))

/-- putting in and removing -/
theorem removeAt_insertMany : ∀ (I : List Nat) (xn : List α) (l : List α), I.length = xn.length → I.Pairwise (· < ·) →
    (∀ i ∈ I, i < l.length + I.length) →
    (insertMany (I.zip xn) l).length = l.length + I.length ∧ removeAt I (insertMany (I.zip xn) l) = l ∧ select I (insertMany (I.zip xn) l) = xn := by
  intro I
  induction I with
  | nil =>
    intro xn l h _ _
    have : xn = [] := List.length_eq_zero_iff.mp (by simpa using h.symm)
    subst this
    exact ⟨rfl, removeAt_nil l, rfl⟩
  | cons i I ih =>
    intro xn l hlen hs hb
    cases xn with
    | nil => simp at hlen
    | cons x xn =>
      simp only [List.zip_cons_cons, insertMany]
      -- room
      have room : ∀ (J : List Nat) (i m : Nat), (i :: J).Pairwise (· < ·) → (∀ p ∈ i :: J, p < m) → i + J.length < m := by
        intro J
        induction J with
        | nil => intro i m _ hb; simpa using hb i (by simp)
        | cons a J ih2 =>
          intro i m hs hb
          have h1 := ih2 a m (List.pairwise_cons.mp hs).2 (fun p hp => hb p (List.mem_cons_of_mem _ hp))
          have h2 := (List.pairwise_cons.mp hs).1 a (by simp)
          simp; omega
      have hi : i ≤ l.length := by
        have := room I i _ hs hb
        simp at this; omega
      have hl1 : (l.insertIdx i x).length = l.length + 1 := by rw [List.length_insertIdx, if_pos hi]
      obtain ⟨k1, k2, k3⟩ := ih xn (l.insertIdx i x) (by simpa using hlen) (List.pairwise_cons.mp hs).2
        (fun p hp => by rw [hl1]; have := hb p (List.mem_cons_of_mem _ hp); simp at this; omega)
      generalize insertMany (I.zip xn) (l.insertIdx i x) = v at k1 k2 k3
      have hiv : i < v.length := by rw [k1, hl1]; omega
      obtain ⟨b, h1, h2⟩ := removeAt_cons v i I hiv (fun p hp => (List.pairwise_cons.mp hs).1 p hp)
      rw [k2] at h1
      have htl : (v.take i).length = i := by simp; omega
      have e1 : l.insertIdx i x = l.take i ++ x :: l.drop i := by
        exact insertIdx_split _ _ _ hi
      have htl2 : (l.take i).length = i := by simp; omega
      rw [e1] at h1
      have h3 := List.append_inj h1 (by omega)
      obtain ⟨h4, h5⟩ := h3
      injection h5 with h6 h7
      refine ⟨by rw [k1, hl1]; simp; omega, ?_, ?_⟩
      · rw [h2, ← h4, ← h7, List.take_append_drop]
      · simp only [select, List.map_cons] at k3 ⊢
        rw [k3, ← h6]

theorem insertNums_eq : ∀ (I : List Nat) (r tail : List Nat), (∀ q (hq : q < I.length), I[q] ≤ r.length + q) → tail.length = I.length →
    insertNums (I.map (fun i : Nat => (i : Int))) (r ++ tail) r.length = some (insertMany (I.zip (List.range' r.length I.length)) r) := by
  intro I
  induction I with
  | nil =>
    intro r tail _ ht
    have : tail = [] := List.length_eq_zero_iff.mp (by simpa using ht)
    subst this
    simp [insertNums, insertMany]
  | cons i I ih =>
    intro r tail hb ht
    cases tail with
    | nil => simp at ht
    | cons z tail =>
      have h0 : i ≤ r.length := by have := hb 0 (by simp); simpa using this
      simp only [List.map_cons, insertNums]
      rw [if_pos (by constructor <;> omega), Int.toNat_natCast, insertNum_eq r tail i h0 z]
      have hl : (r.insertIdx i r.length).length = r.length + 1 := by rw [List.length_insertIdx, if_pos h0]
      have := ih (r.insertIdx i r.length) tail (by
        intro q hq
        have := hb (q + 1) (by simpa using hq)
        simp at this
        rw [hl]; omega) (by simpa using ht)
      rw [hl] at this
      rw [this, List.length_cons, List.range'_succ]
      rfl

/-- strictly increasing positions fit -/
theorem sorted_fit {I : List Nat} {n : Nat} (hs : I.Pairwise (· < ·)) (hb : ∀ i ∈ I, i < n + I.length) : ∀ q (hq : q < I.length), I[q] ≤ n + q := by
  intro q hq
  have key : ∀ d, ∀ q (hq : q + d < I.length), I[q] + d ≤ I[q + d] := by
    intro d
    induction d with
    | zero => intro q hq; simp
    | succ d ih =>
      intro q hq
      have h1 := ih q (by omega)
      have h2 := (List.pairwise_iff_getElem.mp hs) (q + d) (q + (d + 1)) (by omega) hq (by omega)
      omega
  have h1 := key (I.length - 1 - q) q (by omega)
  have h2 := hb I[q + (I.length - 1 - q)] (List.getElem_mem _)
  omega

theorem sorted_range {I : List Nat} (hs : I.Pairwise (· < ·)) (hb : ∀ i ∈ I, i < I.length) : I = List.range I.length := by
  apply ext_getD
  · simp
  · intro q hq
    have h1 := sorted_fit (n := 0) hs (by simpa using hb) q hq
    have key : ∀ q (hq : q < I.length), q ≤ I[q] := by
      intro q
      induction q with
      | zero => intro _; omega
      | succ q ih =>
        intro hq
        have h1 := ih (by omega)
        have h2 := (List.pairwise_iff_getElem.mp hs) q (q + 1) (by omega) hq (by omega)
        omega
    have h2 := key q hq
    rw [List.getD_eq_getElem _ _ hq, List.getD_eq_getElem _ _ (by simpa using hq), List.getElem_range]
    omega

theorem placeNums_range (k : Nat) : placeNums ((List.range k).map (fun i : Nat => (i : Int))) (List.replicate k 0) = some (List.range k) := by
  unfold placeNums
  have key : ∀ m, m ≤ k → ∃ r : List Nat, (List.range m).foldl (fun r l => r.bind (fun r : List Nat =>
      if 0 ≤ ((List.range k).map (fun i : Nat => (i : Int))).getD l 0 ∧ ((List.range k).map (fun i : Nat => (i : Int))).getD l 0 < r.length
      then some (r.set (((List.range k).map (fun i : Nat => (i : Int))).getD l 0).toNat l) else none)) (some (List.replicate k 0)) = some r ∧
      r.length = k ∧ ∀ i < m, r.getD i 0 = i := by
    intro m
    induction m with
    | zero => intro _; exact ⟨List.replicate k 0, rfl, by simp, by intro i hi; omega⟩
    | succ m ih =>
      intro hm
      obtain ⟨r, h1, h2, h3⟩ := ih (by omega)
      refine ⟨r.set m m, ?_, by simpa using h2, ?_⟩
      · rw [List.range_succ, List.foldl_append, h1]
        simp only [List.foldl_cons, List.foldl_nil, Option.bind_some]
        have hg : ((List.range k).map (fun i : Nat => (i : Int))).getD m 0 = (m : Int) := by
          rw [List.getD_eq_getElem _ _ (by simp; omega)]; simp
        rw [hg, if_pos (by constructor <;> omega), Int.toNat_natCast]
      · intro i hi
        rw [getD_set (by omega)]
        by_cases h : i = m
        · rw [if_pos h, h]
        · rw [if_neg h]; exact h3 i (by omega)
  obtain ⟨r, h1, h2, h3⟩ := key k (le_refl _)
  simp only [List.length_map, List.length_range]
  rw [h1]
  congr 1
  apply ext_getD
  · simp [h2]
  · intro i hi
    rw [h3 i (by omega), List.getD_eq_getElem _ _ (by simp; omega), List.getElem_range]

/-! ### sorting -/

theorem argsort_perm (v : List Int) : (argsort v).Perm (List.range v.length) := List.perm_insertionSort _ _

theorem argsort_sorted (v : List Int) : ((argsort v).map (fun a => v.getD a 0)).Pairwise (· ≤ ·) := by
  rw [List.pairwise_map]
  have : Std.Total (fun a b : Nat => v.getD a 0 ≤ v.getD b 0) := ⟨fun a b => le_total _ _⟩
  have : IsTrans Nat (fun a b : Nat => v.getD a 0 ≤ v.getD b 0) := ⟨fun a b c h1 h2 => le_trans h1 h2⟩
  exact List.pairwise_insertionSort (fun a b : Nat => v.getD a 0 ≤ v.getD b 0) _

theorem argsort_map_perm {β : Type} (v : List Int) (w : List β) (d : β) (h : w.length = v.length) : ((argsort v).map (fun a => w.getD a d)).Perm w := by
  refine List.Perm.trans (List.Perm.map _ (argsort_perm v)) ?_
  have : (List.range v.length).map (fun a => w.getD a d) = w := by
    apply List.ext_getElem
    · simp [h]
    · intro i h1 h2
      rw [List.getElem_map, List.getElem_range, List.getD_eq_getElem _ _ h2]
  rw [this]

/-- the consistency loop makes sorted positions strictly increasing and, except for the last one, in range -/
theorem checkPos_strict {v : List Int} {b : Int} (hs : v.Pairwise (· ≤ ·)) (h : checkPos v b = true) : v.Pairwise (· < ·) := by
  rw [List.pairwise_iff_getElem] at hs ⊢
  intro i j hi hj hij
  unfold checkPos at h
  rw [List.all_eq_true] at h
  have h1 := h i (by simp; omega)
  rw [decide_eq_true_eq] at h1
  rw [List.getD_eq_getElem _ _ hi, List.getD_eq_getElem _ _ (show i + 1 < v.length by omega)] at h1
  have h2 := hs i (i + 1) hi (by omega) (by omega)
  by_cases h3 : i + 1 = j
  · subst h3; omega
  · have h4 := hs (i + 1) j (by omega) hj (by omega)
    omega

/-- sorted positions as natural numbers -/
theorem toNat_list {v : List Int} (h : ∀ p ∈ v, 0 ≤ p) : ∃ I : List Nat, v = I.map (fun i : Nat => (i : Int)) := by
  refine ⟨v.map Int.toNat, ?_⟩
  rw [List.map_map]
  conv_lhs => rw [← List.map_id v]
  apply List.map_congr_left
  intro p hp
  have := h p hp
  simp; omega

theorem idxSum_cast : ∀ (I J : List Nat), I.length = J.length → idxSum (I.map (fun i : Nat => (i : Int))) (J.map (fun i : Nat => (i : Int))) = ((I.sum + J.sum : Nat) : Int) := by
  have key : ∀ (I J : List Nat) (z : Int), I.length = J.length →
      ((I.map (fun i : Nat => (i : Int))).zipWith (· + ·) (J.map (fun i : Nat => (i : Int)))).foldl (· + ·) z = z + ((I.sum + J.sum : Nat) : Int) := by
    intro I
    induction I with
    | nil =>
      intro J z h
      have : J = [] := List.length_eq_zero_iff.mp (by simpa using h.symm)
      subst this; simp
    | cons i I ih =>
      intro J z h
      cases J with
      | nil => simp at h
      | cons j J =>
        simp only [List.map_cons, List.zipWith_cons_cons, List.foldl_cons]
        rw [ih J _ (by simpa using h)]
        simp; omega
  intro I J h
  unfold idxSum
  rw [key I J 0 h]; simp

end lists

section
variable {X Y K : Type} [Inhabited X] [Inhabited Y] [Field K] [DecidableEq K]

theorem dot_delta {k : Nat} (h : Nat → K) {m : Nat} (hm : m < k) : dot k h (fun l => if m = l then -1 else 0) = - h m := by
  unfold dot
  rw [Finset.sum_eq_single m]
  · simp
  · intro b _ hb; simp only; rw [if_neg (fun he => hb he.symm), mul_zero]
  · intro hn; exact absurd (Finset.mem_range.mpr hm) hn

theorem dot_delta' {k : Nat} (h : Nat → K) {m : Nat} (hm : m < k) : dot k (fun l => if m = l then -1 else 0) h = - h m := by
  rw [dot_comm]; exact dot_delta h hm

/-- the positions given to a multiple insertion are acceptable: all within the new list -/
def InRange (p : List Int) (n : Nat) : Prop := ∀ a ∈ p, 0 ≤ a ∧ a < n

theorem InRange.perm {p q : List Int} {n : Nat} (h : InRange p n) (hp : q.Perm p) : InRange q n := fun a ha => h a (hp.mem_iff.mp ha)

/-- positions, in increasing order -/
def sortedPos (p : List Int) : List Nat := ((argsort p).map (fun a => p.getD a 0)).map Int.toNat
/-- arguments, in the order of the positions -/
def sortedArg {α : Type} [Inhabited α] (p : List Int) (x : List α) : List α := (argsort p).map (fun a => nth x a)

theorem sortedPos_eq {p : List Int} {n : Nat} (h : InRange p n) :
    (argsort p).map (fun a => p.getD a 0) = (sortedPos p).map (fun i : Nat => (i : Int)) := by
  unfold sortedPos
  rw [List.map_map]
  conv_lhs => rw [← List.map_id ((argsort p).map (fun a => p.getD a 0))]
  apply List.map_congr_left
  intro a ha
  have := h a ((argsort_map_perm p p 0 rfl).mem_iff.mp ha)
  simp; omega

theorem sortedPos_length (p : List Int) : (sortedPos p).length = p.length := by
  unfold sortedPos; simp [(argsort_perm p).length_eq]

theorem sortedArg_length {α : Type} [Inhabited α] (p : List Int) (x : List α) : (sortedArg p x).length = p.length := by
  unfold sortedArg; simp [(argsort_perm p).length_eq]

theorem sortedPos_lt {p : List Int} {n : Nat} (h : InRange p n) : ∀ i ∈ sortedPos p, i < n := by
  intro i hi
  unfold sortedPos at hi
  obtain ⟨a, ha, rfl⟩ := List.mem_map.mp hi
  have := h a ((argsort_map_perm p p 0 rfl).mem_iff.mp ha)
  omega

theorem sortedPos_strict {p : List Int} {n : Nat} {b : Int} (h : InRange p n) (hc : checkPos ((argsort p).map (fun a => p.getD a 0)) b = true) :
    (sortedPos p).Pairwise (· < ·) := by
  have := checkPos_strict (argsort_sorted p) hc
  rw [sortedPos_eq h, List.pairwise_map] at this
  exact this.imp (fun h => by omega)

/-- `ξ` as computed -/
theorem ksiK_eq (f : X → Y → K) (n k : Nat) (a : Nat → Nat → K) (xs : List X) (ys : List Y) (wx : List X) (wy : List Y) {m l : Nat} (hm : m < k) (hl : l < k) :
    at2 (mat k k (fun m l => f (nth wx m) (nth wy l) - dot n (at2 (mat k n (fun l q => f (nth wx l) (nth ys q))) m)
      (fun p => at2 (mat n k (fun q l => dot n (a q) (fun m => at2 (mat n k (fun q l => f (nth xs q) (nth wy l))) m l))) p l))) m l =
      xi f n a xs ys wx wy m l := by
  rw [at2_mat _ hm hl]
  unfold xi
  congr 1
  rw [dot_eq]
  apply Finset.sum_congr rfl
  intro p _
  rw [at2_mat _ hm p.2, at2_mat _ p.2 hl, dot_eq, Finset.mul_sum]
  apply Finset.sum_congr rfl
  intro q _
  rw [at2_mat _ q.2 hl]; ring

/-- **insertion of several rows and columns** at valid positions -/
theorem tryInsertK_outcome {e : Env X Y K} {s : State X Y K} (G : Good e s) {i j : List Int} {x : List X} {y : List Y} {r : K} {s1 : State X Y K}
    (h : tryInsertK e s i j x y = .ok r s1) (vi : InRange i (s.N + i.length)) (vj : InRange j (s.N + i.length)) :
    i.length = j.length ∧ i.length = x.length ∧ i.length = y.length ∧ (sortedPos i).Pairwise (· < ·) ∧ (sortedPos j).Pairwise (· < ·) ∧
    Outcome e s r s1 (insertMany ((sortedPos i).zip (sortedArg i x)) (getX s)) (insertMany ((sortedPos j).zip (sortedArg j y)) (getY s)) := by
  unfold tryInsertK at h
  split_ifs at h with h1 h2 h3 h4
  simp only [Decidable.not_not] at h1 h2 h3 h4
  obtain ⟨a, b, c, d, g, hres⟩ := reserve_eq { s with k := i.length } (s.N + i.length : Int) i.length
  obtain ⟨hcaps, hnm, hkm, -⟩ := reserve_caps { s with k := i.length } (s.N + i.length : Int) i.length ⟨G.caps.k1, G.caps.w, G.caps.wk, G.caps.wk1⟩
  dsimp only at h
  rw [hres] at h hcaps hnm hkm
  simp only at h hnm hkm
  split_ifs at h with c1 c2 c3 c4
  · -- empty matrix
    have hI := sortedPos_strict vi c2.1
    have hJ := sortedPos_strict vj c2.2
    refine ⟨h2, by omega, by omega, hI, hJ, ?_⟩
    injection h with hr hs
    rw [detN_mat] at hr
    have hX0 : getX s = [] := List.length_eq_zero_iff.mp (by rw [getX_length, c3])
    have hY0 : getY s = [] := List.length_eq_zero_iff.mp (by rw [getY_length, c3])
    have hxs : s.xs = [] := List.length_eq_zero_iff.mp (by rw [G.lx, c3])
    have hys : s.ys = [] := List.length_eq_zero_iff.mp (by rw [G.ly, c3])
    have hrow : s.row = [] := List.length_eq_zero_iff.mp (by rw [G.row.length, c3])
    have hcol : s.col = [] := List.length_eq_zero_iff.mp (by rw [G.col.length, c3])
    have hIr : sortedPos i = List.range i.length := by
      have := sorted_range hI (by rw [sortedPos_length]; have := sortedPos_lt vi; rw [c3, Nat.zero_add] at this; exact this)
      rw [sortedPos_length] at this; exact this
    have hJr : sortedPos j = List.range i.length := by
      have := sorted_range hJ (by rw [sortedPos_length, ← h2]; have := sortedPos_lt vj; rw [c3, Nat.zero_add] at this; exact this)
      rw [sortedPos_length, ← h2] at this; exact this
    have many : ∀ {α : Type} [Inhabited α] (w : List α), w.length = i.length → insertMany ((List.range i.length).zip w) [] = w := by
      intro α _ w hw
      have := insertMany_select w (List.range i.length) List.pairwise_lt_range (by rw [hw]; simp)
      have e1 : select (List.range i.length) w = w := by unfold select; rw [← hw]; exact map_nth_range w
      have e2 : removeAt (List.range i.length) w = [] := by
        unfold removeAt
        rw [List.filterMap_eq_nil_iff]
        intro p hp
        rw [if_pos (by rw [← hw]; exact hp)]
      rw [e1, e2] at this
      exact this
    have lwx : (sortedArg i x).length = i.length := sortedArg_length i x
    have lwy : (sortedArg j y).length = i.length := by rw [sortedArg_length]; exact h2.symm
    rw [hX0, hY0, hIr, hJr, many _ lwx, many _ lwy]
    have hd : dX e.f (sortedArg i x) (sortedArg j y) = detN i.length (fun m n => e.f (nth (sortedArg i x) m) (nth (sortedArg j y) n)) := by
      unfold dX; rw [lwx]; rfl
    subst hs
    refine ⟨?_, rfl, rfl, rfl, by simp, by omega, ?_, ?_, ?_⟩
    · exact G.of_core rfl rfl rfl rfl rfl rfl rfl rfl ⟨hcaps.k1, hcaps.w, hcaps.wk, hcaps.wk1⟩ (by simp only; omega)
    · rw [hX0, hY0, dX_nil, mul_one, hd, ← hr]; rfl
    · intro s2 h2'
      simp only [completeCase, completeInsertK, if_pos c3] at h2'
      split_ifs at h2' with h0
      rw [detN_mat] at h0
      rw [sortedPos_eq vi, sortedPos_eq vj, hIr, hJr, hrow, hcol, List.nil_append, placeNums_range] at h2'
      simp only [hxs, hys, List.nil_append] at h2'
      injection h2' with h2'
      have gX : getX s2 = sortedArg i x := by
        rw [← h2']
        refine Eq.trans (getX_eq _ (by simp)) ?_
        change (List.range i.length).map (nth (sortedArg i x)) = _
        rw [← lwx]; exact map_nth_range _
      have gY : getY s2 = sortedArg j y := by
        rw [← h2']
        refine Eq.trans (getY_eq _ (by simp)) ?_
        change (List.range i.length).map (nth (sortedArg j y)) = _
        rw [← lwy]; exact map_nth_range _
      refine ⟨⟨⟨?_, ?_, ?_, ?_, ?_, ?_, ?_⟩, ?_, ?_⟩, gX, gY⟩
      · rw [← h2']; exact lwx
      · rw [← h2']; exact lwy
      · rw [← h2']
      · rw [← h2']
      · rw [← h2']
        simp only
        have := invN_isInv (n := i.length) (at2 (mat i.length i.length (fun m n => e.f (nth (sortedArg i x) m) (nth (sortedArg j y) n)))) (by rw [detN_mat]; exact h0)
        exact this.congr (fun _ _ _ _ => rfl) (fun i hi j hj => at2_mat _ hi hj)
      · rw [← h2']; exact ⟨hcaps.k1, hcaps.w, hcaps.wk, hcaps.wk1⟩
      · rw [← h2']; simp only; omega
      · rw [← h2']; exact Or.inl rfl
      · rw [gX, gY, hd, ← h2']; simp only; rw [detN_mat]; simp [sortedArg]
    · intro hne
      simp only [completeCase, completeInsertK, if_pos c3]
      rw [hd] at hne
      rw [if_neg (by rw [detN_mat]; exact hne), sortedPos_eq vi, sortedPos_eq vj, hIr, hJr, hrow, hcol, List.nil_append, placeNums_range]
      exact ⟨_, rfl⟩
  · -- general case
    have hI := sortedPos_strict vi c2.1
    have hJ := sortedPos_strict vj c2.2
    refine ⟨h2, by omega, by omega, hI, hJ, ?_⟩
    injection h with hr hs
    have lwx : (sortedArg i x).length = i.length := sortedArg_length i x
    have lwy : (sortedArg j y).length = i.length := by rw [sortedArg_length]; exact h2.symm
    have lI : (sortedPos i).length = i.length := sortedPos_length i
    have lJ : (sortedPos j).length = i.length := by rw [sortedPos_length]; exact h2.symm
    have bI := sortedPos_lt vi
    have bJ := sortedPos_lt vj
    have hgx := getX_eq s G.row.length
    have hgy := getY_eq s G.col.length
    obtain ⟨x1, x2, x3⟩ := removeAt_insertMany (sortedPos i) (sortedArg i x) (getX s) (by omega) hI (by rw [getX_length, lI]; exact bI)
    obtain ⟨y1, y2, y3⟩ := removeAt_insertMany (sortedPos j) (sortedArg j y) (getY s) (by omega) hJ (by rw [getY_length, lJ]; exact bJ)
    rw [getX_length, lI] at x1
    rw [getY_length, lJ] at y1
    have hd := dX_insert e.f G.lx G.ly G.inv G.row G.col lwx lwy x1 y1 lI lJ hI hJ bI bJ (by rw [x2, hgx]) x3 (by rw [y2, hgy]) y3
    rw [← hgx, ← hgy] at hd
    -- the stored matrix
    have hksi : detN i.length (at2 (mat i.length i.length (fun m l => e.f (nth (sortedArg i x) m) (nth (sortedArg j y) l) -
        dot s.N (at2 (mat i.length s.N (fun l q => e.f (nth (sortedArg i x) l) (nth s.ys q))) m)
        (fun p => at2 (mat s.N i.length (fun q l => dot s.N (at2 s.inv q) (fun m => at2 (mat s.N i.length (fun q l => e.f (nth s.xs q) (nth (sortedArg j y) l))) m l))) p l)))) =
        detN i.length (xi e.f s.N (at2 s.inv) s.xs s.ys (sortedArg i x) (sortedArg j y)) :=
      detN_congr (fun m hm l hl => ksiK_eq e.f s.N i.length (at2 s.inv) s.xs s.ys _ _ hm hl)
    have hsum : idxSum ((argsort i).map (fun a => i.getD a 0)) ((argsort j).map (fun a => j.getD a 0)) = (((sortedPos i).sum + (sortedPos j).sum : Nat) : Int) := by
      rw [sortedPos_eq vi, sortedPos_eq vj, idxSum_cast _ _ (by omega)]
    have hfl := flip_cast (K := K) s.sign ((sortedPos i).sum + (sortedPos j).sum)
    rw [← hsum] at hfl
    have hfs := flip_sgn G.sgn (idxSum ((argsort i).map (fun a => i.getD a 0)) ((argsort j).map (fun a => j.getD a 0)))
    have hsq := sq_one (K := K) G.sgn
    have hGd := G.det
    have hk1 := G.caps.k1
    change detN i.length (at2 (mat i.length i.length (fun m l => e.f (nth (sortedArg i x) m) (nth (sortedArg j y) l) -
        dot s.N (at2 (mat i.length s.N (fun l q => e.f (nth (sortedArg i x) l) (nth s.ys q))) m)
        (fun p => at2 (mat s.N i.length (fun q l => dot s.N (at2 s.inv q) (fun m => at2 (mat s.N i.length (fun q l => e.f (nth s.xs q) (nth (sortedArg j y) l))) m l))) p l)))) *
        _ = r at hr
    rw [hksi] at hr
    subst hs
    refine ⟨?_, rfl, rfl, rfl, by simp, by omega, ?_, ?_, ?_⟩
    · exact G.of_core rfl rfl rfl rfl rfl rfl rfl rfl ⟨hcaps.k1, hcaps.w, hcaps.wk, hcaps.wk1⟩ (by simp only; omega)
    · rw [← hr, hd]
      push_cast
      rw [hfl]
      linear_combination (detN i.length (xi e.f s.N (at2 s.inv) s.xs s.ys (sortedArg i x) (sortedArg j y)) *
        (-1) ^ ((sortedPos i).sum + (sortedPos j).sum) * dX e.f (getX s) (getY s)) * hsq
    · intro s2 h2'
      simp only [completeCase, completeInsertK, if_neg c3] at h2'
      split_ifs at h2' with h0 h0'
      have fitI := sorted_fit (n := s.N) hI (by rw [lI]; exact bI)
      have fitJ := sorted_fit (n := s.N) hJ (by rw [lJ]; exact bJ)
      have hrow := insertNums_eq (sortedPos i) s.row (List.replicate i.length 0) (by rw [G.row.length]; exact fitI) (by simp [lI])
      have hcol := insertNums_eq (sortedPos j) s.col (List.replicate i.length 0) (by rw [G.col.length]; exact fitJ) (by simp [lJ])
      rw [G.row.length, lI] at hrow
      rw [G.col.length, lJ] at hcol
      rw [sortedPos_eq vi, sortedPos_eq vj] at hfl hfs
      rw [sortedPos_eq vi, sortedPos_eq vj, hrow, hcol] at h2'
      simp only at h2'
      injection h2' with h2'
      -- new tables are permutations
      have permMany : ∀ (I : List Nat) (n k : Nat) (r : List Nat), IsPerm n r → I.length = k → (∀ q (hq : q < I.length), I[q] ≤ n + q) →
          IsPerm (n + k) (insertMany (I.zip (List.range' n k)) r) := by
        intro I
        induction I with
        | nil => intro n k r hr hk _; simp at hk; subst hk; exact hr
        | cons a I ih =>
          intro n k r hr hk hb
          obtain ⟨k, rfl⟩ : ∃ k', k = k' + 1 := ⟨k - 1, by simp at hk; omega⟩
          rw [List.range'_succ]
          simp only [List.zip_cons_cons, insertMany]
          have h0 : a ≤ n := by have := hb 0 (by simp); simpa using this
          have := ih (n + 1) k (r.insertIdx a n) (hr.insertIdx a h0) (by simpa using hk) (by
            intro q hq
            have := hb (q + 1) (by simpa using hq)
            simp at this; omega)
          rw [show n + (k + 1) = n + 1 + k by omega]
          exact this
      have pr := permMany (sortedPos i) s.N i.length s.row G.row lI fitI
      have pc := permMany (sortedPos j) s.N i.length s.col G.col lJ fitJ
      have gX : getX s2 = insertMany ((sortedPos i).zip (sortedArg i x)) (getX s) := by
        rw [← h2']
        refine Eq.trans (getX_eq _ pr.length) ?_
        change (insertMany ((sortedPos i).zip (List.range' s.N i.length)) s.row).map (nth (s.xs ++ sortedArg i x)) = _
        rw [insertMany_map _ _ _ _ (by rw [G.row.length]; exact fitI), map_range'_nth _ _ G.lx lwx,
          map_nth_append _ _ (fun a ha => by rw [G.lx]; exact G.row.lt ha), ← hgx]
      have gY : getY s2 = insertMany ((sortedPos j).zip (sortedArg j y)) (getY s) := by
        rw [← h2']
        refine Eq.trans (getY_eq _ pc.length) ?_
        change (insertMany ((sortedPos j).zip (List.range' s.N i.length)) s.col).map (nth (s.ys ++ sortedArg j y)) = _
        rw [insertMany_map _ _ _ _ (by rw [G.col.length]; exact fitJ), map_range'_nth _ _ G.ly lwy,
          map_nth_append _ _ (fun a ha => by rw [G.ly]; exact G.col.lt ha), ← hgy]
      refine ⟨⟨⟨?_, ?_, ?_, ?_, ?_, ?_, ?_⟩, ?_, ?_⟩, gX, gY⟩
      · rw [← h2']; change (s.xs ++ sortedArg i x).length = s.N + i.length; rw [List.length_append, G.lx, lwx]
      · rw [← h2']; change (s.ys ++ sortedArg j y).length = s.N + i.length; rw [List.length_append, G.ly, lwy]
      · rw [← h2']; exact pr
      · rw [← h2']; exact pc
      · rw [← h2']
        clear h2' gX gY hrow hcol permMany pr pc
        change IsInv (s.N + i.length) (at2 (mat (s.N + i.length) (s.N + i.length) _)) (U e.f (s.xs ++ sortedArg i x) (s.ys ++ sortedArg j y))
        simp only [sortedArg] at lwx lwy ⊢
        generalize (argsort i).map (fun a => nth x a) = wx at h0 lwx lwy ⊢
        generalize (argsort j).map (fun a => nth y a) = wy at h0 lwx lwy ⊢
        have hcut : ∀ p < s.N, ∀ q < s.N, U e.f s.xs s.ys p q = U e.f (s.xs ++ wx) (s.ys ++ wy) p q := by
          intro p hp q hq
          unfold U
          rw [nth_append_left (by rw [G.lx]; exact hp), nth_append_left (by rw [G.ly]; exact hq)]
        have hinv : IsInv s.N (at2 s.inv) (U e.f (s.xs ++ wx) (s.ys ++ wy)) := G.inv.congr (fun _ _ _ _ => rfl) hcut
        have ex : ∀ m, nth (s.xs ++ wx) (s.N + m) = nth wx m := by intro m; rw [nth_append_right (by rw [G.lx]; omega), G.lx, Nat.add_sub_cancel_left]
        have ey : ∀ m, nth (s.ys ++ wy) (s.N + m) = nth wy m := by intro m; rw [nth_append_right (by rw [G.ly]; omega), G.ly, Nat.add_sub_cancel_left]
        have exl : ∀ p : Fin s.N, nth (s.xs ++ wx) p = nth s.xs p := fun p => nth_append_left (by rw [G.lx]; exact p.2)
        have eyl : ∀ p : Fin s.N, nth (s.ys ++ wy) p = nth s.ys p := fun p => nth_append_left (by rw [G.ly]; exact p.2)
        have hsch : ∀ m < i.length, ∀ l < i.length, at2 (mat i.length i.length (fun m l => e.f (nth wx m) (nth wy l) -
            dot s.N (at2 (mat i.length s.N (fun l q => e.f (nth wx l) (nth s.ys q))) m)
            (fun p => at2 (mat s.N i.length (fun q l => dot s.N (at2 s.inv q) (fun m => at2 (mat s.N i.length (fun q l => e.f (nth s.xs q) (nth wy l))) m l))) p l))) m l =
            schur s.N (at2 s.inv) (U e.f (s.xs ++ wx) (s.ys ++ wy)) m l := by
          intro m hm l hl
          rw [ksiK_eq e.f s.N i.length (at2 s.inv) s.xs s.ys wx wy hm hl]
          unfold schur xi U
          simp only [ex, ey, exl, eyl]
        have hb := invN_isInv (n := i.length) _ h0
        have hb' := hb.congr (fun _ _ _ _ => rfl) hsch
        -- products with the new columns and rows
        have hMB : ∀ p < s.N, ∀ l < i.length, at2 (mat s.N i.length (fun q l => dot s.N (at2 s.inv q) (fun m => at2 (mat s.N i.length (fun q l => e.f (nth s.xs q) (nth wy l))) m l))) p l =
            ∑ q : Fin s.N, at2 s.inv p q * U e.f (s.xs ++ wx) (s.ys ++ wy) q (s.N + l) := by
          intro p hp l hl
          rw [at2_mat _ hp hl, dot_eq]
          apply Finset.sum_congr rfl
          intro q _
          rw [at2_mat _ q.2 hl]; unfold U; rw [exl, ey]
        have hMC : ∀ m < i.length, ∀ q < s.N, dot s.N (at2 (mat i.length s.N (fun l q => e.f (nth wx l) (nth s.ys q))) m) (fun p => at2 s.inv p q) =
            ∑ p : Fin s.N, U e.f (s.xs ++ wx) (s.ys ++ wy) (s.N + m) p * at2 s.inv p q := by
          intro m hm q hq
          rw [dot_eq]
          apply Finset.sum_congr rfl
          intro p _
          rw [at2_mat _ hm p.2]; unfold U; rw [ex, eyl]
        apply hinv.border (k := i.length) _ hb'
        · intro p hp q hq
          rw [at2_mat _ (by omega) (by omega), if_pos ⟨hp, hq⟩]
          congr 1
          rw [dot_eq]
          apply Finset.sum_congr rfl
          intro l _
          rw [at2_mat _ (by omega) l.2, if_pos hp, hMB p hp l l.2, dot_eq, Finset.mul_sum]
          apply Finset.sum_congr rfl
          intro m _
          rw [at2_mat _ m.2 (by omega), if_pos hq, hMC m m.2 q hq]
          ring
        · intro p hp m hm
          rw [at2_mat _ (by omega) (by omega), if_neg (by omega), zero_add, dot_eq, ← Finset.sum_neg_distrib]
          apply Finset.sum_congr rfl
          intro l _
          rw [at2_mat _ (by omega) l.2, if_pos hp, hMB p hp l l.2]
          have : dot i.length (at2 (invN i.length (at2 (mat i.length i.length (fun m l => e.f (nth wx m) (nth wy l) -
              dot s.N (at2 (mat i.length s.N (fun l q => e.f (nth wx l) (nth s.ys q))) m)
              (fun p => at2 (mat s.N i.length (fun q l => dot s.N (at2 s.inv q) (fun m => at2 (mat s.N i.length (fun q l => e.f (nth s.xs q) (nth wy l))) m l))) p l))))) l)
              (fun m_1 => at2 (mat i.length (s.N + i.length) (fun l m => if m < s.N then dot s.N (at2 (mat i.length s.N (fun l q => e.f (nth wx l) (nth s.ys q))) l)
                (fun q => at2 s.inv q m) else if m - s.N = l then -1 else 0)) m_1 (s.N + m)) =
              - at2 (invN i.length (at2 (mat i.length i.length (fun m l => e.f (nth wx m) (nth wy l) -
              dot s.N (at2 (mat i.length s.N (fun l q => e.f (nth wx l) (nth s.ys q))) m)
              (fun p => at2 (mat s.N i.length (fun q l => dot s.N (at2 s.inv q) (fun m => at2 (mat s.N i.length (fun q l => e.f (nth s.xs q) (nth wy l))) m l))) p l))))) l m := by
            rw [← dot_delta (k := i.length) _ hm]
            apply dot_congr (fun _ _ => rfl)
            intro t ht
            rw [at2_mat _ ht (by omega), if_neg (by omega), Nat.add_sub_cancel_left]
          rw [this]; ring
        · intro l hl q hq
          rw [at2_mat _ (by omega) (by omega), if_neg (by omega), zero_add]
          have : ∀ h : Nat → K, dot i.length (at2 (mat (s.N + i.length) i.length (fun m l => if m < s.N then
              at2 (mat s.N i.length (fun q l => dot s.N (at2 s.inv q) (fun m => at2 (mat s.N i.length (fun q l => e.f (nth s.xs q) (nth wy l))) m l))) m l
              else if m - s.N = l then -1 else 0)) (s.N + l)) h = - h l := by
            intro h
            rw [← dot_delta' (k := i.length) h hl]
            apply dot_congr _ (fun _ _ => rfl)
            intro t ht
            rw [at2_mat _ (by omega) ht, if_neg (by omega), Nat.add_sub_cancel_left]
          rw [this, dot_eq]
          congr 1
          apply Finset.sum_congr rfl
          intro m _
          rw [at2_mat _ m.2 (by omega), if_pos hq, hMC m m.2 q hq]
        · intro l hl m hm
          rw [at2_mat _ (by omega) (by omega), if_neg (by omega), zero_add]
          have : ∀ h : Nat → K, dot i.length (at2 (mat (s.N + i.length) i.length (fun m l => if m < s.N then
              at2 (mat s.N i.length (fun q l => dot s.N (at2 s.inv q) (fun m => at2 (mat s.N i.length (fun q l => e.f (nth s.xs q) (nth wy l))) m l))) m l
              else if m - s.N = l then -1 else 0)) (s.N + l)) h = - h l := by
            intro h
            rw [← dot_delta' (k := i.length) h hl]
            apply dot_congr _ (fun _ _ => rfl)
            intro t ht
            rw [at2_mat _ (by omega) ht, if_neg (by omega), Nat.add_sub_cancel_left]
          rw [this]
          have h2 : ∀ h : Nat → K, dot i.length h (fun m_1 => at2 (mat i.length (s.N + i.length) (fun l m => if m < s.N then
              dot s.N (at2 (mat i.length s.N (fun l q => e.f (nth wx l) (nth s.ys q))) l)
                (fun q => at2 s.inv q m) else if m - s.N = l then -1 else 0)) m_1 (s.N + m)) = - h m := by
            intro h
            rw [← dot_delta (k := i.length) h hm]
            apply dot_congr (fun _ _ => rfl)
            intro t ht
            rw [at2_mat _ ht (by omega), if_neg (by omega), Nat.add_sub_cancel_left]
          rw [h2, neg_neg]
      · rw [← h2']; exact ⟨hcaps.k1, hcaps.w, hcaps.wk, hcaps.wk1⟩
      · rw [← h2']; simp only; omega
      · rw [← h2']; exact hfs
      · rw [gX, gY, hd, ← h2']
        change ((flip s.sign (idxSum ((sortedPos i).map (fun i : Nat => (i : Int))) ((sortedPos j).map (fun i : Nat => (i : Int)))) : Int) : K) * (s.det * _) = _
        rw [hfl]
        have := hksi
        simp only [sortedArg] at this ⊢
        rw [this]
        linear_combination ((-1) ^ ((sortedPos i).sum + (sortedPos j).sum) *
          detN i.length (xi e.f s.N (at2 s.inv) s.xs s.ys ((argsort i).map (fun a => nth x a)) ((argsort j).map (fun a => nth y a)))) * hGd
    · intro hne
      simp only [completeCase, completeInsertK, if_neg c3]
      have fitI := sorted_fit (n := s.N) hI (by rw [lI]; exact bI)
      have fitJ := sorted_fit (n := s.N) hJ (by rw [lJ]; exact bJ)
      have hrow := insertNums_eq (sortedPos i) s.row (List.replicate i.length 0) (by rw [G.row.length]; exact fitI) (by simp [lI])
      have hcol := insertNums_eq (sortedPos j) s.col (List.replicate i.length 0) (by rw [G.col.length]; exact fitJ) (by simp [lJ])
      rw [G.row.length, lI] at hrow
      rw [G.col.length, lJ] at hcol
      have hk := hksi
      simp only [sortedArg] at hk
      rw [if_neg]
      · rw [if_neg]
        · rw [sortedPos_eq vi, sortedPos_eq vj, hrow, hcol]
          exact ⟨_, rfl⟩
        · have := hcaps.wk
          simp only at this
          by_cases hb2 : 2 ≤ b
          · have := this hb2; omega
          · have h1 := hcaps.wk1 (by simp only; omega)
            simp only at h1
            omega
      · intro h0
        apply hne
        rw [hd]
        have : detN i.length (xi e.f s.N (at2 s.inv) s.xs s.ys (sortedArg i x) (sortedArg j y)) = 0 := by rw [← hksi]; exact h0
        rw [this]; ring

end

end Verif.DetManip
