import Mathlib.Algebra.Order.Field.Rat
import Mathlib.Algebra.Order.Floor.Ring
import Mathlib.Data.Rat.Floor
import Mathlib.Data.List.GetD
import Mathlib.Data.Finset.Card
import Mathlib.Tactic.Linarith
import Mathlib.Tactic.Ring
import Mathlib.Tactic.FieldSimp
import Mathlib.Tactic.NormNum
import Mathlib.Tactic.Positivity

/-!
# Property C159: the points along a path through the Brillouin zone in plots

Source: `/repo/python/triqs/gf/plot/select_indices.py` (22-107), `/repo/python/triqs/gf/plot/bz.py` (53-76).

Simplifications: numbers are exact. `closest_point_in_line` compares the squares of the distances, which are in the same order as the distances.
The lengths of the segments, that need a root, are parameters; a division by zero is an error.
-/

namespace Verif.PathPoints

/-! ## Model -/

section
variable {K : Type} [Field K] [LinearOrder K]

/-- the square of `dist`, `select_indices.py` 22-24 -/
def sq (x y : K × K) : K := (x.1 - y.1) ^ 2 + (x.2 - y.2) ^ 2

/-- the loop 44-50; `none` is `float('inf')` -/
def minLoop : Option K → List K → Option K
  | m, [] => m
  | none, d :: l => minLoop (some d) l
  | some m, d :: l => if d ≤ m then minLoop (some d) l else minLoop (some m) l

/-- `closest_point_in_line`, 34-55; `none` is the exception -/
def closestPoints (x : K × K) (L : List (K × K)) : Option (List ℕ) :=
  match minLoop none (L.map (sq x)) with
  | none => none
  | some m => some ((List.range L.length).filter fun i => (L.map (sq x)).getD i 0 = m)

/-- line 75 -/
def onLine (A B : K × K) (N i : ℕ) : K × K := (A.1 + (B.1 - A.1) * (i / (N - 1)), A.2 + (B.2 - A.2) * (i / (N - 1)))

/-- the loop 74-81 over the points `is` -/
def visit (A B : K × K) (L : List (K × K)) (N : ℕ) : List ℕ → List ℕ → Option (List ℕ)
  | acc, [] => some acc
  | acc, i :: is =>
    match closestPoints (onLine A B N i) L with
    | none => none
    | some [] => none
    | some (c :: _) => if acc.count c = 0 then visit A B L N (acc ++ [c]) is else visit A B L N acc is

/-- what a loop shows after some turns -/
inductive Turn (α : Type) where
  | running
  | error
  | done (a : α)
deriving DecidableEq

/-- the loop 68-85: at most `fuel` turns -/
def closestLoop (A B : K × K) (L : List (K × K)) : (fuel : ℕ) → (size N : ℕ) → Turn (List ℕ)
  | 0, _, _ => .running
  | fuel + 1, size, N =>
    match visit A B L N [] (List.range N) with
    | none => .error
    | some c => if c.length = size then .done c else closestLoop A B L fuel c.length (2 * N)

/-- `closest_to`, 58-87: the first test (68) compares with -1 and passes -/
def closestTo (A B : K × K) (L : List (K × K)) (fuel : ℕ) : Turn (List ℕ) := closestLoop A B L fuel 0 2

/-- `round` of Python: halves to the even number -/
def pyRound [FloorRing K] (x : K) : ℤ :=
  if x - ⌊x⌋ < 1 / 2 then ⌊x⌋ else if 1 / 2 < x - ⌊x⌋ then ⌊x⌋ + 1 else if ⌊x⌋ % 2 = 0 then ⌊x⌋ else ⌊x⌋ + 1

/-- `pick_selection_vec`, 27-31: every `stride`-th element; a stride of zero raises, a negative one selects nothing -/
def pick (data : List ℕ) (stride : ℤ) : Option (List ℕ) :=
  if stride = 0 then none
  else if stride < 0 then some []
  else some ((List.range ((data.length + stride.toNat - 1) / stride.toNat)).map fun k => data.getD (k * stride.toNat) 0)

/-- the loop 93-103 of `select_path_indices` over the segments: their lengths and what `closest_to` returns for them; `ratio` is set by the first -/
def selectLoop [FloorRing K] (ratio : Option K) (ind : List ℕ) (high : List (ℕ × ℕ)) : List (K × List ℕ) → Option (List ℕ × List (ℕ × ℕ))
  | [] => some (ind, high)
  | (d, c) :: l =>
    match c with
    | [] => none
    | c0 :: _ =>
      let high' := if ratio.isNone then high ++ [(0, c0)] else high
      let r := ratio.getD (d / c.length)
      if d = 0 then none
      else
        match pick c (pyRound (c.length / d * r)) with
        | none => none
        | some p =>
          match p.getLast? with
          | none => none
          | some last => selectLoop (some r) (ind ++ p) (high' ++ [((ind ++ p).length, last)]) l

def selectPath [FloorRing K] (segs : List (K × List ℕ)) : Option (List ℕ × List (ℕ × ℕ)) := selectLoop none [] [] segs

/-- `generate_points`, `bz.py` 57-63 -/
def genPoints (A B : K × K) (n : ℕ) : Option (List (K × K)) :=
  if n = 1 then none
  else some ((List.range n).map fun i : ℕ => (A.1 + (B.1 - A.1) / (n - 1) * i, A.2 + (B.2 - A.2) / (n - 1) * i))

/-- the loop 70-75 over the segments with their lengths -/
def genLoop [FloorRing K] (n : ℕ) (total : K) (pts : List (K × K)) (high : List ℕ) : List ((K × K) × (K × K) × K) → Option (List (K × K) × List ℕ)
  | [] => some (pts, high)
  | (a, b, d) :: l =>
    if total = 0 then none
    else
      match genPoints a b ⌊n * d / total⌋.toNat with
      | none => none
      | some p => genLoop n total (pts ++ p) (high ++ [(pts ++ p).length]) l

/-- `generate_points_on_path`, 64-76 -/
def genPath [FloorRing K] (n : ℕ) (segs : List ((K × K) × (K × K) × K)) : Option (List (K × K) × List ℕ) :=
  genLoop n (segs.map fun s => s.2.2).sum [] [0] segs

end

/-! ## Specification -/

section
variable {K : Type} [Field K] [LinearOrder K]

/-- no point of the list is nearer to `x` than the one with index `j` -/
def Nearest (x : K × K) (L : List (K × K)) (j : ℕ) : Prop :=
  ∃ p, L[j]? = some p ∧ ∀ q ∈ L, (x.1 - p.1) ^ 2 + (x.2 - p.2) ^ 2 ≤ (x.1 - q.1) ^ 2 + (x.2 - q.2) ^ 2

/-- and it is the first such point -/
def First (x : K × K) (L : List (K × K)) (j : ℕ) : Prop := Nearest x L j ∧ ∀ k, Nearest x L k → j ≤ k

end

/-! ## Proofs -/

section
variable {K : Type} [Field K] [LinearOrder K]

theorem minLoop_some (m : K) (l : List K) : ∃ r, minLoop (some m) l = some r ∧ r ∈ m :: l ∧ ∀ y ∈ m :: l, r ≤ y := by
  induction l generalizing m with
  | nil => exact ⟨m, rfl, by simp, by simp⟩
  | cons d l ih =>
    simp only [minLoop]
    split
    · rename_i h
      obtain ⟨r, h1, h2, h3⟩ := ih d
      refine ⟨r, h1, List.mem_cons_of_mem _ h2, fun y hy => ?_⟩
      rcases List.mem_cons.mp hy with rfl | hy
      · exact (h3 d List.mem_cons_self).trans h
      · exact h3 y hy
    · rename_i h
      obtain ⟨r, h1, h2, h3⟩ := ih m
      refine ⟨r, h1, ?_, fun y hy => ?_⟩
      · rcases List.mem_cons.mp h2 with rfl | h2
        · exact List.mem_cons_self
        · exact List.mem_cons_of_mem _ (List.mem_cons_of_mem _ h2)
      · rcases List.mem_cons.mp hy with rfl | hy
        · exact h3 _ List.mem_cons_self
        · rcases List.mem_cons.mp hy with rfl | hy
          · exact (h3 m List.mem_cons_self).trans (not_le.mp h).le
          · exact h3 y (List.mem_cons_of_mem _ hy)

/-- exactly the indices of the nearest points, in order; an exception exactly for an empty list -/
theorem C159_closest (x : K × K) (L : List (K × K)) : (closestPoints x L = none ↔ L = []) ∧ ∀ l, closestPoints x L = some l →
    l.Pairwise (· < ·) ∧ l ≠ [] ∧ ∀ j, j ∈ l ↔ Nearest x L j := by
  cases L with
  | nil => simp [closestPoints, minLoop]
  | cons p L =>
    obtain ⟨r, h1, h2, h3⟩ := minLoop_some (sq x p) (L.map (sq x))
    have h1' : minLoop none ((p :: L).map (sq x)) = some r := h1
    have h2' : r ∈ (p :: L).map (sq x) := h2
    have h3' : ∀ y ∈ (p :: L).map (sq x), r ≤ y := h3
    unfold closestPoints
    rw [h1']
    refine ⟨by simp, ?_⟩
    intro l hl
    cases hl
    have hm : ∀ j, j ∈ (List.range (p :: L).length).filter (fun i => ((p :: L).map (sq x)).getD i 0 = r) ↔ Nearest x (p :: L) j := by
      intro j
      simp only [List.mem_filter, List.mem_range, decide_eq_true_eq]
      constructor
      · rintro ⟨hj, he⟩
        refine ⟨(p :: L)[j], List.getElem?_eq_getElem hj, fun q hq => ?_⟩
        rw [List.getD_eq_getElem _ _ (by simpa using hj), List.getElem_map] at he
        exact he.le.trans (h3' _ (List.mem_map_of_mem hq))
      · rintro ⟨q, hq, hle⟩
        obtain ⟨hj, rfl⟩ := List.getElem?_eq_some_iff.mp hq
        refine ⟨hj, ?_⟩
        rw [List.getD_eq_getElem _ _ (by simpa using hj), List.getElem_map]
        obtain ⟨s, hs, rfl⟩ := List.mem_map.mp h2'
        exact le_antisymm (hle s hs) (h3' _ (List.mem_map_of_mem (List.getElem_mem _)))
    refine ⟨List.pairwise_lt_range.filter _, ?_, hm⟩
    obtain ⟨s, hs, hr⟩ := List.mem_map.mp h2'
    obtain ⟨j, hj, rfl⟩ := List.mem_iff_getElem.mp hs
    refine List.ne_nil_of_mem ((hm j).mpr ⟨_, List.getElem?_eq_getElem hj, fun q hq => ?_⟩)
    exact hr.le.trans (h3' _ (List.mem_map_of_mem hq))

theorem closest_first (x : K × K) (L : List (K × K)) (hL : L ≠ []) : ∃ c r, closestPoints x L = some (c :: r) ∧ First x L c := by
  obtain ⟨h1, h2⟩ := C159_closest x L
  obtain ⟨l, hl⟩ := Option.ne_none_iff_exists'.mp (fun h => hL (h1.mp h))
  obtain ⟨hp, hne, hm⟩ := h2 l hl
  cases l with
  | nil => exact absurd rfl hne
  | cons c r =>
    refine ⟨c, r, hl, (hm c).mp List.mem_cons_self, fun k hk => ?_⟩
    rcases List.mem_cons.mp ((hm k).mpr hk) with rfl | hk
    · exact le_rfl
    · exact ((List.pairwise_cons.mp hp).1 k hk).le

theorem First.unique {x : K × K} {L : List (K × K)} {j k : ℕ} (hj : First x L j) (hk : First x L k) : j = k :=
  le_antisymm (hj.2 k hk.1) (hk.2 j hj.1)

theorem visit_spec (A B : K × K) (L : List (K × K)) (hL : L ≠ []) (N : ℕ) (is acc : List ℕ) (ha : acc.Nodup) :
    ∃ c, visit A B L N acc is = some c ∧ c.Nodup ∧ acc <+: c ∧ ∀ j, j ∈ c ↔ j ∈ acc ∨ ∃ i ∈ is, First (onLine A B N i) L j := by
  induction is generalizing acc with
  | nil => exact ⟨acc, rfl, ha, List.prefix_rfl, by simp⟩
  | cons i is ih =>
    obtain ⟨c, r, hc, hf⟩ := closest_first (onLine A B N i) L hL
    have hi : ∀ j, First (onLine A B N i) L j ↔ j = c := fun j => ⟨fun h => h.unique hf, fun h => h ▸ hf⟩
    simp only [visit, hc]
    split
    · rename_i h
      rw [List.count_eq_zero] at h
      obtain ⟨s, h1, h2, h3, h4⟩ := ih (acc ++ [c]) (ha.append (List.nodup_singleton c) (by simpa using h))
      refine ⟨s, h1, h2, (List.prefix_append _ _).trans h3, fun j => ?_⟩
      rw [h4]
      simp only [List.mem_append, List.mem_singleton, List.mem_cons, List.not_mem_nil, or_false, exists_eq_or_imp, hi, or_assoc]
    · rename_i h
      rw [List.count_eq_zero, not_not] at h
      obtain ⟨s, h1, h2, h3, h4⟩ := ih acc ha
      refine ⟨s, h1, h2, h3, fun j => ?_⟩
      rw [h4]
      simp only [List.mem_cons, exists_eq_or_imp, hi]
      constructor
      · rintro (h | h)
        · exact Or.inl h
        · exact Or.inr (Or.inr h)
      · rintro (h' | rfl | h')
        · exact Or.inl h'
        · exact Or.inl h
        · exact Or.inr h'

theorem visit_range (A B : K × K) (L : List (K × K)) (hL : L ≠ []) (N : ℕ) : ∃ c, visit A B L N [] (List.range N) = some c ∧ c.Nodup ∧
    ∀ j, j ∈ c ↔ ∃ i < N, First (onLine A B N i) L j := by
  obtain ⟨c, h1, h2, _, h4⟩ := visit_spec A B L hL N (List.range N) [] List.nodup_nil
  exact ⟨c, h1, h2, fun j => by rw [h4]; simp⟩

theorem visit_head (A B : K × K) (L : List (K × K)) (hL : L ≠ []) (N : ℕ) (hN : 1 ≤ N) (c : List ℕ) (h : visit A B L N [] (List.range N) = some c) :
    ∃ j, c.head? = some j ∧ First A L j := by
  obtain ⟨M, rfl⟩ : ∃ M, N = M + 1 := ⟨N - 1, by omega⟩
  obtain ⟨j, r, hj, hf⟩ := closest_first (onLine A B (M + 1) 0) L hL
  rw [List.range_succ_eq_map] at h
  simp only [visit, hj, List.count_nil, if_true, List.nil_append] at h
  obtain ⟨s, h1, _, h3, _⟩ := visit_spec A B L hL (M + 1) ((List.range M).map Nat.succ) [j] (List.nodup_singleton j)
  rw [h1] at h
  cases h
  obtain ⟨t, rfl⟩ := h3
  refine ⟨j, rfl, ?_⟩
  have : onLine A B (M + 1) 0 = A := by simp [onLine]
  rwa [this] at hf

theorem loop_done (A B : K × K) (L : List (K × K)) (fuel size N : ℕ) (c : List ℕ) (h : closestLoop A B L fuel size N = .done c) :
    ∃ k, visit A B L (2 ^ k * N) [] (List.range (2 ^ k * N)) = some c := by
  induction fuel generalizing size N with
  | zero => simp [closestLoop] at h
  | succ fuel ih =>
    simp only [closestLoop] at h
    cases hv : visit A B L N [] (List.range N) with
    | none => rw [hv] at h; cases h
    | some s =>
      rw [hv] at h
      simp only at h
      split at h
      · cases h
        exact ⟨0, by simpa using hv⟩
      · obtain ⟨k, hk⟩ := ih _ _ h
        refine ⟨k + 1, ?_⟩
        rw [show 2 ^ (k + 1) * N = 2 ^ k * (2 * N) by rw [pow_succ]; ring]
        exact hk

/-- if `closest_to` returns: no index twice, each one nearest to some point between the ends, the first one nearest to the start, and the one
nearest to the end among them. With an empty mesh it raises. -/
theorem C159_closest_to [IsStrictOrderedRing K] (A B : K × K) (L : List (K × K)) (fuel : ℕ) :
    (L = [] → closestTo A B L (fuel + 1) = .error) ∧ ∀ c, closestTo A B L fuel = .done c → L ≠ [] ∧ c.Nodup ∧ (∃ j, c.head? = some j ∧ First A L j) ∧
      (∃ j ∈ c, First B L j) ∧
      ∀ j ∈ c, ∃ t : K, 0 ≤ t ∧ t ≤ 1 ∧ First (A.1 + (B.1 - A.1) * t, A.2 + (B.2 - A.2) * t) L j := by
  have hemp : ∀ (N : ℕ), 1 ≤ N → visit A B ([] : List (K × K)) N [] (List.range N) = none := by
    intro N hN
    obtain ⟨M, rfl⟩ : ∃ M, N = M + 1 := ⟨N - 1, by omega⟩
    rw [List.range_succ_eq_map]
    simp [visit, closestPoints, minLoop]
  constructor
  · rintro rfl
    simp [closestTo, closestLoop, hemp 2 (by norm_num)]
  · intro c h
    obtain ⟨k, hk⟩ := loop_done A B L fuel 0 2 c h
    have hp : 0 < 2 ^ k := by positivity
    generalize hN : 2 ^ k * 2 = N at hk
    have hN2 : 2 ≤ N := by omega
    have hL : L ≠ [] := by
      rintro rfl
      rw [hemp N (by omega)] at hk
      cases hk
    obtain ⟨c', h1, h2, h4⟩ := visit_range A B L hL N
    rw [h1] at hk
    cases hk
    have hK : (0 : K) < (N : K) - 1 := by
      have : (2 : K) ≤ N := by exact_mod_cast hN2
      linarith
    refine ⟨hL, h2, visit_head A B L hL N (by omega) c h1, ?_, ?_⟩
    · obtain ⟨j, _, _, hj⟩ := closest_first B L hL
      refine ⟨j, (h4 j).mpr ⟨N - 1, by omega, ?_⟩, hj⟩
      have : onLine A B N (N - 1) = B := by
        unfold onLine
        rw [Nat.cast_sub (by omega), Nat.cast_one, div_self hK.ne']
        ext <;> simp
      rwa [this]
    · intro j hj
      obtain ⟨i, hi, hf⟩ := (h4 j).mp hj
      refine ⟨i / (N - 1), by positivity, ?_, hf⟩
      rw [div_le_one hK]
      have : ((i + 1 : ℕ) : K) ≤ N := by exact_mod_cast hi
      push_cast at this
      linarith

end

/-! ### The loop need not end -/

/-- a mesh of three points -/
def mesh3 : List (ℚ × ℚ) := [(1, 1), (0, 0), (2, 0)]

theorem near3 (x : ℚ) : First (x, 0) mesh3 (if x < 1 then 1 else if x = 1 then 0 else 2) := by
  have hs : ∀ k, Nearest (x, 0) mesh3 k → k = 0 ∧ (x - 1) ^ 2 + 1 ≤ x ^ 2 ∧ (x - 1) ^ 2 + 1 ≤ (x - 2) ^ 2 ∨ k = 1 ∧ x ^ 2 ≤ (x - 2) ^ 2 ∨ k = 2 ∧ (x - 2) ^ 2 ≤ x ^ 2 := by
    rintro k ⟨p, hp, hle⟩
    match k, hp with
    | 0, hp => simp [mesh3] at hp; subst hp; simp [mesh3, sq] at hle; exact Or.inl ⟨rfl, hle⟩
    | 1, hp => simp [mesh3] at hp; subst hp; simp [mesh3, sq] at hle; exact Or.inr (Or.inl ⟨rfl, hle.2⟩)
    | 2, hp => simp [mesh3] at hp; subst hp; simp [mesh3, sq] at hle; exact Or.inr (Or.inr ⟨rfl, hle.2⟩)
    | k + 3, hp => simp [mesh3] at hp
  split
  · rename_i h
    refine ⟨⟨(0, 0), rfl, ?_⟩, ?_⟩
    · intro q hq
      simp [mesh3] at hq
      rcases hq with rfl | rfl | rfl <;> simp [sq] <;> nlinarith
    · intro k hk
      rcases hs k hk with ⟨rfl, h1, h2⟩ | ⟨rfl, h1⟩ | ⟨rfl, h1⟩
      · nlinarith
      · exact le_rfl
      · norm_num
  · split
    · rename_i h
      subst h
      refine ⟨⟨(1, 1), rfl, ?_⟩, fun k _ => Nat.zero_le k⟩
      intro q hq
      simp [mesh3] at hq
      rcases hq with rfl | rfl | rfl <;> norm_num [sq]
    · rename_i h h'
      have h1 : 1 < x := lt_of_le_of_ne (not_lt.mp h) (Ne.symm h')
      refine ⟨⟨(2, 0), rfl, ?_⟩, ?_⟩
      · intro q hq
        simp [mesh3] at hq
        rcases hq with rfl | rfl | rfl <;> simp [sq] <;> nlinarith
      · intro k hk
        rcases hs k hk with ⟨rfl, h1, h2⟩ | ⟨rfl, h1⟩ | ⟨rfl, h1⟩
        · nlinarith
        · nlinarith
        · exact le_rfl

theorem size3 (k : ℕ) : ∃ c, visit (0, 0) (3, 0) mesh3 (2 ^ (k + 1)) [] (List.range (2 ^ (k + 1))) = some c ∧
    c.length = if k % 2 = 1 then 3 else 2 := by
  obtain ⟨c, h1, h2, h4⟩ := visit_range ((0 : ℚ), (0 : ℚ)) (3, 0) mesh3 (by simp [mesh3]) (2 ^ (k + 1))
  refine ⟨c, h1, ?_⟩
  generalize hN : 2 ^ (k + 1) = N at *
  have hp : 0 < 2 ^ k := by positivity
  have hN2 : 2 ≤ N := by rw [← hN, pow_succ]; omega
  have hK : (0 : ℚ) < (N : ℚ) - 1 := by
    have : (2 : ℚ) ≤ N := by exact_mod_cast hN2
    linarith
  have hx : ∀ i, onLine ((0 : ℚ), (0 : ℚ)) (3, 0) N i = (3 * ((i : ℚ) / (N - 1)), 0) := by intro i; simp [onLine]
  have hm : ∀ j, j ∈ c ↔ ∃ i < N, j = if (3 * ((i : ℚ) / (N - 1))) < 1 then 1 else if (3 * ((i : ℚ) / (N - 1))) = 1 then 0 else 2 := by
    intro j
    rw [h4]
    refine exists_congr fun i => and_congr_right fun _ => ?_
    rw [hx]
    exact ⟨fun h => h.unique (near3 _), fun h => h ▸ near3 _⟩
  have m1 : 1 ∈ c := (hm 1).mpr ⟨0, by omega, by simp⟩
  have m2 : 2 ∈ c := (hm 2).mpr ⟨N - 1, by omega, by
    rw [Nat.cast_sub (by omega), Nat.cast_one, div_self hK.ne']
    norm_num⟩
  have m0 : 0 ∈ c ↔ k % 2 = 1 := by
    have h3 : ∀ i : ℕ, 3 * ((i : ℚ) / (N - 1)) = 1 ↔ 3 * i + 1 = N := by
      intro i
      rw [← mul_div_assoc, div_eq_one_iff_eq hK.ne']
      constructor
      · intro h
        have : ((3 * i + 1 : ℕ) : ℚ) = N := by push_cast; linarith
        exact_mod_cast this
      · rintro h
        rw [← h]
        push_cast
        ring
    have hmod : ∀ k : ℕ, 2 ^ (k + 1) % 3 = if k % 2 = 1 then 1 else 2 := by
      intro k
      induction k with
      | zero => rfl
      | succ k ih => rw [pow_succ, Nat.mul_mod, ih]; split <;> split <;> omega
    rw [hm]
    constructor
    · rintro ⟨i, _, h⟩
      split at h
      · cases h
      · split at h
        · rename_i he
          have := (h3 i).mp he
          have := hmod k
          rw [hN] at this
          split at this <;> omega
        · cases h
    · intro hk
      have := hmod k
      rw [hN, if_pos hk] at this
      refine ⟨N / 3, by omega, ?_⟩
      have he := (h3 (N / 3)).mpr (by omega)
      rw [he]
      norm_num
  have hall : ∀ j ∈ c, j = 0 ∨ j = 1 ∨ j = 2 := by
    intro j hj
    obtain ⟨i, _, h⟩ := (hm j).mp hj
    split at h
    · exact Or.inr (Or.inl h)
    · split at h
      · exact Or.inl h
      · exact Or.inr (Or.inr h)
  rw [← List.toFinset_card_of_nodup h2]
  split
  · rename_i hk
    have : c.toFinset = {0, 1, 2} := by
      ext j
      simp only [List.mem_toFinset, Finset.mem_insert, Finset.mem_singleton]
      refine ⟨hall j, ?_⟩
      rintro (rfl | rfl | rfl)
      · exact m0.mpr hk
      · exact m1
      · exact m2
    rw [this]; rfl
  · rename_i hk
    have : c.toFinset = {1, 2} := by
      ext j
      simp only [List.mem_toFinset, Finset.mem_insert, Finset.mem_singleton]
      constructor
      · intro hj
        rcases hall j hj with rfl | h
        · exact absurd (m0.mp hj) hk
        · exact h
      · rintro (rfl | rfl)
        · exact m1
        · exact m2
    rw [this]; rfl

/-- `closest_to` does not always end: from (0,0) to (3,0) in the mesh (1,1), (0,0), (2,0) it finds two and three points in turn -/
theorem C159_endless (fuel : ℕ) : closestTo ((0 : ℚ), (0 : ℚ)) (3, 0) mesh3 fuel = .running := by
  have gen : ∀ fuel k size, size ≠ (if k % 2 = 1 then 3 else 2) →
      closestLoop ((0 : ℚ), (0 : ℚ)) (3, 0) mesh3 fuel size (2 ^ (k + 1)) = .running := by
    intro fuel
    induction fuel with
    | zero => intros; rfl
    | succ fuel ih =>
      intro k size hs
      obtain ⟨c, h1, h2⟩ := size3 k
      simp only [closestLoop, h1]
      rw [if_neg (by rw [h2]; exact Ne.symm hs), h2, show 2 * 2 ^ (k + 1) = 2 ^ (k + 1 + 1) by rw [pow_succ 2 (k + 1)]; ring]
      apply ih
      split <;> split <;> omega
  exact gen fuel 0 0 (by norm_num)

/-- it may end too early: the point (15,0) lies in the middle of the path from (0,0) to (30,0) and is not found -/
theorem C159_missed : closestTo ((0 : ℚ), (0 : ℚ)) (30, 0) [(5, 0), (25, 0), (15, 0)] 2 = .done [0, 1] ∧
    First ((15 : ℚ), (0 : ℚ)) [(5, 0), (25, 0), (15, 0)] 2 := by
  constructor
  · decide +kernel
  · obtain ⟨c, r, h, hf⟩ := closest_first ((15 : ℚ), (0 : ℚ)) [(5, 0), (25, 0), (15, 0)] (by simp)
    have : closestPoints ((15 : ℚ), (0 : ℚ)) [(5, 0), (25, 0), (15, 0)] = some [2] := by decide +kernel
    rw [this] at h
    simp only [Option.some.injEq, List.cons.injEq] at h
    rw [h.1]
    exact hf

/-! ### Points generated on a path -/

section
variable {K : Type} [Field K] [LinearOrder K] [IsStrictOrderedRing K]

/-- `generate_points`: an error exactly for one point; else `n` points, the first and the last are the ends, all steps are equal -/
theorem C159_points (A B : K × K) (n : ℕ) : (genPoints A B n = none ↔ n = 1) ∧ ∀ l, genPoints A B n = some l → l.length = n ∧
    (2 ≤ n → l[0]? = some A ∧ l[n - 1]? = some B) ∧
    ∀ i p q, l[i]? = some p → l[i + 1]? = some q → (n - 1) * (q.1 - p.1) = B.1 - A.1 ∧ (n - 1) * (q.2 - p.2) = B.2 - A.2 := by
  unfold genPoints
  constructor
  · split <;> simp_all
  · intro l hl
    split at hl
    · cases hl
    · cases hl
      have hK : 2 ≤ n → ((n : K) - 1) ≠ 0 := by
        intro h
        have : (2 : K) ≤ n := by exact_mod_cast h
        have : (0 : K) < (n : K) - 1 := by linarith
        exact this.ne'
      refine ⟨by simp, ?_, ?_⟩
      · intro h2
        have := hK h2
        constructor
        · simp [List.getElem?_map, List.getElem?_range (show 0 < n by omega)]
        · simp only [List.getElem?_map, List.getElem?_range (show n - 1 < n by omega), Option.map_some, Option.some.injEq]
          rw [Nat.cast_sub (by omega), Nat.cast_one, div_mul_cancel₀ _ this, div_mul_cancel₀ _ this]
          ext <;> simp
      · intro i p q hp hq
        obtain ⟨h1, e1⟩ := List.getElem?_eq_some_iff.mp hp
        obtain ⟨h2, e2⟩ := List.getElem?_eq_some_iff.mp hq
        simp only [List.length_map, List.length_range] at h1 h2
        have := hK (by omega)
        simp only [List.getElem_map, List.getElem_range] at e1 e2
        rw [← e1, ← e2]
        push_cast
        constructor <;> field_simp <;> ring

/-- the ticks are the numbers of points up to the ends of the segments, and there are at most `n` points, if no length is negative -/
theorem C159_path [FloorRing K] (n : ℕ) (segs : List ((K × K) × (K × K) × K)) (hs : ∀ s ∈ segs, 0 ≤ s.2.2) (pts : List (K × K)) (high : List ℕ)
    (h : genPath n segs = some (pts, high)) : pts.length ≤ n ∧ high.length = segs.length + 1 ∧ high.getLast? = some pts.length ∧
      (segs ≠ [] → n < pts.length + segs.length) := by
  set total := (segs.map fun s => s.2.2).sum with ht
  have h0 : 0 ≤ total := List.sum_nonneg fun x hx => by
    obtain ⟨s, h, rfl⟩ := List.mem_map.mp hx
    exact hs s h
  have gen : ∀ (l : List ((K × K) × (K × K) × K)) (p : List (K × K)) (hg : List ℕ), (∀ s ∈ l, 0 ≤ s.2.2) → 0 < total → hg.getLast? = some p.length →
      genLoop n total p hg l = some (pts, high) → (pts.length : K) ≤ p.length + n * (l.map fun s => s.2.2).sum / total ∧
        high.length = hg.length + l.length ∧ high.getLast? = some pts.length ∧
        (p.length + n * (l.map fun s => s.2.2).sum / total : K) ≤ pts.length + l.length ∧
        (l ≠ [] → (p.length + n * (l.map fun s => s.2.2).sum / total : K) < pts.length + l.length) := by
    intro l
    induction l with
    | nil =>
      intro p hg _ _ hl h
      simp only [genLoop, Option.some.injEq, Prod.mk.injEq] at h
      obtain ⟨rfl, rfl⟩ := h
      simp [hl]
    | cons s l ih =>
      intro p hg hs' hpos hl h
      obtain ⟨a, b, d⟩ := s
      simp only [genLoop, if_neg hpos.ne'] at h
      cases hq : genPoints a b ⌊n * d / total⌋.toNat with
      | none => rw [hq] at h; cases h
      | some q =>
        rw [hq] at h
        simp only at h
        have hd : 0 ≤ d := hs' _ List.mem_cons_self
        have hx : (0 : K) ≤ n * d / total := by positivity
        have hlen : q.length = ⌊n * d / total⌋.toNat := ((C159_points a b _).2 q hq).1
        have hcast : (q.length : K) = (⌊n * d / total⌋ : K) := by
          rw [hlen, ← Int.cast_natCast, Int.toNat_of_nonneg (Int.floor_nonneg.mpr hx)]
        obtain ⟨r1, r2, r3, r4, _⟩ := ih (p ++ q) (hg ++ [(p ++ q).length]) (fun s hs => hs' s (List.mem_cons_of_mem _ hs)) hpos (by simp) h
        have e : (n * (List.map (fun s => s.2.2) ((a, b, d) :: l)).sum / total : K) = n * d / total + n * (l.map fun s => s.2.2).sum / total := by
          simp only [List.map_cons, List.sum_cons]
          ring
        have f1 := Int.floor_le (n * d / total)
        have f2 := Int.lt_floor_add_one (n * d / total)
        rw [e]
        simp only [List.length_append, List.length_cons, List.length_nil] at r1 r2 r4 ⊢
        push_cast at r1 r4 ⊢
        rw [hcast] at r1 r4
        exact ⟨by linarith, by omega, r3, by linarith, fun _ => by linarith⟩
  unfold genPath at h
  rw [← ht] at h
  cases segs with
  | nil =>
    simp only [genLoop, Option.some.injEq, Prod.mk.injEq] at h
    obtain ⟨rfl, rfl⟩ := h
    simp
  | cons s l =>
    have hne : total ≠ 0 := by
      intro he
      obtain ⟨a, b, d⟩ := s
      simp [genLoop, he] at h
    have hpos : 0 < total := lt_of_le_of_ne h0 (Ne.symm hne)
    obtain ⟨r1, r2, r3, _, r5⟩ := gen (s :: l) [] [0] hs hpos rfl h
    rw [← ht, mul_div_assoc, div_self hne] at r1 r5
    simp only [List.length_nil, Nat.cast_zero, zero_add, mul_one] at r1 r5
    refine ⟨by exact_mod_cast r1, by rw [r2]; simp; omega, r3, fun hn => ?_⟩
    have := r5 hn
    exact_mod_cast this

end

/-! ### The choice of indices along a path -/

section
variable {K : Type} [Field K] [LinearOrder K] [IsStrictOrderedRing K] [FloorRing K]

/-- every `stride`-th element, from the first on; a stride of zero is an error -/
theorem C159_pick (data : List ℕ) (s : ℕ) (hs : 0 < s) : pick data 0 = none ∧ ∃ p, pick data s = some p ∧ ∀ k, p[k]? = data[k * s]? := by
  refine ⟨rfl, _, by unfold pick; rw [if_neg (by omega), if_neg (by omega)], fun k => ?_⟩
  simp only [Int.toNat_natCast]
  by_cases hk : k * s < data.length
  · have : k < (data.length + s - 1) / s := by
      rw [Nat.lt_iff_add_one_le, Nat.le_div_iff_mul_le hs, Nat.add_mul, Nat.one_mul]
      omega
    rw [List.getElem?_map, List.getElem?_range this, List.getElem?_eq_getElem hk]
    simp only [Option.map_some, List.getD_eq_getElem _ _ hk]
  · have : ¬ k < (data.length + s - 1) / s := by
      intro h
      have := (Nat.le_div_iff_mul_le hs).mp h
      have h2 : (k + 1) * s = k * s + s := by ring
      have h3 : k.succ * s = k * s + s := by rw [Nat.succ_mul]
      omega
    rw [List.getElem?_map, List.getElem?_eq_none (by simpa using this), List.getElem?_eq_none (by omega)]
    rfl

theorem pyRound_one : pyRound (1 : K) = 1 := by
  unfold pyRound
  simp

/-- the number of the stride is the nearest integer, an even one if two are equally near -/
theorem C159_round [IsStrictOrderedRing K] (x : K) : |x - pyRound x| ≤ 1 / 2 ∧ (|x - pyRound x| = 1 / 2 → pyRound x % 2 = 0) := by
  have h1 := Int.floor_le x
  have h2 := Int.lt_floor_add_one x
  unfold pyRound
  split
  · rename_i h
    have : |x - (⌊x⌋ : K)| < 1 / 2 := by rw [abs_of_nonneg (by linarith)]; exact h
    exact ⟨this.le, fun he => absurd he this.ne⟩
  · rename_i h
    split
    · rename_i h3
      have : |x - ((⌊x⌋ + 1 : ℤ) : K)| < 1 / 2 := by
        rw [abs_lt]; push_cast; constructor <;> linarith
      exact ⟨this.le, fun he => absurd he this.ne⟩
    · rename_i h3
      have he : x - ⌊x⌋ = 1 / 2 := le_antisymm (not_lt.mp h3) (not_lt.mp h)
      split
      · rename_i h4
        exact ⟨by rw [he, abs_of_nonneg (by norm_num)], fun _ => h4⟩
      · rename_i h4
        refine ⟨?_, fun _ => by omega⟩
        push_cast
        rw [show x - (⌊x⌋ + 1 : K) = -(1 / 2) by linarith, abs_neg, abs_of_nonneg (by norm_num)]

/-- a path of one segment: all indices that `closest_to` finds, and the two ends -/
theorem C159_one_segment (d : K) (hd : d ≠ 0) (c0 : ℕ) (c : List ℕ) :
    selectPath [(d, c0 :: c)] = some (c0 :: c, [(0, c0), (c.length + 1, (c0 :: c).getLast (by simp))]) := by
  have hl : (((c0 :: c).length : ℕ) : K) ≠ 0 := by
    rw [Nat.cast_ne_zero]; simp
  have h1 : (((c0 :: c).length : ℕ) : K) / d * (d / ((c0 :: c).length : ℕ)) = 1 := by field_simp
  have hp : pick (c0 :: c) 1 = some (c0 :: c) := by
    obtain ⟨_, p, hp, hk⟩ := C159_pick (c0 :: c) 1 one_pos
    rw [show ((1 : ℕ) : ℤ) = 1 from rfl] at hp
    have he : p = c0 :: c := List.ext_getElem? fun k => by rw [hk k, mul_one]
    rw [hp, he]
  unfold selectPath
  simp only [selectLoop, Option.isNone_none, if_true, Option.getD_none, if_neg hd, h1, pyRound_one, hp, List.getLast?_eq_getLast_of_ne_nil (List.cons_ne_nil c0 c)]
  simp

end

/-- a later segment with less than half as many points per length has stride zero: an error -/
theorem C159_stride_zero : selectPath [((1 : ℚ), [0, 1, 2, 3]), (1, [4])] = none := by decide +kernel
/-- a denser segment: the corner at its end, index 8, is left out, the label shows 7 -/
theorem C159_corner_lost : selectPath [((1 : ℚ), [0, 1]), (1, [5, 6, 7, 8])] = some ([0, 1, 5, 7], [(0, 0), (2, 1), (4, 7)]) := by decide +kernel
/-- a path with a short segment: an error instead of points -/
theorem C159_short_segment : genPath 10 [(((0 : ℚ), (0 : ℚ)), (8, 0), 8), ((8, 0), (8, 1), 1), ((8, 1), (9, 1), 1)] = none := by decide +kernel

/-! ### Examples -/

example : closestPoints ((0 : ℚ), (0 : ℚ)) [(1, 0), (2, 2), (0, -1)] = some [0, 2] := by decide +kernel
example : Nearest ((0 : ℚ), (0 : ℚ)) [(1, 0), (2, 2), (0, -1)] 2 :=
  (((C159_closest _ _).2 [0, 2] (by decide +kernel)).2.2 2).mp (by simp)
example : closestTo ((0 : ℚ), (0 : ℚ)) (2, 0) [(2, 0), (0, 0), (1, 0), (1, 5)] 5 = .done [1, 2, 0] := by decide +kernel
example : First ((2 : ℚ), (0 : ℚ)) [(2, 0), (0, 0), (1, 0), (1, 5)] 0 := by
  obtain ⟨_, _, _, ⟨j, hj, hf⟩, _⟩ := (C159_closest_to ((0 : ℚ), (0 : ℚ)) (2, 0) [(2, 0), (0, 0), (1, 0), (1, 5)] 5).2 [1, 2, 0] (by decide +kernel)
  have : j = 0 := Nat.le_zero.mp (hf.2 0 ⟨(2, 0), rfl, by intro q hq; simp [sq]; positivity⟩)
  rwa [this] at hf
example : genPoints ((0 : ℚ), (0 : ℚ)) (3, 6) 4 = some [(0, 0), (1, 2), (2, 4), (3, 6)] := by decide +kernel
example : genPath 7 [(((0 : ℚ), (0 : ℚ)), (2, 0), 2), ((2, 0), (2, 1), 1)] =
    some ([(0, 0), (2 / 3, 0), (4 / 3, 0), (2, 0), (2, 0), (2, 1)], [0, 4, 6]) := by decide +kernel
example : selectPath [((2 : ℚ), [3, 4, 9])] = some ([3, 4, 9], [(0, 3), (3, 9)]) := C159_one_segment 2 (by norm_num) 3 [4, 9]
example : pick [5, 6, 7, 8, 9] 2 = some [5, 7, 9] := by decide +kernel

end Verif.PathPoints
