import Mathlib.Analysis.Real.Sqrt
import Mathlib.Data.Matrix.Mul
import Mathlib.Data.List.GetD
import Mathlib.Algebra.BigOperators.Fin
import Mathlib.Algebra.BigOperators.Ring.Finset
import Mathlib.Tactic.Linarith
import Mathlib.Tactic.FieldSimp

/-!
# Property C141: paths in momentum space

Source: `/repo/python/triqs/lattice/utils.py`, `k_space_path` (27-74).

Simplifications: exact numbers; the vectors have three components (for others `kvec @ cell` fails with the default cell).
-/

namespace Verif.KPath
open Matrix

/-! ## Model -/

abbrev V3 := Fin 3 → ℝ

/-- `np.linspace(0., 1., num)`, line 59 -/
noncomputable def xs (num : ℕ) : List ℝ := (List.range num).map fun i : ℕ => if num = 1 then 0 else (i : ℝ) / ((num : ℝ) - 1)

/-- line 61, for one segment -/
noncomputable def kvecs (num : ℕ) (s : V3 × V3) : List V3 := (xs num).map fun x => s.1 + x • (s.2 - s.1)

/-- line 65 -/
def toAbs (cell : Matrix (Fin 3) (Fin 3) ℝ) (k : List V3) : List V3 := k.map fun v => v ᵥ* cell

/-- `np.linalg.norm` -/
noncomputable def norm (v : V3) : ℝ := Real.sqrt (∑ i, v i ^ 2)

/-- lines 66-70: `dist` and `cur_dist`. `none`: IndexError of `kvec_abs[0]` -/
noncomputable def loop : List (List V3) → List ℝ → ℝ → Option (List ℝ)
  | [], dist, _ => some dist
  | [] :: _, _, _ => none
  | (v :: vs) :: rest, dist, cur =>
    let new := (v :: vs).map fun w => norm (w - v) + cur
    loop rest (dist ++ new) ((dist ++ new).getLastD 0)

/-- `l[num-1::num]` -/
def strided (num : ℕ) (l : List ℝ) : List ℝ := (List.range (l.length / num)).map fun s => l.getD (s * num + (num - 1)) 0

structure Path where
  kvecs : List V3
  dist : List ℝ
  ticks : List ℝ

/-- `k_space_path`, lines 54-74. Without segments `np.vstack` raises an error. -/
noncomputable def kSpacePath (segments : List (V3 × V3)) (num : ℕ) (bz : Option (Matrix (Fin 3) (Fin 3) ℝ)) (relative : Bool) : Option Path :=
  let cell := bz.getD 1
  let ks := segments.map (kvecs num)
  let ksAbs := ks.map (toAbs cell)
  match segments, loop ksAbs [] 0 with
  | [], _ => none
  | _, none => none
  | _, some dist => some ⟨(if relative then ks else ksAbs).flatten, dist, 0 :: strided num dist⟩

/-! ## Specification -/

/-- the length of a segment -/
noncomputable def len (cell : Matrix (Fin 3) (Fin 3) ℝ) (s : V3 × V3) : ℝ := norm ((s.2 - s.1) ᵥ* cell)

/-- the length of the first segments -/
noncomputable def total (cell : Matrix (Fin 3) (Fin 3) ℝ) (segments : List (V3 × V3)) (n : ℕ) : ℝ := ((segments.take n).map (len cell)).sum

/-! ## Proofs -/

theorem norm_smul (x : ℝ) (hx : 0 ≤ x) (v : V3) : norm (x • v) = x * norm v := by
  unfold norm
  simp only [Pi.smul_apply, smul_eq_mul, mul_pow]
  rw [← Finset.mul_sum, Real.sqrt_mul (sq_nonneg x), Real.sqrt_sq hx]

theorem norm_nonneg (v : V3) : 0 ≤ norm v := Real.sqrt_nonneg _

theorem xs_length (num : ℕ) : (xs num).length = num := by simp [xs]

theorem xs_get (num i : ℕ) (h : 2 ≤ num) (hi : i < num) : (xs num)[i]'(by rw [xs_length]; exact hi) = (i : ℝ) / ((num : ℝ) - 1) := by
  simp only [xs, List.getElem_map, List.getElem_range]
  rw [if_neg (by omega)]

/-- the distances of one segment -/
noncomputable def segDist (cell : Matrix (Fin 3) (Fin 3) ℝ) (num : ℕ) (s : V3 × V3) (cur : ℝ) : List ℝ := (xs num).map fun x => x * len cell s + cur

theorem xs_nonneg (num : ℕ) (x : ℝ) (hx : x ∈ xs num) : 0 ≤ x := by
  simp only [xs, List.mem_map, List.mem_range] at hx
  obtain ⟨i, hi, rfl⟩ := hx
  split
  · exact le_refl _
  · have : (1 : ℝ) ≤ num := by exact_mod_cast (show 1 ≤ num by omega)
    exact div_nonneg (Nat.cast_nonneg _) (by linarith)

theorem xs_cons (n : ℕ) : ∃ t, xs (n + 1) = 0 :: t := by
  refine ⟨((List.range n).map Nat.succ).map fun i : ℕ => if n + 1 = 1 then 0 else (i : ℝ) / (((n + 1 : ℕ) : ℝ) - 1), ?_⟩
  unfold xs
  rw [List.range_succ_eq_map, List.map_cons]
  simp

theorem xs_last (num : ℕ) (h : 2 ≤ num) : (xs num).getLastD 0 = 1 := by
  obtain ⟨n, rfl⟩ : ∃ n, num = n + 1 := ⟨num - 1, by omega⟩
  unfold xs
  rw [List.range_succ, List.map_append]
  simp only [List.map_cons, List.map_nil, List.getLastD_concat]
  rw [if_neg (by omega)]
  have : (n : ℝ) ≠ 0 := by exact_mod_cast (show n ≠ 0 by omega)
  push_cast
  rw [add_sub_cancel_right, div_self this]

theorem abs_diff (cell : Matrix (Fin 3) (Fin 3) ℝ) (s : V3 × V3) (x : ℝ) (hx : 0 ≤ x) :
    norm ((s.1 + x • (s.2 - s.1)) ᵥ* cell - (s.1 + (0 : ℝ) • (s.2 - s.1)) ᵥ* cell) = x * len cell s := by
  rw [zero_smul, add_zero, Matrix.add_vecMul, add_sub_cancel_left, Matrix.smul_vecMul, norm_smul _ hx]
  rfl

theorem loop_step (cell : Matrix (Fin 3) (Fin 3) ℝ) (n : ℕ) (s : V3 × V3) (rest : List (List V3)) (dist : List ℝ) (cur : ℝ) :
    loop (toAbs cell (kvecs (n + 1) s) :: rest) dist cur =
      loop rest (dist ++ segDist cell (n + 1) s cur) ((dist ++ segDist cell (n + 1) s cur).getLastD 0) := by
  obtain ⟨t, ht⟩ := xs_cons n
  have hk : toAbs cell (kvecs (n + 1) s) = (s.1 + (0 : ℝ) • (s.2 - s.1)) ᵥ* cell :: t.map fun x => (s.1 + x • (s.2 - s.1)) ᵥ* cell := by
    simp [toAbs, kvecs, ht]
  rw [hk]
  have hn : ((s.1 + (0 : ℝ) • (s.2 - s.1)) ᵥ* cell :: t.map fun x => (s.1 + x • (s.2 - s.1)) ᵥ* cell).map
      (fun w => norm (w - (s.1 + (0 : ℝ) • (s.2 - s.1)) ᵥ* cell) + cur) = segDist cell (n + 1) s cur := by
    have : ((s.1 + (0 : ℝ) • (s.2 - s.1)) ᵥ* cell :: t.map fun x => (s.1 + x • (s.2 - s.1)) ᵥ* cell) =
        (xs (n + 1)).map fun x => (s.1 + x • (s.2 - s.1)) ᵥ* cell := by rw [ht]; rfl
    rw [this, List.map_map]
    unfold segDist
    apply List.map_congr_left
    intro x hx
    simp only [Function.comp]
    rw [abs_diff cell s x (xs_nonneg _ _ hx)]
  simp only [loop]
  rw [hn]

theorem segDist_length (cell : Matrix (Fin 3) (Fin 3) ℝ) (num : ℕ) (s : V3 × V3) (cur : ℝ) : (segDist cell num s cur).length = num := by
  simp [segDist, xs_length]

theorem segDist_last (cell : Matrix (Fin 3) (Fin 3) ℝ) (num : ℕ) (h : 2 ≤ num) (s : V3 × V3) (cur : ℝ) (dist : List ℝ) :
    (dist ++ segDist cell num s cur).getLastD 0 = cur + len cell s := by
  have hne : xs num ≠ [] := by
    intro h0
    have := xs_length num
    rw [h0] at this
    simp at this
    omega
  obtain ⟨t, x, hx⟩ : ∃ t x, xs num = t ++ [x] := ⟨(xs num).dropLast, (xs num).getLast hne, (List.dropLast_append_getLast hne).symm⟩
  have h1 := xs_last num h
  rw [hx, List.getLastD_concat] at h1
  unfold segDist
  rw [hx, h1, List.map_append, List.map_singleton, ← List.append_assoc, List.getLastD_concat]
  ring

/-- all distances -/
noncomputable def allDist (cell : Matrix (Fin 3) (Fin 3) ℝ) (num : ℕ) : List (V3 × V3) → ℝ → List ℝ
  | [], _ => []
  | s :: ss, cur => segDist cell num s cur ++ allDist cell num ss (cur + len cell s)

theorem loop_eq (cell : Matrix (Fin 3) (Fin 3) ℝ) (num : ℕ) (h : 2 ≤ num) (ss : List (V3 × V3)) (dist : List ℝ) (cur : ℝ) :
    loop ((ss.map (kvecs num)).map (toAbs cell)) dist cur = some (dist ++ allDist cell num ss cur) := by
  induction ss generalizing dist cur with
  | nil => simp [loop, allDist]
  | cons s ss ih =>
    obtain ⟨n, rfl⟩ : ∃ n, num = n + 1 := ⟨num - 1, by omega⟩
    simp only [List.map_cons]
    rw [loop_step, segDist_last cell (n + 1) h]
    have := ih (dist ++ segDist cell (n + 1) s cur) (cur + len cell s)
    rw [List.map_map] at this ⊢
    rw [this, allDist, List.append_assoc]

theorem allDist_get (cell : Matrix (Fin 3) (Fin 3) ℝ) (num : ℕ) (h : 2 ≤ num) (ss : List (V3 × V3)) (cur : ℝ) (s i : ℕ) (hs : s < ss.length) (hi : i < num) :
    (allDist cell num ss cur).getD (s * num + i) 0 = cur + total cell ss s + (i : ℝ) / ((num : ℝ) - 1) * len cell (ss.getD s 0) := by
  induction ss generalizing cur s with
  | nil => simp at hs
  | cons a ss ih =>
    unfold allDist
    cases s with
    | zero =>
      rw [zero_mul, zero_add, List.getD_append _ _ _ _ (by rw [segDist_length]; exact hi)]
      rw [List.getD_eq_getElem _ _ (by rw [segDist_length]; exact hi)]
      simp only [segDist, List.getElem_map]
      rw [xs_get num i h hi]
      simp [total]
      ring
    | succ s =>
      rw [List.getD_append_right _ _ _ _ (by rw [segDist_length]; nlinarith)]
      rw [segDist_length, show (s + 1) * num + i - num = s * num + i by
        have : (s + 1) * num = s * num + num := by ring
        omega]
      rw [ih _ s (by simpa using hs)]
      simp only [total, List.take_succ_cons, List.map_cons, List.sum_cons, List.getD_cons_succ]
      ring

theorem allDist_length (cell : Matrix (Fin 3) (Fin 3) ℝ) (num : ℕ) (ss : List (V3 × V3)) (cur : ℝ) : (allDist cell num ss cur).length = ss.length * num := by
  induction ss generalizing cur with
  | nil => simp [allDist]
  | cons a ss ih => simp [allDist, segDist_length, ih]; ring

theorem flatten_get {α : Type} (d : α) (num : ℕ) (f : V3 × V3 → List α) (hf : ∀ s, (f s).length = num) (ss : List (V3 × V3)) (s i : ℕ) (hs : s < ss.length)
    (hi : i < num) : ((ss.map f).flatten).getD (s * num + i) d = (f (ss.getD s 0)).getD i d := by
  induction ss generalizing s with
  | nil => simp at hs
  | cons a ss ih =>
    rw [List.map_cons, List.flatten_cons]
    cases s with
    | zero => rw [zero_mul, zero_add, List.getD_append _ _ _ _ (by rw [hf]; exact hi)]; rfl
    | succ s =>
      rw [List.getD_append_right _ _ _ _ (by rw [hf]; nlinarith), hf, show (s + 1) * num + i - num = s * num + i by
        have : (s + 1) * num = s * num + num := by ring
        omega]
      rw [ih s (by simpa using hs)]
      rfl

/-- **C141** when there is a path: at least one segment, and at least one point for each -/
theorem C141_outcome (segments : List (V3 × V3)) (num : ℕ) (bz : Option (Matrix (Fin 3) (Fin 3) ℝ)) (relative : Bool) :
    (kSpacePath segments num bz relative).isSome ↔ segments ≠ [] ∧ num ≠ 0 := by
  cases segments with
  | nil => simp [kSpacePath]
  | cons s ss =>
    have key : ∀ (n : ℕ) (ss : List (V3 × V3)) (dist : List ℝ) (cur : ℝ), (loop ((ss.map (kvecs (n + 1))).map (toAbs (bz.getD 1))) dist cur).isSome := by
      intro n ss
      induction ss with
      | nil => intros; simp [loop]
      | cons s ss ih => intro dist cur; simp only [List.map_cons]; rw [loop_step]; exact ih _ _
    cases num with
    | zero => simp [kSpacePath, kvecs, xs, toAbs, loop]
    | succ n =>
      have := key n (s :: ss) [] 0
      obtain ⟨d, hd⟩ := Option.isSome_iff_exists.mp this
      simp only [kSpacePath]
      rw [hd]
      simp

/-- **C141** the points: in each segment they are equally spaced from its start to its end, in units of the reciprocal
lattice or, if asked for, in absolute units -/
theorem C141_points (segments : List (V3 × V3)) (num : ℕ) (h : 2 ≤ num) (bz : Option (Matrix (Fin 3) (Fin 3) ℝ)) (relative : Bool) (p : Path)
    (hp : kSpacePath segments num bz relative = some p) (s i : ℕ) (hs : s < segments.length) (hi : i < num) :
    p.kvecs.length = segments.length * num ∧
    p.kvecs.getD (s * num + i) 0 =
      let k := (segments.getD s 0).1 + ((i : ℝ) / ((num : ℝ) - 1)) • ((segments.getD s 0).2 - (segments.getD s 0).1)
      if relative then k else k ᵥ* bz.getD 1 := by
  obtain ⟨a, ss, rfl⟩ : ∃ a ss, segments = a :: ss := by
    cases segments with
    | nil => simp at hs
    | cons a ss => exact ⟨a, ss, rfl⟩
  simp only [kSpacePath, loop_eq (bz.getD 1) num h (a :: ss), Option.some.injEq] at hp
  subst hp
  have hl : ∀ s, (kvecs num s).length = num := fun s => by simp [kvecs, xs_length]
  have hl' : ∀ s, (toAbs (bz.getD 1) (kvecs num s)).length = num := fun s => by simp [toAbs, hl]
  have hg : ∀ s : V3 × V3, (kvecs num s).getD i 0 = s.1 + ((i : ℝ) / ((num : ℝ) - 1)) • (s.2 - s.1) := by
    intro s
    rw [List.getD_eq_getElem _ _ (by rw [hl]; exact hi)]
    simp only [kvecs, List.getElem_map]
    rw [xs_get num i h hi]
  have hg' : ∀ s : V3 × V3, (toAbs (bz.getD 1) (kvecs num s)).getD i 0 = (s.1 + ((i : ℝ) / ((num : ℝ) - 1)) • (s.2 - s.1)) ᵥ* bz.getD 1 := by
    intro s
    have := hg s
    rw [List.getD_eq_getElem _ _ (by rw [hl]; exact hi)] at this
    rw [List.getD_eq_getElem _ _ (by rw [hl']; exact hi)]
    simp only [toAbs, List.getElem_map]
    rw [this]
  cases relative with
  | true =>
    simp only [if_true]
    refine ⟨?_, ?_⟩
    · rw [List.length_flatten, List.map_map, show List.length ∘ kvecs num = fun _ => num from funext hl]
      simp
      ring
    · rw [flatten_get 0 num (kvecs num) hl _ s i hs hi, hg]
  | false =>
    simp only [Bool.false_eq_true, if_false]
    rw [List.map_map]
    refine ⟨?_, ?_⟩
    · rw [List.length_flatten, List.map_map, show List.length ∘ (toAbs (bz.getD 1) ∘ kvecs num) = fun _ => num from funext hl']
      simp
      ring
    · rw [flatten_get 0 num (toAbs (bz.getD 1) ∘ kvecs num) hl' _ s i hs hi]
      exact hg' _

/-- **C141** the distance is the length of the path up to the point -/
theorem C141_dist (segments : List (V3 × V3)) (num : ℕ) (h : 2 ≤ num) (bz : Option (Matrix (Fin 3) (Fin 3) ℝ)) (relative : Bool) (p : Path)
    (hp : kSpacePath segments num bz relative = some p) (s i : ℕ) (hs : s < segments.length) (hi : i < num) :
    p.dist.length = segments.length * num ∧
    p.dist.getD (s * num + i) 0 = total (bz.getD 1) segments s + (i : ℝ) / ((num : ℝ) - 1) * len (bz.getD 1) (segments.getD s 0) := by
  obtain ⟨a, ss, rfl⟩ : ∃ a ss, segments = a :: ss := by
    cases segments with
    | nil => simp at hs
    | cons a ss => exact ⟨a, ss, rfl⟩
  simp only [kSpacePath, loop_eq (bz.getD 1) num h (a :: ss), Option.some.injEq] at hp
  subst hp
  simp only [List.nil_append]
  refine ⟨allDist_length _ _ _ _, ?_⟩
  rw [allDist_get _ num h _ 0 s i hs hi, zero_add]

/-- **C141** the ticks are the lengths at the ends of the segments -/
theorem C141_ticks (segments : List (V3 × V3)) (num : ℕ) (h : 2 ≤ num) (bz : Option (Matrix (Fin 3) (Fin 3) ℝ)) (relative : Bool) (p : Path)
    (hp : kSpacePath segments num bz relative = some p) :
    p.ticks = (List.range (segments.length + 1)).map (total (bz.getD 1) segments) := by
  obtain ⟨a, ss, rfl⟩ : ∃ a ss, segments = a :: ss := by
    cases segments with
    | nil => simp [kSpacePath] at hp
    | cons a ss => exact ⟨a, ss, rfl⟩
  simp only [kSpacePath, loop_eq (bz.getD 1) num h (a :: ss), Option.some.injEq] at hp
  subst hp
  simp only [List.nil_append]
  rw [List.range_succ_eq_map, List.map_cons, List.map_map]
  have h0 : total (bz.getD 1) (a :: ss) 0 = 0 := by simp [total]
  rw [h0]
  congr 1
  · unfold strided
    rw [allDist_length, Nat.mul_div_cancel _ (by omega)]
    apply List.map_congr_left
    intro s hs
    rw [List.mem_range] at hs
    rw [allDist_get _ num h _ 0 s (num - 1) hs (by omega), zero_add]
    have hn : ((num : ℝ) - 1) ≠ 0 := by
      have : (2 : ℝ) ≤ num := by exact_mod_cast h
      linarith
    rw [Nat.cast_sub (by omega), Nat.cast_one, div_self hn, one_mul]
    simp only [Function.comp, total]
    rw [List.take_succ, List.map_append, List.sum_append]
    congr 1
    rw [List.getD_eq_getElem?_getD]
    rw [List.getElem?_eq_getElem hs]
    simp

/-- **C141** the distance never decreases along the path -/
theorem C141_monotone (segments : List (V3 × V3)) (num : ℕ) (h : 2 ≤ num) (bz : Option (Matrix (Fin 3) (Fin 3) ℝ)) (relative : Bool) (p : Path)
    (hp : kSpacePath segments num bz relative = some p) (j : ℕ) (hj : j + 1 < segments.length * num) : p.dist.getD j 0 ≤ p.dist.getD (j + 1) 0 := by
  have hn : (0 : ℝ) < (num : ℝ) - 1 := by
    have : (2 : ℝ) ≤ num := by exact_mod_cast h
    linarith
  have hm := Nat.div_add_mod j num
  have hlt := Nat.mod_lt j (show num > 0 by omega)
  set s := j / num
  set i := j % num
  have hs : s < segments.length := by
    by_contra hc
    have : segments.length * num ≤ s * num := Nat.mul_le_mul_right _ (by omega)
    have : num * s = s * num := mul_comm _ _
    omega
  have hj1 : j = s * num + i := by rw [mul_comm]; omega
  have e1 := (C141_dist segments num h bz relative p hp s i hs hlt).2
  rw [hj1, e1]
  have hl := norm_nonneg (((segments.getD s 0).2 - (segments.getD s 0).1) ᵥ* bz.getD 1)
  rcases Nat.lt_or_ge (i + 1) num with hi | hi
  · rw [show s * num + i + 1 = s * num + (i + 1) by ring, (C141_dist segments num h bz relative p hp s (i + 1) hs hi).2]
    have : (i : ℝ) / ((num : ℝ) - 1) ≤ ((i + 1 : ℕ) : ℝ) / ((num : ℝ) - 1) := by
      apply div_le_div_of_nonneg_right _ hn.le
      push_cast
      linarith
    have := mul_le_mul_of_nonneg_right this (show 0 ≤ len (bz.getD 1) (segments.getD s 0) from hl)
    linarith
  · have hi' : i + 1 = num := by omega
    have hs' : s + 1 < segments.length := by
      by_contra hc
      have : segments.length * num ≤ (s + 1) * num := Nat.mul_le_mul_right _ (by omega)
      have : (s + 1) * num = s * num + num := by ring
      omega
    rw [show s * num + i + 1 = (s + 1) * num + 0 by rw [add_assoc, hi']; ring, (C141_dist segments num h bz relative p hp (s + 1) 0 hs' (by omega)).2]
    have hi2 : (i : ℝ) / ((num : ℝ) - 1) = 1 := by
      rw [← hi']
      push_cast
      rw [add_sub_cancel_right]
      apply div_self
      rw [← hi'] at hn
      push_cast at hn
      linarith
    rw [hi2, one_mul]
    simp only [Nat.cast_zero, zero_div, zero_mul, add_zero]
    unfold total
    rw [List.take_succ, List.map_append, List.sum_append]
    rw [List.getElem?_eq_getElem hs, List.getD_eq_getElem _ _ hs]
    simp

/-! ### Examples -/

/-- two segments of lengths 1/2 and 1 with three points each -/
example (p : Path) (hp : kSpacePath [(![0, 0, 0], ![1 / 2, 0, 0]), (![1 / 2, 0, 0], ![1 / 2, 1, 0])] 3 none true = some p) :
    p.dist.getD 4 0 = 1 / 2 + 1 / 2 := by
  have := (C141_dist _ 3 (by norm_num) none true p hp 1 1 (by simp) (by norm_num)).2
  rw [show 1 * 3 + 1 = 4 by norm_num] at this
  rw [this]
  simp [total, len, norm, Fin.sum_univ_three]
  have h4 : Real.sqrt ((2 ^ 2)⁻¹) = 1 / 2 := by
    rw [show ((2 : ℝ) ^ 2)⁻¹ = (1 / 2) ^ 2 by norm_num]
    exact Real.sqrt_sq (by norm_num)
  norm_num at h4 ⊢

/-- one point per segment: a path exists, but it has only the starts of the segments -/
example : (kSpacePath [(![0, 0, 0], ![1, 0, 0])] 1 none true).isSome := (C141_outcome _ _ _ _).mpr ⟨by simp, by norm_num⟩

end Verif.KPath
