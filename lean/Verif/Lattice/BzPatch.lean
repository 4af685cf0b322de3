import Verif.Lattice.Dos
import Mathlib.Tactic.Linarith
import Mathlib.Data.List.GetD

/-!
# Property C157: patches of the Brillouin zone

Source: `/repo/python/triqs/lattice/bz_patch.py` (26-50), `/repo/python/triqs/lattice/tight_binding.py` (48-53).

Simplifications: coordinates and areas are elements of an ordered field; every point has two coordinates.
-/

namespace Verif.BzPatch
open Verif.Dos

/-! ## Model -/

section
variable {K : Type} [Field K] [LinearOrder K]

/-- the attributes `_triangles`, `_weights` and `weight` (31-33) -/
structure Patch (K : Type) where
  triangles : List (K × K)
  weights : List K
  weight : K

/-- the expression of lines 40-41 and 42-43 -/
def triWeight (p0 p1 p2 : K × K) : K := 1 / 2 * |(p1.1 - p0.1) * (p2.2 - p0.2) - (p1.2 - p0.2) * (p2.1 - p0.1)|

/-- the loop over the points of a polygon (36-46); `np` counts the points, `pnt` are the three places of the list `pnt` -/
def addPoints (P : Patch K) (np : ℕ) (pnt : (K × K) × (K × K) × (K × K)) : List (K × K) → Patch K
  | [] => P
  | point :: l =>
    if 1 < np then
      addPoints ⟨P.triangles ++ [pnt.1, pnt.2.1, point], P.weights ++ [triWeight pnt.1 pnt.2.1 point], P.weight + triWeight pnt.1 pnt.2.1 point⟩
        (np + 1) (pnt.1, point, point) l
    else if np = 0 then addPoints P (np + 1) (point, pnt.2.1, pnt.2.2) l
    else addPoints P (np + 1) (pnt.1, point, pnt.2.2) l

/-- the loop over the polygons (34-35) -/
def addPolygons (P : Patch K) : List (List (K × K)) → Patch K
  | [] => P
  | polygon :: ps => addPolygons (addPoints P 0 ((0, 0), (0, 0), (0, 0)) polygon) ps

/-- `BZPatch.__init__`, 28-46 -/
def make (polygons : List (List (K × K))) : Patch K := addPolygons ⟨[], [], 0⟩ polygons

/-- how `dos_patch` reads the list of points: three by three (tight_binding.cpp:117, 141-146) -/
def group : List (K × K) → List (Tri K)
  | a :: b :: c :: l => (a, b, c) :: group l
  | _ => []

/-- `BZPatch.dos`, 48-50 -/
def patchDos [FloorRing K] (en : K × K → K) (P : Patch K) (neps ndiv : ℕ) : Option ((ℕ → Option K) × (ℕ → K)) :=
  dosPatch en (group P.triangles) neps ndiv

end

/-! ## Specification -/

section
variable {K : Type} [Field K]

/-- twice the signed area of the triangle `a b c` -/
def orient (a b c : K × K) : K := (b.1 - a.1) * (c.2 - a.2) - (b.2 - a.2) * (c.1 - a.1)

/-- point `i` of a polygon -/
def at' (l : List (K × K)) (i : ℕ) : K × K := l.getD i (0, 0)

/-- triangle `k` of the fan of a polygon: the first corner and the side from corner `k + 1` to corner `k + 2` -/
def fanTri (l : List (K × K)) (k : ℕ) : Tri K := (at' l 0, at' l (k + 1), at' l (k + 2))

def fan (l : List (K × K)) : List (Tri K) := (List.range (l.length - 2)).map (fanTri l)

/-- the shoelace formula: the signed area enclosed by the closed line through the points -/
def shoelace (l : List (K × K)) : K :=
  (∑ i ∈ Finset.range l.length, ((at' l i).1 * (at' l ((i + 1) % l.length)).2 - (at' l i).2 * (at' l ((i + 1) % l.length)).1)) / 2

variable [LinearOrder K]

/-- corners of a convex polygon in the order of a walk against the clock -/
def Convex (l : List (K × K)) : Prop := ∀ i j k, i < j → j < k → k < l.length → 0 < orient (at' l i) (at' l j) (at' l k)

/-- the points to the left of all sides -/
def Inside (l : List (K × K)) (p : K × K) : Prop := ∀ i, i < l.length → 0 ≤ orient (at' l i) (at' l ((i + 1) % l.length)) p

/-- inside a triangle and not on a side -/
def Interior (t : Tri K) (p : K × K) : Prop :=
  ∃ u v w : K, 0 < u ∧ 0 < v ∧ 0 < w ∧ u + v + w = 1 ∧
    p = (u * t.1.1 + v * t.2.1.1 + w * t.2.2.1, u * t.1.2 + v * t.2.1.2 + w * t.2.2.2)

end

/-! ## Proofs -/

section
variable {K : Type} [Field K] [LinearOrder K]

/-- the triangles of the fan from the remaining points -/
def rest (p0 : K × K) : K × K → List (K × K) → List (Tri K)
  | _, [] => []
  | p1, p :: l => (p0, p1, p) :: rest p0 p l

def corners (t : Tri K) : List (K × K) := [t.1, t.2.1, t.2.2]

theorem addPoints_rest (P : Patch K) (np : ℕ) (hn : 1 < np) (p0 p1 p2 : K × K) (l : List (K × K)) :
    addPoints P np (p0, p1, p2) l = ⟨P.triangles ++ (rest p0 p1 l).flatMap corners, P.weights ++ (rest p0 p1 l).map (fun t => triWeight t.1 t.2.1 t.2.2),
      P.weight + ((rest p0 p1 l).map (fun t => triWeight t.1 t.2.1 t.2.2)).sum⟩ := by
  induction l generalizing P np p1 p2 with
  | nil => simp [addPoints, rest]
  | cons p l ih =>
    simp only [addPoints, if_pos hn, rest]
    rw [ih _ (np + 1) (by omega)]
    simp [corners, add_assoc]

theorem rest_eq (p0 p1 : K × K) (l : List (K × K)) : rest p0 p1 l = (List.range l.length).map fun k => (p0, at' (p1 :: l) k, at' (p1 :: l) (k + 1)) := by
  induction l generalizing p1 with
  | nil => rfl
  | cons p l ih =>
    rw [rest, ih, List.length_cons, List.range_succ_eq_map, List.map_cons, List.map_map]
    rfl

theorem fan_cons (p0 p1 : K × K) (l : List (K × K)) : fan (p0 :: p1 :: l) = rest p0 p1 l := by
  rw [rest_eq]
  rfl

theorem addPoints_eq (P : Patch K) (z : (K × K) × (K × K) × (K × K)) (l : List (K × K)) :
    addPoints P 0 z l = ⟨P.triangles ++ (fan l).flatMap corners, P.weights ++ (fan l).map (fun t => triWeight t.1 t.2.1 t.2.2),
      P.weight + ((fan l).map (fun t => triWeight t.1 t.2.1 t.2.2)).sum⟩ := by
  match l with
  | [] => simp [addPoints, fan]
  | [p] => simp [addPoints, fan]
  | p0 :: p1 :: l =>
    rw [fan_cons]
    simp only [addPoints, Nat.not_lt_zero, if_false, if_true, zero_add, Nat.lt_irrefl, one_ne_zero]
    exact addPoints_rest P 2 (by omega) _ _ _ l

theorem addPolygons_eq (P : Patch K) (ps : List (List (K × K))) :
    addPolygons P ps = ⟨P.triangles ++ (ps.flatMap fan).flatMap corners, P.weights ++ (ps.flatMap fan).map (fun t => triWeight t.1 t.2.1 t.2.2),
      P.weight + ((ps.flatMap fan).map (fun t => triWeight t.1 t.2.1 t.2.2)).sum⟩ := by
  induction ps generalizing P with
  | nil => simp [addPolygons]
  | cons l ps ih =>
    rw [addPolygons, ih, addPoints_eq]
    simp [add_assoc]

theorem group_corners (l : List (Tri K)) : group (l.flatMap corners) = l := by
  induction l with
  | nil => rfl
  | cons t l ih =>
    rw [List.flatMap_cons, corners]
    simp only [List.cons_append, List.nil_append, group]
    rw [ih]

variable [IsStrictOrderedRing K]

theorem triWeight_eq (t : Tri K) : triWeight t.1 t.2.1 t.2.2 = t.area := by
  unfold triWeight Tri.area
  ring

/-- **C157** what a patch stores: the triangles of the fans of the polygons in order, the area of every triangle, and the sum of the areas;
polygons of less than three points are left out -/
theorem C157_triangles (ps : List (List (K × K))) : group (make ps).triangles = ps.flatMap fan ∧
    (make ps).triangles.length = 3 * (ps.map fun l => l.length - 2).sum ∧
    (make ps).weights = (ps.flatMap fan).map Tri.area ∧ (make ps).weight = (make ps).weights.sum ∧
    (make ps).weight = (ps.map fun l => ((fan l).map Tri.area).sum).sum := by
  have hw : ∀ l : List (Tri K), l.map (fun t => triWeight t.1 t.2.1 t.2.2) = l.map Tri.area := fun l => List.map_congr_left fun t _ => triWeight_eq t
  unfold make
  rw [addPolygons_eq]
  simp only [List.nil_append, zero_add, hw, group_corners, true_and]
  constructor
  · induction ps with
    | nil => rfl
    | cons l ps ih =>
      have hc : ∀ l : List (Tri K), (l.flatMap corners).length = 3 * l.length := fun l => by
        induction l with
        | nil => rfl
        | cons t l ih => rw [List.flatMap_cons, List.length_append, ih]; simp [corners]; omega
      rw [hc] at ih ⊢
      have hf : (fan l).length = l.length - 2 := by simp [fan]
      simp only [List.flatMap_cons, List.length_append, List.map_cons, List.sum_cons, hf]
      omega
  · induction ps with
    | nil => rfl
    | cons l ps ih => simp only [List.flatMap_cons, List.map_append, List.sum_append, List.map_cons, List.sum_cons, ih]

def cross (a b : K × K) : K := a.1 * b.2 - a.2 * b.1

/-- sum along an open line -/
def chain : K × K → List (K × K) → K
  | _, [] => 0
  | a, b :: l => cross a b + chain b l

omit [LinearOrder K] [IsStrictOrderedRing K] in
theorem rest_sum (p0 p1 : K × K) (l : List (K × K)) :
    ((rest p0 p1 l).map fun t => orient t.1 t.2.1 t.2.2).sum = cross p0 p1 + chain p1 l + cross ((p1 :: l).getLast (by simp)) p0 := by
  induction l generalizing p1 with
  | nil => simp [rest, chain, cross]; ring
  | cons p l ih =>
    rw [rest, List.map_cons, List.sum_cons, ih]
    have hg : (p1 :: p :: l).getLast (by simp) = (p :: l).getLast (by simp) := List.getLast_cons (by simp)
    rw [hg]
    simp only [chain, orient, cross]
    ring

omit [LinearOrder K] [IsStrictOrderedRing K] in
theorem sum_chain (a : K × K) (l : List (K × K)) (z : K × K) : (∑ i ∈ Finset.range (l.length + 1), cross (at' (a :: l) i) (at' (a :: l ++ [z]) (i + 1))) =
    chain a l + cross ((a :: l).getLast (by simp)) z := by
  induction l generalizing a with
  | nil => simp [chain, at', cross]
  | cons b l ih =>
    rw [List.length_cons, Finset.sum_range_succ']
    have := ih b
    simp only [at', List.cons_append, List.getD_cons_succ, List.getD_cons_zero, zero_add] at this ⊢
    have hg : (a :: b :: l).getLast (by simp) = (b :: l).getLast (by simp) := List.getLast_cons (by simp)
    rw [this, chain, hg]
    ring

omit [LinearOrder K] [IsStrictOrderedRing K] in
theorem shoelace_cons (a : K × K) (l : List (K × K)) : 2 * shoelace (a :: l) = 2 * ((chain a l + cross ((a :: l).getLast (by simp)) a) / 2) := by
  rw [← sum_chain, shoelace]
  congr 2
  apply Finset.sum_congr rfl
  intro i hi
  rw [List.length_cons, Finset.mem_range] at hi
  unfold cross
  have : at' (a :: l) ((i + 1) % (a :: l).length) = at' (a :: l ++ [a]) (i + 1) := by
    unfold at'
    rcases Nat.lt_or_ge (i + 1) (l.length + 1) with h | h
    · rw [List.length_cons, Nat.mod_eq_of_lt h, List.getD_append _ _ _ _ (by simpa using h)]
    · have he : i = l.length := by omega
      subst he
      rw [List.length_cons, Nat.mod_self, List.getD_append_right _ _ _ _ (by simp)]
      simp
  rw [this]

theorem fan_shoelace (l : List (K × K)) : ((fan l).map fun t => orient t.1 t.2.1 t.2.2).sum = 2 * shoelace l := by
  match l with
  | [] => simp [fan, shoelace]
  | [p] => simp [fan, shoelace, mul_comm]
  | p0 :: p1 :: l =>
    have hg : (p0 :: p1 :: l).getLast (by simp) = (p1 :: l).getLast (by simp) := List.getLast_cons (by simp)
    rw [fan_cons, rest_sum, shoelace_cons, chain, hg]
    ring

theorem area_orient (t : Tri K) : t.area = |orient t.1 t.2.1 t.2.2| / 2 := rfl

theorem abs_sum_le (l : List K) : |l.sum| ≤ (l.map fun x => |x|).sum := by
  induction l with
  | nil => simp
  | cons x l ih =>
    simp only [List.sum_cons, List.map_cons]
    exact (abs_add_le _ _).trans (by gcongr)

theorem sum_area (l : List (Tri K)) : (l.map Tri.area).sum = (l.map fun t => |orient t.1 t.2.1 t.2.2|).sum / 2 := by
  induction l with
  | nil => simp
  | cons t l ih =>
    simp only [List.map_cons, List.sum_cons, ih, area_orient]
    ring

/-- **C157** the weight of a polygon is at least the area it encloses -/
theorem C157_weight_ge (l : List (K × K)) : |shoelace l| ≤ (make [l]).weight := by
  rw [(C157_triangles [l]).2.2.2.2]
  simp only [List.map_cons, List.map_nil, List.sum_cons, List.sum_nil, add_zero]
  rw [sum_area]
  have h := abs_sum_le ((fan l).map fun t => orient t.1 t.2.1 t.2.2)
  rw [fan_shoelace, List.map_map, abs_mul, abs_of_pos (by norm_num : (0 : K) < 2)] at h
  have : ((fun x => |x|) ∘ fun t : Tri K => orient t.1 t.2.1 t.2.2) = fun t => |orient t.1 t.2.1 t.2.2| := rfl
  rw [this] at h
  linarith

/-- **C157** and it is that area if all triangles of the fan turn the same way, in particular for convex polygons and triangles -/
theorem C157_weight (l : List (K × K)) (h : (∀ t ∈ fan l, 0 ≤ orient t.1 t.2.1 t.2.2) ∨ ∀ t ∈ fan l, orient t.1 t.2.1 t.2.2 ≤ 0) :
    (make [l]).weight = |shoelace l| := by
  have h2 := fan_shoelace l
  rw [(C157_triangles [l]).2.2.2.2]
  simp only [List.map_cons, List.map_nil, List.sum_cons, List.sum_nil, add_zero]
  rw [sum_area]
  rcases h with h | h
  · have h1 : ((fan l).map fun t => |orient t.1 t.2.1 t.2.2|) = (fan l).map fun t => orient t.1 t.2.1 t.2.2 :=
      List.map_congr_left fun t ht => abs_of_nonneg (h t ht)
    have h3 : 0 ≤ ((fan l).map fun t => orient t.1 t.2.1 t.2.2).sum := List.sum_nonneg fun x hx => by
      obtain ⟨t, ht, rfl⟩ := List.mem_map.mp hx
      exact h t ht
    rw [h1, h2, abs_of_nonneg (by linarith)]
    ring
  · have h1 : ((fan l).map fun t => |orient t.1 t.2.1 t.2.2|) = (fan l).map fun t => - orient t.1 t.2.1 t.2.2 :=
      List.map_congr_left fun t ht => abs_of_nonpos (h t ht)
    have h4 : ((fan l).map fun t => - orient t.1 t.2.1 t.2.2).sum = - (2 * shoelace l) := by
      rw [← h2]
      induction fan l with
      | nil => simp
      | cons t m ih => simp only [List.map_cons, List.sum_cons, ih]; ring
    have h3 : 0 ≤ ((fan l).map fun t => - orient t.1 t.2.1 t.2.2).sum := List.sum_nonneg fun x hx => by
      obtain ⟨t, ht, rfl⟩ := List.mem_map.mp hx
      have := h t ht
      linarith
    rw [h1, h4]
    rw [h4] at h3
    rw [abs_of_nonpos (by linarith)]
    ring

omit [IsStrictOrderedRing K] in
theorem mem_fan (l : List (K × K)) (t : Tri K) : t ∈ fan l ↔ ∃ k, k + 2 < l.length ∧ t = fanTri l k := by
  simp only [fan, List.mem_map, List.mem_range]
  constructor
  · rintro ⟨k, hk, rfl⟩; exact ⟨k, by omega, rfl⟩
  · rintro ⟨k, hk, rfl⟩; exact ⟨k, by omega, rfl⟩

/-- a point to the left of the sides of a triangle is in the triangle -/
theorem contains_of (a b c p : K × K) (hD : 0 < orient a b c) (h1 : 0 ≤ orient a b p) (h2 : 0 ≤ orient b c p) (h3 : 0 ≤ orient c a p) :
    Tri.Contains (a, b, c) p := by
  refine ⟨orient b c p / orient a b c, orient c a p / orient a b c, orient a b p / orient a b c, by positivity, by positivity, by positivity, ?_, ?_⟩
  · field_simp
    simp only [orient]
    ring
  · have hne : orient a b c ≠ 0 := hD.ne'
    refine Prod.ext ?_ ?_
    · show p.1 = _
      field_simp
      simp only [orient]
      ring
    · show p.2 = _
      field_simp
      simp only [orient]
      ring

/-- **C157** the triangles of a convex polygon cover exactly the polygon -/
theorem C157_cover (l : List (K × K)) (hl : 3 ≤ l.length) (hc : Convex l) (p : K × K) :
    Inside l p ↔ ∃ t ∈ fan l, t.Contains p := by
  constructor
  · intro hp
    have hlast : ¬ 0 < orient (at' l 0) (at' l (l.length - 1)) p := by
      have := hp (l.length - 1) (by omega)
      rw [show l.length - 1 + 1 = l.length by omega, Nat.mod_self] at this
      have he : orient (at' l 0) (at' l (l.length - 1)) p = - orient (at' l (l.length - 1)) (at' l 0) p := by simp only [orient]; ring
      rw [he]
      linarith
    have hfirst : 0 ≤ orient (at' l 0) (at' l 1) p := by
      have := hp 0 (by omega)
      rwa [Nat.mod_eq_of_lt (by omega)] at this
    -- the first corner that is not to the right of the ray
    have key : ∀ m, m + 2 ≤ l.length - 1 + 1 → (∀ k, k < m → ¬ (0 ≤ orient (at' l 0) (at' l (k + 1)) p ∧ orient (at' l 0) (at' l (k + 2)) p ≤ 0)) →
        0 ≤ orient (at' l 0) (at' l (m + 1)) p := by
      intro m
      induction m with
      | zero => intro _ _; exact hfirst
      | succ m ih =>
        intro hm hk
        have h1 := ih (by omega) fun k hk' => hk k (by omega)
        have h2 := hk m (by omega)
        by_contra hneg
        exact h2 ⟨h1, (not_le.mp hneg).le⟩
    have hex : ∃ k, k < l.length - 2 ∧ 0 ≤ orient (at' l 0) (at' l (k + 1)) p ∧ orient (at' l 0) (at' l (k + 2)) p ≤ 0 := by
      by_contra hno
      push Not at hno
      have h1 := key (l.length - 3) (by omega) fun k hk h => absurd h.2 (not_le.mpr (hno k (by omega) h.1))
      have h2 := hno (l.length - 3) (by omega) h1
      rw [show l.length - 3 + 2 = l.length - 1 by omega] at h2
      exact hlast h2
    obtain ⟨k, hk, h1, h2⟩ := hex
    refine ⟨fanTri l k, (mem_fan l _).mpr ⟨k, by omega, rfl⟩, contains_of _ _ _ _ (hc 0 (k + 1) (k + 2) (by omega) (by omega) (by omega)) h1 ?_ ?_⟩
    · have := hp (k + 1) (by omega)
      rwa [Nat.mod_eq_of_lt (by omega)] at this
    · have he : orient (at' l (k + 2)) (at' l 0) p = - orient (at' l 0) (at' l (k + 2)) p := by simp only [orient]; ring
      rw [he]
      linarith
  · rintro ⟨t, ht, u, v, w, hu, hv, hw, hs, rfl⟩ i hi
    obtain ⟨k, hk, rfl⟩ := (mem_fan l t).mp ht
    -- corners are inside
    have hin : ∀ j, j < l.length → 0 ≤ orient (at' l i) (at' l ((i + 1) % l.length)) (at' l j) := by
      intro j hj
      rcases Nat.lt_or_ge (i + 1) l.length with h | h
      · rw [Nat.mod_eq_of_lt h]
        rcases Nat.lt_trichotomy j i with hji | hji | hji
        · have := hc j i (i + 1) hji (by omega) h
          have he : orient (at' l i) (at' l (i + 1)) (at' l j) = orient (at' l j) (at' l i) (at' l (i + 1)) := by simp only [orient]; ring
          rw [he]; exact this.le
        · subst hji
          have he : orient (at' l j) (at' l (j + 1)) (at' l j) = 0 := by simp only [orient]; ring
          rw [he]
        · rcases Nat.lt_or_ge (i + 1) j with h2 | h2
          · exact (hc i (i + 1) j (by omega) h2 hj).le
          · have : j = i + 1 := by omega
            subst this
            have he : orient (at' l i) (at' l (i + 1)) (at' l (i + 1)) = 0 := by simp only [orient]; ring
            rw [he]
      · have hi' : i = l.length - 1 := by omega
        rw [show i + 1 = l.length by omega, Nat.mod_self]
        rcases Nat.eq_zero_or_pos j with rfl | hj0
        · have he : orient (at' l i) (at' l 0) (at' l 0) = 0 := by simp only [orient]; ring
          rw [he]
        · rcases Nat.lt_or_ge j i with h2 | h2
          · have := hc 0 j i hj0 h2 hi
            have he : orient (at' l i) (at' l 0) (at' l j) = orient (at' l 0) (at' l j) (at' l i) := by simp only [orient]; ring
            rw [he]; exact this.le
          · have : j = i := by omega
            subst this
            have he : orient (at' l j) (at' l 0) (at' l j) = 0 := by simp only [orient]; ring
            rw [he]
    have a := hin 0 (by omega)
    have b := hin (k + 1) (by omega)
    have c := hin (k + 2) (by omega)
    have he : orient (at' l i) (at' l ((i + 1) % l.length)) (u * (at' l 0).1 + v * (at' l (k + 1)).1 + w * (at' l (k + 2)).1,
        u * (at' l 0).2 + v * (at' l (k + 1)).2 + w * (at' l (k + 2)).2) =
        u * orient (at' l i) (at' l ((i + 1) % l.length)) (at' l 0) + v * orient (at' l i) (at' l ((i + 1) % l.length)) (at' l (k + 1)) +
          w * orient (at' l i) (at' l ((i + 1) % l.length)) (at' l (k + 2)) := by
      simp only [orient]
      have hu' : u = 1 - v - w := by linear_combination hs
      subst hu'
      ring
    show 0 ≤ orient (at' l i) (at' l ((i + 1) % l.length)) (u * (at' l 0).1 + v * (at' l (k + 1)).1 + w * (at' l (k + 2)).1,
        u * (at' l 0).2 + v * (at' l (k + 1)).2 + w * (at' l (k + 2)).2)
    rw [he]
    positivity

/-- **C157** they do not overlap: an inner point belongs to one triangle only -/
theorem C157_disjoint (l : List (K × K)) (hc : Convex l) (j k : ℕ) (hjk : j < k) (hk : k + 2 < l.length) (p : K × K)
    (hj : Interior (fanTri l j) p) : ¬ Interior (fanTri l k) p := by
  rintro ⟨u', v', w', hu', hv', hw', hs', hp'⟩
  obtain ⟨u, v, w, hu, hv, hw, hs, hp⟩ := hj
  have o1 : ∀ (k : ℕ) (u v w : K), u + v + w = 1 → orient (at' l 0) (at' l (k + 1)) (u * (at' l 0).1 + v * (at' l (k + 1)).1 + w * (at' l (k + 2)).1,
      u * (at' l 0).2 + v * (at' l (k + 1)).2 + w * (at' l (k + 2)).2) = w * orient (at' l 0) (at' l (k + 1)) (at' l (k + 2)) ∧
      orient (at' l 0) (at' l (k + 2)) (u * (at' l 0).1 + v * (at' l (k + 1)).1 + w * (at' l (k + 2)).1,
      u * (at' l 0).2 + v * (at' l (k + 1)).2 + w * (at' l (k + 2)).2) = - (v * orient (at' l 0) (at' l (k + 1)) (at' l (k + 2))) := by
    intro k u v w h
    have hu : u = 1 - v - w := by linear_combination h
    subst hu
    simp only [orient]
    constructor <;> ring
  have a := o1 j u v w hs
  have b := o1 k u' v' w' hs'
  have hp1 : p = (u * (at' l 0).1 + v * (at' l (j + 1)).1 + w * (at' l (j + 2)).1, u * (at' l 0).2 + v * (at' l (j + 1)).2 + w * (at' l (j + 2)).2) := hp
  have hp2 : p = (u' * (at' l 0).1 + v' * (at' l (k + 1)).1 + w' * (at' l (k + 2)).1, u' * (at' l 0).2 + v' * (at' l (k + 1)).2 + w' * (at' l (k + 2)).2) := hp'
  rw [← hp1] at a
  rw [← hp2] at b
  have c1 := hc 0 (j + 1) (j + 2) (by omega) (by omega) (by omega)
  have c2 := hc 0 (k + 1) (k + 2) (by omega) (by omega) (by omega)
  have s1 : 0 < orient (at' l 0) (at' l (j + 1)) p := by rw [a.1]; positivity
  have s2 : orient (at' l 0) (at' l (j + 2)) p < 0 := by rw [a.2]; have : 0 < v * orient (at' l 0) (at' l (j + 1)) (at' l (j + 2)) := by positivity
                                                         linarith
  have s3 : 0 < orient (at' l 0) (at' l (k + 1)) p := by rw [b.1]; positivity
  rcases Nat.lt_or_ge (j + 1) k with h | h
  · have d1 := hc 0 (j + 1) (k + 1) (by omega) (by omega) (by omega)
    have d2 := hc 0 (j + 2) (k + 1) (by omega) (by omega) (by omega)
    have hpl : orient (at' l 0) (at' l (j + 1)) (at' l (j + 2)) * orient (at' l 0) (at' l (k + 1)) p -
        orient (at' l 0) (at' l (j + 1)) (at' l (k + 1)) * orient (at' l 0) (at' l (j + 2)) p +
        orient (at' l 0) (at' l (j + 1)) p * orient (at' l 0) (at' l (j + 2)) (at' l (k + 1)) = 0 := by simp only [orient]; ring
    have e1 := mul_pos c1 s3
    have e2 := mul_neg_of_pos_of_neg d1 s2
    have e3 := mul_pos s1 d2
    linarith
  · have : k = j + 1 := by omega
    subst this
    exact absurd s3 (not_lt.mpr s2.le)

/-- **C157** the weight of a convex polygon is its area -/
theorem C157_convex_weight (l : List (K × K)) (hc : Convex l) : (make [l]).weight = shoelace l := by
  have h0 : ∀ t ∈ fan l, 0 ≤ orient t.1 t.2.1 t.2.2 := fun t ht => by
    obtain ⟨k, hk, rfl⟩ := (mem_fan l t).mp ht
    exact (hc 0 (k + 1) (k + 2) (by omega) (by omega) hk).le
  rw [C157_weight l (Or.inl h0), abs_of_nonneg]
  have := fan_shoelace l
  have h3 : 0 ≤ ((fan l).map fun t => orient t.1 t.2.1 t.2.2).sum := List.sum_nonneg fun x hx => by
    obtain ⟨t, ht, rfl⟩ := List.mem_map.mp hx
    exact h0 t ht
  linarith

/-- **C157** the integral of the density of states of a patch is its weight, not one -/
theorem C157_dos [FloorRing K] (en : K × K → K) (ps : List (List (K × K))) (neps ndiv : ℕ) (he : 1 ≤ neps) (hd : 1 ≤ ndiv) (l : List (K × K)) (hl : l ∈ ps)
    (h3 : 3 ≤ l.length) : ∃ emin emax : K, (emin = emax → patchDos en (make ps) neps ndiv = none) ∧
      (emin < emax → ∃ eps rho, patchDos en (make ps) neps ndiv = some (eps, rho) ∧
        ∑ i ∈ Finset.range neps, rho i * ((emax - emin) / neps) = (make ps).weight) ∧ emin ≤ emax := by
  obtain ⟨h1, _, h4, h5, _⟩ := C157_triangles ps
  have hne : ps.flatMap fan ≠ [] := by
    intro hc
    have := List.flatMap_eq_nil_iff.mp hc l hl
    have := congrArg List.length this
    simp [fan] at this
    omega
  obtain ⟨emin, emax, e1, _, e3, e4⟩ := C80_dos_patch en (ps.flatMap fan) he hd hne
  refine ⟨emin, emax, fun h => by unfold patchDos; rw [h1]; exact e3 h, fun h => ?_, ?_⟩
  · obtain ⟨eps, rho, r1, _, r3, _⟩ := e4 h
    exact ⟨eps, rho, by unfold patchDos; rw [h1]; exact r1, by rw [h5, h4]; exact r3⟩
  · obtain ⟨t, ht⟩ := List.exists_mem_of_ne_nil _ hne
    have hsub : subTris t ndiv ≠ [] := by
      intro hc
      have := subTris_length t ndiv
      rw [hc] at this
      have : 0 < ndiv * ndiv := by positivity
      simp_all
    obtain ⟨s, hs⟩ := List.exists_mem_of_ne_nil _ hsub
    have := e1 s (List.mem_flatMap.mpr ⟨t, ht, hs⟩)
    exact this.1.trans this.2

end

/-! ### Examples -/

/-- the unit square -/
def square : List (ℚ × ℚ) := [(0, 0), (1, 0), (1, 1), (0, 1)]

example : Convex square := by
  intro i j k h1 h2 h3
  have h4 : k < 4 := h3
  have : (i, j, k) = (0, 1, 2) ∨ (i, j, k) = (0, 1, 3) ∨ (i, j, k) = (0, 2, 3) ∨ (i, j, k) = (1, 2, 3) := by
    simp only [Prod.mk.injEq]; omega
  rcases this with h | h | h | h <;> simp only [Prod.mk.injEq] at h <;> obtain ⟨rfl, rfl, rfl⟩ := h <;> decide +kernel

example : (make [square]).triangles = [(0, 0), (1, 0), (1, 1), (0, 0), (1, 1), (0, 1)] ∧ (make [square]).weight = 1 := by decide +kernel

/-- for a polygon that is not convex the weight depends on the point that is named first: an arrow of area 4 has the weight 4 or 12 -/
theorem C157_not_convex : (make [[((0 : ℚ), (0 : ℚ)), (4, 0), (1, 1), (0, 4)]]).weight = 4 ∧
    (make [[((4 : ℚ), (0 : ℚ)), (1, 1), (0, 4), (0, 0)]]).weight = 12 ∧ shoelace [((0 : ℚ), (0 : ℚ)), (4, 0), (1, 1), (0, 4)] = 4 ∧
    shoelace [((4 : ℚ), (0 : ℚ)), (1, 1), (0, 4), (0, 0)] = 4 := by decide +kernel

end Verif.BzPatch
