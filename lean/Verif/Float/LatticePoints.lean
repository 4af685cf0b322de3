import Verif.Float.Relative
import Mathlib.Tactic.Ring
import Mathlib.Data.Fin.VecNotation
import Mathlib.Data.Fintype.Pi

/-!
# Points of a lattice, in double precision

`LatticePoint` of `/repo/python/triqs/lattice/point.py` and `bravais_lattice::point_t` of
`/repo/c++/triqs/lattice/bravais_lattice.hpp`.

* C191: the coordinates of sums, differences and negatives of points; arithmetic with vectors is that of the
  coordinates; coordinates are computed once.

Simplifications: no overflow and no NaN; the product of the matrix and the indices (bravais_lattice.hpp:108) adds up in
the order of the indices; vectors of numpy have three components.
-/

namespace Verif.LatticePointDouble
open Verif.Binary64

/-! ## Model -/

/-- the columns of `units_` for the directions `j < ndim`: three doubles for each of them -/
structure Lattice where
  units : List (Fin 3 → ℚ)
  orbitals : ℕ
  deriving DecidableEq

/-- the sum of products with rounding, `transpose(units_)(range::all, range(ndim())) * x`, bravais_lattice.hpp:108; the
indices are converted to doubles -/
def dot (acc : ℚ) : List (ℚ × ℤ) → ℚ
  | [] => acc
  | (u, x) :: l => dot (rnd (acc + rnd (u * rnd (x : ℚ)))) l

/-- `lattice_to_real_coordinates`, bravais_lattice.hpp:107-109: only the first `ndim` indices count -/
def Lattice.coord (L : Lattice) (x : List ℤ) (i : Fin 3) : ℚ := dot 0 ((L.units.map fun u => u i).zip x)

/-- `LatticePoint`, point.py:43-46: `_value` is what was computed before -/
structure Point where
  index : List ℤ
  lattice : Lattice
  cache : Option (Fin 3 → ℚ)

/-- the constructor, point.py:43-46 -/
def point (x : List ℤ) (L : Lattice) : Point := ⟨x, L, none⟩

/-- `value`, point.py:48-51: the point afterwards and the vector -/
def Point.value (p : Point) : Point × (Fin 3 → ℚ) :=
  match p.cache with
  | some v => (p, v)
  | none => ({ p with cache := some (p.lattice.coord p.index) }, p.lattice.coord p.index)

/-- `__add__` of two points, point.py:58: `map` stops at the end of the shorter list, the lattice is that of the first -/
def Point.add (p q : Point) : Point := point (p.index.zipWith (· + ·) q.index) p.lattice

/-- `__neg__`, point.py:67-68 -/
def Point.neg (p : Point) : Point := point (p.index.map fun x => -x) p.lattice

/-- `__sub__` of two points, point.py:73-74 -/
def Point.sub (p q : Point) : Point := p.add q.neg

/-- `__add__` and `__radd__` of a point and a vector, point.py:60-62 and 70-71 -/
def Point.addVec (p : Point) (v : Fin 3 → ℚ) : Fin 3 → ℚ := fun i => rnd (p.value.2 i + v i)

/-- `__sub__` with a vector, point.py:73-74 -/
def Point.subVec (p : Point) (v : Fin 3 → ℚ) : Fin 3 → ℚ := p.addVec fun i => -v i

/-- `__rsub__`: vector minus point, point.py:76-78 -/
def Point.rsubVec (p : Point) (v : Fin 3 → ℚ) : Fin 3 → ℚ := p.neg.addVec v

/-- `bravais_lattice::point_t` has three indices; `operator+`, bravais_lattice.hpp:93-96, for equal lattices only
(`operator==`, line 118); `none` is the failed EXPECTS -/
def cppAdd (p q : Point) : Option Point :=
  if p.lattice = q.lattice then some (point (p.index.zipWith (· + ·) q.index) p.lattice) else none

/-! ## Specification -/

/-- the coordinate without rounding -/
def exact (L : Lattice) (x : List ℤ) (i : Fin 3) : ℚ := (((L.units.map fun u => u i).zip x).map fun p : ℚ × ℤ => p.1 * (p.2 : ℚ)).sum

/-- the sizes of its terms -/
def size (L : Lattice) (x : List ℤ) (i : Fin 3) : ℚ := (((L.units.map fun u => u i).zip x).map fun p : ℚ × ℤ => |p.1| * |(p.2 : ℚ)|).sum

/-- indices that are doubles -/
def Small (x : List ℤ) : Prop := ∀ n ∈ x, |n| ≤ 2 ^ 53

/-! ## Proofs -/

theorem dot_neg : ∀ (l : List (ℚ × ℤ)) (acc : ℚ), dot (-acc) (l.map fun p => (p.1, -p.2)) = -dot acc l
  | [], _ => rfl
  | (u, x) :: l, acc => by
    rw [List.map_cons, dot, dot]
    simp only
    rw [Int.cast_neg, rnd_neg, mul_neg, rnd_neg, ← neg_add, rnd_neg, dot_neg l]

theorem zip_neg (us : List ℚ) (x : List ℤ) : us.zip (x.map fun n => -n) = (us.zip x).map fun p => (p.1, -p.2) := by
  rw [List.zip_map_right]
  rfl

/-- **C191, negative.**  The coordinates of `-p` are exactly the negative coordinates of `p`. -/
theorem C191_neg (x : List ℤ) (L : Lattice) (i : Fin 3) : (point x L).neg.value.2 i = -(point x L).value.2 i := by
  show L.coord (x.map fun n => -n) i = -L.coord x i
  unfold Lattice.coord
  rw [zip_neg, ← dot_neg, neg_zero]

theorem dot_zero (us : List ℚ) : ∀ (l : List (ℚ × ℤ)), (∀ p ∈ l, p.2 = 0) → dot 0 l = 0
  | [], _ => rfl
  | (u, x) :: l, h => by
    have hx : x = 0 := h (u, x) List.mem_cons_self
    rw [dot, hx, Int.cast_zero, rnd_zero, mul_zero, rnd_zero, add_zero, rnd_zero]
    exact dot_zero us l fun p hp => h p (List.mem_cons_of_mem _ hp)

/-- **C191, difference.**  `p - p` has the coordinates zero. -/
theorem C191_sub_self (x : List ℤ) (L : Lattice) (i : Fin 3) : ((point x L).sub (point x L)).value.2 i = 0 := by
  show dot 0 ((L.units.map fun u => u i).zip (x.zipWith (· + ·) (x.map fun n => -n))) = 0
  refine dot_zero [] _ fun p hp => ?_
  have h2 := (List.of_mem_zip hp).2
  obtain ⟨k, hk, he⟩ := List.getElem_of_mem h2
  rw [List.getElem_zipWith, List.getElem_map] at he
  omega

/-- **C191, groups.**  Points with as many indices of one lattice are added, subtracted and negated by their indices, so
that these operations are commutative and associative and undo each other. -/
theorem C191_group (x y z : List ℤ) (L : Lattice) (hxy : x.length = y.length) (hyz : y.length = z.length) :
    (point x L).add (point y L) = (point y L).add (point x L) ∧
    ((point x L).add (point y L)).add (point z L) = (point x L).add ((point y L).add (point z L)) ∧
    ((point x L).add (point y L)).sub (point y L) = point x L ∧ (point x L).neg.neg = point x L := by
  have ext : ∀ a b : List ℤ, a.length = b.length → (∀ k (h1 : k < a.length) (h2 : k < b.length), a[k] = b[k]) → point a L = point b L :=
    fun a b h1 h2 => by rw [List.ext_getElem h1 h2]
  refine ⟨?_, ?_, ?_, ?_⟩
  · exact ext _ _ (by simp [point]; omega) (fun k h1 h2 => by simp only [point, List.getElem_zipWith]; exact add_comm _ _)
  · exact ext _ _ (by simp [Point.add, point, Nat.min_assoc]) (fun k h1 h2 => by simp [Point.add, point, add_assoc])
  · exact ext _ _ (by simp [Point.add, Point.neg, point]; omega) (fun k h1 h2 => by simp [Point.add, Point.neg, point])
  · exact ext _ _ (by simp [Point.neg, point]) (fun k h1 h2 => by simp [Point.neg, point])

/-- **C191, vectors.**  A vector is added to, subtracted from and diminished by the coordinates, each with one rounding. -/
theorem C191_vectors (x : List ℤ) (L : Lattice) (v : Fin 3 → ℚ) (i : Fin 3) :
    (point x L).addVec v i = rnd (v i + (point x L).value.2 i) ∧ (point x L).subVec v i = rnd ((point x L).value.2 i - v i) ∧
    (point x L).rsubVec v i = rnd (v i - (point x L).value.2 i) := by
  refine ⟨?_, ?_, ?_⟩
  · unfold Point.addVec
    rw [add_comm]
  · unfold Point.subVec Point.addVec
    rw [sub_eq_add_neg]
  · unfold Point.rsubVec Point.addVec
    rw [C191_neg, neg_add_eq_sub]

theorem three (p1 p2 p3 : ℚ) : |rnd (rnd (rnd (0 + rnd p1) + rnd p2) + rnd p3) - (p1 + p2 + p3)| ≤
    4 / 9007199254740992 * (|p1| + |p2| + |p3|) + 8 * 2 ^ (-1074 : ℤ) := by
  rw [zero_add, rnd_rep (rep_rnd p1)]
  have a1 := rnd_err_abs p1
  have a2 := rnd_err_abs p2
  have a3 := rnd_err_abs p3
  have b1 := rnd_err_abs (rnd p1 + rnd p2)
  have b2 := rnd_err_abs (rnd (rnd p1 + rnd p2) + rnd p3)
  have c1 : |rnd p1 + rnd p2| ≤ |rnd p1| + |rnd p2| := abs_add_le _ _
  have c2 : |rnd (rnd p1 + rnd p2) + rnd p3| ≤ |rnd (rnd p1 + rnd p2)| + |rnd p3| := abs_add_le _ _
  have tri : ∀ a b : ℚ, |a| ≤ |b| + |a - b| := fun a b => by
    have := abs_add_le b (a - b)
    rwa [add_sub_cancel] at this
  have d1 := tri (rnd p1) p1
  have d2 := tri (rnd p2) p2
  have d3 := tri (rnd p3) p3
  have d4 := tri (rnd (rnd p1 + rnd p2)) (rnd p1 + rnd p2)
  have n1 := abs_nonneg p1
  have n2 := abs_nonneg p2
  have n3 := abs_nonneg p3
  have hη : (0 : ℚ) < 2 ^ (-1074 : ℤ) := two_zpow_pos _
  generalize (2 : ℚ) ^ (-1074 : ℤ) = η at *
  have key : |rnd (rnd (rnd p1 + rnd p2) + rnd p3) - (p1 + p2 + p3)| ≤ |rnd (rnd (rnd p1 + rnd p2) + rnd p3) - (rnd (rnd p1 + rnd p2) + rnd p3)| +
      |rnd (rnd p1 + rnd p2) - (rnd p1 + rnd p2)| + (|rnd p1 - p1| + |rnd p2 - p2| + |rnd p3 - p3|) := by
    generalize rnd (rnd (rnd p1 + rnd p2) + rnd p3) = s3
    generalize rnd (rnd p1 + rnd p2) = s2
    generalize rnd p1 = t1
    generalize rnd p2 = t2
    generalize rnd p3 = t3
    rw [show s3 - (p1 + p2 + p3) = (s3 - (s2 + t3)) + (s2 - (t1 + t2)) + ((t1 - p1) + (t2 - p2) + (t3 - p3)) by ring]
    refine (abs_add_le _ _).trans (add_le_add (abs_add_le _ _) ((abs_add_le _ _).trans (add_le_add (abs_add_le _ _) le_rfl)))
  refine key.trans ?_
  generalize |rnd (rnd (rnd p1 + rnd p2) + rnd p3) - (rnd (rnd p1 + rnd p2) + rnd p3)| = e5 at *
  generalize |rnd (rnd p1 + rnd p2) - (rnd p1 + rnd p2)| = e4 at *
  generalize |rnd (rnd p1 + rnd p2) + rnd p3| = m5 at *
  generalize |rnd (rnd p1 + rnd p2)| = m4 at *
  generalize |rnd p1 + rnd p2| = m3 at *
  generalize |rnd p1 - p1| = e1 at *
  generalize |rnd p2 - p2| = e2 at *
  generalize |rnd p3 - p3| = e3 at *
  generalize |rnd p1| = m1 at *
  generalize |rnd p2| = m2 at *
  generalize |rnd p3| = m6 at *
  generalize |p1| = q1 at *
  generalize |p2| = q2 at *
  generalize |p3| = q3 at *
  linarith

theorem rnd_index {n : ℤ} (h : |n| ≤ 2 ^ 53) : rnd (n : ℚ) = n := rnd_rep (rep_int h)

theorem dot_err (l : List (ℚ × ℤ)) (hl : l.length ≤ 3) (hs : ∀ p ∈ l, |p.2| ≤ 2 ^ 53) :
    |dot 0 l - (l.map fun p : ℚ × ℤ => p.1 * (p.2 : ℚ)).sum| ≤
      4 / 9007199254740992 * (l.map fun p : ℚ × ℤ => |p.1| * |(p.2 : ℚ)|).sum + 8 * 2 ^ (-1074 : ℤ) := by
  match l, hl, hs with
  | [], _, _ =>
    have := three 0 0 0
    simpa [dot, rnd_zero] using this
  | [a], _, hs =>
    have h := three (a.1 * (a.2 : ℚ)) 0 0
    have ha := rnd_index (hs a (by simp))
    simp only [rnd_zero, add_zero, abs_zero, rnd_rep (rep_rnd _), abs_mul] at h
    simp only [dot, ha, List.map_cons, List.map_nil, List.sum_cons, List.sum_nil, add_zero, rnd_rep (rep_rnd _)]
    exact h
  | [a, b], _, hs =>
    have h := three (a.1 * (a.2 : ℚ)) (b.1 * (b.2 : ℚ)) 0
    have ha := rnd_index (hs a (by simp))
    have hb := rnd_index (hs b (by simp))
    simp only [rnd_zero, add_zero, abs_zero, rnd_rep (rep_rnd _), abs_mul] at h
    simp only [dot, ha, hb, List.map_cons, List.map_nil, List.sum_cons, List.sum_nil, add_zero, rnd_rep (rep_rnd _)]
    exact h
  | [a, b, c], _, hs =>
    have h := three (a.1 * (a.2 : ℚ)) (b.1 * (b.2 : ℚ)) (c.1 * (c.2 : ℚ))
    have ha := rnd_index (hs a (by simp))
    have hb := rnd_index (hs b (by simp))
    have hc := rnd_index (hs c (by simp))
    simp only [abs_mul] at h
    simp only [dot, ha, hb, hc, List.map_cons, List.map_nil, List.sum_cons, List.sum_nil, add_zero]
    rw [show ∀ x y z : ℚ, x + (y + z) = x + y + z from fun x y z => by ring, show ∀ x y z : ℚ, x + (y + z) = x + y + z from fun x y z => by ring]
    exact h
  | a :: b :: c :: d :: l, hl, _ => simp at hl

/-- **C191, coordinates.**  Each coordinate is that of exact arithmetic up to four units of rounding of the sizes of its
terms. -/
theorem C191_coordinates (x : List ℤ) (L : Lattice) (i : Fin 3) (hL : L.units.length ≤ 3) (hx : Small x) :
    |(point x L).value.2 i - exact L x i| ≤ 4 / 9007199254740992 * size L x i + 8 * 2 ^ (-1074 : ℤ) := by
  have hv : (point x L).value.2 i = L.coord x i := rfl
  rw [hv]
  unfold Lattice.coord exact size
  refine dot_err _ ?_ fun p hp => hx _ (List.of_mem_zip hp).2
  rw [List.length_zip, List.length_map]
  omega

theorem exact_add (us : List ℚ) : ∀ (x y : List ℤ), x.length = y.length →
    ((us.zip (x.zipWith (· + ·) y)).map fun p : ℚ × ℤ => p.1 * (p.2 : ℚ)).sum =
      ((us.zip x).map fun p : ℚ × ℤ => p.1 * (p.2 : ℚ)).sum + ((us.zip y).map fun p : ℚ × ℤ => p.1 * (p.2 : ℚ)).sum ∧
    ((us.zip (x.zipWith (· + ·) y)).map fun p : ℚ × ℤ => |p.1| * |(p.2 : ℚ)|).sum ≤
      ((us.zip x).map fun p : ℚ × ℤ => |p.1| * |(p.2 : ℚ)|).sum + ((us.zip y).map fun p : ℚ × ℤ => |p.1| * |(p.2 : ℚ)|).sum := by
  induction us with
  | nil => intro x y _; simp
  | cons u us ih =>
    intro x y h
    match x, y, h with
    | [], [], _ => simp
    | a :: x, b :: y, h =>
      obtain ⟨h1, h2⟩ := ih x y (by simpa using h)
      simp only [List.zipWith_cons_cons, List.zip_cons_cons, List.map_cons, List.sum_cons]
      rw [h1, Int.cast_add]
      refine ⟨by ring, ?_⟩
      have := mul_le_mul_of_nonneg_left (abs_add_le (a : ℚ) (b : ℚ)) (abs_nonneg u)
      linarith

/-- **C191, sums.**  The coordinates of `p + q` are those of the sum of the vectors up to rounding. -/
theorem C191_add (x y : List ℤ) (L : Lattice) (i : Fin 3) (hL : L.units.length ≤ 3) (hxy : x.length = y.length) (hx : Small x) (hy : Small y)
    (hs : Small (x.zipWith (· + ·) y)) :
    |((point x L).add (point y L)).value.2 i - (point x L).addVec (point y L).value.2 i| ≤
      16 / 9007199254740992 * (size L x i + size L y i) + 32 * 2 ^ (-1074 : ℤ) := by
  have h1 := C191_coordinates x L i hL hx
  have h2 := C191_coordinates y L i hL hy
  have h3 : |((point x L).add (point y L)).value.2 i - exact L (x.zipWith (· + ·) y) i| ≤
      4 / 9007199254740992 * size L (x.zipWith (· + ·) y) i + 8 * 2 ^ (-1074 : ℤ) := C191_coordinates _ L i hL hs
  obtain ⟨h4, h5⟩ := exact_add (L.units.map fun u => u i) x y hxy
  have h4' : exact L (x.zipWith (· + ·) y) i = exact L x i + exact L y i := h4
  have h5' : size L (x.zipWith (· + ·) y) i ≤ size L x i + size L y i := h5
  have le : ∀ l : List (ℚ × ℤ), |(l.map fun p : ℚ × ℤ => p.1 * (p.2 : ℚ)).sum| ≤ (l.map fun p : ℚ × ℤ => |p.1| * |(p.2 : ℚ)|).sum := by
    intro l
    induction l with
    | nil => simp
    | cons p l ih =>
      rw [List.map_cons, List.map_cons, List.sum_cons, List.sum_cons, ← abs_mul]
      exact (abs_add_le _ _).trans (add_le_add le_rfl ih)
  have h6 : |exact L x i| ≤ size L x i := le _
  have h7 : |exact L y i| ≤ size L y i := le _
  have h8 : |(point x L).addVec (point y L).value.2 i - ((point x L).value.2 i + (point y L).value.2 i)| ≤ _ := rnd_err_abs _
  rw [h4'] at h3
  have hη : (0 : ℚ) < 2 ^ (-1074 : ℤ) := two_zpow_pos _
  generalize (2 : ℚ) ^ (-1074 : ℤ) = η at *
  have tri : ∀ a b : ℚ, |a| ≤ |b| + |a - b| := fun a b => by
    have := abs_add_le b (a - b)
    rwa [add_sub_cancel] at this
  have h9 := abs_add_le ((point x L).value.2 i) ((point y L).value.2 i)
  have d1 := tri ((point x L).value.2 i) (exact L x i)
  have d2 := tri ((point y L).value.2 i) (exact L y i)
  generalize ((point x L).add (point y L)).value.2 i = s at *
  generalize (point x L).addVec (point y L).value.2 i = r at *
  generalize (point x L).value.2 i = a at *
  generalize (point y L).value.2 i = b at *
  generalize exact L x i = ea at *
  generalize exact L y i = eb at *
  generalize size L (x.zipWith (· + ·) y) i = sz at *
  generalize size L x i = sa at *
  generalize size L y i = sb at *
  have key : |s - r| ≤ |s - (ea + eb)| + |a - ea| + |b - eb| + |r - (a + b)| := by
    rw [show s - r = (s - (ea + eb)) + -(a - ea) + -(b - eb) + -(r - (a + b)) by ring]
    refine (abs_add_le _ _).trans (add_le_add ((abs_add_le _ _).trans (add_le_add ((abs_add_le _ _).trans (add_le_add le_rfl ?_)) ?_)) ?_) <;> rw [abs_neg]
  refine key.trans ?_
  generalize |s - (ea + eb)| = e1 at *
  generalize |a - ea| = e2 at *
  generalize |b - eb| = e3 at *
  generalize |r - (a + b)| = e4 at *
  generalize |a + b| = m at *
  generalize |a| = ma at *
  generalize |b| = mb at *
  have := (abs_nonneg ea).trans h6
  have := (abs_nonneg eb).trans h7
  generalize |ea| = me at *
  generalize |eb| = mf at *
  linarith

/-- **C191, the coordinates are kept.**  Once they have been asked for, a change of the indices has no effect on them. -/
theorem C191_cached (x y : List ℤ) (L : Lattice) : ({ (point x L).value.1 with index := y } : Point).value.2 = (point x L).value.2 ∧
    ({ point x L with index := y } : Point).value.2 = (point y L).value.2 := ⟨rfl, rfl⟩

/-- **C191, in C++.**  Points are added if they belong to equal lattices; then the order does not matter, and the sum is
that of Python. -/
theorem C191_cpp (p q : Point) : (p.lattice = q.lattice → cppAdd p q = some (p.add q) ∧ cppAdd p q = cppAdd q p) ∧
    (p.lattice ≠ q.lattice → cppAdd p q = none ∧ cppAdd q p = none) := by
  refine ⟨fun h => ⟨by rw [cppAdd, if_pos h, Point.add], ?_⟩, fun h => ⟨if_neg h, if_neg (Ne.symm h)⟩⟩
  rw [cppAdd, cppAdd, if_pos h, if_pos h.symm, h, List.zipWith_comm]
  congr 3
  funext a b
  exact add_comm _ _

/-! ### Examples -/

/-- a square lattice with the constants 1 and 1/10 -/
def exL : Lattice := ⟨[![1, 0, 0], ![0, rnd (1 / 10), 0]], 1⟩
def exL2 : Lattice := ⟨[![2, 0, 0], ![0, 2, 0]], 1⟩

/-- six times 0.1 is not 0.1 + 0.5: the coordinates of a sum of points are not the sum of the coordinates to the last bit -/
example : ((point [0, 1] exL).add (point [0, 5] exL)).value.2 1 ≠ (point [0, 1] exL).addVec (point [0, 5] exL).value.2 1 := by decide +kernel

/-- **C191, different lattices.**  The sum of points of different lattices depends on the order (in C++ it is refused). -/
theorem C191_lattices : ((point [1, 1] exL).add (point [1, 1] exL2)).value.2 0 = 2 ∧ ((point [1, 1] exL2).add (point [1, 1] exL)).value.2 0 = 4 := by
  decide +kernel

/-- **C191, different numbers of indices.**  The longer list is cut. -/
theorem C191_lengths : ((point [1, 1] exL2).add (point [1] exL2)).value.2 1 = 0 ∧ (point [1, 1] exL2).value.2 1 = 2 := by decide +kernel

example : (point [3, -4] exL2).neg.value.2 1 = 8 := by decide +kernel

end Verif.LatticePointDouble
