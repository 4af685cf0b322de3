import Mathlib.LinearAlgebra.Matrix.Adjugate
import Mathlib.LinearAlgebra.Matrix.NonsingularInverse
import Mathlib.Algebra.BigOperators.Fin
import Mathlib.Data.List.Sort
import Mathlib.Data.Rat.Defs

/-!
# Model of `det_manip`

Source: `/repo/c++/triqs/det_manip/det_manip.hpp`. Simplifications:

* numbers are an exact field; the determinant and the inverse of nda/LAPACK are the exact ones; a division by
  zero (in the code an infinity) is the outcome `undef`;
* storage of `mat_inv` beyond `N × N`, and of work arrays beyond the entries in use, is not kept ("has no meaning",
  det_manip.hpp:500-503), but the capacities are, and an access beyond them is `undef`;
* `is_singular` and the comparison of two inverses in `_regenerate_with_check` are arbitrary functions.
-/

namespace Verif.DetManip

/-! ## Arrays -/

section arrays
variable {K : Type} [Zero K]

/-- vector with `n` entries -/
def vec (n : Nat) (g : Nat → K) : List K := (List.range n).map g
def at1 (v : List K) (i : Nat) : K := v.getD i 0

abbrev Mat (K : Type) := List (List K)
def mat (n m : Nat) (g : Nat → Nat → K) : Mat K := (List.range n).map (fun i => (List.range m).map (fun j => g i j))
def at2 (A : Mat K) (i j : Nat) : K := (A.getD i []).getD j 0
end arrays

section
variable {K : Type} [Field K]

/-- the matrix of the first entries of `g` -/
def toM (n m : Nat) (g : Nat → Nat → K) : Matrix (Fin n) (Fin m) K := Matrix.of (fun i j => g i j)

/-- `nda::determinant` -/
def detN {R : Type} [CommRing R] (n : Nat) (g : Nat → Nat → R) : R := Matrix.det (Matrix.of (fun i j : Fin n => g i j))

/-- `nda::inverse` of an invertible matrix -/
def invN (n : Nat) (g : Nat → Nat → K) : Mat K :=
  (List.finRange n).map (fun i => (List.finRange n).map (fun j => (detN n g)⁻¹ * (toM n n g).adjugate i j))

/-- `dot` -/
def dot (n : Nat) (g h : Nat → K) : K := ∑ l ∈ Finset.range n, g l * h l
end

/-! ## State -/

/-- outcome of a call: normal end, exception (with the state left behind), undefined behaviour. -/
inductive Res (σ α : Type) where
  | ok (a : α) (s : σ)
  | throws (s : σ)
  | undef

/-- det_manip.hpp:63-73. -/
inductive Try where
  | noTry | insert | remove | changeCol | changeRow | changeRowCol | insertK | removeK | refill
deriving DecidableEq, Repr

/-- `work_data_type1`, det_manip.hpp:122-138; `cap` is the size of the vectors. -/
structure W1 (X Y K : Type) where
  x : X
  y : Y
  i : Nat
  j : Nat
  ireal : Nat
  jreal : Nat
  MB : List K
  MC : List K
  B : List K
  C : List K
  ksi : K
  cap : Nat

/-- `work_data_typek`, det_manip.hpp:139-176; `capN`, `capK` are the sizes of the arrays. -/
structure Wk (X Y K : Type) where
  x : List X
  y : List Y
  i : List Int
  j : List Int
  ireal : List Nat
  jreal : List Nat
  MB : Mat K
  MC : Mat K
  B : Mat K
  C : Mat K
  ksi : Mat K
  capN : Nat
  capK : Nat

/-- `work_data_type_refill`, det_manip.hpp:178-187. -/
structure WR (X Y K : Type) where
  x : List X
  y : List Y
  M : Mat K

/-- data members, det_manip.hpp:58-84 and 189-193, without the function. -/
structure State (X Y K : Type) where
  det : K
  Nmax : Nat
  N : Nat
  kmax : Nat
  k : Nat
  lastTry : Try
  row : List Nat
  col : List Nat
  xs : List X
  ys : List Y
  sign : Int
  inv : Mat K
  nOpts : Nat
  nOptsMax : Nat
  singularThreshold : ℚ
  precisionWarning : ℚ
  precisionError : ℚ
  w1 : W1 X Y K
  wk : Wk X Y K
  wr : WR X Y K
  newdet : K
  newsign : Int

/-- the function and the two tests that are not modelled -/
structure Env (X Y K : Type) where
  f : X → Y → K
  /-- `is_singular`, as a function of the threshold and of `det`, det_manip.hpp:1203 -/
  singular : ℚ → K → Bool
  /-- `err` of det_manip.hpp:1166-1168, as a function of the bound, the size and the two matrices -/
  deviates : ℚ → Nat → Mat K → Mat K → Bool

section
variable {X Y K : Type} [Inhabited X] [Inhabited Y] [Field K] [DecidableEq K]

/-- element access of a vector; only used within bounds -/
def nth {α : Type} [Inhabited α] (l : List α) (i : Nat) : α := l.getD i default

/-- `get_x`, det_manip.hpp:359-364. -/
def getX (s : State X Y K) : List X := (List.range s.N).map (fun i => nth s.xs (s.row.getD i 0))
/-- `get_y`, det_manip.hpp:367-372. -/
def getY (s : State X Y K) : List Y := (List.range s.N).map (fun i => nth s.ys (s.col.getD i 0))

/-- `inverse_matrix(i, j)`, det_manip.hpp:399. -/
def inverseMatrix (s : State X Y K) (i j : Nat) : K := at2 s.inv (s.col.getD i 0) (s.row.getD j 0)

/-- `wk.resize`, det_manip.hpp:146-159. -/
def Wk.resize (w : Wk X Y K) (n k : Nat) : Wk X Y K := if k < 2 then w else { w with capN := n, capK := k }

/-- `reserve`, det_manip.hpp:232-253; `newN` may be negative. The values of `mat_inv` are kept. -/
def reserve (s : State X Y K) (newN : Int) (newK : Nat := 1) : State X Y K :=
  let s1 := if newK > s.kmax then
      (if newN ≤ (s.Nmax : Int) then { s with kmax := newK, wk := s.wk.resize s.Nmax newK } else { s with kmax := newK })
    else s
  if newN > (s1.Nmax : Int) then
    { s1 with Nmax := 2 * newN.toNat, w1 := { s1.w1 with cap := 2 * newN.toNat }, wk := s1.wk.resize (2 * newN.toNat) s1.kmax }
  else s1

/-- `clear`, det_manip.hpp:336-345. -/
def clear (s : State X Y K) : State X Y K :=
  { s with N := 0, sign := 1, det := 1, lastTry := .noTry, row := [], col := [], xs := [], ys := [] }

/-- a fresh object before `reserve`: default member initialisers, det_manip.hpp:60-84. Members without initialiser
(`k`, `newdet`, `newsign`) are unspecified; here zero. -/
def fresh : State X Y K :=
  { det := 1, Nmax := 0, N := 0, kmax := 1, k := 0, lastTry := .noTry, row := [], col := [], xs := [], ys := [], sign := 1, inv := [],
    nOpts := 0, nOptsMax := 100, singularThreshold := -1, precisionWarning := 1 / 100000000, precisionError := 1 / 100000,
    w1 := ⟨default, default, 0, 0, 0, 0, [], [], [], [], 0, 0⟩, wk := ⟨[], [], [], [], [], [], [], [], [], [], [], 0, 0⟩,
    wr := ⟨[], [], []⟩, newdet := 0, newsign := 0 }

/-- first constructor, det_manip.hpp:287-291. -/
def ctorSize (initSize : Nat) : State X Y K := reserve fresh (initSize : Int)

/-- second constructor, det_manip.hpp:300-321. `undef` when the matrix is singular. -/
def ctor (e : Env X Y K) (x : List X) (y : List Y) : Res (State X Y K) Unit :=
  if x.length ≠ y.length then .throws fresh
  else if x.length = 0 then .ok () (reserve fresh 30)
  else
    let n := x.length
    let d := detN n (fun i j => e.f (nth x i) (nth y j))
    if d = 0 then .undef
    else .ok () { reserve fresh (n : Int) with
      N := n, xs := x, ys := y, row := List.range n, col := List.range n, det := d, inv := invN n (fun i j => e.f (nth x i) (nth y j)) }

/-! ## Permutations -/

/-- `std::swap(l[i], l[j])` -/
def swapAt {α : Type} (d : α) (l : List α) (i j : Nat) : List α := (l.set i (l.getD j d)).set j (l.getD i d)

/-- `swap_row`, det_manip.hpp:441-446; `undef` when out of range. -/
def swapRow (s : State X Y K) (i j : Int) : Res (State X Y K) Unit :=
  if i = j then .ok () s
  else if 0 ≤ i ∧ i < s.N ∧ 0 ≤ j ∧ j < s.N then .ok () { s with row := swapAt 0 s.row i.toNat j.toNat, sign := -s.sign }
  else .undef

/-- `swap_col`, det_manip.hpp:452-456. -/
def swapCol (s : State X Y K) (i j : Int) : Res (State X Y K) Unit :=
  if i = j then .ok () s
  else if 0 ≤ i ∧ i < s.N ∧ 0 ≤ j ∧ j < s.N then .ok () { s with col := swapAt 0 s.col i.toNat j.toNat, sign := -s.sign }
  else .undef

/-- `RollDirection`, det_manip.hpp:1307. -/
inductive Roll where
  | none | up | down | left | right

/-- `for (i = n - 2; i >= lo; i--) r[i + 1] = r[i]` -/
def shiftUp (r : List Nat) (n lo : Nat) : List Nat :=
  (List.range (n - 1 - lo)).foldl (fun r t => r.set (n - 2 - t + 1) (r.getD (n - 2 - t) 0)) r

/-- `for (i = 0; i < n - 1; i++) r[i] = r[i + 1]` -/
def shiftDown (r : List Nat) (n : Nat) : List Nat :=
  (List.range (n - 1)).foldl (fun r i => r.set i (r.getD (i + 1) 0)) r

/-- `roll_matrix`, det_manip.hpp:1321-1354; `undef` for an empty matrix. -/
def rollMatrix (s : State X Y K) (d : Roll) : Res (State X Y K) Int :=
  let fin (s : State X Y K) : Res (State X Y K) Int :=
    if (s.N - 1) % 2 = 1 then .ok (-1) { s with sign := s.sign * -1 } else .ok 1 s
  match d with
  | .none => .ok 1 s
  | .down => if s.N = 0 then .undef else fin { s with row := (shiftUp s.row s.N 0).set 0 (s.row.getD (s.N - 1) 0) }
  | .up => if s.N = 0 then .undef else fin { s with row := (shiftDown s.row s.N).set (s.N - 1) (s.row.getD 0 0) }
  | .right => if s.N = 0 then .undef else fin { s with col := (shiftUp s.col s.N 0).set 0 (s.col.getD (s.N - 1) 0) }
  | .left => if s.N = 0 then .undef else fin { s with col := (shiftDown s.col s.N).set (s.N - 1) (s.col.getD 0 0) }

/-! ## Insertion of one row and column -/

/-- `cond ? sign : -sign` with `cond` the parity of an index sum -/
def flip (sign : Int) (idxSum : Int) : Int := if idxSum % 2 = 0 then sign else -sign

/-- common part of the two insertions: last column `B`, last row `C`, corner `corner`, det_manip.hpp:492-512. -/
def tryInsertCore (s : State X Y K) (i j : Nat) (B C : Nat → K) (corner : K) : Res (State X Y K) K :=
  if s.N = 0 then
    .ok corner { s with newdet := corner, newsign := 1 }
  else if s.w1.cap < s.N then .undef
  else
    let vB := vec s.N B
    let vC := vec s.N C
    let vMB := vec s.N (fun l => dot s.N (at2 s.inv l) (at1 vB))
    let ksi := corner - dot s.N (at1 vC) (at1 vMB)
    let newsign := flip s.sign (i + j)
    .ok (ksi * ((newsign * s.sign : Int) : K))
      { s with w1 := { s.w1 with B := vB, C := vC, MB := vMB, ksi := ksi }, newdet := s.det * ksi, newsign := newsign }

/-- `try_insert`, det_manip.hpp:480-513. -/
def tryInsert (e : Env X Y K) (s : State X Y K) (i j : Int) (x : X) (y : Y) : Res (State X Y K) K :=
  if s.lastTry ≠ .noTry then .throws s
  else if ¬ (0 ≤ i ∧ i ≤ s.N) then .throws s
  else if ¬ (0 ≤ j ∧ j ≤ s.N) then .throws s
  else
    let s := reserve s (s.N + 1 : Int)
    tryInsertCore { s with lastTry := .insert, w1 := { s.w1 with i := i.toNat, j := j.toNat, x := x, y := y } } i.toNat j.toNat
      (fun l => e.f (nth s.xs l) y) (fun l => e.f x (nth s.ys l)) (e.f x y)

/-- `try_insert_from_function`, det_manip.hpp:516-547: `x` and `y` of the work data are not assigned. -/
def tryInsertFromFunction (s : State X Y K) (i j : Int) (fx : X → K) (fy : Y → K) (ksi : K) : Res (State X Y K) K :=
  if s.lastTry ≠ .noTry then .throws s
  else if ¬ (0 ≤ i ∧ i ≤ s.N) then .throws s
  else if ¬ (0 ≤ j ∧ j ≤ s.N) then .throws s
  else
    let s := reserve s (s.N + 1 : Int)
    tryInsertCore { s with lastTry := .insert, w1 := { s.w1 with i := i.toNat, j := j.toNat } } i.toNat j.toNat
      (fun l => fx (nth s.xs l)) (fun l => fy (nth s.ys l)) ksi

/-- insertion of the number `n - 1` at position `p` of a table to which a zero was appended, det_manip.hpp:578-581:
`n` is the new size. -/
def insertNum (r : List Nat) (n p : Nat) : List Nat := (shiftUp r n p).set p (n - 1)

/-- `complete_insert`, det_manip.hpp:551-592. -/
def completeInsert (s : State X Y K) : Option (State X Y K) :=
  let xs := s.xs ++ [s.w1.x]
  let ys := s.ys ++ [s.w1.y]
  let row := s.row ++ [0]
  let col := s.col ++ [0]
  if s.N = 0 then
    if s.newdet = 0 then none
    else some { s with xs := xs, ys := ys, row := row, col := col, N := 1, inv := mat 1 1 (fun _ _ => 1 / s.newdet) }
  else if s.w1.cap < s.N + 1 ∨ s.w1.ksi = 0 then none
  else
    let n := s.N
    let vMC := vec (n + 1) (fun l => if l < n then dot n (fun m => at2 s.inv m l) (at1 s.w1.C) else -1)
    let vMB := vec (n + 1) (fun l => if l < n then at1 s.w1.MB l else -1)
    let ksi := 1 / s.w1.ksi
    some { s with
      xs := xs, ys := ys, N := n + 1, row := insertNum row (n + 1) s.w1.i, col := insertNum col (n + 1) s.w1.j,
      w1 := { s.w1 with MB := vMB, MC := vMC, ksi := ksi },
      inv := mat (n + 1) (n + 1) (fun i j => (if i < n ∧ j < n then at2 s.inv i j else 0) + ksi * at1 vMB i * at1 vMC j) }

/-! ## Insertion of several rows and columns -/

/-- `argsort`, det_manip.hpp:620-625 (a stable sort). -/
def argsort (v : List Int) : List Nat :=
  (List.range v.length).insertionSort (fun a b => v.getD a 0 ≤ v.getD b 0)

/-- the consistency loop over `l < k - 1`, det_manip.hpp:638-641 and 826-829. -/
def checkPos (v : List Int) (bound : Int) : Bool :=
  (List.range (v.length - 1)).all (fun l => decide (v.getD l 0 ≠ v.getD (l + 1) 0 ∧ 0 ≤ v.getD l 0 ∧ v.getD l 0 < bound))

/-- sum of the positions, as in det_manip.hpp:670-671. -/
def idxSum (i j : List Int) : Int := (i.zipWith (· + ·) j).foldl (· + ·) 0

/-- `try_insert_k`, det_manip.hpp:610-674. -/
def tryInsertK (e : Env X Y K) (s : State X Y K) (i j : List Int) (x : List X) (y : List Y) : Res (State X Y K) K :=
  if s.lastTry ≠ .noTry then .throws s
  else if i.length ≠ j.length then .throws s
  else if j.length ≠ x.length then .throws s
  else if x.length ≠ y.length then .throws s
  else
    let k := i.length
    let s := reserve { s with k := k } (s.N + k : Int) k
    let s := { s with lastTry := .insertK }
    if s.wk.capK < k then .undef
    else
      let idx := argsort i
      let idy := argsort j
      let wi := idx.map (fun a => i.getD a 0)
      let wj := idy.map (fun a => j.getD a 0)
      let wx := idx.map (fun a => nth x a)
      let wy := idy.map (fun a => nth y a)
      let s := { s with wk := { s.wk with i := wi, j := wj, x := wx, y := wy } }
      if ¬ (checkPos wi (s.N + k) = true ∧ checkPos wj (s.N + k) = true) then .throws s
      else if s.N = 0 then
        let ksi := mat k k (fun m n => e.f (nth wx m) (nth wy n))
        .ok (detN k (at2 ksi)) { s with wk := { s.wk with ksi := ksi }, newdet := detN k (at2 ksi), newsign := 1 }
      else if s.wk.capN < s.N then .undef
      else
        let B := mat s.N k (fun n l => e.f (nth s.xs n) (nth wy l))
        let C := mat k s.N (fun l n => e.f (nth wx l) (nth s.ys n))
        let MB := mat s.N k (fun n l => dot s.N (at2 s.inv n) (fun m => at2 B m l))
        let ksi := mat k k (fun m n => e.f (nth wx m) (nth wy n) - dot s.N (at2 C m) (fun l => at2 MB l n))
        let newsign := flip s.sign (idxSum wi wj)
        .ok (detN k (at2 ksi) * ((newsign * s.sign : Int) : K))
          { s with wk := { s.wk with B := B, C := C, MB := MB, ksi := ksi }, newdet := s.det * detN k (at2 ksi), newsign := newsign }

/-- successive insertion of numbers `n, n + 1, ...` at the positions `p`, det_manip.hpp:713-719; `none` when a position
is outside the table. -/
def insertNums : List Int → List Nat → Nat → Option (List Nat)
  | [], r, _ => some r
  | p :: ps, r, n => if 0 ≤ p ∧ p ≤ n then insertNums ps (insertNum r (n + 1) p.toNat) (n + 1) else none

/-- for the empty matrix: `row_num[wk.i[l]] = l`, det_manip.hpp:696-699. -/
def placeNums (p : List Int) (r : List Nat) : Option (List Nat) :=
  (List.range p.length).foldl (fun r l => r.bind (fun r =>
    if 0 ≤ p.getD l 0 ∧ p.getD l 0 < r.length then some (r.set (p.getD l 0).toNat l) else none)) (some r)

/-- `complete_insert_k`, det_manip.hpp:681-727. In the code all zeros are appended to `row_num` first; the numbers are then inserted one
by one into the first part. -/
def completeInsertK (s : State X Y K) : Option (State X Y K) :=
  let k := s.k
  let n := s.N
  let xs := s.xs ++ s.wk.x
  let ys := s.ys ++ s.wk.y
  let row := s.row ++ List.replicate k 0
  let col := s.col ++ List.replicate k 0
  if detN k (at2 s.wk.ksi) = 0 then none
  else if n = 0 then
    match placeNums s.wk.i row, placeNums s.wk.j col with
    | some row, some col => some { s with xs := xs, ys := ys, row := row, col := col, N := k, inv := invN k (at2 s.wk.ksi) }
    | _, _ => none
  else if s.wk.capN < n + k then none
  else match insertNums s.wk.i row n, insertNums s.wk.j col n with
    | some row, some col =>
      let MC := mat k (n + k) (fun l m => if m < n then dot n (at2 s.wk.C l) (fun q => at2 s.inv q m) else if m - n = l then -1 else 0)
      let MB := mat (n + k) k (fun m l => if m < n then at2 s.wk.MB m l else if m - n = l then -1 else 0)
      let ksi := invN k (at2 s.wk.ksi)
      some { s with
        xs := xs, ys := ys, row := row, col := col, N := n + k,
        wk := { s.wk with MB := MB, MC := MC, ksi := ksi },
        inv := mat (n + k) (n + k) (fun i j => (if i < n ∧ j < n then at2 s.inv i j else 0) +
          dot k (at2 MB i) (fun l => dot k (at2 ksi l) (fun m => at2 MC m j))) }
    | _, _ => none

/-! ## Removal of one row and column -/

/-- `try_remove`, det_manip.hpp:739-756. -/
def tryRemove (s : State X Y K) (i j : Int) : Res (State X Y K) K :=
  if s.lastTry ≠ .noTry then .throws s
  else if ¬ (0 ≤ i ∧ i < s.N) then .throws s
  else if ¬ (0 ≤ j ∧ j < s.N) then .throws s
  else
    let jreal := s.col.getD j.toNat 0
    let ireal := s.row.getD i.toNat 0
    let ksi := at2 s.inv jreal ireal
    let newsign := flip s.sign (i + j)
    .ok (ksi * ((newsign * s.sign : Int) : K))
      { s with lastTry := .remove, w1 := { s.w1 with i := i.toNat, j := j.toNat, ireal := ireal, jreal := jreal, ksi := ksi },
               newdet := s.det * ksi, newsign := newsign }

/-- exchange of two numbers in a table, det_manip.hpp:773-775: `find` both, swap. -/
def swapNums (r : List Nat) (a b : Nat) : List Nat := swapAt 0 r (r.idxOf a) (r.idxOf b)

/-- `transposition of a and b` applied to an index -/
def sw (a b i : Nat) : Nat := if i = a then b else if i = b then a else i

/-- moving row `a` of the matrix to position `t` (the last one in use): columns of the inverse, arguments, table, det_manip.hpp:770-776 and 870-876 -/
def moveRow (s : State X Y K) (a t : Nat) : State X Y K :=
  if a = t then s
  else { s with inv := mat s.N s.N (fun i j => at2 s.inv i (sw a t j)), xs := s.xs.set a (nth s.xs t), row := swapNums s.row a t }

/-- the same for a column, det_manip.hpp:777-783 and 877-883. -/
def moveCol (s : State X Y K) (a t : Nat) : State X Y K :=
  if a = t then s
  else { s with inv := mat s.N s.N (fun i j => at2 s.inv (sw a t i) j), ys := s.ys.set a (nth s.ys t), col := swapNums s.col a t }

/-- `complete_remove`, det_manip.hpp:759-801. -/
def completeRemove (s : State X Y K) : Option (State X Y K) :=
  if s.N = 1 then some (clear s)
  else
    let s := moveRow s s.w1.ireal (s.N - 1)
    let s := moveCol s s.w1.jreal (s.N - 1)
    let n := s.N - 1
    if at2 s.inv n n = 0 then none
    else
      let ksi := -1 / at2 s.inv n n
      some { s with
        N := n, row := s.row.filter (fun a => a ≠ n), col := s.col.filter (fun a => a ≠ n), xs := s.xs.dropLast, ys := s.ys.dropLast,
        w1 := { s.w1 with ksi := ksi },
        inv := mat n n (fun i j => at2 s.inv i j + ksi * at2 s.inv i n * at2 s.inv n j) }

/-! ## Removal of several rows and columns -/

/-- `try_remove_k`, det_manip.hpp:812-849. A position outside the table is only met at the largest element. -/
def tryRemoveK (s : State X Y K) (i j : List Int) : Res (State X Y K) K :=
  let i := i.insertionSort (· ≤ ·)
  let j := j.insertionSort (· ≤ ·)
  if s.lastTry ≠ .noTry then .throws s
  else if ¬ (s.N ≥ 2) then .throws s
  else if i.length ≠ j.length then .throws s
  else
    let k := i.length
    let s := reserve { s with k := k } (s.N - k : Int) k
    let s := { s with lastTry := .removeK }
    if ¬ (checkPos i s.N = true ∧ checkPos j s.N = true) then .throws s
    else if s.wk.capK < k then .undef
    else if ¬ ((i ++ j).all (fun p => decide (0 ≤ p ∧ p < s.N)) = true) then .undef
    else
      let ireal := i.map (fun p => s.row.getD p.toNat 0)
      let jreal := j.map (fun p => s.col.getD p.toNat 0)
      let ksi := mat k k (fun a b => at2 s.inv (jreal.getD a 0) (ireal.getD b 0))
      let newsign := flip s.sign (idxSum i j)
      .ok (detN k (at2 ksi) * ((newsign * s.sign : Int) : K))
        { s with wk := { s.wk with i := i, j := j, ireal := ireal, jreal := jreal, ksi := ksi },
                 newdet := s.det * detN k (at2 ksi), newsign := newsign }

/-- the loop `m = k-1, target = N-1; m >= 0; --m, --target`, det_manip.hpp:869-884; the lists are given in decreasing order. -/
def moveAll : List Nat → List Nat → Nat → State X Y K → State X Y K
  | a :: as, b :: bs, t, s => moveAll as bs (t - 1) (moveCol (moveRow s a t) b t)
  | _, _, _, s => s

/-- `complete_remove_k`, det_manip.hpp:853-906. -/
def completeRemoveK (s : State X Y K) : Option (State X Y K) :=
  let k := s.k
  if s.N = k then some (clear s)
  else
    let ireal := s.wk.ireal.insertionSort (· ≤ ·)
    let jreal := s.wk.jreal.insertionSort (· ≤ ·)
    let s := moveAll ireal.reverse jreal.reverse (s.N - 1) s
    let n := s.N - k
    let corner := fun a b => at2 s.inv (n + a) (n + b)
    if detN k corner = 0 then none
    else
      let ksi := invN k corner
      some { s with
        N := n, row := s.row.filter (fun a => a < n), col := s.col.filter (fun a => a < n), xs := s.xs.take n, ys := s.ys.take n,
        wk := { s.wk with ksi := ksi },
        inv := mat n n (fun i j => at2 s.inv i j - dot k (fun a => at2 s.inv i (n + a)) (fun a => dot k (at2 ksi a) (fun b => at2 s.inv (n + b) j))) }

/-! ## Changes of rows and columns -/

/-- `try_change_col`, det_manip.hpp:917-938. -/
def tryChangeCol (e : Env X Y K) (s : State X Y K) (j : Int) (y : Y) : Res (State X Y K) K :=
  if s.lastTry ≠ .noTry then .throws s
  else if ¬ (0 ≤ j ∧ j < s.N) then .throws s
  else if s.w1.cap < s.N then .undef
  else
    let jreal := s.col.getD j.toNat 0
    let MC := vec s.N (fun i => e.f (nth s.xs i) y - e.f (nth s.xs i) (nth s.ys jreal))
    let MB := vec s.N (fun i => dot s.N (at2 s.inv i) (at1 MC))
    let ksi := 1 + at1 MB jreal
    .ok ksi { s with lastTry := .changeCol, w1 := { s.w1 with j := j.toNat, jreal := jreal, y := y, MC := MC, MB := MB, ksi := ksi },
                     newdet := s.det * ksi, newsign := s.sign }

/-- `complete_change_col`, det_manip.hpp:941-954. -/
def completeChangeCol (s : State X Y K) : Option (State X Y K) :=
  if s.w1.ksi = 0 then none
  else
    let ksi := -1 / s.w1.ksi
    let MB := s.w1.MB.set s.w1.jreal 0
    some { s with
      ys := s.ys.set s.w1.jreal s.w1.y, w1 := { s.w1 with ksi := ksi, MB := MB },
      inv := mat s.N s.N (fun i j =>
        let v := at2 s.inv i j + ksi * at1 MB i * at2 s.inv s.w1.jreal j
        if i = s.w1.jreal then v * -ksi else v) }

/-- `try_change_row`, det_manip.hpp:964-984: a negative `i` is not refused. -/
def tryChangeRow (e : Env X Y K) (s : State X Y K) (i : Int) (x : X) : Res (State X Y K) K :=
  if s.lastTry ≠ .noTry then .throws s
  else if ¬ (i < s.N) then .throws s
  else if i < 0 then .undef
  else if s.w1.cap < s.N then .undef
  else
    let ireal := s.row.getD i.toNat 0
    let MB := vec s.N (fun j => e.f x (nth s.ys j) - e.f (nth s.xs ireal) (nth s.ys j))
    let MC := vec s.N (fun j => dot s.N (fun m => at2 s.inv m j) (at1 MB))
    let ksi := 1 + at1 MC ireal
    .ok ksi { s with lastTry := .changeRow, w1 := { s.w1 with i := i.toNat, ireal := ireal, x := x, MC := MC, MB := MB, ksi := ksi },
                     newdet := s.det * ksi, newsign := s.sign }

/-- `complete_change_row`, det_manip.hpp:987-999. -/
def completeChangeRow (s : State X Y K) : Option (State X Y K) :=
  if s.w1.ksi = 0 then none
  else
    let ksi := -1 / s.w1.ksi
    let MC := s.w1.MC.set s.w1.ireal 0
    some { s with
      xs := s.xs.set s.w1.ireal s.w1.x, w1 := { s.w1 with ksi := ksi, MC := MC },
      inv := mat s.N s.N (fun i j =>
        let v := at2 s.inv i j + ksi * at2 s.inv i s.w1.ireal * at1 MC j
        if j = s.w1.ireal then v * -ksi else v) }

/-- `try_change_col_row`, det_manip.hpp:1009-1047. -/
def tryChangeColRow (e : Env X Y K) (s : State X Y K) (i j : Int) (x : X) (y : Y) : Res (State X Y K) K :=
  if s.lastTry ≠ .noTry then .throws s
  else if ¬ (0 ≤ i ∧ i < s.N) then .throws s
  else if ¬ (0 ≤ j ∧ j < s.N) then .throws s
  else if s.w1.cap < s.N then .undef
  else
    let ireal := s.row.getD i.toNat 0
    let jreal := s.col.getD j.toNat 0
    let MC := vec s.N (fun i => if i = ireal then e.f x y - e.f (nth s.xs ireal) (nth s.ys jreal)
      else e.f (nth s.xs i) y - e.f (nth s.xs i) (nth s.ys jreal))
    let MB := vec s.N (fun i => if i = jreal then 0 else e.f x (nth s.ys i) - e.f (nth s.xs ireal) (nth s.ys i))
    let C := vec s.N (fun i => dot s.N (at2 s.inv i) (at1 MC))
    let B := vec s.N (fun j => dot s.N (fun m => at2 s.inv m j) (at1 MB))
    let Xn := at1 C jreal
    let Yn := at1 B ireal
    let Z := dot s.N (at1 MB) (at1 C)
    let Mnn := at2 s.inv jreal ireal
    let r := (1 + Xn) * (1 + Yn) - Mnn * Z
    .ok r { s with lastTry := .changeRowCol,
                   w1 := { s.w1 with i := i.toNat, j := j.toNat, ireal := ireal, jreal := jreal, x := x, y := y, MC := MC, MB := MB, B := B, C := C, ksi := r },
                   newdet := s.det * r, newsign := s.sign }

/-- `complete_change_col_row`, det_manip.hpp:1050-1077. -/
def completeChangeColRow (s : State X Y K) : Option (State X Y K) :=
  if s.w1.ksi = 0 then none
  else
    let D := s.w1.ksi
    let a := -(1 + at1 s.w1.B s.w1.ireal) / D
    let b := -(1 + at1 s.w1.C s.w1.jreal) / D
    let Z := dot s.N (at1 s.w1.MB) (at1 s.w1.C) / D
    let Mnn := at2 s.inv s.w1.jreal s.w1.ireal / D
    let MB := vec s.N (fun j => at2 s.inv s.w1.jreal j)
    let MC := vec s.N (fun i => at2 s.inv i s.w1.ireal)
    some { s with
      xs := s.xs.set s.w1.ireal s.w1.x, ys := s.ys.set s.w1.jreal s.w1.y, w1 := { s.w1 with MB := MB, MC := MC },
      inv := mat s.N s.N (fun i j => at2 s.inv i j + (a * at1 s.w1.C i * at1 MB j + b * at1 MC i * at1 s.w1.B j
        + Mnn * at1 s.w1.C i * at1 s.w1.B j + Z * at1 MC i * at1 MB j)) }

/-! ## Refill -/

/-- `try_refill`, det_manip.hpp:1090-1118. -/
def tryRefill (e : Env X Y K) (s : State X Y K) (x : List X) (y : List Y) : Res (State X Y K) K :=
  if s.lastTry ≠ .noTry then .throws s
  else if x.length ≠ y.length then .throws s
  else if x.length = 0 then .ok (1 / ((s.sign : K) * s.det)) { s with lastTry := .refill, wr := { s.wr with x := [], y := [] } }
  else
    let M := mat x.length x.length (fun i j => e.f (nth x i) (nth y j))
    .ok (detN x.length (at2 M) / ((s.sign : K) * s.det))
      { s with lastTry := .refill, wr := ⟨x, y, M⟩, newdet := detN x.length (at2 M), newsign := 1 }

/-- `complete_refill`, det_manip.hpp:1122-1144. -/
def completeRefill (s : State X Y K) : Option (State X Y K) :=
  let n := s.wr.x.length
  if n = 0 then some { clear s with newdet := 1, newsign := 1 }
  else if detN n (at2 s.wr.M) = 0 then none
  else
    let s := reserve { s with N := n } (n : Int)
    some { s with xs := s.wr.x, ys := s.wr.y, wr := { s.wr with x := s.xs, y := s.ys }, row := List.range n, col := List.range n,
                  inv := invN n (at2 s.wr.M) }

/-! ## Regeneration and completion -/

/-- determinant of the permutation matrix of a table, det_manip.hpp:1189-1196. -/
def permDet (n : Nat) (r : List Nat) : Int := detN n (fun i j => if r.getD i 0 = j then 1 else 0)

/-- `_regenerate_with_check`, det_manip.hpp:1148-1198; `undef` when a singular matrix passes the test. -/
def regenerateWithCheck (e : Env X Y K) (s : State X Y K) (doCheck : Bool) : Res (State X Y K) Unit :=
  if s.N = 0 then .ok () { s with det := 1, sign := 1 }
  else
    let g := fun i j => e.f (nth s.xs i) (nth s.ys j)
    let s := { s with det := detN s.N g }
    if e.singular s.singularThreshold s.det then .throws s
    else if s.det = 0 then .undef
    else
      let res := invN s.N g
      if doCheck && e.deviates s.precisionError s.N res s.inv then .throws s
      else .ok () { s with inv := res, nOpts := 0, sign := if permDet s.N s.row * permDet s.N s.col > 0 then 1 else -1 }

/-- `regenerate`, det_manip.hpp:1207. -/
def regenerate (e : Env X Y K) (s : State X Y K) : Res (State X Y K) Unit := regenerateWithCheck e s false

/-- `determinant`, det_manip.hpp:392-395. -/
def determinant (e : Env X Y K) (s : State X Y K) : Res (State X Y K) K :=
  if e.singular s.singularThreshold s.det then
    match regenerate e s with
    | .ok _ s => .ok ((s.sign : K) * s.det) s
    | .throws s => .throws s
    | .undef => .undef
  else .ok ((s.sign : K) * s.det) s

/-- the operation-specific part of `complete_operation`, det_manip.hpp:1215-1226. -/
def completeCase (s : State X Y K) : Option (State X Y K) :=
  match s.lastTry with
  | .insert => completeInsert s
  | .remove => completeRemove s
  | .changeCol => completeChangeCol s
  | .changeRow => completeChangeRow s
  | .changeRowCol => completeChangeColRow s
  | .insertK => completeInsertK s
  | .removeK => completeRemoveK s
  | .refill => completeRefill s
  | .noTry => some s

/-- `complete_operation`, det_manip.hpp:1214-1233. -/
def completeOperation (e : Env X Y K) (s : State X Y K) : Res (State X Y K) Unit :=
  if s.lastTry = .noTry then .ok () s
  else match completeCase s with
    | none => .undef
    | some s =>
      let s := { s with det := s.newdet, sign := s.newsign, nOpts := s.nOpts + 1 }
      if s.nOpts > s.nOptsMax then
        match regenerateWithCheck e s true with
        | .ok _ s => .ok () { s with lastTry := .noTry }
        | .throws s => .throws s
        | .undef => .undef
      else .ok () { s with lastTry := .noTry }

/-- `reject_last_try`, det_manip.hpp:1239. -/
def rejectLastTry (s : State X Y K) : State X Y K := { s with lastTry := .noTry }

/-- `swap`, det_manip.hpp:196-222 (the functions `f` are swapped too; here both objects use one function). Not exchanged: `kmax`, `k`,
the thresholds and `w_refill`. -/
def swapObj (a b : State X Y K) : State X Y K × State X Y K :=
  let half (a b : State X Y K) : State X Y K :=
    { a with det := b.det, Nmax := b.Nmax, N := b.N, lastTry := b.lastTry, row := b.row, col := b.col, xs := b.xs, ys := b.ys, sign := b.sign,
             inv := b.inv, nOpts := b.nOpts, nOptsMax := b.nOptsMax, w1 := b.w1, wk := b.wk, newdet := b.newdet, newsign := b.newsign }
  (half a b, half b a)

/-! ## Archives -/

/-- what an archive of an object contains, det_manip.hpp:87-100; `dim` is the extent of `mat_inv`, which is allocated for `Nmax` rows and
columns (det_manip.hpp:241). -/
structure Arch (X Y K : Type) where
  N : Nat
  dim : Nat
  inv : Mat K
  det : K
  sign : Int
  row : List Nat
  col : List Nat
  xs : List X
  ys : List Y
  nOpts : Nat
  nOptsMax : Nat
  singularThreshold : ℚ

/-- `h5_write`, det_manip.hpp:87-100. -/
def h5Write (s : State X Y K) : Arch X Y K :=
  ⟨s.N, s.Nmax, s.inv, s.det, s.sign, s.row, s.col, s.xs, s.ys, s.nOpts, s.nOptsMax, s.singularThreshold⟩

/-- `h5_read` into an object `g`, det_manip.hpp:103-118. The work arrays, `kmax`, `k` and the two precisions stay those of `g`. -/
def h5Read (a : Arch X Y K) (g : State X Y K) : State X Y K :=
  { g with N := a.N, inv := a.inv, Nmax := a.dim, lastTry := .noTry, det := a.det, sign := a.sign, row := a.row, col := a.col, xs := a.xs, ys := a.ys,
           nOpts := a.nOpts, nOptsMax := a.nOptsMax, singularThreshold := a.singularThreshold }

end

end Verif.DetManip
