import Mathlib.Algebra.Star.Basic
import Mathlib.Algebra.Ring.Defs
import Mathlib.Order.Defs.LinearOrder

/-!
# Model of `many_body_operator_generic`

Source: `/repo/c++/triqs/operators/many_body_operator.hpp` and `.cpp`.

Simplifications, valid for the whole file:
* `ScalarType` is an exact commutative ring `R`; `is_zero(x)` is `x = 0`
  (the code uses `|x| < 100 eps`, `utility/numeric_ops.hpp`).
* `indices_t` (`vector<variant<long,string>>`, compared lexicographically) is an
  arbitrary linear order `ι`.
* The `std::map<monomial_t, Scalar>` is an association list kept sorted by the
  order of `many_body_operator.cpp:51-53`.
* compound assignments return the new value; aliasing (`op -= op`) is excluded.
-/

namespace Verif.Operators

/-- `struct canonical_ops_t`, many_body_operator.hpp:52-70. -/
structure COp (ι : Type) where
  dagger : Bool
  idx : ι
deriving DecidableEq, Repr

section
variable {ι : Type} [LinearOrder ι]

/-- `canonical_ops_t::operator<=>` read as `a < b`, many_body_operator.hpp:57-67:
daggers before non-daggers; daggers by increasing, non-daggers by decreasing index. -/
def COp.lt (a b : COp ι) : Bool :=
  if a.dagger != b.dagger then a.dagger
  else if a.dagger then decide (a.idx < b.idx) else decide (b.idx < a.idx)

/-- `monomial_t`, many_body_operator.hpp:77. -/
abbrev Mono (ι : Type) := List (COp ι)

/-- `std::lexicographical_compare` with `COp.lt`. -/
def lexLt : Mono ι → Mono ι → Bool
  | [], [] => false
  | [], _ :: _ => true
  | _ :: _, [] => false
  | a :: as, b :: bs => if a.lt b then true else if b.lt a then false else lexLt as bs

/-- `operator<(monomial_t, monomial_t)`, many_body_operator.cpp:51-53:
shorter first, then lexicographic. -/
def monoLt (m1 m2 : Mono ι) : Bool :=
  if m1.length ≠ m2.length then decide (m1.length < m2.length) else lexLt m1 m2

/-- `monomials_map_t`, many_body_operator.hpp:97 (sorted association list). -/
abbrev MMap (ι R : Type) := List (Mono ι × R)

variable {R : Type} [CommRing R] [DecidableEq R]

/-- The insertion idiom used everywhere:
`insert({m,c}); if (!is_new_monomial) { it->second += c; erase_zero_monomial }`,
many_body_operator.hpp:211-217, 242-247, 382-389 and erase_zero_monomial 393-396. -/
def insertAdd (m : Mono ι) (c : R) : MMap ι R → MMap ι R
  | [] => [(m, c)]
  | (m', c') :: t =>
    if m = m' then (if c' + c = 0 then t else (m', c' + c) :: t)
    else if monoLt m m' then (m, c) :: (m', c') :: t
    else (m', c') :: insertAdd m c t

/-- `std::map::insert` without accumulation (keeps an existing entry);
used by `dagger` 297-302, `transform` 313-321 and `h5_read` (.cpp:172). -/
def insertKeep (m : Mono ι) (c : R) : MMap ι R → MMap ι R
  | [] => [(m, c)]
  | (m', c') :: t =>
    if m = m' then (m', c') :: t
    else if monoLt m m' then (m, c) :: (m', c') :: t
    else (m', c') :: insertKeep m c t

/-- Result of one pass `for (n = 1; n < m.size(); ++n)` of the bubble sort. -/
structure PassRes (ι R : Type) where
  /-- contracted monomials passed to the recursive call, in order -/
  emitted : List (Mono ι × R)
  /-- `none`: the early `return` (two equal neighbours); otherwise the
  monomial, the coefficient and `is_swapped` after the pass -/
  rest : Option (Mono ι × R × Bool)

/-- One pass of the loop, many_body_operator.hpp:358-378. `pre` are the elements
already passed, `prev` is `m[n-1]`, the last argument `m[n..]`. -/
def pass (pre : Mono ι) (prev : COp ι) (coeff : R) (swapped : Bool) : Mono ι → PassRes ι R
  | [] => ⟨[], some (pre ++ [prev], coeff, swapped)⟩
  | cur :: xs =>
    if prev = cur then ⟨[], none⟩
    else if cur.lt prev then
      let r := pass (pre ++ [cur]) prev (-coeff) true xs
      if prev = ⟨!cur.dagger, cur.idx⟩ then
        ⟨(pre ++ xs, coeff) :: r.emitted, r.rest⟩
      else r
    else pass (pre ++ [prev]) cur coeff swapped xs

/-- The recursive calls `normalize_and_insert(new_m, coeff, target)` made during one pass
(many_body_operator.hpp:372), in order; `f` is the recursive call. -/
def emitAll (f : Mono ι → R → Option (List (Mono ι × R))) :
    List (Mono ι × R) → Option (List (Mono ι × R))
  | [] => some []
  | (m, c) :: es =>
    match f m c, emitAll f es with
    | some l, some l' => some (l ++ l')
    | _, _ => none

/-- The sequence of insertions performed by `normalize_and_insert(m, coeff, ·)`,
many_body_operator.hpp:349-390, as (monomial, coefficient) pairs in program order.
`fuel` bounds the number of passes + recursive calls on any path; `none` would mean
that the bound is too small (`normTerms_isSome` proves it never is for the fuel used
below). -/
def normTerms : Nat → Mono ι → R → Option (List (Mono ι × R))
  | 0, _, _ => none
  | _ + 1, [], c => some [([], c)]
  | fuel + 1, x :: xs, c =>
    match emitAll (normTerms fuel) (pass [] x c false xs).emitted with
    | none => none
    | some l =>
      match (pass [] x c false xs).rest with
      | none => some l
      | some (m', c', swapped) =>
        if swapped then
          match normTerms fuel m' c' with
          | some l' => some (l ++ l')
          | none => none
        else some (l ++ [(m', c')])

/-- A fuel that is always sufficient. -/
def normFuel (m : Mono ι) : Nat := m.length * m.length + 1

/-- `normalize_and_insert`, many_body_operator.hpp:349-390. -/
def normalizeAndInsert (m : Mono ι) (c : R) (target : MMap ι R) : MMap ι R :=
  match normTerms (normFuel m) m c with
  | some l => l.foldl (fun t e => insertAdd e.1 e.2 t) target
  | none => target

/-- `many_body_operator_generic(scalar_t)`, many_body_operator.hpp:130-133. -/
def ofScalar (x : R) : MMap ι R := if x = 0 then [] else [([], x)]

/-- `many_body_operator_generic(scalar_t, monomial_t)`, many_body_operator.hpp:135-138
(the monomial is stored as given). -/
def ofMonomial (x : R) (m : Mono ι) : MMap ι R := if x = 0 then [] else [(m, x)]

/-- `make_canonical`, many_body_operator.hpp:163-168. -/
def makeCanonical (dag : Bool) (i : ι) : MMap ι R := [([⟨dag, i⟩], 1)]

/-- unary minus, many_body_operator.hpp:202-206. -/
def neg (a : MMap ι R) : MMap ι R := a.map (fun e => (e.1, -e.2))

/-- `operator+=(scalar_t)`, many_body_operator.hpp:208-219. -/
def addScalar (a : MMap ι R) (x : R) : MMap ι R := if x = 0 then a else insertAdd [] x a

/-- `operator-=(scalar_t)`, many_body_operator.hpp:221. -/
def subScalar (a : MMap ι R) (x : R) : MMap ι R := addScalar a (-x)

/-- `operator*=(scalar_t)`, many_body_operator.hpp:226-234. -/
def smul (a : MMap ι R) (x : R) : MMap ι R :=
  if x = 0 then [] else a.map (fun e => (e.1, e.2 * x))

/-- `operator+=(op)`, many_body_operator.hpp:239-250. -/
def add (a b : MMap ι R) : MMap ι R := b.foldl (fun t e => insertAdd e.1 e.2 t) a

/-- `operator-=(op)`, many_body_operator.hpp:252-263 (inserts `-c`, or subtracts `c`
from the existing coefficient). -/
def sub (a b : MMap ι R) : MMap ι R := b.foldl (fun t e => insertAdd e.1 (-e.2) t) a

/-- `operator*=(op)`, many_body_operator.hpp:265-280. -/
def mul (a b : MMap ι R) : MMap ι R :=
  a.foldl (fun t e => b.foldl (fun t f => normalizeAndInsert (e.1 ++ f.1) (e.2 * f.2) t) t) []

/-- `is_zero`, many_body_operator.hpp:199. -/
def isZero (a : MMap ι R) : Bool := a.isEmpty

/-- `operator==`, many_body_operator.hpp:282. -/
def eqOp (a b : MMap ι R) : Bool := isZero (sub a b)

/-- `_dagger(canonical_ops_t)`, many_body_operator.hpp:287. -/
def COp.adj (x : COp ι) : COp ι := ⟨!x.dagger, x.idx⟩

/-- `_dagger(monomial_t)`, many_body_operator.hpp:289-293. -/
def Mono.adj (m : Mono ι) : Mono ι := m.reverse.map COp.adj

/-- `dagger(op)`, many_body_operator.hpp:297-302. -/
def dagger [StarRing R] (a : MMap ι R) : MMap ι R :=
  a.foldl (fun t e => insertKeep (Mono.adj e.1) (star e.2) t) []

/-- `transform(op, L)`, many_body_operator.hpp:313-321. -/
def transform (L : Mono ι → R → R) (a : MMap ι R) : MMap ι R :=
  a.foldl (fun t e => if L e.1 e.2 = 0 then t else insertKeep e.1 (L e.1 e.2) t) []

/-- `c(i)`, many_body_operator.hpp:427-430. -/
def c (i : ι) : MMap ι R := makeCanonical false i
/-- `c_dag(i)`, many_body_operator.hpp:432-434. -/
def cDag (i : ι) : MMap ι R := makeCanonical true i
/-- `n(i)`, many_body_operator.hpp:436-438. -/
def nOp (i : ι) : MMap ι R := mul (cDag i) (c i)

/-- `is_op_hermitian` with its default tolerance 0, many_body_operator.hpp:420-422 and
`is_almost_zero` 193-196: the test per remaining term is `abs(coef) < 0`, which is false,
so the result is true iff `dagger(op) - op` has no term left. -/
def isHermitian [StarRing R] (a : MMap ι R) : Bool := (sub (dagger a) a).all (fun _ => false)

end
end Verif.Operators
