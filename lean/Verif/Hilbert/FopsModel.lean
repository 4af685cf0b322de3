import Mathlib.Data.Nat.Digits.Defs

/-!
# Model of `fundamental_operator_set`

Source: `/repo/c++/triqs/hilbert_space/fundamental_operator_set.{hpp,cpp}`.
-/

namespace Verif.Fops

/-- `data_t vec`, fundamental_operator_set.hpp:54-58; the label type is a parameter. -/
abbrev Fops (ι : Type) := List ι

section
variable {ι : Type} [DecidableEq ι]

/-- `has_indices`, fundamental_operator_set.hpp:124. -/
def hasIndices (f : Fops ι) (t : ι) : Bool := f.contains t

/-- `insert_from_indices_t`, fundamental_operator_set.hpp:106-108. -/
def insert (f : Fops ι) (t : ι) : Fops ι := if hasIndices f t then f else f ++ [t]

/-- `std::find` then `std::distance`. -/
def find (t : ι) : List ι → Option Nat
  | [] => none
  | x :: xs => if x = t then some 0 else (find t xs).map (· + 1)

/-- `operator[]`, fundamental_operator_set.hpp:131-135; `none` is the exception. -/
def position (f : Fops ι) (t : ι) : Option Nat := find t f

/-- Constructor from a list of labels through `insert` (`std::set`, `gf_struct` and
`vector<int>` constructors, fundamental_operator_set.hpp:71-97). -/
def ofInserts (l : List ι) : Fops ι := l.foldl insert []

/-- `explicit fundamental_operator_set(data_t const &)`, fundamental_operator_set.hpp:88:
the vector is stored as it is. -/
def ofVector (l : List ι) : Fops ι := l
end

/-! ### archive attribute, fundamental_operator_set.cpp -/

/-- One component of `indices_t` (`variant<long,string>`); a string is its list of characters. -/
inductive Comp where
  | int (n : Int)
  | str (s : List Char)
deriving DecidableEq, Repr

/-- conversion `long → int` (two's complement, modulo 2^32), implied by the parameter type of
`variant_visitor::operator()(int)`, fundamental_operator_set.cpp:30. -/
def toInt32 (n : Int) : Int := (n + 2 ^ 31) % 2 ^ 32 - 2 ^ 31

/-- decimal digits of a natural number, most significant first; `"0"` for zero. -/
def natToString (n : Nat) : List Char :=
  if n = 0 then ['0'] else ((Nat.digits 10 n).reverse.map (fun d => Char.ofNat (48 + d)))

/-- `std::to_string(int)` -/
def intToString (n : Int) : List Char :=
  if n < 0 then '-' :: natToString n.natAbs else natToString n.natAbs

/-- `variant_visitor`, fundamental_operator_set.cpp:29-32. -/
def encodeComp : Comp → List Char
  | .int n => 'i' :: intToString (toInt32 n)
  | .str s => 's' :: s

/-- characters of a C string: up to the first NUL (`s.c_str()`), excluding it. -/
def cstr (s : List Char) : List Char := s.takeWhile (fun c => c != Char.ofNat 0)

def isDigit (c : Char) : Bool := 48 ≤ c.toNat && c.toNat ≤ 57

/-- value of the leading digits, and whether there was at least one -/
def parseNat (s : List Char) : Option Nat :=
  let ds := s.takeWhile isDigit
  if ds = [] then none else some (ds.foldl (fun acc c => 10 * acc + (c.toNat - 48)) 0)

/-- optional sign, digits, the rest ignored. Leading white space and `+`, which the encoder never
produces, are treated as invalid. -/
def parseInt : List Char → Option Int
  | [] => none
  | c :: t => if c = '-' then (parseNat t).map (fun n : Nat => - (n : Int))
              else (parseNat (c :: t)).map (fun n : Nat => (n : Int))

def checkInt (n : Int) : Option Int := if - 2147483648 ≤ n ∧ n < 2147483648 then some n else none

/-- `std::stoi` (base 10); `none` for its exceptions `invalid_argument` and `out_of_range`. -/
def stoi (s : List Char) : Option Int := (parseInt s).bind checkInt

/-- `string_to_variant`, fundamental_operator_set.cpp:35-41 (called on non-empty strings only);
`none` for an exception. -/
def decodeComp (s : List Char) : Option Comp :=
  match s with
  | 'i' :: t => (stoi (cstr t)).map .int
  | 's' :: t => some (.str (cstr t))
  | _ => none

/-- `to_vec_vec_string`, fundamental_operator_set.cpp:44-52. -/
def encode (f : Fops (List Comp)) : List (List (List Char)) := f.map (fun ix => ix.map encodeComp)

/-- The HDF5 layer stores a rectangular array: rows are padded with empty strings (external
library; this is what the `!x.empty()` test of fundamental_operator_set.cpp:57 is for). -/
def pad (w : Nat) (rows : List (List (List Char))) : List (List (List Char)) :=
  rows.map (fun r => r ++ List.replicate (w - r.length) [])

/-- `to_indices`, fundamental_operator_set.cpp:54-59. -/
def toIndices : List (List Char) → Option (List Comp)
  | [] => some []
  | x :: xs =>
    if x.isEmpty then toIndices xs
    else match decodeComp x, toIndices xs with
      | some c, some cs => some (c :: cs)
      | _, _ => none

/-- reading constructor, fundamental_operator_set.cpp:64-66. -/
def decode : List (List (List Char)) → Option (Fops (List Comp))
  | [] => some []
  | r :: rs => match toIndices r, decode rs with
    | some i, some is => some (i :: is)
    | _, _ => none

end Verif.Fops
