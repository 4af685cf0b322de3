import Verif.Operators.Model
import Verif.Hilbert.SpaceModel

/-!
# Model of `imperative_operator`

Source: `/repo/c++/triqs/hilbert_space/imperative_operator.hpp`, for `UseMap = false` on a full
Hilbert space and scalar (not callable) coefficients.
-/

namespace Verif.Imp
open Verif.Operators

variable {ι : Type} [DecidableEq ι] {R : Type} [CommRing R]

/-- `one_term_t`, imperative_operator.hpp:65-68. -/
structure Term (R : Type) where
  coeff : R
  dMask : BitVec 64
  dagMask : BitVec 64
  dCount : BitVec 64
  dagCount : BitVec 64
deriving DecidableEq

/-- positions of the labels of a monomial, `fops[...]`; `none` when a label is unknown.
Simplification: the code looks labels up inside the sorting loop and again afterwards; the look-ups
are pure and the constructor throws for the same monomials. -/
def positions (f : Fops.Fops ι) : Mono ι → Option (Mono Nat)
  | [] => some []
  | x :: xs => match Fops.position f x.idx, positions f xs with
    | some p, some ps => some (⟨x.dagger, p⟩ :: ps)
    | _, _ => none

/-- `greater`, imperative_operator.hpp:96-99. -/
def greater (a b : COp Nat) : Bool :=
  if a.dagger != b.dagger then b.dagger
  else if a.dagger then decide (a.idx > b.idx) else decide (a.idx < b.idx)

/-- inner loop of the bubble sort, imperative_operator.hpp:112-119: `k` comparisons.
Returns the new list, the coefficient and `swapped`. -/
def sortPass : Nat → Mono Nat → R → Mono Nat × R × Bool
  | 0, m, c => (m, c, false)
  | _ + 1, [], c => ([], c, false)
  | _ + 1, [a], c => ([a], c, false)
  | k + 1, a :: b :: m, c =>
    if greater a b then
      let r := sortPass k (a :: m) (c * (-1))
      (b :: r.1, r.2.1, true)
    else
      let r := sortPass k (b :: m) c
      (a :: r.1, r.2.1, r.2.2)

/-- `do ... while (swapped)`, imperative_operator.hpp:108-121; the argument is `n`. -/
def bubble : Nat → Mono Nat → R → Mono Nat × R
  | 0, m, c => (m, c)
  | n + 1, m, c =>
    let r := sortPass n m c
    if r.2.2 then bubble n r.1 r.2.1 else (r.1, r.2.1)

/-- `uint64_t(1) << p`; the precondition `p < 64` is checked in `buildTerm`. -/
def bit (p : Nat) : BitVec 64 := 1#64 <<< p

/-- `compute_count_mask`, imperative_operator.hpp:137-147: the loop over the bits `i, i+1, ..` (`k` of them). -/
def countMaskLoop (d : List Nat) : Nat → Nat → Bool → BitVec 64 → BitVec 64
  | 0, _, _, mask => mask
  | k + 1, i, on, mask =>
    if i ∈ d then countMaskLoop d k (i + 1) (!on) mask
    else if on then countMaskLoop d k (i + 1) on (mask ||| bit i)
    else countMaskLoop d k (i + 1) on mask

def countMask (d : List Nat) : BitVec 64 := countMaskLoop d 64 0 (d.length % 2 == 1) 0

def orBits (d : List Nat) : BitVec 64 := d.foldl (fun m p => m ||| bit p) 0

/-- one iteration of the constructor loop, imperative_operator.hpp:103-150; `none` when a label is
unknown (exception) or sits at a position `≥ 64` (undefined shift). -/
def buildTerm (f : Fops.Fops ι) (m : Mono ι) (c : R) : Option (Term R) :=
  match positions f m with
  | none => none
  | some pm =>
    let r := bubble pm.length pm c
    let dag := (r.1.filter (·.dagger)).map (·.idx)
    let ndag := (r.1.filter (!·.dagger)).map (·.idx)
    if r.1.all (fun x => x.idx < 64) then
      some { coeff := r.2, dMask := orBits ndag, dagMask := orBits dag,
             dCount := countMask ndag, dagCount := countMask dag }
    else none

/-- constructor, imperative_operator.hpp:89-151. -/
def build (f : Fops.Fops ι) : MMap ι R → Option (List (Term R))
  | [] => some []
  | e :: es => match buildTerm f e.1 e.2, build f es with
    | some t, some ts => some (t :: ts)
    | _, _ => none

/-- `parity_number_of_bits`, imperative_operator.hpp:175-184. -/
def parityBits (v : BitVec 64) : Bool :=
  let v := v ^^^ (v >>> 8)
  let v := v ^^^ (v >>> 4)
  let v := v ^^^ (v >>> 2)
  let v := v ^^^ (v >>> 1)
  (v &&& 1#64) == 1#64

/-- body of the lambda, imperative_operator.hpp:217-222: target word and sign, `none` when the
monomial annihilates the state. -/
def termOn (M : Term R) (f2 : BitVec 64) : Option (BitVec 64 × Bool) :=
  if (f2 &&& M.dMask) ≠ M.dMask then none else
  let f2 := f2 &&& ~~~ M.dMask
  if ((f2 ^^^ M.dagMask) &&& M.dagMask) ≠ M.dagMask then none else
  let f3 := ~~~ (~~~ f2 &&& ~~~ M.dagMask)
  some (f3, parityBits ((f2 &&& M.dCount) ^^^ (f3 &&& M.dagCount)))

/-- one call of the lambda: index `i` with amplitude `a` accumulates into the target state `t`
(amplitudes as a function of the index); outer `none` for an exception. -/
def stepIndex (h : HSpace.Full) (M : Term R) (i : Nat) (a : R) (t : Int → R) : Option (Int → R) :=
  match h.fockState i with
  | none => none
  | some f2 => match termOn M f2 with
    | none => some t
    | some (f3, minus) => match h.stateIndex f3 with
      | none => none
      | some ind =>
        some (Function.update t ind (t ind + a * M.coeff * (if minus then -1 else 1)))

/-- `foreach` over the visited indices of the source state: all indices for the dense state, the
stored ones in any order for the sparse state (state.hpp:194-197, 334-337). -/
def applyTerm (h : HSpace.Full) (M : Term R) (a : Int → R) : List Nat → (Int → R) → Option (Int → R)
  | [], t => some t
  | i :: is, t => match stepIndex h M i (a i) t with
    | none => none
    | some t' => applyTerm h M a is t'

/-- `operator()`, imperative_operator.hpp:207-230. -/
def apply (h : HSpace.Full) (a : Int → R) (vis : List Nat) : List (Term R) → (Int → R) → Option (Int → R)
  | [], t => some t
  | M :: Ms, t => match applyTerm h M a vis t with
    | none => none
    | some t' => apply h a vis Ms t'

end Verif.Imp
