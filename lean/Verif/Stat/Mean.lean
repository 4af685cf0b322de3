import Verif.Stat.Log
import Mathlib.Algebra.Module.LinearMap.Defs
import Mathlib.Algebra.Module.Pi
import Mathlib.Algebra.Order.Field.Basic
import Mathlib.Algebra.Order.Ring.Rat
import Mathlib.Algebra.BigOperators.Group.List.Basic
import Mathlib.Analysis.Real.Sqrt

/-!
# Mean, error, jackknife and the reduction of moments over MPI ranks (C37, C39)

c++/triqs/stat/mean_error.hpp and c++/triqs/stat/jackknife.hpp.

The data are elements of a module `V` over the field `R` of the real numbers of the code, see `Verif.Stat.Moments`; arithmetic is exact and `sqrt` is a parameter. A
division by a number that is zero gives an infinity or a NaN in C++ and zero here; the theorems do not speak about these cases.
A collective MPI call is a function of the list of the arguments of all ranks. `mpi::reduce` gives the sum on the root rank only, on the other ranks the value it
returns is a parameter (the library leaves it uninitialised; it is not part of this repository).
-/

namespace Verif.Stat

set_option linter.unusedSectionVars false

section
variable {R V A : Type} [Field R] [AddCommGroup V] [Module R V] [AddCommGroup A] [Module R A]

/-! ## Model -/

/-- the loop of `mean`, mean_error.hpp:36; `n` is the number of data seen -/
def meanLoop (R : Type) [Field R] [Module R V] : Nat → V → List V → V
  | _, m, [] => m
  | n, m, x :: l => meanLoop R (n + 1) (m + ((n + 1 : Nat) : R)⁻¹ • (x - m)) l

/-- `mean`, mean_error.hpp:32-38; line 34 reads `data[0]` -/
def mean (R : Type) [Field R] [Module R V] (l : List V) : Option V := if l.length = 0 then none else some (meanLoop R 0 0 l)

/-- the loop of `mean_and_err`, mean_error.hpp:67 and 84, from the mean and the (total) number of data -/
def errLoop (F : Form R V) (length : Int) (m : V) (l : List V) : R :=
  l.foldl (fun e x => e + F.sq (x - m) / ((length * (length - 1) : Int) : R)) 0

/-- `mean_and_err`, mean_error.hpp:61-70 -/
def meanAndErr (F : Form R V) (sqrt : R → R) (l : List V) : Option (V × R) :=
  (mean R l).map fun m => (m, sqrt (errLoop F l.length m l))

/-- `mean_mpi`, mean_error.hpp:46-53, from the data of every rank -/
def meanMpi (R : Type) [Field R] [Module R V] (ds : List (List V)) : Option V :=
  (ds.mapM (fun d => mean R d)).map fun ms =>
    let N := (ds.map List.length).sum
    (List.zipWith (fun d m => ((d.length : R) / (N : R)) • m) ds ms).sum

/-- `mean_and_err_mpi`, mean_error.hpp:78-88 -/
def meanAndErrMpi (F : Form R V) (sqrt : R → R) (ds : List (List V)) : Option (V × R) :=
  (meanMpi R ds).map fun m => (m, sqrt ((ds.map (errLoop F ((ds.map List.length).sum : Nat) m)).sum))

/-- `mpi_reduce_MQ`, mean_error.hpp:92-108: the arguments of every rank are a mean, a sum of squared deviations and a number of data; the result on the root. -/
def mpiReduceMQ (F : Form R V) (l : List (V × R × Int)) : V × R × Int :=
  let total : Int := (l.map fun p => p.2.2).sum
  let M := (l.map fun p => ((p.2.2 : R) / (total : R)) • p.1).sum
  (M, (l.map fun p => p.2.1 + (p.2.2 : R) * F.sq (p.1 - M)).sum, total)

/-- `jackknifed_t`, jackknife.hpp:35-62: sum and number of data -/
structure Jack (A : Type) where
  series : List A
  sum : A
  n : Int

/-- constructor, jackknife.hpp:42-48 -/
def Jack.ctor (l : List A) : Option (Jack A) :=
  match l with
  | [] => none
  | x :: xs => some ⟨x :: xs, xs.foldl (· + ·) x, (x :: xs).length⟩

/-- constructor with a communicator, jackknife.hpp:51-55: the object of every rank -/
def Jack.ctorMpi (ls : List (List A)) : Option (List (Jack A)) :=
  (ls.mapM Jack.ctor).map fun js =>
    let n := (js.map (·.n)).sum
    let s := (js.map (·.sum)).sum
    js.map fun j => { j with n := n, sum := s }

/-- jackknife.hpp:58 -/
def Jack.average (R : Type) [Field R] [Module R A] (j : Jack A) : A := (j.n : R)⁻¹ • j.sum

/-- jackknife.hpp:61 -/
def Jack.get (R : Type) [Field R] [Module R A] (j : Jack A) (x : A) : A := ((j.n - 1 : Int) : R)⁻¹ • (j.sum - x)

/-- `f(ja[i]...)` for every `i`. The several series of the code are one series of tuples here: `A` is the product of their types. -/
def Jack.samples (R : Type) [Field R] [Module R A] (f : A → V) (j : Jack A) : List V := j.series.map fun x => f (j.get R x)

/-- the loop of jackknife.hpp:85-89 -/
def sampleMean (R : Type) [Field R] [Module R V] : List V → V
  | [] => 0
  | x :: l => meanLoop R 1 x l

/-- result: bias corrected average, error, average of the samples, function of the averages -/
structure JackRes (R V : Type) where
  average : V
  err : R
  M : V
  direct : V
deriving DecidableEq

/-- jackknife.hpp:100-113, from the number of data on this rank, the total number, `M` and `Q` -/
def jackFinal (sqrt : R → R) (N Ntot : Int) (M : V) (Q : R) (direct : V) : JackRes R V :=
  ⟨(N : R) • (direct - M) + M, sqrt (((Ntot - 1 : Int) : R) / (Ntot : R)) * sqrt Q, M, direct⟩

/-- `jackknife`, jackknife.hpp:68-114 without communicator, and 141-145 -/
def jackknife (F : Form R V) (sqrt : R → R) (f : A → V) (l : List A) : Option (JackRes R V) :=
  (Jack.ctor l).map fun j =>
    let M := sampleMean R (j.samples R f)
    let Q := ((j.samples R f).map fun y => F.sq (y - M)).sum
    jackFinal sqrt l.length l.length M Q (f (j.average R))

/-- `jackknife_mpi`, jackknife.hpp:68-114 with a communicator, and 180-182: the result on the root, which is the first rank.
`Ntot = mpi::reduce(N, *c)` (line 99) is the sum on the root; `off` are the values on the other ranks. -/
def jackknifeMpi (F : Form R V) (sqrt : R → R) (f : A → V) (off : List Int) (ls : List (List A)) : Option (JackRes R V) :=
  (Jack.ctorMpi ls).bind fun js => js.head?.map fun root =>
    let total : Int := (js.map fun j => (j.series.length : Int)).sum
    let M := (List.zipWith (fun j nt => ((j.series.length : R) / ((nt : Int) : R)) • sampleMean R (j.samples R f)) js (total :: off)).sum
    let Q := (js.map fun j => ((j.samples R f).map fun y => F.sq (y - M)).sum).sum
    jackFinal sqrt root.series.length total M Q (f (root.average R))

/-! ## Specification -/

/-- sum of the squared deviations from the mean -/
def sqDev (F : Form R V) (l : List V) : R := (l.map fun x => F.sq (x - avg R l)).sum

/-- the mean of all data except number `i` -/
def leaveOut (R : Type) [Field R] [Module R A] (l : List A) (i : Nat) : A := avg R (l.eraseIdx i)

/-- the jackknife samples -/
def jackSamples (R : Type) [Field R] [Module R A] (f : A → V) (l : List A) : List V := (List.range l.length).map fun i => f (leaveOut R l i)

/-! ## Proofs -/

theorem Form.sum_left' (F : Form R V) (l : List V) (y : V) : F.b l.sum y = (l.map fun x => F.b x y).sum := by
  induction l with
  | nil => simp [F.zero_left]
  | cons x l ih => rw [List.sum_cons, F.add_left, ih, List.map_cons, List.sum_cons]

variable [CharZero R]

theorem sum_eq_avg (l : List V) : l.sum = (l.length : R) • avg R l := by
  rcases l with _ | ⟨x, l⟩
  · simp
  · rw [avg, smul_smul, mul_inv_cancel₀ (Nat.cast_ne_zero.mpr (by simp)), one_smul]

theorem sum_sub_const (l : List V) (c : V) : (l.map fun x => x - c).sum = l.sum - (l.length : R) • c := by
  induction l with
  | nil => simp
  | cons x l ih =>
    rw [List.map_cons, List.sum_cons, ih, List.sum_cons, List.length_cons]
    push_cast
    module

/-- squared deviations from another point -/
theorem sqDev_shift (F : Form R V) (l : List V) (c : V) : (l.map fun x => F.sq (x - c)).sum = sqDev F l + (l.length : R) * F.sq (avg R l - c) := by
  have h : ∀ (m : V) (k : List V), (k.map fun x => F.sq (x - c)).sum =
      (k.map fun x => F.sq (x - m)).sum + 2 * F.b (k.sum - (k.length : R) • m) (m - c) + (k.length : R) * F.sq (m - c) := by
    intro m k
    induction k with
    | nil => simp [F.zero_left]
    | cons x k ih =>
      have e : x - c = (x - m) + (m - c) := by module
      have e' : (x :: k).sum - ((x :: k).length : R) • m = (x - m) + (k.sum - (k.length : R) • m) := by
        rw [List.sum_cons, List.length_cons]
        push_cast
        module
      rw [List.map_cons, List.sum_cons, ih, e, F.sq_add, e', F.add_left, List.map_cons, List.sum_cons, List.length_cons]
      push_cast
      ring
  rw [h (avg R l) l, ← sum_eq_avg, sub_self, F.zero_left, sqDev]
  ring

theorem meanLoop_eq (l : List V) : ∀ (n : Nat) (m : V), meanLoop R n m l = ((n + l.length : Nat) : R)⁻¹ • ((n : R) • m + l.sum) ∨ (n + l.length = 0 ∧ meanLoop R n m l = m) := by
  induction l with
  | nil =>
    intro n m
    rcases Nat.eq_zero_or_pos n with h | h
    · subst h
      exact Or.inr ⟨rfl, rfl⟩
    · left
      rw [meanLoop, List.length_nil, Nat.add_zero, List.sum_nil, add_zero, smul_smul, inv_mul_cancel₀ (Nat.cast_ne_zero.mpr (by omega)), one_smul]
  | cons x l ih =>
    intro n m
    left
    have hne : ((n + 1 : Nat) : R) ≠ 0 := Nat.cast_ne_zero.mpr (by omega)
    rcases ih (n + 1) (m + ((n + 1 : Nat) : R)⁻¹ • (x - m)) with h | ⟨h, _⟩
    · rw [meanLoop, h, List.length_cons, List.sum_cons, show n + (l.length + 1) = n + 1 + l.length by omega]
      congr 1
      rw [smul_add, smul_smul, mul_inv_cancel₀ hne]
      push_cast
      module
    · omega

theorem meanLoop_zero (l : List V) : meanLoop R 0 0 l = avg R l := by
  rcases meanLoop_eq (R := R) l 0 0 with h | ⟨h, h'⟩
  · rw [h, avg]
    simp
  · obtain rfl : l = [] := List.length_eq_zero_iff.mp (by omega)
    simp [meanLoop, avg]

theorem sampleMean_eq (l : List V) : sampleMean R l = avg R l := by
  rcases l with _ | ⟨x, l⟩
  · simp [sampleMean, avg]
  · rcases meanLoop_eq (R := R) l 1 x with h | ⟨h, _⟩
    · rw [sampleMean, h, avg, List.length_cons, List.sum_cons, Nat.add_comm 1]
      simp
    · omega

/-- **C39**: `mean` returns the arithmetic mean. -/
theorem C39_mean (l : List V) (h : l ≠ []) : mean R l = some (avg R l) := by
  rw [mean, if_neg (by simpa using h), meanLoop_zero]

theorem errLoop_eq (F : Form R V) (n : Int) (m : V) (l : List V) : errLoop F n m l = (l.map fun x => F.sq (x - m)).sum / ((n * (n - 1) : Int) : R) := by
  have : ∀ (l : List V) (e : R), l.foldl (fun e x => e + F.sq (x - m) / ((n * (n - 1) : Int) : R)) e = e + (l.map fun x => F.sq (x - m)).sum / ((n * (n - 1) : Int) : R) := by
    intro l
    induction l with
    | nil => simp
    | cons x l ih =>
      intro e
      rw [List.foldl_cons, ih, List.map_cons, List.sum_cons]
      ring
  rw [errLoop, this, zero_add]

/-- **C39**: the error of `mean_and_err` is the square root of the sum of the squared deviations divided by `n (n - 1)`. -/
theorem C39_mean_and_err (F : Form R V) (sqrt : R → R) (l : List V) (h : 2 ≤ l.length) :
    meanAndErr F sqrt l = some (avg R l, sqrt (sqDev F l / ((l.length : R) * ((l.length : R) - 1)))) := by
  rw [meanAndErr, C39_mean l (by rintro rfl; simp at h), Option.map_some, errLoop_eq, sqDev]
  push_cast
  rfl

theorem sum_flatten (ds : List (List V)) : ds.flatten.sum = (ds.map List.sum).sum := by
  induction ds with
  | nil => rfl
  | cons d ds ih => rw [List.flatten_cons, List.sum_append, ih, List.map_cons, List.sum_cons]

theorem smul_sum_list (r : R) (l : List V) : r • l.sum = (l.map fun x => r • x).sum := by
  induction l with
  | nil => simp
  | cons x l ih => rw [List.sum_cons, smul_add, ih, List.map_cons, List.sum_cons]

/-- the weighted mean of the means is the mean of all -/
theorem weighted (ds : List (List V)) (N : R) : (ds.map fun d => ((d.length : R) / N) • avg R d).sum = N⁻¹ • ds.flatten.sum := by
  rw [sum_flatten, smul_sum_list, List.map_map]
  refine congrArg List.sum (List.map_congr_left fun d _ => ?_)
  simp only [Function.comp]
  rw [sum_eq_avg (R := R) d, smul_smul]
  congr 1
  ring

theorem mapM_mean (ds : List (List V)) (h : ∀ d ∈ ds, d ≠ []) : ds.mapM (fun d => mean R d) = some (ds.map (avg R)) := by
  induction ds with
  | nil => rfl
  | cons d ds ih =>
    rw [List.mapM_cons, C39_mean d (h d (by simp)), ih (fun d' hd' => h d' (by simp [hd']))]
    rfl

theorem length_flatten' (ds : List (List V)) : ds.flatten.length = (ds.map List.length).sum := List.length_flatten

/-- **C39**: `mean_mpi` returns the mean of the data of all ranks. -/
theorem C39_mean_mpi (ds : List (List V)) (h : ∀ d ∈ ds, d ≠ []) : meanMpi R ds = some (avg R ds.flatten) := by
  rw [meanMpi, mapM_mean ds h, Option.map_some]
  simp only
  rw [List.zipWith_map_right, List.zipWith_self, weighted, avg, length_flatten']

/-- **C39**: `mean_and_err_mpi` returns mean and error of the data of all ranks. -/
theorem C39_mean_and_err_mpi (F : Form R V) (sqrt : R → R) (ds : List (List V)) (h : ∀ d ∈ ds, d ≠ []) (_h2 : 2 ≤ ds.flatten.length) :
    meanAndErrMpi F sqrt ds = some (avg R ds.flatten, sqrt (sqDev F ds.flatten / ((ds.flatten.length : R) * ((ds.flatten.length : R) - 1)))) := by
  rw [meanAndErrMpi, C39_mean_mpi ds h, Option.map_some, ← length_flatten']
  have e : ∀ (m : V) (n : Int) (ds : List (List V)), (ds.map (errLoop F n m)).sum = (ds.flatten.map fun x => F.sq (x - m)).sum / ((n * (n - 1) : Int) : R) := by
    intro m n ds
    induction ds with
    | nil => simp
    | cons d ds ih =>
      rw [List.map_cons, List.sum_cons, ih, errLoop_eq, List.flatten_cons, List.map_append, List.sum_append, add_div]
  rw [e, sqDev]
  push_cast
  rfl

/-- what a rank with the data `d` passes to the reduction -/
def momentsOf (F : Form R V) (d : List V) : V × R × Int := (avg R d, sqDev F d, d.length)

/-- **C37**: reducing the moments of the ranks gives the moments of all data. -/
theorem C37_reduce (F : Form R V) (ds : List (List V)) (_h : ds.flatten ≠ []) :
    mpiReduceMQ F (ds.map (momentsOf F)) = (avg R ds.flatten, sqDev F ds.flatten, (ds.flatten.length : Int)) := by
  have ht : ((ds.map (momentsOf F)).map fun p => p.2.2).sum = (ds.flatten.length : Int) := by
    rw [List.map_map]
    clear _h
    induction ds with
    | nil => simp
    | cons d ds ih => rw [List.map_cons, List.sum_cons, ih, List.flatten_cons, List.length_append]; simp [momentsOf]
  have hM : ((ds.map (momentsOf F)).map fun p => ((p.2.2 : R) / ((ds.flatten.length : Int) : R)) • p.1).sum = avg R ds.flatten := by
    rw [List.map_map]
    have := weighted ds (((ds.flatten.length : Int)) : R)
    rw [avg, ← Int.cast_natCast (R := R) ds.flatten.length, ← this]
    refine congrArg List.sum (List.map_congr_left fun d _ => ?_)
    simp [momentsOf]
  rw [mpiReduceMQ, ht, hM]
  refine congrArg _ (congrArg (·, _) ?_)
  rw [sqDev, List.map_map]
  generalize avg R ds.flatten = c
  clear hM ht _h
  induction ds with
  | nil => simp
  | cons d ds ih =>
    rw [List.map_cons, List.sum_cons, ih, List.flatten_cons, List.map_append, List.sum_append, sqDev_shift F d c]
    simp [momentsOf]

/-! ### Jackknife -/

theorem foldl_add (x : A) (l : List A) : l.foldl (· + ·) x = x + l.sum := by
  induction l generalizing x with
  | nil => simp
  | cons y l ih => rw [List.foldl_cons, ih, List.sum_cons, add_assoc]

theorem Jack.ctor_eq (l : List A) (h : l ≠ []) : Jack.ctor l = some ⟨l, l.sum, l.length⟩ := by
  rcases l with _ | ⟨x, l⟩
  · exact absurd rfl h
  · rw [Jack.ctor, foldl_add, List.sum_cons]

theorem sum_eraseIdx (l : List A) (i : Nat) (x : A) (h : l[i]? = some x) : (l.eraseIdx i).sum = l.sum - x := by
  induction l generalizing i with
  | nil => simp at h
  | cons y l ih =>
    cases i with
    | zero =>
      simp only [List.getElem?_cons_zero, Option.some.injEq] at h
      subst h
      simp
    | succ i =>
      rw [List.getElem?_cons_succ] at h
      rw [List.eraseIdx_cons_succ, List.sum_cons, ih i h, List.sum_cons]
      rw [add_sub_assoc]

theorem leaveOut_eq (l : List A) (i : Nat) (x : A) (h : l[i]? = some x) : leaveOut R l i = (((l.length : Int) - 1 : Int) : R)⁻¹ • (l.sum - x) := by
  have hi : i < l.length := (List.getElem?_eq_some_iff.mp h).1
  rw [leaveOut, avg, sum_eraseIdx l i x h, List.length_eraseIdx_of_lt hi, Nat.cast_sub (by omega)]
  push_cast
  rfl

theorem samples_eq (f : A → V) (l : List A) : (⟨l, l.sum, l.length⟩ : Jack A).samples R f = jackSamples R f l := by
  apply List.ext_getElem?
  intro i
  rw [Jack.samples, jackSamples, List.getElem?_map, List.getElem?_map]
  by_cases hi : i < l.length
  · rw [List.getElem?_eq_getElem hi, List.getElem?_range hi, Option.map_some, Option.map_some, leaveOut_eq l i l[i] (List.getElem?_eq_getElem hi)]
    rfl
  · rw [List.getElem?_eq_none_iff.mpr (by simpa using hi), List.getElem?_eq_none_iff.mpr (by simpa using hi)]
    rfl

/-- **C39**: the four results of `jackknife`, for every function. -/
theorem C39_jackknife (F : Form R V) (sqrt : R → R) (f : A → V) (l : List A) (h : 2 ≤ l.length) :
    ∃ r, jackknife F sqrt f l = some r ∧ r.direct = f (avg R l) ∧ r.M = avg R (jackSamples R f l) ∧
    r.average = (l.length : R) • r.direct - ((l.length : R) - 1) • r.M ∧
    r.err = sqrt (((l.length : R) - 1) / (l.length : R)) * sqrt (sqDev F (jackSamples R f l)) := by
  have hne : l ≠ [] := by rintro rfl; simp at h
  refine ⟨_, by rw [jackknife, Jack.ctor_eq l hne, Option.map_some], ?_, ?_, ?_, ?_⟩
  · simp only [jackFinal, Jack.average, avg]
    push_cast
    rfl
  · simp only [jackFinal]
    rw [samples_eq, sampleMean_eq]
  · simp only [jackFinal]
    push_cast
    module
  · simp only [jackFinal]
    rw [samples_eq, sampleMean_eq, sqDev]
    push_cast
    rfl

/-- the mean of the leave-one-out means is the mean -/
theorem sum_leaveOut (l : List A) (h : 2 ≤ l.length) : ((List.range l.length).map fun i => leaveOut R l i).sum = l.sum := by
  have hs : ((List.range l.length).map fun i => leaveOut R l i) = l.map fun x => (((l.length : Int) - 1 : Int) : R)⁻¹ • (l.sum - x) := by
    have := samples_eq (R := R) (fun x : A => x) l
    rw [Jack.samples, jackSamples] at this
    exact this.symm
  have hne : (((l.length : Int) - 1 : Int) : R) ≠ 0 := by
    rw [Int.cast_ne_zero]
    omega
  have e : ∀ (r : R) (s : A) (k : List A), (k.map fun x => r • (s - x)).sum = r • ((k.length : R) • s - k.sum) := by
    intro r s k
    induction k with
    | nil => simp
    | cons x k ih =>
      rw [List.map_cons, List.sum_cons, ih, List.length_cons, List.sum_cons]
      push_cast
      module
  rw [hs, e]
  have : (l.length : R) • l.sum - l.sum = (((l.length : Int) - 1 : Int) : R) • l.sum := by
    push_cast
    module
  rw [this, smul_smul, inv_mul_cancel₀ hne, one_smul]

theorem avg_affine (c : V) (L : A →ₗ[R] V) (l : List A) (h : l ≠ []) : avg R (l.map fun x => c + L x) = c + L (avg R l) := by
  have hne : (l.length : R) ≠ 0 := by simpa using h
  have e : ∀ k : List A, (k.map fun x => c + L x).sum = (k.length : R) • c + L k.sum := by
    intro k
    induction k with
    | nil => simp
    | cons x k ih =>
      rw [List.map_cons, List.sum_cons, ih, List.length_cons, List.sum_cons, L.map_add]
      push_cast
      module
  rw [avg, e, List.length_map, smul_add, smul_smul, inv_mul_cancel₀ hne, one_smul, avg, L.map_smul]

/-- **C39**: the jackknife estimate of an affine function is the function of the means, without and with correction of the bias. -/
theorem C39_jackknife_affine (F : Form R V) (sqrt : R → R) (c : V) (L : A →ₗ[R] V) (l : List A) (h : 2 ≤ l.length) :
    ∃ r, jackknife F sqrt (fun x => c + L x) l = some r ∧ r.average = c + L (avg R l) ∧ r.M = c + L (avg R l) ∧ r.direct = c + L (avg R l) := by
  obtain ⟨r, hr, hd, hM, ha, _⟩ := C39_jackknife F sqrt (fun x => c + L x) l h
  have e : r.M = c + L (avg R l) := by
    have hl : ((List.range l.length).map fun i => leaveOut R l i) ≠ [] := by
      intro h0
      simp at h0
      rw [h0] at h
      simp at h
    have hj : jackSamples R (fun x => c + L x) l = ((List.range l.length).map fun i => leaveOut R l i).map fun x => c + L x := by
      rw [jackSamples, List.map_map]
      rfl
    rw [hM, hj, avg_affine c L _ hl]
    congr 2
    rw [avg, avg, sum_leaveOut l h, List.length_map, List.length_range]
  refine ⟨r, hr, ?_, e, hd⟩
  rw [ha, e, hd]
  module

/-- **C39**: for the identity the jackknife error is that of `mean_and_err`, for every square root that is multiplicative on positive numbers. -/
theorem C39_jackknife_identity [LinearOrder R] [IsStrictOrderedRing R] (F : Form R V) (hF : ∀ x, 0 ≤ F.sq x) (sqrt : R → R)
    (hs : ∀ x y, 0 ≤ x → 0 ≤ y → sqrt (x * y) = sqrt x * sqrt y) (l : List V) (h : 2 ≤ l.length) :
    ∃ r e, jackknife F sqrt (fun x : V => x) l = some r ∧ meanAndErr F sqrt l = some e ∧ r.average = e.1 ∧ r.err = e.2 := by
  obtain ⟨r, hr, hd, hM, ha, he⟩ := C39_jackknife F sqrt (fun x : V => x) l h
  have hn : (2 : R) ≤ (l.length : R) := by exact_mod_cast h
  have hn0 : (l.length : R) ≠ 0 := by linarith
  have hn1 : (l.length : R) - 1 ≠ 0 := by linarith
  have hm : r.M = avg R l := by
    rw [hM, avg, avg]
    congr 1
    · rw [jackSamples, List.length_map, List.length_range]
    · exact sum_leaveOut l h
  refine ⟨r, _, hr, C39_mean_and_err F sqrt l h, ?_, ?_⟩
  · rw [ha, hm, hd]
    module
  · have hq0 : ∀ k : List V, ∀ m, 0 ≤ (k.map fun x => F.sq (x - m)).sum := by
      intro k m
      apply List.sum_nonneg
      intro x hx
      obtain ⟨y, _, rfl⟩ := List.mem_map.mp hx
      exact hF _
    have hq : sqDev F (jackSamples R (fun x : V => x) l) = sqDev F l / ((l.length : R) - 1) ^ 2 := by
      rw [sqDev, ← hM, hm, ← samples_eq, Jack.samples, List.map_map, sqDev]
      have e : ∀ k : List V, (k.map ((fun x => F.sq (x - avg R l)) ∘ fun x => (⟨l, l.sum, l.length⟩ : Jack V).get R x)).sum =
          (k.map fun x => F.sq (x - avg R l)).sum / ((l.length : R) - 1) ^ 2 := by
        intro k
        induction k with
        | nil => simp
        | cons x k ih =>
          rw [List.map_cons, List.sum_cons, ih, List.map_cons, List.sum_cons, add_div]
          congr 1
          simp only [Function.comp, Jack.get]
          have : ((((l.length : Int) - 1 : Int)) : R)⁻¹ • (l.sum - x) - avg R l = (-((l.length : R) - 1)⁻¹) • (x - avg R l) := by
            rw [sum_eq_avg (R := R) l]
            push_cast
            have : avg R l = ((l.length : R) - 1)⁻¹ • (((l.length : R) - 1) • avg R l) := by rw [smul_smul, inv_mul_cancel₀ hn1, one_smul]
            have e2 : ((l.length : R) - 1)⁻¹ • ((l.length : R) • avg R l - x) - ((l.length : R) - 1)⁻¹ • (((l.length : R) - 1) • avg R l) =
              (-((l.length : R) - 1)⁻¹) • (x - avg R l) := by module
            rw [← this] at e2
            exact e2
          rw [this, F.sq_smul, neg_sq, inv_pow, div_eq_inv_mul]
      exact e l
    rw [he, hq, sqDev, ← hs (((l.length : R) - 1) / (l.length : R)) _ (div_nonneg (by linarith) (by linarith)) (div_nonneg (hq0 l (avg R l)) (sq_nonneg ((l.length : R) - 1)))]
    congr 1
    field_simp

theorem mapM_ctor (ls : List (List A)) (h : ∀ d ∈ ls, d ≠ []) : ls.mapM Jack.ctor = some (ls.map fun l => (⟨l, l.sum, l.length⟩ : Jack A)) := by
  induction ls with
  | nil => rfl
  | cons d ls ih =>
    rw [List.mapM_cons, Jack.ctor_eq d (h d (by simp)), ih (fun d' hd' => h d' (by simp [hd']))]
    rfl

theorem ctorMpi_eq (ls : List (List A)) (h : ∀ d ∈ ls, d ≠ []) :
    Jack.ctorMpi ls = some (ls.map fun l => (⟨l, ls.flatten.sum, ls.flatten.length⟩ : Jack A)) := by
  rw [Jack.ctorMpi, mapM_ctor ls h, Option.map_some, List.map_map, List.map_map, List.map_map]
  have e : (ls.map ((fun j : Jack A => j.n) ∘ fun l => ⟨l, l.sum, l.length⟩)).sum = (ls.flatten.length : Int) := by
    clear h
    induction ls with
    | nil => rfl
    | cons d ls ih => rw [List.map_cons, List.sum_cons, ih, List.flatten_cons, List.length_append]; simp
  rw [e, sum_flatten]
  rfl

/-- **C39**, MPI: if `mpi::reduce` also left the total number on the ranks other than the root, the function of the means, the average of the samples and the error
would be those of all data.
Missing: it does not, see `C39_jackknife_mpi_uninitialised`, and the correction of the bias uses the number of data of the root, see `C39_jackknife_mpi_bias`. -/
theorem C39_jackknife_mpi_partial (F : Form R V) (sqrt : R → R) (f : A → V) (l : List A) (ls : List (List A)) (h : ∀ d ∈ l :: ls, d ≠ []) :
    ∃ r, jackknifeMpi F sqrt f (List.replicate ls.length ((l :: ls).flatten.length : Int)) (l :: ls) = some r ∧ r.direct = f (avg R (l :: ls).flatten) ∧
    r.M = avg R (jackSamples R f (l :: ls).flatten) ∧ r.average = (l.length : R) • r.direct - ((l.length : R) - 1) • r.M ∧
    r.err = sqrt ((((l :: ls).flatten.length : R) - 1) / ((l :: ls).flatten.length : R)) * sqrt (sqDev F (jackSamples R f (l :: ls).flatten)) := by
  obtain ⟨d, hd⟩ : ∃ d, d = (l :: ls).flatten := ⟨_, rfl⟩
  have ht : ((l :: ls).map fun l' => ((⟨l', d.sum, d.length⟩ : Jack A).series.length : Int)).sum = (d.length : Int) := by
    subst hd
    rw [List.length_flatten]
    push_cast
    rw [List.map_map]
    rfl
  have hsam : ∀ ks : List (List A), (ks.map fun l' => (⟨l', d.sum, d.length⟩ : Jack A).samples R f).flatten = (⟨ks.flatten, d.sum, d.length⟩ : Jack A).samples R f := by
    intro ks
    induction ks with
    | nil => rfl
    | cons k ks ih => rw [List.map_cons, List.flatten_cons, ih, List.flatten_cons]; simp [Jack.samples, Jack.get]
  have hlen : ∀ l' : List A, l'.length = ((⟨l', d.sum, d.length⟩ : Jack A).samples R f).length := by
    intro l'
    simp [Jack.samples]
  have hjs : ((l :: ls).map fun l' => (⟨l', d.sum, d.length⟩ : Jack A).samples R f).flatten = jackSamples R f d := by
    rw [hsam, ← hd, samples_eq]
  have hM : (List.zipWith (fun (j : Jack A) (nt : Int) => ((j.series.length : R) / (nt : R)) • sampleMean R (j.samples R f))
      ((l :: ls).map fun l' => (⟨l', d.sum, d.length⟩ : Jack A)) ((d.length : Int) :: List.replicate ls.length (d.length : Int))).sum = avg R (jackSamples R f d) := by
    rw [← List.replicate_succ, ← List.length_cons (a := l), List.zipWith_map_left]
    have : ∀ (g : List A → Int → V) (ks : List (List A)) (n : Int), List.zipWith g ks (List.replicate ks.length n) = ks.map fun k => g k n := by
      intro g ks n
      induction ks with
      | nil => rfl
      | cons k ks ih => rw [List.length_cons, List.replicate_succ, List.zipWith_cons_cons, ih, List.map_cons]
    rw [this]
    have hw := weighted ((l :: ls).map fun l' => (⟨l', d.sum, d.length⟩ : Jack A).samples R f) (((d.length : Int)) : R)
    rw [hjs, List.map_map] at hw
    rw [avg, show (jackSamples R f d).length = d.length by simp [jackSamples], ← Int.cast_natCast (R := R) d.length, ← hw]
    refine congrArg List.sum (List.map_congr_left fun k _ => ?_)
    simp only [Function.comp]
    rw [sampleMean_eq, ← hlen]
  have hQ : ∀ M : V, (((l :: ls).map fun l' => (⟨l', d.sum, d.length⟩ : Jack A)).map fun j => ((j.samples R f).map fun y => F.sq (y - M)).sum).sum =
      ((jackSamples R f d).map fun y => F.sq (y - M)).sum := by
    intro M
    rw [← hjs, List.map_flatten, sum_flatten, List.map_map, List.map_map, List.map_map]
    rfl
  refine ⟨_, by rw [jackknifeMpi, ctorMpi_eq _ h, Option.bind_some, ← hd, List.map_cons, List.head?_cons, Option.map_some], ?_⟩
  rw [← List.map_cons (f := fun l' : List A => (⟨l', d.sum, d.length⟩ : Jack A))]
  simp only [jackFinal]
  rw [List.map_map]
  rw [show ((fun j : Jack A => (j.series.length : Int)) ∘ fun l' => (⟨l', d.sum, d.length⟩ : Jack A)) = fun l' : List A => ((⟨l', d.sum, d.length⟩ : Jack A).series.length : Int) from rfl, ht, hM, hQ]
  refine ⟨?_, by rw [hd], ?_, ?_⟩
  · rw [Jack.average, avg, ← hd]
    push_cast
    rfl
  · push_cast
    module
  · rw [sqDev, ← hd]
    push_cast
    rfl

end

/-! ## Examples and disagreements -/

/-- Disagreement: with two ranks the bias corrected average is not `N f_direct - (N - 1) f_J` for the total number `N` of data, here for `f(x) = x^2`. -/
theorem C39_jackknife_mpi_bias : ∃ (ls : List (List ℚ)) (r : JackRes ℚ ℚ), jackknifeMpi ratForm (fun x => x) (fun x => x * x) [4] ls = some r ∧
    (ls.flatten.length : ℚ) = 4 ∧ r.average ≠ 4 * r.direct - 3 * r.M := by
  refine ⟨[[1, 2], [3, 6]], ⟨155 / 18, 3937 / 108, 169 / 18, 9⟩, ?_, ?_, ?_⟩ <;> decide +kernel

/-- Disagreement: the average on the root depends on the value that `mpi::reduce` leaves on the other rank. -/
theorem C39_jackknife_mpi_uninitialised : ∃ (ls : List (List ℚ)),
    (jackknifeMpi ratForm (fun x => x) (fun x => x) [4] ls).map (·.M) ≠ (jackknifeMpi ratForm (fun x => x) (fun x => x) [1] ls).map (·.M) :=
  ⟨[[1, 2], [3, 6]], by decide +kernel⟩

example : mean ℚ [1, 2, 6] = some (3 : ℚ) := by decide +kernel
example : mean ℚ ([] : List ℚ) = none := by decide +kernel
example : meanAndErr ratForm (fun x => x) [1, 2, 6] = some (3, 14 / 6) := by decide +kernel
example : meanMpi ℚ [[1, 2, 6], [7]] = some (4 : ℚ) := by decide +kernel
example : (meanAndErrMpi ratForm (fun x => x) [[1, 2, 6], [7]]) = some (4, 26 / 12) := by decide +kernel
example : mpiReduceMQ ratForm [momentsOf ratForm [1, 2, 6], momentsOf ratForm [], momentsOf ratForm [7]] = (4, 26, 4) := by decide +kernel
example : jackSamples ℚ (fun x : ℚ => x * x) [1, 2, 6] = [16, 49 / 4, 9 / 4] := by decide +kernel
example : (jackknife ratForm (fun x => x) (fun x : ℚ => x * x) [1, 2, 6]).map (fun r => (r.M, r.direct, r.average)) = some (61 / 6, 9, 20 / 3) := by decide +kernel

/-- real numbers -/
def realForm : Form ℝ ℝ := ⟨fun x y => x * y, add_mul, fun r x y => by simp [mul_assoc], mul_comm⟩

-- the conditions of `C39_jackknife_identity` hold for the real square root
example (l : List ℝ) (h : 2 ≤ l.length) : ∃ r e, jackknife realForm Real.sqrt (fun x => x) l = some r ∧ meanAndErr realForm Real.sqrt l = some e ∧ r.average = e.1 ∧ r.err = e.2 :=
  C39_jackknife_identity realForm (fun x => mul_self_nonneg x) Real.sqrt (fun x y hx _ => Real.sqrt_mul hx y) l h

end Verif.Stat
