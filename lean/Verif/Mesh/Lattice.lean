import Mathlib.Algebra.Order.Floor.Ring
import Mathlib.Algebra.Order.Field.Basic
import Mathlib.Algebra.BigOperators.Fin
import Mathlib.Algebra.Module.Basic
import Mathlib.Data.Int.ModEq
import Mathlib.Data.Rat.Floor
import Mathlib.Data.Fin.VecNotation
import Mathlib.LinearAlgebra.Matrix.Notation
import Mathlib.Tactic.FinCases
import Mathlib.Tactic.Linarith
import Mathlib.Tactic.Ring
import Mathlib.Tactic.Module
import Mathlib.Tactic.LinearCombination
import Mathlib.Tactic.NormNum

/-!
# Model of the lattice meshes `cyclat` and `brzone`

Source: `/repo/c++/triqs/mesh/cyclat.hpp`, `brzone.hpp`, `k_expr.hpp`, `utils.hpp`, `evaluate.hpp`.
Simplifications: `long` is an unbounded integer; `double` is an exact ordered field with floor.
-/

namespace Verif.Lattice

/-! ## Model: indices -/

/-- `std::array<long, 3>` -/
abbrev Idx := Fin 3 → Int

/-- `positive_modulo`, utils.hpp:49-52 (`%` truncates). -/
def positiveModulo (r d : Int) : Int :=
  let res := Int.tmod r d
  if res ≥ 0 then res else res + d

/-- cyclat.hpp:57-59, brzone.hpp:70-72: `size_`, `stride1`, `stride0`. -/
def size (dims : Idx) : Int := dims 0 * dims 1 * dims 2
def stride1 (dims : Idx) : Int := dims 2
def stride0 (dims : Idx) : Int := dims 1 * dims 2

/-- `is_index_valid`, cyclat.hpp:139-143, brzone.hpp:179-183. -/
def valid (dims i : Idx) : Bool :=
  [0, 1, 2].all (fun k : Fin 3 => !(decide (i k < 0) || decide (i k ≥ dims k)))

/-- `to_data_index`, cyclat.hpp:147-150, brzone.hpp:187-190; `none` when the `EXPECTS` fails. -/
def toDataIndex (dims i : Idx) : Option Int :=
  if valid dims i then some (i 0 * stride0 dims + i 1 * stride1 dims + i 2) else none

/-- `to_index`, cyclat.hpp:156-163, brzone.hpp:208-215. -/
def toIndex (dims : Idx) (d : Int) : Option Idx :=
  if 0 ≤ d ∧ d < size dims then
    let i0 := Int.tdiv d (stride0 dims)
    let r0 := Int.tmod d (stride0 dims)
    let i1 := Int.tdiv r0 (stride1 dims)
    let i2 := Int.tmod r0 (stride1 dims)
    some ![i0, i1, i2]
  else none

/-- iteration, cyclat.hpp:201-209, brzone.hpp:299-307: the indices of the visited points. -/
def points (dims : Idx) : List (Option Idx) :=
  (List.range (size dims).toNat).map (fun d : Nat => toIndex dims d)

/-- `index_modulo`, cyclat.hpp:107-109, brzone.hpp:122-124. -/
def indexModulo (dims r : Idx) : Idx :=
  ![positiveModulo (r 0) (dims 0), positiveModulo (r 1) (dims 1), positiveModulo (r 2) (dims 2)]

/-- lazy momentum expressions, k_expr.hpp:27-73 and brzone.hpp:382-387. -/
inductive KExpr where
  | pt (i : Idx)
  | neg (a : KExpr)
  | add (a b : KExpr)
  | sub (a b : KExpr)
  | mul (n : Int) (a : KExpr)

/-- `index()`, k_expr.hpp:35 and 59-68. -/
def KExpr.index : KExpr → Idx
  | .pt i => i
  | .neg a => -a.index
  | .add a b => a.index + b.index
  | .sub a b => a.index - b.index
  | .mul n a => fun k => n * a.index k

/-- `to_data_index(k_expr)`, brzone.hpp:196-204. -/
def KExpr.toDataIndex (dims : Idx) (e : KExpr) : Option Int :=
  Verif.Lattice.toDataIndex dims (indexModulo dims e.index)

/-- `evaluate(m, f, index)`, cyclat.hpp:247, brzone.hpp:347. -/
def evaluateIndex {V : Type} (dims : Idx) (f : Idx → V) (i : Idx) : V := f (indexModulo dims i)

/-! ## Model: momenta -/

section
variable {K : Type} [Field K] [LinearOrder K] [IsStrictOrderedRing K] [FloorRing K]
variable {V : Type} [AddCommGroup V] [Module K V]

/-- the mesh basis vectors as rows, and the stored inverse, brzone.hpp:47-48. -/
structure Units (K : Type) where
  u : Matrix (Fin 3) (Fin 3) K
  inv : Matrix (Fin 3) (Fin 3) K

/-- `transpose(M) * v` -/
def tmul (M : Matrix (Fin 3) (Fin 3) K) (v : Fin 3 → K) : Fin 3 → K := fun j => ∑ i, M i j * v i

/-- `to_value`, brzone.hpp:285-288, for a three-dimensional lattice. In lower dimension the code drops
the columns of the flat directions, whose index is 0 when their extent is 1. -/
def toValue (U : Units K) (i : Idx) : Fin 3 → K := tmul U.u (fun k => (i k : K))

/-- `evaluate(brzone1d, f, vi)`, brzone.hpp:355-359. -/
def evaluate1d (dim : Int) (f : Int → V) (vi : K) : V :=
  let i := ⌊vi⌋
  let w : K := vi - i
  (1 - w) • f (positiveModulo i dim) + w • f (if dim = 1 then 0 else positiveModulo (i + 1) dim)

/-- `evaluate` on a tuple of three one-dimensional meshes, evaluate.hpp:97-110: the first variable is
innermost. -/
def evaluate3 (dims : Idx) (g : Int → Int → Int → V) (x0 x1 x2 : K) : V :=
  evaluate1d (dims 2) (fun y2 => evaluate1d (dims 1) (fun y1 => evaluate1d (dims 0) (fun y0 => g y0 y1 y2) x0) x1) x2

/-- `evaluate(m, f, v)`, brzone.hpp:361-373. -/
def evaluateMomentum (dims : Idx) (U : Units K) (f : Idx → V) (v : Fin 3 → K) : V :=
  let x := tmul U.inv v
  evaluate3 dims (fun a b c => f ![a, b, c]) (x 0) (x 1) (x 2)

/-- squared norm; the code compares `nda::norm`, which orders vectors in the same way. -/
def normSq (v : Fin 3 → K) : K := ∑ i, v i * v i

/-- `product_range(r1, r2, r3)`, brzone.hpp:244. -/
def corners (dims : Idx) : List Idx :=
  (List.range (min (dims 0) 2).toNat).flatMap fun a : Nat =>
    (List.range (min (dims 1) 2).toNat).flatMap fun b : Nat =>
      (List.range (min (dims 2) 2).toNat).map fun c : Nat => ![(a : Int), (b : Int), (c : Int)]

/-- body of the loop, brzone.hpp:244-253; the state is `none` before the first update
(`dst` infinite, `res` uninitialised). -/
def closestStep (U : Units K) (n : Idx) (w : Fin 3 → K) (s : Option (K × Idx)) (iv : Idx) : Option (K × Idx) :=
  let dstp := normSq (tmul U.u (fun k => w k - (iv k : K)))
  match s with
  | none => some (dstp, n + iv)
  | some (dst, res) => if dstp < dst then some (dstp, n + iv) else some (dst, res)

/-- `closest_index`, brzone.hpp:219-258; `none` when the result stays uninitialised. -/
def closestIndex (dims : Idx) (U : Units K) (k : Fin 3 → K) : Option Idx :=
  let ku := tmul U.inv k
  let n : Idx := fun i => ⌊ku i⌋
  let w : Fin 3 → K := fun i => ku i - n i
  ((corners dims).foldl (closestStep U n w) none).map (fun s => indexModulo dims s.2)

end

/-! ## Specification -/

/-- congruence of triples modulo the extents -/
def Congr (dims a b : Idx) : Prop := ∀ k, a k ≡ b k [ZMOD dims k]

/-- triple in range -/
def InRange (dims i : Idx) : Prop := ∀ k, 0 ≤ i k ∧ i k < dims k

/-! ## Proofs: indices -/

theorem valid_iff (dims i : Idx) : valid dims i = true ↔ InRange dims i := by
  unfold valid InRange
  simp only [List.all_cons, List.all_nil, Bool.and_true, Bool.and_eq_true, Bool.not_eq_true', Bool.or_eq_false_iff,
    decide_eq_false_iff_not, not_lt, ge_iff_le, not_le]
  constructor
  · rintro ⟨h0, h1, h2⟩ k
    fin_cases k
    · exact h0
    · exact h1
    · exact h2
  · intro h; exact ⟨h 0, h 1, h 2⟩

theorem positiveModulo_eq (r d : Int) (hd : 1 ≤ d) : positiveModulo r d = r % d := by
  unfold positiveModulo
  simp only
  have h1 := Int.tmod_eq_emod (a := r) (b := d)
  have h2 := Int.emod_nonneg r (by omega : d ≠ 0)
  have h3 := Int.emod_lt_of_pos r (by omega : 0 < d)
  rw [h1]
  split <;> split <;> omega

theorem indexModulo_apply (dims r : Idx) (hd : ∀ k, 1 ≤ dims k) (k : Fin 3) : indexModulo dims r k = r k % dims k := by
  fin_cases k
  · exact positiveModulo_eq _ _ (hd 0)
  · exact positiveModulo_eq _ _ (hd 1)
  · exact positiveModulo_eq _ _ (hd 2)

theorem indexModulo_inRange (dims r : Idx) (hd : ∀ k, 1 ≤ dims k) : InRange dims (indexModulo dims r) := by
  intro k
  rw [indexModulo_apply dims r hd]
  have := hd k
  exact ⟨Int.emod_nonneg _ (by omega), Int.emod_lt_of_pos _ (by omega)⟩

theorem indexModulo_congr (dims r : Idx) (hd : ∀ k, 1 ≤ dims k) : Congr dims (indexModulo dims r) r := by
  intro k
  rw [indexModulo_apply dims r hd]
  exact Int.mod_modEq _ _

theorem indexModulo_unique (dims r s : Idx) (hd : ∀ k, 1 ≤ dims k) (hs : InRange dims s) (hc : Congr dims s r) :
    indexModulo dims r = s := by
  funext k
  rw [indexModulo_apply dims r hd, ← (hc k), Int.emod_eq_of_lt (hs k).1 (hs k).2]

/-- mixed radix division -/
theorem radix {a b c B C : Int} (hb0 : 0 ≤ b) (hb : b < B) (hc0 : 0 ≤ c) (hc : c < C) (ha : 0 ≤ a) :
    Int.tdiv (a * (B * C) + b * C + c) (B * C) = a ∧ Int.tmod (a * (B * C) + b * C + c) (B * C) = b * C + c ∧
    Int.tdiv (b * C + c) C = b ∧ Int.tmod (b * C + c) C = c := by
  have hC : 0 < C := by omega
  have hB : 0 < B := by omega
  have hBC : 0 < B * C := mul_pos hB hC
  have h1 : 0 ≤ b * C + c := by have := mul_nonneg hb0 hC.le; omega
  have h2 : b * C + c < B * C := by
    have : (b + 1) * C ≤ B * C := mul_le_mul_of_nonneg_right (by omega) hC.le
    nlinarith
  have h3 : 0 ≤ a * (B * C) + b * C + c := by have := mul_nonneg ha hBC.le; omega
  rw [Int.tdiv_eq_ediv_of_nonneg h3, Int.tdiv_eq_ediv_of_nonneg h1, Int.tmod_eq_emod_of_nonneg h3, Int.tmod_eq_emod_of_nonneg h1]
  have e : a * (B * C) + b * C + c = (b * C + c) + a * (B * C) := by ring
  have e' : b * C + c = c + b * C := by ring
  refine ⟨?_, ?_, ?_, ?_⟩
  · rw [e, Int.add_mul_ediv_right _ _ hBC.ne', Int.ediv_eq_zero_of_lt h1 h2]; omega
  · rw [e, Int.add_mul_emod_self_right, Int.emod_eq_of_lt h1 h2]
  · rw [e', Int.add_mul_ediv_right _ _ hC.ne', Int.ediv_eq_zero_of_lt hc0 hc]; omega
  · rw [e', Int.add_mul_emod_self_right, Int.emod_eq_of_lt hc0 hc]

theorem data_bounds {dims i : Idx} (h : InRange dims i) :
    0 ≤ i 0 * stride0 dims + i 1 * stride1 dims + i 2 ∧ i 0 * stride0 dims + i 1 * stride1 dims + i 2 < size dims := by
  obtain ⟨a0, a1⟩ := h 0
  obtain ⟨b0, b1⟩ := h 1
  obtain ⟨c0, c1⟩ := h 2
  unfold stride0 stride1 size
  have h1 : 0 ≤ i 1 * dims 2 := mul_nonneg b0 (by omega)
  have h0 : 0 ≤ i 0 * (dims 1 * dims 2) := mul_nonneg a0 (mul_nonneg (by omega) (by omega))
  refine ⟨by omega, ?_⟩
  have h2 : (i 1 + 1) * dims 2 ≤ dims 1 * dims 2 := mul_le_mul_of_nonneg_right (by omega) (by omega)
  have h3 : (i 0 + 1) * (dims 1 * dims 2) ≤ dims 0 * (dims 1 * dims 2) :=
    mul_le_mul_of_nonneg_right (by omega) (mul_nonneg (by omega) (by omega))
  have e : dims 0 * dims 1 * dims 2 = dims 0 * (dims 1 * dims 2) := by ring
  rw [e]
  nlinarith

theorem toIndex_toDataIndex {dims i : Idx} (h : InRange dims i) :
    ∃ d, toDataIndex dims i = some d ∧ 0 ≤ d ∧ d < size dims ∧ toIndex dims d = some i := by
  have hb := data_bounds h
  refine ⟨_, by unfold toDataIndex; rw [if_pos ((valid_iff _ _).mpr h)], hb.1, hb.2, ?_⟩
  unfold toIndex
  rw [if_pos hb]
  obtain ⟨r1, r2, r3, r4⟩ := radix (a := i 0) (h 1).1 (h 1).2 (h 2).1 (h 2).2 (h 0).1
  unfold stride0 stride1
  simp only [r1, r2, r3, r4]
  congr 1
  funext k
  fin_cases k <;> rfl

theorem toDataIndex_toIndex {dims : Idx} (hd : ∀ k, 0 ≤ dims k) {d : Int} (h0 : 0 ≤ d) (h1 : d < size dims) :
    ∃ i, toIndex dims d = some i ∧ InRange dims i ∧ toDataIndex dims i = some d := by
  have hs : 0 < dims 0 * (dims 1 * dims 2) := by
    have e : size dims = dims 0 * (dims 1 * dims 2) := by unfold size; ring
    rw [← e]; omega
  have d0 := hd 0
  have d1 := hd 1
  have d2 := hd 2
  have hBC : 0 < dims 1 * dims 2 := by
    rcases (mul_nonneg d1 d2).lt_or_eq with h | h
    · exact h
    · rw [← h] at hs; simp at hs
  have hC : 0 < dims 2 := by
    rcases d2.lt_or_eq with h | h
    · exact h
    · rw [← h] at hBC; simp at hBC
  have hB : 0 < dims 1 := by
    rcases d1.lt_or_eq with h | h
    · exact h
    · rw [← h] at hBC; simp at hBC
  have q0 := Int.mul_ediv_add_emod d (dims 1 * dims 2)
  have m0 := Int.emod_nonneg d hBC.ne'
  have m1 := Int.emod_lt_of_pos d hBC
  have q1 := Int.mul_ediv_add_emod (d % (dims 1 * dims 2)) (dims 2)
  have n0 := Int.emod_nonneg (d % (dims 1 * dims 2)) hC.ne'
  have n1 := Int.emod_lt_of_pos (d % (dims 1 * dims 2)) hC
  have a0 : 0 ≤ d / (dims 1 * dims 2) := Int.ediv_nonneg h0 hBC.le
  have a1 : d / (dims 1 * dims 2) < dims 0 := by
    apply Int.ediv_lt_of_lt_mul hBC
    unfold size at h1; linarith [mul_assoc (dims 0) (dims 1) (dims 2)]
  have b0 : 0 ≤ d % (dims 1 * dims 2) / dims 2 := Int.ediv_nonneg m0 hC.le
  have b1 : d % (dims 1 * dims 2) / dims 2 < dims 1 := Int.ediv_lt_of_lt_mul hC m1
  have hidx : toIndex dims d = some ![d / (dims 1 * dims 2), d % (dims 1 * dims 2) / dims 2, d % (dims 1 * dims 2) % dims 2] := by
    unfold toIndex
    rw [if_pos ⟨h0, h1⟩]
    unfold stride0 stride1
    simp only
    rw [Int.tdiv_eq_ediv_of_nonneg h0, Int.tmod_eq_emod_of_nonneg h0, Int.tdiv_eq_ediv_of_nonneg m0, Int.tmod_eq_emod_of_nonneg m0]
  have hr : InRange dims ![d / (dims 1 * dims 2), d % (dims 1 * dims 2) / dims 2, d % (dims 1 * dims 2) % dims 2] := by
    intro k
    fin_cases k
    · exact ⟨a0, a1⟩
    · exact ⟨b0, b1⟩
    · exact ⟨n0, n1⟩
  refine ⟨_, hidx, hr, ?_⟩
  unfold toDataIndex
  rw [if_pos ((valid_iff _ _).mpr hr)]
  simp only [stride0, stride1, Matrix.cons_val_zero, Matrix.cons_val_one, Matrix.cons_val]
  congr 1
  linarith

/-- **C45.** For all extents: `to_data_index` is defined exactly on the triples in range, maps them to
`0..size-1`, `to_index` is defined exactly on `0..size-1`, the two are inverse to each other, and
iteration visits every triple in range exactly once. -/
theorem C45_index_bijection (dims : Idx) (hd : ∀ k, 0 ≤ dims k) :
    (∀ i, (∃ d, toDataIndex dims i = some d) ↔ InRange dims i) ∧
    (∀ d, (∃ i, toIndex dims d = some i) ↔ 0 ≤ d ∧ d < dims 0 * dims 1 * dims 2) ∧
    (∀ i d, toDataIndex dims i = some d ↔ toIndex dims d = some i) ∧
    (points dims).Nodup ∧ (∀ o, o ∈ points dims ↔ ∃ i, o = some i ∧ InRange dims i) := by
  have A : ∀ i, (∃ d, toDataIndex dims i = some d) ↔ InRange dims i := by
    intro i
    constructor
    · rintro ⟨d, h⟩
      unfold toDataIndex at h
      split at h
      · rename_i hv; exact (valid_iff _ _).mp hv
      · cases h
    · intro h; obtain ⟨d, hd, _⟩ := toIndex_toDataIndex h; exact ⟨d, hd⟩
  have B : ∀ d, (∃ i, toIndex dims d = some i) ↔ 0 ≤ d ∧ d < dims 0 * dims 1 * dims 2 := by
    intro d
    constructor
    · rintro ⟨i, h⟩
      unfold toIndex at h
      split at h
      · rename_i hv; exact hv
      · cases h
    · rintro ⟨h0, h1⟩; obtain ⟨i, hi, _⟩ := toDataIndex_toIndex hd h0 h1; exact ⟨i, hi⟩
  have C : ∀ i d, toDataIndex dims i = some d ↔ toIndex dims d = some i := by
    intro i d
    constructor
    · intro h
      obtain ⟨d', h', _, _, hi⟩ := toIndex_toDataIndex ((A i).mp ⟨d, h⟩)
      rw [h] at h'; cases h'; exact hi
    · intro h
      obtain ⟨h0, h1⟩ := (B d).mp ⟨i, h⟩
      obtain ⟨i', hi', _, hd'⟩ := toDataIndex_toIndex hd h0 h1
      rw [h] at hi'; cases hi'; exact hd'
  refine ⟨A, B, C, ?_, ?_⟩
  · unfold points
    refine List.Nodup.map_on ?_ List.nodup_range
    intro a ha b hb hab
    have ha' : 0 ≤ (a : Int) ∧ (a : Int) < size dims := by have := List.mem_range.mp ha; omega
    have hb' : 0 ≤ (b : Int) ∧ (b : Int) < size dims := by have := List.mem_range.mp hb; omega
    obtain ⟨i, hi⟩ := (B a).mpr ha'
    have h1 := (C i a).mpr hi
    have h2 := (C i b).mpr (hab ▸ hi)
    rw [h1] at h2
    simpa using h2
  · intro o
    unfold points
    simp only [List.mem_map, List.mem_range]
    constructor
    · rintro ⟨d, hd', rfl⟩
      have hr : 0 ≤ (d : Int) ∧ (d : Int) < size dims := by omega
      obtain ⟨i, hi⟩ := (B d).mpr hr
      exact ⟨i, hi, (A i).mp ⟨d, (C i d).mpr hi⟩⟩
    · rintro ⟨i, rfl, h⟩
      obtain ⟨d, _, h0, h1, hi⟩ := toIndex_toDataIndex h
      exact ⟨d.toNat, by omega, by rw [Int.toNat_of_nonneg h0]; exact hi⟩

example : toDataIndex ![2, 3, 4] ![1, 2, 3] = some 23 ∧ toIndex ![2, 3, 4] 17 = some ![1, 1, 1] ∧
    (points ![2, 3, 4]).length = 24 := by decide

/-- **C46.** Folding: for every triple `r` (any signs and sizes) there is exactly one in-range triple
congruent to it; evaluation at `r` uses it. For every lazily built momentum expression, the addressed
data is that of the in-range triple congruent to the expression's integer value, and it does not
matter whether operands are folded first. -/
theorem C46_periodic_folding (dims : Idx) (hd : ∀ k, 1 ≤ dims k) {V : Type} (f : Idx → V) :
    (∀ r, ∃ s, InRange dims s ∧ Congr dims s r ∧ evaluateIndex dims f r = f s ∧
      ∀ s', InRange dims s' → Congr dims s' r → s' = s) ∧
    (∀ (e : KExpr) s, InRange dims s → Congr dims s e.index → e.toDataIndex dims = toDataIndex dims s) ∧
    (∀ e : KExpr, ∃ d, e.toDataIndex dims = some d) ∧
    (∀ a b a' b' : KExpr, ∀ n : Int, Congr dims a.index a'.index → Congr dims b.index b'.index →
      (KExpr.add a b).toDataIndex dims = (KExpr.add a' b').toDataIndex dims ∧
      (KExpr.sub a b).toDataIndex dims = (KExpr.sub a' b').toDataIndex dims ∧
      (KExpr.neg a).toDataIndex dims = (KExpr.neg a').toDataIndex dims ∧
      (KExpr.mul n a).toDataIndex dims = (KExpr.mul n a').toDataIndex dims) := by
  have key : ∀ (e : KExpr) s, InRange dims s → Congr dims s e.index → e.toDataIndex dims = toDataIndex dims s := by
    intro e s hs hc
    unfold KExpr.toDataIndex
    rw [indexModulo_unique dims _ s hd hs hc]
  have same : ∀ a b : KExpr, Congr dims a.index b.index → a.toDataIndex dims = b.toDataIndex dims := by
    intro a b h
    rw [key b _ (indexModulo_inRange dims _ hd) (indexModulo_congr dims _ hd)]
    exact key a _ (indexModulo_inRange dims _ hd) (fun k => (indexModulo_congr dims _ hd k).trans (h k).symm)
  refine ⟨?_, key, ?_, ?_⟩
  · intro r
    exact ⟨indexModulo dims r, indexModulo_inRange dims r hd, indexModulo_congr dims r hd, rfl,
      fun s' h1 h2 => (indexModulo_unique dims r s' hd h1 h2).symm⟩
  · intro e
    obtain ⟨d, h, _⟩ := toIndex_toDataIndex (indexModulo_inRange dims e.index hd)
    exact ⟨d, h⟩
  · intro a b a' b' n ha hb
    exact ⟨same _ _ (fun k => (ha k).add (hb k)), same _ _ (fun k => (ha k).sub (hb k)),
      same _ _ (fun k => (ha k).neg), same _ _ (fun k => (ha k).mul_left n)⟩

example : indexModulo ![2, 3, 4] ![-1, 7, -9] = ![1, 1, 3] ∧
    (KExpr.sub (.mul 2 (.pt ![1, 0, 3])) (.pt ![1, 2, 1])).toDataIndex ![2, 3, 4] = some 17 := by decide

/-! ## Proofs: momenta -/

section
variable {K : Type} [Field K] [LinearOrder K] [IsStrictOrderedRing K] [FloorRing K]
variable {V : Type} [AddCommGroup V] [Module K V]

omit [LinearOrder K] [IsStrictOrderedRing K] [FloorRing K] in
theorem tmul_add (M : Matrix (Fin 3) (Fin 3) K) (v w : Fin 3 → K) : tmul M (v + w) = tmul M v + tmul M w := by
  funext j; simp [tmul, mul_add, Finset.sum_add_distrib]

omit [LinearOrder K] [IsStrictOrderedRing K] [FloorRing K] in
theorem tmul_sub (M : Matrix (Fin 3) (Fin 3) K) (v w : Fin 3 → K) : tmul M (v - w) = tmul M v - tmul M w := by
  funext j; simp [tmul, mul_sub, Finset.sum_sub_distrib]

omit [LinearOrder K] [IsStrictOrderedRing K] [FloorRing K] in
theorem tmul_eq (M : Matrix (Fin 3) (Fin 3) K) (v : Fin 3 → K) : tmul M v = M.transpose.mulVec v := by
  funext j; simp [tmul, Matrix.mulVec, dotProduct]

omit [LinearOrder K] [IsStrictOrderedRing K] [FloorRing K] in
theorem tmul_inv_left (U : Units K) (h : U.u * U.inv = 1) (v : Fin 3 → K) : tmul U.inv (tmul U.u v) = v := by
  rw [tmul_eq, tmul_eq, Matrix.mulVec_mulVec, ← Matrix.transpose_mul, h]; simp

omit [LinearOrder K] [IsStrictOrderedRing K] [FloorRing K] in
theorem tmul_inv_right (U : Units K) (h : U.inv * U.u = 1) (v : Fin 3 → K) : tmul U.u (tmul U.inv v) = v := by
  rw [tmul_eq, tmul_eq, Matrix.mulVec_mulVec, ← Matrix.transpose_mul, h]; simp

theorem evaluate1d_eq {dim : Int} (hd : 1 ≤ dim) (f : Int → V) (x : K) :
    evaluate1d dim f x = (1 - (x - ⌊x⌋)) • f (⌊x⌋ % dim) + (x - ⌊x⌋) • f ((⌊x⌋ + 1) % dim) := by
  unfold evaluate1d
  simp only [positiveModulo_eq _ _ hd]
  congr 2
  split
  · rename_i h; rw [h]; simp
  · rfl

theorem evaluate1d_int {dim : Int} (hd : 1 ≤ dim) (f : Int → V) (n : Int) :
    evaluate1d dim f (n : K) = f (n % dim) := by
  rw [evaluate1d_eq hd]; simp

theorem evaluate1d_period {dim : Int} (hd : 1 ≤ dim) (f : Int → V) (x : K) (g : Int) :
    evaluate1d dim f (x + dim * g) = evaluate1d dim f x := by
  have e : x + (dim : K) * g = x + ((dim * g : Int) : K) := by push_cast; ring
  rw [evaluate1d_eq hd, evaluate1d_eq hd, e, Int.floor_add_intCast]
  have h1 : (⌊x⌋ + dim * g) % dim = ⌊x⌋ % dim := Int.add_mul_emod_self_left _ _ _
  have h2 : (⌊x⌋ + dim * g + 1) % dim = (⌊x⌋ + 1) % dim := by
    have : ⌊x⌋ + dim * g + 1 = ⌊x⌋ + 1 + dim * g := by ring
    rw [this]; exact Int.add_mul_emod_self_left _ _ _
  rw [h1, h2]
  congr 2 <;> push_cast <;> ring

/-- weight of a corner `e ∈ {0,1}` at relative position `w` -/
def weight (w : K) (e : Fin 2) : K := if e = 0 then 1 - w else w

omit [LinearOrder K] [IsStrictOrderedRing K] [FloorRing K] in
theorem weight_zero (w : K) : weight w 0 = 1 - w := rfl
omit [LinearOrder K] [IsStrictOrderedRing K] [FloorRing K] in
theorem weight_one (w : K) : weight w 1 = w := rfl

/-- **C47.** Let the stored inverse be the inverse of the mesh basis and all extents be at least 1.
At the momentum with mesh coordinates `x` the result is the combination of the values at the eight
surrounding mesh points, folded, with product weights that are non-negative and sum to one and
reproduce the position; it is exact at every mesh point (also outside of the first zone) and invariant
under translation by the reciprocal lattice vectors `Σ g_i dims_i u_i`. -/
theorem C47_interpolation (dims : Idx) (hd : ∀ k, 1 ≤ dims k) (U : Units K) (h1 : U.u * U.inv = 1)
    (f : Idx → V) :
    (∀ x : Fin 3 → K, ∃ (n : Idx) (w : Fin 3 → K), (∀ k, 0 ≤ w k ∧ w k < 1 ∧ x k = n k + w k) ∧
      evaluateMomentum dims U f (tmul U.u x) =
        ∑ a : Fin 2, ∑ b : Fin 2, ∑ c : Fin 2, (weight (w 0) a * weight (w 1) b * weight (w 2) c) •
          f (fun k => (n k + (![(a : Int), (b : Int), (c : Int)] k)) % dims k) ∧
      (∑ a : Fin 2, ∑ b : Fin 2, ∑ c : Fin 2, weight (w 0) a * weight (w 1) b * weight (w 2) c) = 1 ∧
      ∀ a b c, 0 ≤ weight (w 0) a * weight (w 1) b * weight (w 2) c) ∧
    (∀ i : Idx, evaluateMomentum dims U f (toValue U i) = f (fun k => i k % dims k)) ∧
    (∀ (v : Fin 3 → K) (g : Idx),
      evaluateMomentum dims U f (v + tmul U.u (fun k => (dims k : K) * g k)) = evaluateMomentum dims U f v) := by
  have vec : ∀ a b c : Int, (![a, b, c] : Idx) = fun k => ![a, b, c] k := fun _ _ _ => rfl
  refine ⟨?_, ?_, ?_⟩
  · intro x
    refine ⟨fun k => ⌊x k⌋, fun k => x k - ⌊x k⌋, ?_, ?_, ?_, ?_⟩
    · intro k
      refine ⟨sub_nonneg.mpr (Int.floor_le _), ?_, by ring⟩
      have := Int.lt_floor_add_one (x k); linarith
    · unfold evaluateMomentum evaluate3
      simp only [tmul_inv_left U h1, evaluate1d_eq (hd 0), evaluate1d_eq (hd 1), evaluate1d_eq (hd 2)]
      have hf : ∀ a b c : Fin 2, (fun k => (⌊x k⌋ + (![(a : Int), (b : Int), (c : Int)] k)) % dims k)
          = ![(⌊x 0⌋ + (a : Int)) % dims 0, (⌊x 1⌋ + (b : Int)) % dims 1, (⌊x 2⌋ + (c : Int)) % dims 2] := by
        intro a b c; funext k; fin_cases k <;> rfl
      simp only [hf, Fin.sum_univ_two, weight_zero, weight_one, Fin.val_zero, Fin.val_one, Nat.cast_zero, Nat.cast_one,
        add_zero]
      module
    · simp only [Fin.sum_univ_two, weight_zero, weight_one]; ring
    · intro a b c
      have hw : ∀ (k : Fin 3) (e : Fin 2), 0 ≤ weight (x k - ⌊x k⌋) e := by
        intro k e
        have p := Int.floor_le (x k)
        have q := Int.lt_floor_add_one (x k)
        unfold weight; split <;> linarith
      exact mul_nonneg (mul_nonneg (hw 0 a) (hw 1 b)) (hw 2 c)
  · intro i
    unfold evaluateMomentum evaluate3 toValue
    simp only [tmul_inv_left U h1, evaluate1d_int (hd 0), evaluate1d_int (hd 1), evaluate1d_int (hd 2)]
    congr 1
    funext k; fin_cases k <;> rfl
  · intro v g
    unfold evaluateMomentum evaluate3
    simp only [tmul_add, tmul_inv_left U h1, Pi.add_apply, evaluate1d_period (hd 0), evaluate1d_period (hd 1), evaluate1d_period (hd 2)]

/-- a skewed mesh basis with its inverse -/
def exUnits : Units ℚ := ⟨!![1, 0, 0; 10, 1, 0; 0, 0, 1], !![1, 0, 0; -10, 1, 0; 0, 0, 1]⟩

example : exUnits.u * exUnits.inv = 1 ∧ exUnits.inv * exUnits.u = 1 := by
  constructor <;> (ext i j; fin_cases i <;> fin_cases j <;> decide +kernel)

example : evaluateMomentum ![2, 3, 1] exUnits (fun i => (i 0 + 10 * i 1 : ℚ)) (tmul exUnits.u ![3 / 2, 9 / 4, 0])
    = 31 / 2 := by decide +kernel

/-! ## C48 -/

theorem closest_fold (U : Units K) (n : Idx) (w : Fin 3 → K) (l : List Idx) :
    ∀ s : Option (K × Idx),
      match l.foldl (closestStep U n w) s with
      | none => s = none ∧ l = []
      | some (d, r) => ((s = some (d, r)) ∨ ∃ iv ∈ l, r = n + iv ∧ d = normSq (tmul U.u (fun k => w k - (iv k : K)))) ∧
          (∀ d' r', s = some (d', r') → d ≤ d') ∧
          ∀ iv ∈ l, d ≤ normSq (tmul U.u (fun k => w k - (iv k : K))) := by
  induction l with
  | nil => intro s; cases s with
    | none => simp
    | some p =>
      obtain ⟨d, r⟩ := p
      refine ⟨Or.inl rfl, ?_, by simp⟩
      intro d' r' h; cases h; exact le_refl _
  | cons iv l ih =>
    intro s
    rw [List.foldl_cons]
    have h := ih (closestStep U n w s iv)
    cases hf : l.foldl (closestStep U n w) (closestStep U n w s iv) with
    | none =>
      rw [hf] at h
      obtain ⟨h, _⟩ := h
      exfalso
      unfold closestStep at h
      cases s with
      | none => simp at h
      | some p => simp only at h; split at h <;> simp at h
    | some p =>
      obtain ⟨d, r⟩ := p
      rw [hf] at h
      obtain ⟨ha, hb, hc⟩ := h
      have hstep : ∃ d' r', closestStep U n w s iv = some (d', r') ∧
          (s = some (d', r') ∨ (r' = n + iv ∧ d' = normSq (tmul U.u (fun k => w k - (iv k : K))))) ∧
          d' ≤ normSq (tmul U.u (fun k => w k - (iv k : K))) ∧ ∀ d'' r'', s = some (d'', r'') → d' ≤ d'' := by
        unfold closestStep
        cases s with
        | none => exact ⟨_, _, rfl, Or.inr ⟨rfl, rfl⟩, le_refl _, by simp⟩
        | some q =>
          obtain ⟨d0, r0⟩ := q
          simp only
          split
          · rename_i hlt
            exact ⟨_, _, rfl, Or.inr ⟨rfl, rfl⟩, le_refl _, by intro d'' r'' h; cases h; exact hlt.le⟩
          · rename_i hlt
            exact ⟨_, _, rfl, Or.inl rfl, not_lt.mp hlt, by intro d'' r'' h; cases h; exact le_refl _⟩
      obtain ⟨d', r', e1, e2, e3, e4⟩ := hstep
      have hle := hb d' r' e1
      refine ⟨?_, ?_, ?_⟩
      · rcases ha with ha | ⟨iv', hm, hr⟩
        · rw [e1] at ha
          cases ha
          rcases e2 with e2 | e2
          · exact Or.inl e2
          · exact Or.inr ⟨iv, by simp, e2⟩
        · exact Or.inr ⟨iv', by simp [hm], hr⟩
      · intro d'' r'' h; exact hle.trans (e4 d'' r'' h)
      · intro iv' hm
        rcases List.mem_cons.mp hm with h | h
        · subst h; exact hle.trans e3
        · exact hc iv' h

theorem mem_corners (dims iv : Idx) : iv ∈ corners dims ↔ ∀ k, 0 ≤ iv k ∧ iv k < min (dims k) 2 := by
  unfold corners
  simp only [List.mem_flatMap, List.mem_map, List.mem_range]
  constructor
  · rintro ⟨a, ha, b, hb, c, hc, rfl⟩ k
    fin_cases k
    · change 0 ≤ (a : Int) ∧ (a : Int) < min (dims 0) 2; omega
    · change 0 ≤ (b : Int) ∧ (b : Int) < min (dims 1) 2; omega
    · change 0 ≤ (c : Int) ∧ (c : Int) < min (dims 2) 2; omega
  · intro h
    have h0 := h 0
    have h1 := h 1
    have h2 := h 2
    refine ⟨(iv 0).toNat, by omega, (iv 1).toNat, by omega, (iv 2).toNat, by omega, ?_⟩
    funext k
    fin_cases k
    · exact Int.toNat_of_nonneg h0.1
    · exact Int.toNat_of_nonneg h1.1
    · exact Int.toNat_of_nonneg h2.1

/-- rows of the mesh basis are mutually orthogonal -/
def Orthogonal (U : Units K) : Prop := ∀ i j, i ≠ j → ∑ k, U.u i k * U.u j k = 0

omit [LinearOrder K] [IsStrictOrderedRing K] [FloorRing K] in
theorem normSq_orthogonal (U : Units K) (h : Orthogonal U) (v : Fin 3 → K) :
    normSq (tmul U.u v) = ∑ i, v i * v i * ∑ k, U.u i k * U.u i k := by
  have h01 := h 0 1 (by decide)
  have h02 := h 0 2 (by decide)
  have h12 := h 1 2 (by decide)
  simp only [normSq, tmul, Fin.sum_univ_three] at *
  linear_combination (2 * v 0 * v 1) * h01 + (2 * v 0 * v 2) * h02 + (2 * v 1 * v 2) * h12

theorem best_integer {w q : K} (hq : 0 ≤ q) (h0 : 0 ≤ w) (h1 : w < 1) (b : Int) (hb : b = 0 ∨ b = 1)
    (hbest : (w - b) * (w - b) * q ≤ (w - (1 - b : Int)) * (w - (1 - b : Int)) * q) (j : Int) :
    (w - b) * (w - b) * q ≤ (w - j) * (w - j) * q := by
  have h00 : w * w * q ≤ (w - j) * (w - j) * q ∨ (w - 1) * (w - 1) * q ≤ (w - j) * (w - j) * q := by
    rcases le_or_gt j 0 with hj | hj
    · left
      have : (j : K) ≤ 0 := by exact_mod_cast hj
      apply mul_le_mul_of_nonneg_right _ hq; nlinarith
    · right
      have : (1 : K) ≤ j := by exact_mod_cast hj
      apply mul_le_mul_of_nonneg_right _ hq; nlinarith
  rcases hb with rfl | rfl <;> norm_num at hbest ⊢ <;> rcases h00 with h | h <;> linarith

/-- **C48** (partial: mutually orthogonal mesh basis vectors; see the next theorem for skewed ones).
For every momentum the returned index is in range, and some integer point congruent to it (equal up
to a reciprocal lattice vector) is at minimal Euclidean distance among all integer points. -/
theorem C48_closest_index_partial (dims : Idx) (hd : ∀ k, 1 ≤ dims k) (U : Units K)
    (h2 : U.inv * U.u = 1) (ho : Orthogonal U) (k : Fin 3 → K) :
    ∃ r, closestIndex dims U k = some r ∧ InRange dims r ∧
      ∃ m : Idx, Congr dims m r ∧ ∀ m' : Idx, normSq (k - toValue U m) ≤ normSq (k - toValue U m') := by
  let n : Idx := fun i => ⌊tmul U.inv k i⌋
  let w : Fin 3 → K := fun i => tmul U.inv k i - n i
  have hw0 : ∀ i, 0 ≤ w i := fun i => sub_nonneg.mpr (Int.floor_le _)
  have hw1 : ∀ i, w i < 1 := fun i => by have := Int.lt_floor_add_one (tmul U.inv k i); simp only [w, n]; linarith
  have hdist : ∀ m : Idx, normSq (k - toValue U m) = ∑ i, (w i - ((m i - n i : Int) : K)) * (w i - ((m i - n i : Int) : K)) * ∑ l, U.u i l * U.u i l := by
    intro m
    rw [← normSq_orthogonal U ho]
    congr 1
    conv_lhs => rw [← tmul_inv_right U h2 k]
    unfold toValue
    rw [← tmul_sub]
    congr 1
    funext i
    simp only [w, Pi.sub_apply]; push_cast; ring
  have hf := closest_fold U n w (corners dims) none
  cases hres : (corners dims).foldl (closestStep U n w) none with
  | none =>
    rw [hres] at hf
    have : (0 : Idx) ∈ corners dims := by
      rw [mem_corners]; intro k; have := hd k; simp; omega
    rw [hf.2] at this; cases this
  | some p =>
    obtain ⟨d, r⟩ := p
    rw [hres] at hf
    obtain ⟨ha, _, hc⟩ := hf
    rcases ha with ha | ⟨iv, hiv, rfl, rfl⟩
    · cases ha
    refine ⟨indexModulo dims (n + iv), ?_, indexModulo_inRange _ _ hd, ?_⟩
    · unfold closestIndex
      simp only
      change Option.map _ ((corners dims).foldl (closestStep U n w) none) = _
      rw [hres]; rfl
    have hivr := (mem_corners dims iv).mp hiv
    let e : Idx := fun i => if 2 ≤ dims i then iv i else if 1 < 2 * w i then 1 else 0
    refine ⟨fun i => n i + e i, ?_, ?_⟩
    · intro i
      refine Int.ModEq.trans ?_ (indexModulo_congr dims _ hd i).symm
      simp only [e, Pi.add_apply]
      split
      · rfl
      · have := hd i
        have h1 : dims i = 1 := by omega
        rw [h1]; exact Int.modEq_one
    · intro m'
      rw [hdist, hdist]
      apply Finset.sum_le_sum
      intro i _
      have hq : 0 ≤ ∑ l, U.u i l * U.u i l := Finset.sum_nonneg (fun l _ => mul_self_nonneg _)
      have hsimp : (n i + e i - n i : Int) = e i := by ring
      simp only [hsimp]
      have he : e i = 0 ∨ e i = 1 := by
        simp only [e]
        split
        · have := hivr i; omega
        · split <;> simp
      refine best_integer hq (hw0 i) (hw1 i) (e i) he ?_ _
      by_cases hdi : 2 ≤ dims i
      · -- compare with the corner that differs in direction `i` only
        have hei : e i = iv i := by simp only [e]; rw [if_pos hdi]
        have hmem : Function.update iv i (1 - iv i) ∈ corners dims := by
          rw [mem_corners]
          intro k
          by_cases hk : k = i
          · subst hk; rw [Function.update_self]; have := hivr k; omega
          · rw [Function.update_of_ne hk]; exact hivr k
        have hcmp := hc _ hmem
        rw [normSq_orthogonal U ho, normSq_orthogonal U ho] at hcmp
        rw [← Finset.add_sum_erase _ (fun x => (w x - (iv x : K)) * (w x - (iv x : K)) * ∑ k, U.u x k * U.u x k) (Finset.mem_univ i),
          ← Finset.add_sum_erase _ (fun x => (w x - (Function.update iv i (1 - iv i) x : K)) * (w x - (Function.update iv i (1 - iv i) x : K)) * ∑ k, U.u x k * U.u x k) (Finset.mem_univ i)] at hcmp
        beta_reduce at hcmp
        have hrest : ∑ x ∈ Finset.univ.erase i, (w x - (iv x : K)) * (w x - (iv x : K)) * ∑ k, U.u x k * U.u x k
            = ∑ x ∈ Finset.univ.erase i, (w x - (Function.update iv i (1 - iv i) x : K)) * (w x - (Function.update iv i (1 - iv i) x : K)) * ∑ k, U.u x k * U.u x k := by
          apply Finset.sum_congr rfl
          intro x hx
          rw [Function.update_of_ne (Finset.ne_of_mem_erase hx)]
        rw [hrest, Function.update_self] at hcmp
        rw [hei]
        linarith
      · have hei : e i = if 1 < 2 * w i then 1 else 0 := by simp only [e]; rw [if_neg hdi]
        rw [hei]
        apply mul_le_mul_of_nonneg_right _ hq
        have := hw0 i
        have := hw1 i
        split <;> push_cast <;> nlinarith

example : Orthogonal (⟨!![1, 0, 0; 0, 1 / 2, 0; 0, 0, 1], !![1, 0, 0; 0, 2, 0; 0, 0, 1]⟩ : Units ℚ) ∧
    closestIndex ![4, 4, 1] (⟨!![1, 0, 0; 0, 1 / 2, 0; 0, 0, 1], !![1, 0, 0; 0, 2, 0; 0, 0, 1]⟩ : Units ℚ) ![-1 / 5, 7 / 5, 0] = some ![0, 3, 0] := by
  constructor
  · intro i j hij
    fin_cases i <;> fin_cases j <;> first | exact absurd rfl hij | decide +kernel
  · decide +kernel

/-- **C48 fails** for skewed mesh basis vectors: with `u₁ = (1,0,0)`, `u₂ = (10,1,0)`, extents
`(20,20,1)` and `k = (11/2, 1/2, 0)` the returned point is `(0,1,0)`. Every mesh point congruent to it is
strictly farther from `k` than the mesh point `(5,0,0)`. -/
theorem C48_fails_for_skewed_units :
    closestIndex ![20, 20, 1] exUnits ![11 / 2, 1 / 2, 0] = some ![0, 1, 0] ∧
    ∀ m : Idx, Congr ![20, 20, 1] m ![0, 1, 0] →
      normSq (![11 / 2, 1 / 2, 0] - toValue exUnits ![5, 0, 0]) < normSq (![11 / 2, 1 / 2, 0] - toValue exUnits m) := by
  constructor
  · decide +kernel
  · intro m hm
    have h0 : m 0 % 20 = 0 := hm 0
    have h1 : m 1 % 20 = 1 := hm 1
    have e1 : normSq (![11 / 2, 1 / 2, 0] - toValue exUnits ![5, 0, 0]) = 1 / 2 := by decide +kernel
    have e2 : normSq (![11 / 2, 1 / 2, 0] - toValue exUnits m) =
        (11 / 2 - ((m 0 + 10 * m 1 : Int) : ℚ)) ^ 2 + (1 / 2 - (m 1 : ℚ)) ^ 2 + (m 2 : ℚ) ^ 2 := by
      simp only [normSq, toValue, tmul, exUnits, Fin.sum_univ_three, Pi.sub_apply, Matrix.of_apply, Matrix.cons_val_zero,
        Matrix.cons_val_one, Matrix.cons_val]
      push_cast; ring
    rw [e1, e2]
    have key : (1 : ℚ) < (11 / 2 - ((m 0 + 10 * m 1 : Int) : ℚ)) ^ 2 := by
      have h10 : (m 0 + 10 * m 1) % 20 = 10 := by omega
      generalize m 0 + 10 * m 1 = z at *
      have hz : z ≤ 3 ∨ 8 ≤ z := by omega
      rcases hz with hz | hz
      · have : (z : ℚ) ≤ 3 := by exact_mod_cast hz
        nlinarith
      · have : (8 : ℚ) ≤ z := by exact_mod_cast hz
        nlinarith
    nlinarith [sq_nonneg (1 / 2 - (m 1 : ℚ)), sq_nonneg (m 2 : ℚ)]

end
end Verif.Lattice
