import Mathlib.Analysis.SpecialFunctions.Trigonometric.Basic
import Mathlib.Tactic.FieldSimp
import Mathlib.Tactic.LinearCombination

/-!
# Model of Matsubara frequencies and the `imfreq` mesh

Source: `/repo/c++/triqs/mesh/domains/matsubara.hpp` and `/repo/c++/triqs/mesh/imfreq.hpp`.
Simplifications: `long` is an unbounded integer, `double` an exact real number. The mesh hash is left out.
-/

namespace Verif.Matsubara

/-! ## Model -/

/-- `statistic_enum`; `Boson = 0`, `Fermion = 1`. -/
inductive Stat where
  | boson
  | fermion
deriving DecidableEq, Repr

/-- numeric value of the enumerator -/
def Stat.toInt : Stat → Int
  | .boson => 0
  | .fermion => 1

/-- `x & y` -/
def Stat.and : Stat → Stat → Int
  | .fermion, .fermion => 1
  | _, _ => 0

/-- `~x & y` -/
def Stat.andNot : Stat → Stat → Int
  | .boson, .fermion => 1
  | _, _ => 0

/-- `(x ^ y) == 1 ? Fermion : Boson` -/
def Stat.xor (x y : Stat) : Stat := if x = y then .boson else .fermion

/-- `struct matsubara_freq`, matsubara.hpp:43-46. -/
structure Freq where
  n : Int
  beta : ℝ
  stat : Stat

/-- cast to complex, matsubara.hpp:55. -/
noncomputable def Freq.value (x : Freq) : ℂ := ⟨0, Real.pi * (2 * x.n + x.stat.toInt) / x.beta⟩

/-- matsubara.hpp:60-62. -/
def Freq.add (x y : Freq) : Freq := ⟨x.n + y.n + x.stat.and y.stat, x.beta, x.stat.xor y.stat⟩
/-- matsubara.hpp:64-66. -/
def Freq.sub (x y : Freq) : Freq := ⟨x.n - y.n - x.stat.andNot y.stat, x.beta, x.stat.xor y.stat⟩
/-- matsubara.hpp:68. -/
def Freq.neg (x : Freq) : Freq := ⟨-(x.n + (if x.stat = .fermion then 1 else 0)), x.beta, x.stat⟩
/-- `operator/`, matsubara.hpp:70-72 (as written: a product). -/
noncomputable def Freq.div (x y : Freq) : ℂ := x.value * y.value
/-- matsubara.hpp:74-76. -/
noncomputable def Freq.mul (x y : Freq) : ℂ := x.value * y.value

/-- `struct imfreq`, imfreq.hpp:56-63; the option is `positiveOnly`. -/
structure Mesh where
  beta : ℝ
  stat : Stat
  nIw : Int
  positiveOnly : Bool
  last : Int
  first : Int

/-- constructor, imfreq.hpp:61-62 and 79-82. -/
def Mesh.mk' (beta : ℝ) (stat : Stat) (nIw : Int) (pos : Bool) : Mesh :=
  { beta, stat, nIw, positiveOnly := pos, last := nIw - 1,
    first := if pos then 0 else -((nIw - 1) + (if stat = .fermion then 1 else 0)) }

/-- imfreq.hpp:173 -/
def Mesh.size (m : Mesh) : Int := m.last - m.first + 1
/-- imfreq.hpp:187 -/
def Mesh.valid (m : Mesh) (i : Int) : Bool := decide (m.first ≤ i) && decide (i ≤ m.last)
/-- imfreq.hpp:191 -/
def Mesh.toDataIndex (m : Mesh) (i : Int) : Int := i - m.first
/-- imfreq.hpp:205 -/
def Mesh.toIndex (m : Mesh) (d : Int) : Int := d + m.first
/-- imfreq.hpp:233-236; `none` when the `EXPECTS` fails. -/
def Mesh.toValue (m : Mesh) (i : Int) : Option Freq := if m.valid i then some ⟨i, m.beta, m.stat⟩ else none
/-- iteration, imfreq.hpp:241-243: the indices of the visited points -/
def Mesh.indices (m : Mesh) : List Int := (List.range m.size.toNat).map (fun d : Nat => m.toIndex (d : Int))

/-- stored fields, imfreq.hpp:265-273. -/
structure Archive where
  beta : ℝ
  isF : Bool
  size : Int
  pos : Int

def Mesh.write (m : Mesh) : Archive :=
  ⟨m.beta, decide (m.stat = .fermion), m.size, if m.positiveOnly then 1 else 0⟩

/-- imfreq.hpp:276-294 (current format). -/
def read (a : Archive) : Mesh :=
  Mesh.mk' a.beta (if a.isF then .fermion else .boson)
    (if a.pos ≠ 0 then a.size else Int.tdiv (a.size + 1) 2) (decide (a.pos = 1))

/-! ## Proofs -/

/-- **C44** (partial: the quotient is wrong, next theorem). Sum, difference and negative of
frequencies at one temperature have the values of the sum, difference and negative; the product is
the product of the values. -/
theorem C44_frequency_arithmetic_partial (x y : Freq) (h : y.beta = x.beta) :
    (x.add y).value = x.value + y.value ∧ (x.sub y).value = x.value - y.value ∧
    x.neg.value = - x.value ∧ x.mul y = x.value * y.value := by
  obtain ⟨n, b, s⟩ := x
  obtain ⟨n', b', s'⟩ := y
  simp only at h; subst h
  refine ⟨?_, ?_, ?_, rfl⟩
  · apply Complex.ext
    · simp [Freq.value]
    · cases s <;> cases s' <;> simp [Freq.value, Freq.add, Stat.and, Stat.xor, Stat.toInt] <;> ring
  · apply Complex.ext
    · simp [Freq.value]
    · cases s <;> cases s' <;> simp [Freq.value, Freq.sub, Stat.andNot, Stat.xor, Stat.toInt] <;> ring
  · apply Complex.ext
    · simp [Freq.value]
    · cases s <;> simp [Freq.value, Freq.neg, Stat.toInt] <;> ring

example : (Freq.sub ⟨2, 3, .boson⟩ ⟨-4, 3, .fermion⟩).n = 5 ∧
    (Freq.sub ⟨2, 3, .boson⟩ ⟨-4, 3, .fermion⟩).stat = .fermion := by decide

/-- **C44 fails** for the quotient: at `beta = π`, `x = y = iω₀ = i`, the code returns `-1`
although `x / y = 1`. -/
theorem C44_division_is_wrong :
    ∃ x y : Freq, x.beta = y.beta ∧ y.value ≠ 0 ∧ x.div y = -1 ∧ x.value / y.value = 1 := by
  have hv : (Freq.value ⟨0, Real.pi, .fermion⟩) = Complex.I := by
    apply Complex.ext <;> simp [Freq.value, Stat.toInt, Real.pi_ne_zero]
  refine ⟨⟨0, Real.pi, .fermion⟩, ⟨0, Real.pi, .fermion⟩, rfl, ?_, ?_, ?_⟩
  · rw [hv]; exact Complex.I_ne_zero
  · unfold Freq.div; rw [hv]; exact Complex.I_mul_I
  · rw [hv]; exact div_self Complex.I_ne_zero

/-- **C43.** For every mesh with at least one positive frequency: the size is the documented one,
`to_data_index` and `to_index` are inverse bijections between the valid indices and
`0..size-1`, iteration visits every valid index once in increasing order, a full mesh contains the
negative of each of its frequencies, and the archive determines the mesh. -/
theorem C43_matsubara_mesh (beta : ℝ) (s : Stat) (n : Int) (hn : 1 ≤ n) (p : Bool) :
    let m := Mesh.mk' beta s n p
    m.size = (if p then n else if s = .fermion then 2 * n else 2 * n - 1) ∧
    (∀ i, m.toIndex (m.toDataIndex i) = i) ∧ (∀ d, m.toDataIndex (m.toIndex d) = d) ∧
    (∀ i, m.valid i = true ↔ 0 ≤ m.toDataIndex i ∧ m.toDataIndex i < m.size) ∧
    m.indices.Pairwise (· < ·) ∧ (∀ i, i ∈ m.indices ↔ m.valid i = true) ∧
    (p = false → ∀ i x, m.toValue i = some x → ∃ j, m.toValue j = some x.neg) ∧
    (p = true → ∀ i, m.valid i = true ↔ 0 ≤ i ∧ i < n) ∧
    read m.write = m := by
  have hsz : (Mesh.mk' beta s n p).size = (if p then n else if s = .fermion then 2 * n else 2 * n - 1) := by
    unfold Mesh.size Mesh.mk'; cases p <;> cases s <;> simp <;> omega
  have hv : ∀ i, (Mesh.mk' beta s n p).valid i = true ↔
      (Mesh.mk' beta s n p).first ≤ i ∧ i ≤ (Mesh.mk' beta s n p).last := by
    intro i; simp [Mesh.valid]
  refine ⟨hsz, ?_, ?_, ?_, ?_, ?_, ?_, ?_, ?_⟩
  · intro i; simp [Mesh.toIndex, Mesh.toDataIndex]
  · intro d; simp [Mesh.toIndex, Mesh.toDataIndex]
  · intro i; rw [hv]; unfold Mesh.toDataIndex Mesh.size; omega
  · unfold Mesh.indices
    rw [List.pairwise_map]
    exact List.pairwise_lt_range.imp (fun h => by unfold Mesh.toIndex; omega)
  · intro i
    rw [hv]
    unfold Mesh.indices Mesh.toIndex
    simp only [List.mem_map, List.mem_range]
    constructor
    · rintro ⟨d, hd, rfl⟩; unfold Mesh.size at hd; omega
    · intro h
      exact ⟨(i - (Mesh.mk' beta s n p).first).toNat, by unfold Mesh.size; omega, by omega⟩
  · intro hp i x hx
    subst hp
    unfold Mesh.toValue at hx
    split at hx
    · rename_i h
      cases hx
      rw [hv] at h
      refine ⟨(Freq.neg ⟨i, beta, s⟩).n, ?_⟩
      unfold Mesh.toValue
      rw [if_pos]
      · rfl
      · rw [hv]
        revert h
        cases s <;> simp [Mesh.mk', Freq.neg] <;> omega
    · cases hx
  · intro hp i; subst hp; rw [hv]; simp [Mesh.mk']; omega
  · unfold read Mesh.write
    rw [hsz]
    have h1 : Int.tdiv (2 * n + 1) 2 = n := by rw [Int.tdiv_eq_ediv_of_nonneg (by omega)]; omega
    have h2 : Int.tdiv (2 * n - 1 + 1) 2 = n := by rw [Int.tdiv_eq_ediv_of_nonneg (by omega)]; omega
    cases p <;> cases s <;> simp [Mesh.mk'] <;> simp_all

example : (Mesh.mk' 10 .boson 3 false).indices = [-2, -1, 0, 1, 2] ∧
    (Mesh.mk' 10 .fermion 2 false).indices = [-2, -1, 0, 1] ∧
    (Mesh.mk' 10 .fermion 3 true).indices = [0, 1, 2] := by decide

/-- Without any frequency (`n_iw = 0`) the bosonic mesh reports a negative size. -/
theorem C43_empty_boson_mesh (beta : ℝ) : (Mesh.mk' beta .boson 0 false).size = -1 := by
  simp [Mesh.size, Mesh.mk']

end Verif.Matsubara
