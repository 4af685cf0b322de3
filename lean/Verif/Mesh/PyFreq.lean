import Verif.Mesh.Matsubara
import Mathlib.Tactic.LinearCombination

/-!
# Property C153: arithmetic of Matsubara frequencies and points of meshes in Python

Source: `/repo/python/triqs/gf/matsubara_freq.py` (44-101), `/repo/python/triqs/gf/mesh_point.py` (38-66),
`/repo/c++/triqs/cpp2py_converters/mesh.hpp` (50-59, 84-118, 218-245).

Which method runs follows the rules of Python: the method of the left operand; if it is a built-in number and the right one is not, the
reflected method of the right operand.

Simplifications: numbers are complex and exact; `beta` is not zero; no arrays as operands.
-/

namespace Verif.PyFreq

open Verif.Matsubara

/-! ## Model -/

/-- `MatsubaraFreq`, matsubara_freq.py:44-48 -/
structure PyFreq where
  n : ℤ
  beta : ℝ
  statistic : String

def PyFreq.isFermion (f : PyFreq) : Bool := f.statistic == "Fermion"

/-- `int` of a `bool` -/
def toInt (b : Bool) : ℤ := if b then 1 else 0

/-- `__complex__`, 50-51 -/
noncomputable def PyFreq.complex (f : PyFreq) : ℂ := Complex.I * (2 * f.n + toInt f.isFermion : ℤ) * Real.pi / f.beta

/-- numbers and frequencies -/
inductive Val
  | num (z : ℂ)
  | freq (f : PyFreq)

/-- operands: numbers, frequencies and `MeshPoint`s with their value -/
inductive Obj
  | val (v : Val)
  | point (v : Val)

inductive Err | runtime | zeroDivision
deriving DecidableEq

open Classical in
/-- `__add__`, 68-76, for arguments that are not points -/
noncomputable def PyFreq.add (f : PyFreq) : Val → Except Err Val
  | .freq g =>
    if ¬ f.beta = g.beta then .error .runtime
    else .ok (.freq ⟨f.n + g.n + toInt (f.isFermion && g.isFermion), f.beta, if (f.isFermion ^^ g.isFermion) then "Fermion" else "Boson"⟩)
  | .num z => .ok (.num (f.complex + z))

/-- `__neg__`, 78-79 -/
def PyFreq.neg (f : PyFreq) : PyFreq := ⟨-f.n - toInt f.isFermion, f.beta, f.statistic⟩

/-- `-v` -/
def Val.neg : Val → Val
  | .num z => .num (-z)
  | .freq f => .freq f.neg

/-- `v + w`: `__add__`, or `__radd__`, 81-82 -/
noncomputable def Val.add : Val → Val → Except Err Val
  | .num z, .num w => .ok (.num (z + w))
  | .num z, .freq g => g.add (.num z)
  | .freq f, w => f.add w

/-- `v - w`: `__sub__`, 84-85, or `__rsub__`, 87-89 -/
noncomputable def Val.sub : Val → Val → Except Err Val
  | .num z, .num w => .ok (.num (z - w))
  | .num z, .freq g => g.neg.add (.num z)
  | .freq f, w => f.add w.neg

/-- `v * w`: `__mul__`, `__rmul__`, 91-95 -/
noncomputable def Val.mul : Val → Val → Except Err Val
  | .num z, .num w => .ok (.num (z * w))
  | .num z, .freq g => .ok (.num (z * g.complex))
  | .freq f, .num w => .ok (.num (f.complex * w))
  | .freq f, .freq g => .ok (.num (f.complex * g.complex))

open Classical in
/-- division of complex numbers in Python -/
noncomputable def pyDiv (z w : ℂ) : Except Err Val := if w = 0 then .error .zeroDivision else .ok (.num (z / w))

/-- `v / w`: `__truediv__`, `__rtruediv__`, 97-101 -/
noncomputable def Val.div : Val → Val → Except Err Val
  | .num z, .num w => pyDiv z w
  | .num z, .freq g => pyDiv z g.complex
  | .freq f, .num w => pyDiv f.complex w
  | .freq f, .freq g => pyDiv f.complex g.complex

/-- `MeshPoint._get_val`, mesh_point.py:38-39: a frequency has the attribute `value`, which is a number (matsubara_freq.py:61-63) -/
noncomputable def getVal : Obj → Val
  | .val (.num z) => .num z
  | .val (.freq f) => .num f.complex
  | .point v => v

/-- `-x`, mesh_point.py:53-54 -/
def Obj.neg : Obj → Val
  | .val v => v.neg
  | .point v => v.neg

/-- `x + y`: mesh_point.py:41-45; a frequency casts itself and meets `MeshPoint.__radd__` -/
noncomputable def Obj.add : Obj → Obj → Except Err Val
  | .val v, .val w => v.add w
  | .val (.num z), .point w => (Val.num z).add w
  | .val (.freq f), .point w => (Val.num f.complex).add w
  | .point v, y => v.add (getVal y)

/-- `x - y`: mesh_point.py:47-51; a frequency adds `other.__neg__()`, which for a point is minus its value -/
noncomputable def Obj.sub : Obj → Obj → Except Err Val
  | .val v, .val w => v.sub w
  | .val (.num z), .point w => (Val.num z).sub w
  | .val (.freq f), .point w => f.add w.neg
  | .point v, y => v.sub (getVal y)

/-- `x * y`, mesh_point.py:56-60 -/
noncomputable def Obj.mul : Obj → Obj → Except Err Val
  | .val v, .val w => v.mul w
  | .val (.num z), .point w => (Val.num z).mul w
  | .val (.freq f), .point w => (Val.num f.complex).mul w
  | .point v, y => v.mul (getVal y)

/-- `x / y`, mesh_point.py:62-66 -/
noncomputable def Obj.div : Obj → Obj → Except Err Val
  | .val v, .val w => v.div w
  | .val (.num z), .point w => (Val.num z).div w
  | .val (.freq f), .point w => (Val.num f.complex).div w
  | .point v, y => v.div (getVal y)

/-- `c2py`, mesh.hpp:84-102, 51-54 -/
def c2py (x : Freq) : PyFreq := ⟨x.n, x.beta, if x.stat = .fermion then "Fermion" else "Boson"⟩

/-- `py2c`, mesh.hpp:112-118, 55-59 -/
def py2c (f : PyFreq) : Freq := ⟨f.n, f.beta, if f.statistic = "Fermion" then .fermion else .boson⟩

/-- a point of a mesh of imaginary frequencies in Python, mesh.hpp:218-245 -/
def meshPoint (m : Mesh) (i : ℤ) : Option Obj := (m.toValue i).map fun x => .point (.freq (c2py x))

/-! ## Specification -/

/-- the complex number an operand stands for -/
noncomputable def Val.value : Val → ℂ
  | .num z => z
  | .freq f => (py2c f).value

noncomputable def Obj.value : Obj → ℂ
  | .val v => v.value
  | .point v => v.value

/-! ## Proofs -/

theorem complex_eq (f : PyFreq) : f.complex = (py2c f).value := by
  have h : ∀ k : ℤ, Complex.I * (k : ℂ) * (Real.pi : ℂ) / (f.beta : ℂ) = ((Real.pi * k / f.beta : ℝ) : ℂ) * Complex.I := by
    intro k
    push_cast
    ring
  unfold PyFreq.complex py2c Freq.value PyFreq.isFermion toInt
  rw [h]
  by_cases hs : f.statistic = "Fermion" <;> apply Complex.ext <;> simp [hs, Stat.toInt]

theorem py2c_add (f g : PyFreq) : py2c ⟨f.n + g.n + toInt (f.isFermion && g.isFermion), f.beta, if (f.isFermion ^^ g.isFermion) then "Fermion" else "Boson"⟩ =
    (py2c f).add (py2c g) := by
  unfold py2c Freq.add PyFreq.isFermion toInt
  by_cases h1 : f.statistic = "Fermion" <;> by_cases h2 : g.statistic = "Fermion" <;>
    simp [h1, h2, Stat.and, Stat.xor]

theorem py2c_neg (f : PyFreq) : py2c f.neg = (py2c f).neg := by
  unfold py2c Freq.neg PyFreq.neg PyFreq.isFermion toInt
  by_cases h1 : f.statistic = "Fermion"
  · simp [h1]
    ring
  · simp [h1]

theorem neg_value (v : Val) : v.neg.value = -v.value := by
  cases v with
  | num z => rfl
  | freq f =>
    simp only [Val.neg, Val.value, py2c_neg]
    exact (C44_frequency_arithmetic_partial (py2c f) (py2c f) rfl).2.2.1

theorem add_value (f : PyFreq) (v r : Val) (h : f.add v = .ok r) : r.value = (py2c f).value + v.value := by
  cases v with
  | num z =>
    simp only [PyFreq.add, Except.ok.injEq] at h
    rw [← h]
    simp only [Val.value, complex_eq]
  | freq g =>
    simp only [PyFreq.add] at h
    split at h
    · cases h
    · rename_i hb
      rw [not_not] at hb
      rw [← Except.ok.inj h]
      simp only [Val.value, py2c_add]
      exact (C44_frequency_arithmetic_partial (py2c f) (py2c g) hb.symm).1

theorem val_add (v w r : Val) (h : v.add w = .ok r) : r.value = v.value + w.value := by
  cases v with
  | num z =>
    cases w with
    | num z' => simp only [Val.add, Except.ok.injEq] at h; rw [← h]; rfl
    | freq g =>
      simp only [Val.add] at h
      rw [add_value g _ r h, add_comm]
      rfl
  | freq f => exact add_value f w r h

theorem val_sub (v w r : Val) (h : v.sub w = .ok r) : r.value = v.value - w.value := by
  cases v with
  | num z =>
    cases w with
    | num z' => simp only [Val.sub, Except.ok.injEq] at h; rw [← h]; rfl
    | freq g =>
      simp only [Val.sub] at h
      rw [add_value g.neg _ r h, add_comm, sub_eq_add_neg]
      exact congrArg (z + ·) (neg_value (.freq g))
  | freq f =>
    rw [add_value f w.neg r h, neg_value, sub_eq_add_neg]
    rfl

theorem val_mul (v w : Val) : v.mul w = .ok (.num (v.value * w.value)) := by
  cases v <;> cases w <;> simp only [Val.mul, Val.value, complex_eq]

theorem val_div (v w : Val) : v.div w = pyDiv v.value w.value := by
  cases v <;> cases w <;> simp only [Val.div, Val.value, complex_eq]

theorem getVal_value (x : Obj) : (getVal x).value = x.value := by
  rcases x with (z | f) | v
  · rfl
  · exact complex_eq f
  · rfl

/-- **The value of a result is the result of the values**, whatever kinds of operands are combined. -/
theorem C153_value (x y : Obj) : (∀ r, x.add y = .ok r → r.value = x.value + y.value) ∧ (∀ r, x.sub y = .ok r → r.value = x.value - y.value) ∧
    (∀ r, x.mul y = .ok r → r.value = x.value * y.value) ∧ (∀ r, x.div y = .ok r → r.value = x.value / y.value) ∧ x.neg.value = -x.value := by
  refine ⟨fun r h => ?_, fun r h => ?_, fun r h => ?_, fun r h => ?_, ?_⟩
  · rcases x with v | v
    · rcases y with w | w
      · rcases v with z | f <;> exact val_add _ _ r h
      · rcases v with z | f
        · exact val_add _ _ r h
        · rw [val_add _ _ r h]
          exact congrArg (· + w.value) (complex_eq f)
    · rw [val_add v (getVal y) r (by cases y <;> exact h), getVal_value]
      rfl
  · rcases x with v | v
    · rcases y with w | w
      · rcases v with z | f <;> exact val_sub _ _ r h
      · rcases v with z | f
        · exact val_sub _ _ r h
        · exact val_sub (.freq f) w r h
    · rw [val_sub v (getVal y) r (by cases y <;> exact h), getVal_value]
      rfl
  · rcases x with v | v
    · rcases y with w | w
      · rcases v with z | f <;> (simp only [Obj.mul, val_mul, Except.ok.injEq] at h; rw [← h]; rfl)
      · rcases v with z | f <;> (simp only [Obj.mul, val_mul, Except.ok.injEq] at h; rw [← h])
        · rfl
        · exact congrArg (· * w.value) (complex_eq f)
    · have h' : v.mul (getVal y) = .ok r := by cases y <;> exact h
      rw [val_mul, getVal_value] at h'
      rw [← Except.ok.inj h']
      rfl
  · have key : ∀ v w : Val, v.div w = .ok r → r.value = v.value / w.value := by
      intro v w h
      rw [val_div] at h
      unfold pyDiv at h
      split at h
      · cases h
      · rw [← Except.ok.inj h]
        rfl
    rcases x with v | v
    · rcases y with w | w
      · rcases v with z | f <;> exact key _ _ h
      · rcases v with z | f
        · exact key _ _ h
        · rw [key _ _ h]
          exact congrArg (· / w.value) (complex_eq f)
    · rw [key v (getVal y) (by cases y <;> exact h), getVal_value]
      rfl
  · cases x <;> exact neg_value _

/-- **Errors.** Sums fail exactly for two frequencies, or two points that are frequencies, of different temperature; differences in
addition for a frequency and a point; products never; quotients exactly if the divisor is zero. -/
theorem C153_errors (x y : Obj) (e : Err) :
    (x.add y = .error e ↔ e = .runtime ∧ ∃ f g : PyFreq, f.beta ≠ g.beta ∧
      (x = .val (.freq f) ∧ y = .val (.freq g) ∨ x = .point (.freq f) ∧ y = .point (.freq g))) ∧
    (x.sub y = .error e ↔ e = .runtime ∧ ∃ f g : PyFreq, f.beta ≠ g.beta ∧
      (x = .val (.freq f) ∧ y = .val (.freq g) ∨ x = .point (.freq f) ∧ y = .point (.freq g) ∨ x = .val (.freq f) ∧ y = .point (.freq g))) ∧
    x.mul y ≠ .error e ∧ (x.div y = .error e ↔ e = .zeroDivision ∧ y.value = 0) := by
  have hb : ∀ f g : PyFreq, f.add (.freq g) = .error e ↔ e = .runtime ∧ f.beta ≠ g.beta := by
    intro f g
    simp only [PyFreq.add]
    split
    · rename_i h
      constructor
      · intro he
        cases he
        exact ⟨rfl, h⟩
      · rintro ⟨rfl, _⟩
        rfl
    · rename_i h
      constructor
      · intro he
        cases he
      · rintro ⟨_, h'⟩
        exact absurd h' h
  have hbn : ∀ f g : PyFreq, f.add (.freq g.neg) = .error e ↔ e = .runtime ∧ f.beta ≠ g.beta := fun f g => hb f g.neg
  have hn : ∀ (f : PyFreq) (z : ℂ), f.add (.num z) ≠ .error e := fun f z h => by cases h
  refine ⟨?_, ?_, ?_, ?_⟩
  · rcases x with (z | f) | (z | f) <;> rcases y with (w | g) | (w | g) <;> simp [Obj.add, Val.add, getVal, hb, hn]
  · rcases x with (z | f) | (z | f) <;> rcases y with (w | g) | (w | g) <;> simp [Obj.sub, Val.sub, getVal, Val.neg, hbn, hn]
  · rcases x with (z | f) | (z | f) <;> rcases y with (w | g) | (w | g) <;> simp [Obj.mul, Val.mul, getVal]
  · have key : ∀ z w : ℂ, pyDiv z w = .error e ↔ e = .zeroDivision ∧ w = 0 := by
      intro z w
      unfold pyDiv
      split
      · rename_i h
        constructor
        · intro he
          cases he
          exact ⟨rfl, h⟩
        · rintro ⟨rfl, _⟩
          rfl
      · rename_i h
        constructor
        · intro he
          cases he
        · rintro ⟨_, h'⟩
          exact absurd h' h
    have kv : ∀ v w : Val, v.div w = .error e ↔ e = .zeroDivision ∧ w.value = 0 := fun v w => by rw [val_div, key]
    rcases x with v | v
    · rcases y with w | w
      · rcases v with z | f <;> exact kv _ _
      · rcases v with z | f <;> exact kv _ _
    · rw [← getVal_value y]
      have h' : (Obj.point v).div y = v.div (getVal y) := by cases y <;> rfl
      rw [h']
      exact kv _ _

/-- **Which results are frequencies**: sums of two frequencies, or of two points that are frequencies, and differences of these and of a
frequency and a point. The result is then the frequency that C++ computes. -/
theorem C153_frequencies (x y : Obj) (h : PyFreq) :
    (x.add y = .ok (.freq h) → ∃ f g : PyFreq, f.beta = g.beta ∧ py2c h = (py2c f).add (py2c g) ∧
      (x = .val (.freq f) ∧ y = .val (.freq g) ∨ x = .point (.freq f) ∧ y = .point (.freq g))) ∧
    (x.sub y = .ok (.freq h) → ∃ f g : PyFreq, f.beta = g.beta ∧ py2c h = (py2c f).sub (py2c g) ∧
      (x = .val (.freq f) ∧ y = .val (.freq g) ∨ x = .point (.freq f) ∧ y = .point (.freq g) ∨ x = .val (.freq f) ∧ y = .point (.freq g))) ∧
    x.mul y ≠ .ok (.freq h) ∧ x.div y ≠ .ok (.freq h) := by
  have hb : ∀ f g : PyFreq, f.add (.freq g) = .ok (.freq h) → f.beta = g.beta ∧ py2c h = (py2c f).add (py2c g) := by
    intro f g
    simp only [PyFreq.add]
    split
    · intro he
      cases he
    · rename_i hb
      rw [not_not] at hb
      intro he
      rw [← Val.freq.inj (Except.ok.inj he), py2c_add]
      exact ⟨hb, rfl⟩
  have hs : ∀ a b : Freq, a.add b.neg = a.sub b := by
    intro a b
    obtain ⟨n, β, s⟩ := a
    obtain ⟨n', β', s'⟩ := b
    cases s <;> cases s' <;> simp [Freq.add, Freq.sub, Freq.neg, Stat.and, Stat.andNot, Stat.xor] <;> ring
  have hbn : ∀ f g : PyFreq, f.add (.freq g.neg) = .ok (.freq h) → f.beta = g.beta ∧ py2c h = (py2c f).sub (py2c g) := by
    intro f g he
    obtain ⟨h1, h2⟩ := hb f g.neg he
    rw [py2c_neg, hs] at h2
    exact ⟨h1, h2⟩
  have hn : ∀ (f : PyFreq) (z : ℂ), f.add (.num z) ≠ .ok (.freq h) := fun f z h => by cases h
  refine ⟨?_, ?_, ?_, ?_⟩
  · rcases x with (z | f) | (z | f) <;> rcases y with (w | g) | (w | g) <;> simp [Obj.add, Val.add, getVal, hn]
    · exact fun he => (hb f g he)
    · exact fun he => (hb f g he)
  · rcases x with (z | f) | (z | f) <;> rcases y with (w | g) | (w | g) <;> simp [Obj.sub, Val.sub, getVal, Val.neg, hn]
    · exact fun he => (hbn f g he)
    · exact fun he => (hbn f g he)
    · exact fun he => (hbn f g he)
  · rcases x with (z | f) | (z | f) <;> rcases y with (w | g) | (w | g) <;> simp [Obj.mul, Val.mul, getVal]
  · rcases x with (z | f) | (z | f) <;> rcases y with (w | g) | (w | g) <;> simp only [Obj.div, Val.div, getVal, pyDiv] <;> split <;> simp

/-- **Conversion** between C++ and Python loses nothing; other names than the two statistics become bosons -/
theorem C153_convert (x : Freq) (f : PyFreq) : py2c (c2py x) = x ∧
    (c2py (py2c f) = f ↔ f.statistic = "Fermion" ∨ f.statistic = "Boson") ∧ ((py2c f).stat = .fermion ↔ f.isFermion = true) := by
  refine ⟨?_, ?_, ?_⟩
  · obtain ⟨n, b, s⟩ := x
    cases s <;> simp [py2c, c2py]
  · obtain ⟨n, b, s⟩ := f
    by_cases h : s = "Fermion"
    · simp [py2c, c2py, h]
    · simp [py2c, c2py, h, eq_comm]
  · unfold py2c PyFreq.isFermion
    by_cases h : f.statistic = "Fermion" <;> simp [h]

/-- points of meshes of the same temperature: the sum and difference of two points are the frequencies at the sum and difference -/
theorem C153_points (m m' : Mesh) (hb : m.beta = m'.beta) (i j : ℤ) (p q : Obj) (hp : meshPoint m i = some p) (hq : meshPoint m' j = some q) :
    ∃ r s, p.add q = .ok (.freq r) ∧ p.sub q = .ok (.freq s) ∧
      py2c r = Freq.add ⟨i, m.beta, m.stat⟩ ⟨j, m'.beta, m'.stat⟩ ∧ py2c s = Freq.sub ⟨i, m.beta, m.stat⟩ ⟨j, m'.beta, m'.stat⟩ := by
  unfold meshPoint Mesh.toValue at hp hq
  split at hp
  swap
  · cases hp
  split at hq
  swap
  · cases hq
  simp only [Option.map_some, Option.some.injEq] at hp hq
  subst hp hq
  have e1 : ∀ (f g : PyFreq), f.beta = g.beta → ∃ r, f.add (.freq g) = .ok (.freq r) := by
    intro f g h
    simp only [PyFreq.add]
    rw [if_neg (not_not.mpr h)]
    exact ⟨_, rfl⟩
  obtain ⟨r, hr⟩ := e1 (c2py ⟨i, m.beta, m.stat⟩) (c2py ⟨j, m'.beta, m'.stat⟩) hb
  obtain ⟨s, hs⟩ := e1 (c2py ⟨i, m.beta, m.stat⟩) (c2py ⟨j, m'.beta, m'.stat⟩).neg hb
  refine ⟨r, s, hr, hs, ?_, ?_⟩
  · obtain ⟨f, g, _, h2, h3⟩ := (C153_frequencies (.point (.freq (c2py ⟨i, m.beta, m.stat⟩))) (.point (.freq (c2py ⟨j, m'.beta, m'.stat⟩))) r).1 hr
    rcases h3 with ⟨h3, _⟩ | ⟨h3, h4⟩
    · cases h3
    · cases h3
      cases h4
      rw [h2, (C153_convert _ (c2py ⟨i, m.beta, m.stat⟩)).1, (C153_convert _ (c2py ⟨i, m.beta, m.stat⟩)).1]
  · obtain ⟨f, g, _, h2, h3⟩ := (C153_frequencies (.point (.freq (c2py ⟨i, m.beta, m.stat⟩))) (.point (.freq (c2py ⟨j, m'.beta, m'.stat⟩))) s).2.1 hs
    rcases h3 with ⟨h3, _⟩ | ⟨h3, h4⟩ | ⟨h3, _⟩
    · cases h3
    · cases h3
      cases h4
      rw [h2, (C153_convert _ (c2py ⟨i, m.beta, m.stat⟩)).1, (C153_convert _ (c2py ⟨i, m.beta, m.stat⟩)).1]
    · cases h3

/-- minus twice is nothing, and a frequency and its negative give the bosonic frequency zero -/
theorem C153_neg (f : PyFreq) : f.neg.neg = f ∧ f.add (.freq f.neg) = .ok (.freq ⟨0, f.beta, "Boson"⟩) := by
  refine ⟨?_, ?_⟩
  · obtain ⟨n, b, s⟩ := f
    simp [PyFreq.neg, PyFreq.isFermion]
  · simp only [PyFreq.add, PyFreq.neg, PyFreq.isFermion, toInt]
    simp
    ring

/-! ### Examples -/

/-- the temperature is not compared if one operand is a frequency and the other a point: the sum is a number -/
theorem C153_temperature_ignored : ∃ (f g : PyFreq) (r : ℂ), f.beta ≠ g.beta ∧ Obj.add (.val (.freq f)) (.point (.freq g)) = .ok (.num r) ∧
    Obj.add (.point (.freq f)) (.point (.freq g)) = .error .runtime := by
  refine ⟨⟨0, 1, "Fermion"⟩, ⟨0, 2, "Fermion"⟩, _, by norm_num, rfl, ?_⟩
  simp [Obj.add, getVal, Val.add, PyFreq.add]

/-- a frequency minus a point is a frequency, the point minus the frequency is a number -/
theorem C153_not_symmetric (f g : PyFreq) (h : f.beta = g.beta) : (∃ r, Obj.sub (.val (.freq f)) (.point (.freq g)) = .ok (.freq r)) ∧
    ∃ z, Obj.sub (.point (.freq g)) (.val (.freq f)) = .ok (.num z) := by
  refine ⟨?_, _, rfl⟩
  simp only [Obj.sub, Val.neg, PyFreq.add]
  rw [if_neg (by simpa [PyFreq.neg] using h)]
  exact ⟨_, rfl⟩

example : PyFreq.add ⟨3, 10, "Fermion"⟩ (.freq ⟨-1, 10, "Fermion"⟩) = .ok (.freq ⟨3, 10, "Boson"⟩) := by
  simp [PyFreq.add, PyFreq.isFermion, toInt]

end Verif.PyFreq
