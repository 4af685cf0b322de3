import Mathlib.Data.Complex.Basic
import Mathlib.Algebra.Field.Rat

/-!
# Model of `real_or_complex` and property C61

Source: `/repo/c++/triqs/utility/real_or_complex.hpp`. `double` is `ℝ`, `std::complex<double>` is
`ℂ`. Division by zero, which yields NaN or infinite parts in floating point, is the outcome `none`.
-/

namespace Verif.RoC

/-! ## Model -/

/-- members `_is_real`, `_x`, real_or_complex.hpp:36-37. -/
structure RoC where
  isReal : Bool
  x : ℂ

/-- real_or_complex.hpp:40. -/
noncomputable def default : RoC := ⟨true, 0⟩
/-- real_or_complex.hpp:41. -/
def ofReal (r : ℝ) : RoC := ⟨true, (r : ℂ)⟩
/-- real_or_complex.hpp:42. -/
def ofComplex (z : ℂ) : RoC := ⟨false, z⟩

/-- `explicit operator double`, real_or_complex.hpp:48-51; `none` when it throws. -/
def toDouble (a : RoC) : Option ℝ := if !a.isReal then none else some a.x.re

/-- `explicit operator std::complex<double>`, real_or_complex.hpp:46. -/
def toComplex (a : RoC) : ℂ := a.x

/-- unary minus, real_or_complex.hpp:53-56. -/
noncomputable def neg (a : RoC) : RoC := { a with x := -a.x }
/-- `conj`, real_or_complex.hpp:61-64. -/
noncomputable def conj (a : RoC) : RoC := { a with x := ⟨a.x.re, -a.x.im⟩ }

/-- `operator==`, real_or_complex.hpp:84 (`abs(_x - x._x) == 0` over exact numbers). -/
def Eq (a b : RoC) : Prop := a.x - b.x = 0

inductive Op where
  | add | sub | mul | div
deriving DecidableEq

/-- the built-in operators of `std::complex<double>` and `double` -/
noncomputable def Op.complex : Op → ℂ → ℂ → Option ℂ
  | .add, a, b => some (a + b)
  | .sub, a, b => some (a - b)
  | .mul, a, b => some (a * b)
  | .div, a, b => open Classical in if b = 0 then none else some (a / b)

noncomputable def Op.real : Op → ℝ → ℝ → Option ℝ
  | .add, a, b => some (a + b)
  | .sub, a, b => some (a - b)
  | .mul, a, b => some (a * b)
  | .div, a, b => open Classical in if b = 0 then none else some (a / b)

/-- `operator OP=(double)`, real_or_complex.hpp:88-91. -/
noncomputable def opReal (o : Op) (a : RoC) (y : ℝ) : Option RoC :=
  (o.complex a.x y).map (fun z => { a with x := z })
/-- `operator OP=(std::complex<double>)`, real_or_complex.hpp:92-96. -/
noncomputable def opComplex (o : Op) (a : RoC) (y : ℂ) : Option RoC :=
  (o.complex a.x y).map (fun z => ⟨false, z⟩)
/-- `operator OP=(real_or_complex)`, real_or_complex.hpp:97-101. -/
noncomputable def opRoC (o : Op) (a b : RoC) : Option RoC :=
  (o.complex a.x b.x).map (fun z => ⟨a.isReal && b.isReal, z⟩)
/-- `complex OP real_or_complex`, real_or_complex.hpp:123. -/
noncomputable def complexOp (o : Op) (a : ℂ) (b : RoC) : Option RoC :=
  (o.complex a (toComplex b)).map ofComplex
/-- `double OP real_or_complex`, real_or_complex.hpp:124-129. -/
noncomputable def realOp (o : Op) (a : ℝ) (b : RoC) : Option RoC :=
  if b.isReal then (o.real a b.x.re).map ofReal else (o.complex a b.x).map ofComplex

/-! ## Specification: expressions and their complex value -/

/-- all ways to build a number through the interface -/
inductive Expr where
  | default
  | real (r : ℝ)
  | complex (z : ℂ)
  | neg (e : Expr)
  | conj (e : Expr)
  | opReal (o : Op) (e : Expr) (y : ℝ)
  | opComplex (o : Op) (e : Expr) (y : ℂ)
  | opRoC (o : Op) (e f : Expr)
  | complexOp (o : Op) (y : ℂ) (e : Expr)
  | realOp (o : Op) (y : ℝ) (e : Expr)

/-- running the code -/
noncomputable def Expr.run : Expr → Option RoC
  | .default => some RoC.default
  | .real r => some (ofReal r)
  | .complex z => some (ofComplex z)
  | .neg e => e.run.map RoC.neg
  | .conj e => e.run.map RoC.conj
  | .opReal o e y => e.run.bind (fun a => RoC.opReal o a y)
  | .opComplex o e y => e.run.bind (fun a => RoC.opComplex o a y)
  | .opRoC o e f => e.run.bind (fun a => f.run.bind (fun b => RoC.opRoC o a b))
  | .complexOp o y e => e.run.bind (fun a => RoC.complexOp o y a)
  | .realOp o y e => e.run.bind (fun a => RoC.realOp o y a)

/-- complex arithmetic; `none` when some divisor is zero -/
noncomputable def Expr.value : Expr → Option ℂ
  | .default => some 0
  | .real r => some r
  | .complex z => some z
  | .neg e => e.value.map (fun z => -z)
  | .conj e => e.value.map (starRingEnd ℂ)
  | .opReal o e y => e.value.bind (fun a => o.complex a y)
  | .opComplex o e y => e.value.bind (fun a => o.complex a y)
  | .opRoC o e f => e.value.bind (fun a => f.value.bind (fun b => o.complex a b))
  | .complexOp o y e => e.value.bind (fun a => o.complex y a)
  | .realOp o y e => e.value.bind (fun a => o.complex y a)

/-- no complex number was ever involved -/
def Expr.allReal : Expr → Bool
  | .default => true
  | .real _ => true
  | .complex _ => false
  | .neg e => e.allReal
  | .conj e => e.allReal
  | .opReal _ e _ => e.allReal
  | .opComplex _ _ _ => false
  | .opRoC _ e f => e.allReal && f.allReal
  | .complexOp _ _ _ => false
  | .realOp _ _ e => e.allReal

/-! ## Proofs -/

theorem complex_im (o : Op) (a b z : ℂ) (ha : a.im = 0) (hb : b.im = 0) (h : o.complex a b = some z) :
    z.im = 0 := by
  cases o <;> simp only [Op.complex] at h
  · cases h; simp [ha, hb]
  · cases h; simp [ha, hb]
  · cases h; simp [Complex.mul_im, ha, hb]
  · split at h
    · cases h
    · cases h; simp [Complex.div_im, ha, hb]

theorem real_complex (o : Op) (a : ℝ) (b : ℂ) (hb : b.im = 0) :
    (o.real a b.re).map (fun r : ℝ => (r : ℂ)) = o.complex a b := by
  have e : b = (b.re : ℂ) := by apply Complex.ext <;> simp [hb]
  rw [e]
  cases o <;> simp only [Op.complex, Op.real, Complex.ofReal_re, Option.map_some]
  · push_cast; rfl
  · push_cast; rfl
  · push_cast; rfl
  · by_cases h : b.re = 0
    · simp [h]
    · have : ¬ ((b.re : ℂ) = 0) := by simpa using h
      simp [h]

theorem run_spec (e : Expr) :
    e.run.map RoC.x = e.value ∧ ∀ a, e.run = some a → a.isReal = e.allReal ∧ (a.isReal = true → a.x.im = 0) := by
  induction e with
  | default => exact ⟨rfl, fun a h => by cases h; exact ⟨rfl, fun _ => rfl⟩⟩
  | real r => exact ⟨rfl, fun a h => by cases h; exact ⟨rfl, fun _ => Complex.ofReal_im r⟩⟩
  | complex z => exact ⟨rfl, fun a h => by cases h; exact ⟨rfl, fun h => by cases h⟩⟩
  | neg e ih =>
    cases hr : e.run with
    | none => simp [Expr.run, Expr.value, ← ih.1, hr]
    | some a =>
      have := ih.2 a hr
      simp only [Expr.run, Expr.value, ← ih.1, hr, Option.map_some, Option.some.injEq]
      refine ⟨rfl, ?_⟩
      rintro _ rfl
      exact ⟨this.1, fun h => by simp [RoC.neg, this.2 h]⟩
  | conj e ih =>
    cases hr : e.run with
    | none => simp [Expr.run, Expr.value, ← ih.1, hr]
    | some a =>
      have := ih.2 a hr
      simp only [Expr.run, Expr.value, ← ih.1, hr, Option.map_some, Option.some.injEq]
      refine ⟨?_, ?_⟩
      · apply Complex.ext <;> simp [RoC.conj]
      rintro _ rfl
      exact ⟨this.1, fun h => by simp [RoC.conj, this.2 h]⟩
  | opReal o e y ih =>
    cases hr : e.run with
    | none => simp [Expr.run, Expr.value, ← ih.1, hr]
    | some a =>
      have := ih.2 a hr
      simp only [Expr.run, Expr.value, ← ih.1, hr, Option.map_some, Option.bind_some, RoC.opReal]
      cases hz : o.complex a.x y with
      | none => simp
      | some z =>
        simp only [Option.map_some, Option.some.injEq, true_and]
        rintro _ rfl
        exact ⟨this.1, fun h => complex_im o _ _ z (this.2 h) (Complex.ofReal_im y) hz⟩
  | opComplex o e y ih =>
    cases hr : e.run with
    | none => simp [Expr.run, Expr.value, ← ih.1, hr]
    | some a =>
      simp only [Expr.run, Expr.value, ← ih.1, hr, Option.map_some, Option.bind_some, RoC.opComplex]
      cases hz : o.complex a.x y with
      | none => simp
      | some z =>
        simp only [Option.map_some, Option.some.injEq, true_and]
        rintro _ rfl
        exact ⟨rfl, fun h => by cases h⟩
  | opRoC o e f ih ih' =>
    cases hr : e.run with
    | none => simp [Expr.run, Expr.value, ← ih.1, hr]
    | some a =>
      cases hs : f.run with
      | none => simp [Expr.run, Expr.value, ← ih.1, ← ih'.1, hr, hs]
      | some b =>
        have h1 := ih.2 a hr
        have h2 := ih'.2 b hs
        simp only [Expr.run, Expr.value, ← ih.1, ← ih'.1, hr, hs, Option.map_some, Option.bind_some, RoC.opRoC]
        cases hz : o.complex a.x b.x with
        | none => simp
        | some z =>
          simp only [Option.map_some, Option.some.injEq, true_and]
          rintro _ rfl
          refine ⟨by simp [Expr.allReal, h1.1, h2.1], fun h => ?_⟩
          simp only [Bool.and_eq_true] at h
          exact complex_im o _ _ z (h1.2 h.1) (h2.2 h.2) hz
  | complexOp o y e ih =>
    cases hr : e.run with
    | none => simp [Expr.run, Expr.value, ← ih.1, hr]
    | some a =>
      simp only [Expr.run, Expr.value, ← ih.1, hr, Option.map_some, Option.bind_some, RoC.complexOp, toComplex]
      cases hz : o.complex y a.x with
      | none => simp
      | some z =>
        simp only [Option.map_some, Option.some.injEq]
        refine ⟨rfl, ?_⟩
        rintro _ rfl
        exact ⟨rfl, fun h => by cases h⟩
  | realOp o y e ih =>
    cases hr : e.run with
    | none => simp [Expr.run, Expr.value, ← ih.1, hr]
    | some a =>
      have h1 := ih.2 a hr
      simp only [Expr.run, Expr.value, ← ih.1, hr, Option.map_some, Option.bind_some, RoC.realOp]
      split
      · rename_i hreal
        rw [← real_complex o y a.x (h1.2 hreal)]
        cases hz : o.real y a.x.re with
        | none => simp
        | some r =>
          simp only [Option.map_some, Option.some.injEq]
          refine ⟨rfl, ?_⟩
          rintro _ rfl
          exact ⟨by simp [Expr.allReal, ← h1.1, hreal, ofReal], fun _ => Complex.ofReal_im r⟩
      · rename_i hreal
        cases hz : o.complex y a.x with
        | none => simp
        | some z =>
          simp only [Option.map_some, Option.some.injEq]
          refine ⟨rfl, ?_⟩
          rintro _ rfl
          exact ⟨by simp [Expr.allReal, ← h1.1, hreal, ofComplex], fun h => by cases h⟩

/-- **C61.** For every expression: the code computes the complex value (and stops exactly when a
divisor is zero); the result is flagged real exactly when no complex number was involved, and then
its imaginary part is zero and it converts to that real value; otherwise conversion to `double`
throws. -/
theorem C61_real_or_complex_sound (e : Expr) :
    e.run.map toComplex = e.value ∧
    ∀ a, e.run = some a →
      a.isReal = e.allReal ∧
      (e.allReal = true → a.x.im = 0 ∧ ∃ r : ℝ, toDouble a = some r ∧ e.value = some (r : ℂ)) ∧
      (e.allReal = false → toDouble a = none) := by
  obtain ⟨h1, h2⟩ := run_spec e
  refine ⟨h1, fun a ha => ?_⟩
  obtain ⟨h3, h4⟩ := h2 a ha
  refine ⟨h3, fun h => ?_, fun h => ?_⟩
  · have hr : a.isReal = true := by rw [h3, h]
    refine ⟨h4 hr, a.x.re, by simp [toDouble, hr], ?_⟩
    rw [← h1, ha, Option.map_some]
    congr 1
    apply Complex.ext <;> simp [h4 hr]
  · simp [toDouble, h3, h]

/-- `==` is equality of the complex values, whatever the flags. -/
theorem C61_equality (a b : RoC) : Eq a b ↔ toComplex a = toComplex b := sub_eq_zero

-- 1 / (2 - default) stays real; (1 / (2 - default)) * i does not
example : ∃ a, (Expr.realOp .div 1 (.opRoC .sub (.real 2) .default)).run = some a ∧ a.isReal = true := by
  simp [Expr.run, RoC.realOp, RoC.opRoC, Op.complex, Op.real, RoC.default, ofReal]
example : ∃ a, (Expr.opComplex .mul (.realOp .div 1 (.real 2)) Complex.I).run = some a ∧ toDouble a = none := by
  simp [Expr.run, RoC.realOp, RoC.opComplex, Op.complex, Op.real, ofReal, toDouble]

end Verif.RoC
