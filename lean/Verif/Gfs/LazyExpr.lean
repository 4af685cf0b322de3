import Mathlib.LinearAlgebra.Matrix.NonsingularInverse
import Mathlib.Data.Complex.Basic
import Mathlib.Tactic.NormNum
import Mathlib.Tactic.FinCases

/-!
# Property C140: lazy expressions and the assignment `<<`

Sources: `/repo/python/triqs/gf/lazy_expressions.py`, `/repo/python/triqs/gf/descriptor_base.py`, `/repo/python/triqs/gf/gf.py`
(`__lshift__`, the operators), `/repo/python/triqs/gf/block_gf.py` (`__lshift__`), `/repo/python/triqs/gf/tools.py` (`inverse`).

Simplifications: all Green functions of an expression have the same mesh of frequencies `om` and the same square target `o`
(other shapes: C134); exact numbers; the descriptors are a number or matrix, the frequency, and any matrix-valued function of
the frequency; of the lazy functions only the inverse. Division by zero and the inverse of a singular matrix are errors.
-/

namespace Verif.LazyExpr
open Matrix

/-! ## Model -/

inductive Err where
  | assertion
  | type
  | arithmetic
deriving DecidableEq

inductive Op where
  | add
  | sub
  | mul
  | div
deriving DecidableEq

variable {ι o : Type} [DecidableEq o]

/-- a descriptor, i.e. an instance of `Base` -/
inductive Desc (o : Type) where
  | omega
  | const (c : ℂ)
  | constM (A : Matrix o o ℂ)
  | fn (f : ℂ → Matrix o o ℂ)

/-- the other values of Python: a Green function, a number, a two-dimensional numpy array -/
inductive Val (ι o : Type) where
  | gf (v : ι → Matrix o o ℂ)
  | num (c : ℂ)
  | arr (A : Matrix o o ℂ)

/-- terminals of an expression -/
inductive Term (ι o : Type) where
  | val (x : Val ι o)
  | desc (d : Desc o)

/-- `LazyExpr`, lazy_expressions.py:48-58: tag and children -/
inductive Lazy (ι o : Type) where
  | T (t : Term ι o)
  | bin (op : Op) (a b : Lazy ι o)
  | inv (a : Lazy ι o)

/-- `is_scalar`, descriptor_base.py:47-48 -/
def Term.isScalar : Term ι o → Bool
  | .val (.num _) => true
  | .val (.arr _) => true
  | _ => false

/-- `Const(t)` -/
def Term.toConst : Term ι o → Term ι o
  | .val (.num c) => .desc (.const c)
  | .val (.arr A) => .desc (.constM A)
  | t => t

/-- lines 59-61: a child of a sum or difference -/
def constChild : Lazy ι o → Lazy ι o
  | .T t => if t.isScalar then .T t.toConst else .T t
  | e => e

/-- `transform(expr, act)`, descriptor_base.py:57-64 and lazy_expressions.py:116-125 -/
def act : Lazy ι o → Lazy ι o
  | .T t => .T t
  | .bin .add a b => .bin .add (constChild (act a)) (constChild (act b))
  | .bin .sub a b => .bin .sub (constChild (act a)) (constChild (act b))
  | .bin op a b => .bin op (act a) (act b)
  | .inv a => .inv (act a)

/-- `convert_scalar_to_const`, descriptor_base.py:50-64 -/
def convert : Lazy ι o → Lazy ι o
  | .T t => if t.isScalar then .T t.toConst else act (.T t)
  | e => act e

/-- the descriptor called with a Green function, descriptor_base.py:97-105,113-124,131-138 -/
def Desc.call (om : ι → ℂ) : Desc o → ι → Matrix o o ℂ
  | .omega => fun i => om i • (1 : Matrix o o ℂ)
  | .const c => fun _ => c • (1 : Matrix o o ℂ)
  | .constM A => fun _ => A
  | .fn f => fun i => f (om i)

open Classical in
/-- the operators on values of Python: gf.py:426-589 and numpy (C134); products of two arrays are elementwise, a number is
added to all elements of an array -/
noncomputable def apply [Fintype o] : Op → Val ι o → Val ι o → Except Err (Val ι o)
  | .add, .gf v, .gf w => .ok (.gf fun i => v i + w i)
  | .add, .gf v, .num c => .ok (.gf fun i => v i + c • 1)
  | .add, .gf v, .arr A => .ok (.gf fun i => v i + A)
  | .add, .num c, .gf v => .ok (.gf fun i => v i + c • 1)
  | .add, .arr A, .gf v => .ok (.gf fun i => v i + A)
  | .add, .num c, .num d => .ok (.num (c + d))
  | .add, .num c, .arr A => .ok (.arr fun a b => c + A a b)
  | .add, .arr A, .num c => .ok (.arr fun a b => A a b + c)
  | .add, .arr A, .arr B => .ok (.arr (A + B))
  | .sub, .gf v, .gf w => .ok (.gf fun i => v i - w i)
  | .sub, .gf v, .num c => .ok (.gf fun i => v i - c • 1)
  | .sub, .gf v, .arr A => .ok (.gf fun i => v i - A)
  | .sub, .num c, .gf v => .ok (.gf fun i => (-1 : ℂ) • v i + c • 1)
  | .sub, .arr A, .gf v => .ok (.gf fun i => (-1 : ℂ) • v i + A)
  | .sub, .num c, .num d => .ok (.num (c - d))
  | .sub, .num c, .arr A => .ok (.arr fun a b => c - A a b)
  | .sub, .arr A, .num c => .ok (.arr fun a b => A a b - c)
  | .sub, .arr A, .arr B => .ok (.arr (A - B))
  | .mul, .gf v, .gf w => .ok (.gf fun i => v i * w i)
  | .mul, .gf v, .num c => .ok (.gf fun i => c • v i)
  | .mul, .gf v, .arr A => .ok (.gf fun i => v i * A)
  | .mul, .num c, .gf v => .ok (.gf fun i => c • v i)
  | .mul, .arr A, .gf v => .ok (.gf fun i => A * v i)
  | .mul, .num c, .num d => .ok (.num (c * d))
  | .mul, .num c, .arr A => .ok (.arr (c • A))
  | .mul, .arr A, .num c => .ok (.arr (c • A))
  | .mul, .arr A, .arr B => .ok (.arr fun a b => A a b * B a b)
  | .div, .gf v, .num c => if c = 0 then .error .arithmetic else .ok (.gf fun i => c⁻¹ • v i)
  | .div, .gf v, .arr A => if ∃ a b, A a b = 0 then .error .arithmetic else .ok (.gf fun i a b => v i a b / A a b)
  | .div, .num c, .num d => if d = 0 then .error .arithmetic else .ok (.num (c / d))
  | .div, .num c, .arr A => if ∃ a b, A a b = 0 then .error .arithmetic else .ok (.arr fun a b => c / A a b)
  | .div, .arr A, .num c => if c = 0 then .error .arithmetic else .ok (.arr fun a b => A a b / c)
  | .div, .arr A, .arr B => if ∃ a b, B a b = 0 then .error .arithmetic else .ok (.arr fun a b => A a b / B a b)
  | .div, _, .gf _ => .error .type

open Classical in
/-- `inverse`, tools.py:32-40 -/
noncomputable def invert [Fintype o] : Val ι o → Except Err (Val ι o)
  | .gf v => if ∀ i, IsUnit (v i).det then .ok (.gf fun i => (v i)⁻¹) else .error .arithmetic
  | .num c => if c = 0 then .error .arithmetic else .ok (.num (1 / c))
  | .arr A => if ∃ a b, A a b = 0 then .error .arithmetic else .ok (.arr fun a b => 1 / A a b)

/-- `eval_expr_with_context` with the context of `__lshift__`, lazy_expressions.py:93-103, gf.py:393-397 -/
noncomputable def eval [Fintype o] (om : ι → ℂ) : Lazy ι o → Except Err (Val ι o)
  | .T (.val x) => .ok x
  | .T (.desc d) => .ok (.gf (d.call om))
  | .bin op a b => eval om a >>= fun x => eval om b >>= fun y => apply op x y
  | .inv a => eval om a >>= fun x => invert x

/-- `copy_from`, gf.py:262-267: only a Green function has a mesh -/
def copyFrom : Val ι o → Except Err (ι → Matrix o o ℂ)
  | .gf v => .ok v
  | _ => .error .type

/-- the new values of a Green function after `<<` of a lazy expression, gf.py:391-398 -/
noncomputable def lshift [Fintype o] (om : ι → ℂ) (e : Lazy ι o) : Except Err (ι → Matrix o o ℂ) := eval om (convert e) >>= copyFrom

/-- what a user writes: descriptors, lazy expressions made from them, and other values on either side of an operator -/
inductive Expr (ι o : Type) where
  | desc (d : Desc o)
  | bin (op : Op) (a b : Expr ι o)
  | left (op : Op) (x : Val ι o) (e : Expr ι o)
  | right (op : Op) (e : Expr ι o) (x : Val ι o)
  | inv (e : Expr ι o)

/-- Python evaluates the operators to a lazy expression. With a lazy object on the left, or a number on the left, the
operators of lazy_expressions.py:28-36 are used; `inverse` (tools.py:36-37) is lazy. With a Green function on the left its own
operators are used: sums and differences are lazy (gf.py:427,442-444,451,466-468); for products line 550 fails and for
quotients line 577. A numpy array on the left applies the operator to each element, which gives an array of lazy expressions;
this cannot be assigned to the data of a Green function (descriptor_base.py:101). -/
def build : Expr ι o → Except Err (Lazy ι o)
  | .desc d => .ok (.T (.desc d))
  | .bin op a b => build a >>= fun x => build b >>= fun y => .ok (.bin op x y)
  | .right op e x => build e >>= fun a => .ok (.bin op a (.T (.val x)))
  | .left op (.num c) e => build e >>= fun a => .ok (.bin op (.T (.val (.num c))) a)
  | .left .add (.gf v) e => build e >>= fun a => .ok (.bin .add (.T (.val (.gf v))) a)
  | .left .sub (.gf v) e => build e >>= fun a => .ok (.bin .sub (.T (.val (.gf v))) a)
  | .left .mul (.gf _) e => build e >>= fun _ => .error .assertion
  | .left .div (.gf _) e => build e >>= fun _ => .error .type
  | .left _ (.arr _) e => build e >>= fun _ => .error .type
  | .inv e => build e >>= fun a => .ok (.inv a)

/-- `g << e` -/
noncomputable def assign [Fintype o] (om : ι → ℂ) (e : Expr ι o) : Except Err (ι → Matrix o o ℂ) := build e >>= lshift om

/-- `BlockGf << descriptor` for a descriptor of a block function such as `Fourier`, block_gf.py:300-301 and
descriptor_base.py:72-81. `rest` are the descriptors which the generator `descriptor_iter` still has; `zip` takes a block, then
a descriptor. The result are the new blocks and what remains. -/
def blockAssign {D G : Type} (set : D → G → G) : List (String × G) → List D → List (String × G) × List D
  | [], rest => ([], rest)
  | gs, [] => (gs, [])
  | (n, g) :: gs, d :: rest => let r := blockAssign set gs rest; ((n, set d g) :: r.1, r.2)

/-! ## Specification -/

/-- a value at a point of the mesh; a number stands for that multiple of the unit matrix -/
def Val.at (i : ι) : Val ι o → Matrix o o ℂ
  | .gf v => v i
  | .num c => c • 1
  | .arr A => A

/-- the operators of matrices -/
noncomputable def opM [Fintype o] : Op → Matrix o o ℂ → Matrix o o ℂ → Matrix o o ℂ
  | .add, A, B => A + B
  | .sub, A, B => A - B
  | .mul, A, B => A * B
  | .div, A, B => A * B⁻¹

/-- the meaning of an expression at a point of the mesh -/
noncomputable def Expr.at [Fintype o] (om : ι → ℂ) (i : ι) : Expr ι o → Matrix o o ℂ
  | .desc .omega => om i • 1
  | .desc (.const c) => c • 1
  | .desc (.constM A) => A
  | .desc (.fn f) => f (om i)
  | .bin op a b => opM op (a.at om i) (b.at om i)
  | .left op x e => opM op (x.at i) (e.at om i)
  | .right op e x => opM op (e.at om i) (x.at i)
  | .inv e => (e.at om i)⁻¹

/-- the expressions without quotients of or by Green functions, lazy expressions and arrays, without products of a Green
function with a lazy expression on the right, and without arrays on the left; quotients have a non-zero number on the right
and the matrices to be inverted are invertible -/
def Expr.Ok [Fintype o] (om : ι → ℂ) : Expr ι o → Prop
  | .desc _ => True
  | .bin op a b => op ≠ .div ∧ a.Ok om ∧ b.Ok om
  | .left op x e => (op ≠ .div ∧ (∀ A, x ≠ .arr A) ∧ (op = .mul → ∀ v, x ≠ .gf v)) ∧ e.Ok om
  | .right op e x => (op = .div → ∃ c, x = .num c ∧ c ≠ 0) ∧ e.Ok om
  | .inv e => e.Ok om ∧ ∀ i, IsUnit (e.at om i).det

/-- no quotient by an array -/
def Expr.NoArrayDiv : Expr ι o → Prop
  | .desc _ => True
  | .bin _ a b => a.NoArrayDiv ∧ b.NoArrayDiv
  | .left _ _ e => e.NoArrayDiv
  | .right op e x => (op = .div → ∀ A, x ≠ .arr A) ∧ e.NoArrayDiv
  | .inv e => e.NoArrayDiv

/-! ## Proofs -/

variable [Fintype o]

/-- no change for an expression which is not a scalar -/
def NotScalar : Lazy ι o → Prop
  | .T t => t.isScalar = false
  | _ => True

theorem constChild_of {e : Lazy ι o} (h : NotScalar e) : constChild e = e := by
  cases e with
  | T t => simp only [NotScalar] at h; simp [constChild, h]
  | bin op a b => rfl
  | inv a => rfl

theorem build_notScalar (e : Expr ι o) (l : Lazy ι o) (h : build e = .ok l) : NotScalar l ∧ NotScalar (act l) := by
  have hbin : ∀ (op : Op) (a b : Lazy ι o), NotScalar (Lazy.bin op a b) ∧ NotScalar (act (Lazy.bin op a b)) := by
    intro op a b
    cases op <;> exact ⟨trivial, trivial⟩
  cases e with
  | desc d => simp only [build, Except.ok.injEq] at h; subst h; exact ⟨rfl, rfl⟩
  | bin op a b =>
    simp only [build] at h
    cases ha : build a with
    | error x => rw [ha] at h; cases h
    | ok x =>
      cases hb : build b with
      | error y => rw [ha, hb] at h; cases h
      | ok y => rw [ha, hb] at h; cases h; exact hbin op x y
  | right op e x =>
    simp only [build] at h
    cases ha : build e with
    | error y => rw [ha] at h; cases h
    | ok y => rw [ha] at h; cases h; exact hbin _ _ _
  | left op x e =>
    cases ha : build e with
    | error y => cases x <;> cases op <;> simp only [build, ha] at h <;> cases h
    | ok y => cases x <;> cases op <;> simp only [build, ha] at h <;> cases h <;> exact hbin _ _ _
  | inv e =>
    simp only [build] at h
    cases ha : build e with
    | error y => rw [ha] at h; cases h
    | ok y => rw [ha] at h; cases h; exact ⟨trivial, trivial⟩

/-- the value of a converted child -/
theorem eval_constChild (om : ι → ℂ) (x : Val ι o) : ∃ v, eval om (constChild (.T (.val x))) = .ok (.gf v) ∧ ∀ i, v i = x.at i := by
  cases x with
  | gf v => exact ⟨v, rfl, fun _ => rfl⟩
  | num c => exact ⟨_, rfl, fun _ => rfl⟩
  | arr A => exact ⟨_, rfl, fun _ => rfl⟩

/-- the main induction: what is built for an acceptable expression evaluates to its meaning -/
theorem eval_build (om : ι → ℂ) (e : Expr ι o) (h : e.Ok om) :
    ∃ l, build e = .ok l ∧ eval om (act l) = .ok (.gf fun i => e.at om i) := by
  induction e with
  | desc d => refine ⟨_, rfl, ?_⟩; cases d <;> rfl
  | bin op a b iha ihb =>
    obtain ⟨h0, ha, hb⟩ := h
    obtain ⟨la, ha1, ha2⟩ := iha ha
    obtain ⟨lb, hb1, hb2⟩ := ihb hb
    have na := constChild_of (build_notScalar a la ha1).2
    have nb := constChild_of (build_notScalar b lb hb1).2
    refine ⟨.bin op la lb, by simp only [build, ha1, hb1]; rfl, ?_⟩
    cases op with
    | add => simp only [act, na, nb, eval, ha2, hb2]; rfl
    | sub => simp only [act, na, nb, eval, ha2, hb2]; rfl
    | mul => simp only [act, eval, ha2, hb2]; rfl
    | div => exact absurd rfl h0
  | left op x e ih =>
    obtain ⟨⟨h1, h2, h3⟩, he⟩ := h
    obtain ⟨l, hl1, hl2⟩ := ih he
    have nl := constChild_of (build_notScalar e l hl1).2
    have hb : build (.left op x e) = .ok (.bin op (.T (.val x)) l) := by
      cases x with
      | num c => simp only [build, hl1]; rfl
      | arr A => exact absurd rfl (h2 A)
      | gf v =>
        cases op with
        | add => simp only [build, hl1]; rfl
        | sub => simp only [build, hl1]; rfl
        | mul => exact absurd rfl (h3 rfl v)
        | div => exact absurd rfl h1
    refine ⟨_, hb, ?_⟩
    obtain ⟨w, hw1, hw2⟩ := eval_constChild (o := o) om x
    cases op with
    | add =>
      simp only [act, nl, eval, hl2, hw1, bind, Except.bind, apply, Expr.at, opM]
      congr 2
      funext i
      rw [hw2]
    | sub =>
      simp only [act, nl, eval, hl2, hw1, bind, Except.bind, apply, Expr.at, opM]
      congr 2
      funext i
      rw [hw2]
    | mul =>
      cases x with
      | num c =>
        simp only [act, eval, hl2, bind, Except.bind, apply, Expr.at, opM, Val.at]
        congr 2
        funext i
        rw [smul_mul_assoc, one_mul]
      | arr A => exact absurd rfl (h2 A)
      | gf v => exact absurd rfl (h3 rfl v)
    | div => exact absurd rfl h1
  | right op e x ih =>
    obtain ⟨h1, he⟩ := h
    obtain ⟨l, hl1, hl2⟩ := ih he
    have nl := constChild_of (build_notScalar e l hl1).2
    refine ⟨.bin op l (.T (.val x)), by simp only [build, hl1]; rfl, ?_⟩
    obtain ⟨w, hw1, hw2⟩ := eval_constChild (o := o) om x
    cases op with
    | add =>
      simp only [act, nl, eval, hl2, hw1, bind, Except.bind, apply, Expr.at, opM]
      congr 2
      funext i
      rw [hw2]
    | sub =>
      simp only [act, nl, eval, hl2, hw1, bind, Except.bind, apply, Expr.at, opM]
      congr 2
      funext i
      rw [hw2]
    | mul =>
      cases x with
      | num c =>
        simp only [act, eval, hl2, bind, Except.bind, apply, Expr.at, opM, Val.at]
        congr 2
        funext i
        rw [mul_smul_comm, mul_one]
      | arr A => simp only [act, eval, hl2, bind, Except.bind, apply, Expr.at, opM, Val.at]
      | gf v => simp only [act, eval, hl2, bind, Except.bind, apply, Expr.at, opM, Val.at]
    | div =>
      obtain ⟨c, rfl, hc⟩ := h1 rfl
      simp only [act, eval, hl2, bind, Except.bind, apply, Expr.at, opM, Val.at, if_neg hc]
      congr 2
      funext i
      have : (c • (1 : Matrix o o ℂ))⁻¹ = c⁻¹ • 1 := by
        apply inv_eq_right_inv
        rw [smul_mul_smul_comm, mul_inv_cancel₀ hc, one_mul, one_smul]
      rw [this, mul_smul_comm, mul_one]
  | inv e ih =>
    obtain ⟨he, hu⟩ := h
    obtain ⟨l, hl1, hl2⟩ := ih he
    refine ⟨.inv l, by simp only [build, hl1]; rfl, ?_⟩
    simp only [act, eval, hl2, bind, Except.bind, invert, Expr.at]
    rw [if_pos hu]

/-- C140: the assignment of such an expression gives its meaning at each frequency. -/
theorem C140_assign (om : ι → ℂ) (e : Expr ι o) (h : e.Ok om) : assign om e = .ok fun i => e.at om i := by
  obtain ⟨l, h1, h2⟩ := eval_build om e h
  have hc : convert l = act l := by
    have := (build_notScalar e l h1).1
    cases l with
    | T t => simp only [NotScalar] at this; simp [convert, this]
    | bin op a b => rfl
    | inv a => rfl
  simp only [assign, lshift, h1, bind, Except.bind, hc, h2, copyFrom]

/-- C140: without quotients by arrays these are the only expressions that can be assigned; for the others there is an error,
so that there is never another result. -/
theorem C140_sound (om : ι → ℂ) (e : Expr ι o) (hd : e.NoArrayDiv) (v : ι → Matrix o o ℂ) (h : assign om e = .ok v) :
    e.Ok om ∧ v = fun i => e.at om i := by
  suffices key : ∀ (e : Expr ι o), e.NoArrayDiv → ∀ l x, build e = .ok l → eval om (act l) = .ok x → e.Ok om by
    have hok : e.Ok om := by
      unfold assign at h
      cases hb : build e with
      | error x => rw [hb] at h; cases h
      | ok l =>
        rw [hb] at h
        have hc : convert l = act l := by
          have := (build_notScalar e l hb).1
          cases l with
          | T t => simp only [NotScalar] at this; simp [convert, this]
          | bin op a b => rfl
          | inv a => rfl
        simp only [bind, Except.bind, lshift, hc] at h
        cases hx : eval om (act l) with
        | error x => rw [hx] at h; cases h
        | ok x => exact key e hd l x hb hx
    refine ⟨hok, ?_⟩
    rw [C140_assign om e hok] at h
    exact (Except.ok.inj h).symm
  intro e
  induction e with
  | desc d => intros; trivial
  | bin op a b iha ihb =>
    intro hd l x hb hx
    simp only [build] at hb
    cases ha : build a with
    | error y => rw [ha] at hb; cases hb
    | ok la =>
      cases hbb : build b with
      | error y => rw [ha, hbb] at hb; cases hb
      | ok lb =>
        rw [ha, hbb] at hb
        cases hb
        have na := constChild_of (build_notScalar a la ha).2
        have nb := constChild_of (build_notScalar b lb hbb).2
        have hx' : (eval om (act la) >>= fun x => eval om (act lb) >>= fun y => apply op x y) = .ok x := by
          cases op <;> simpa only [act, na, nb, eval] using hx
        cases hea : eval om (act la) with
        | error y => rw [hea] at hx'; cases hx'
        | ok xa =>
          cases heb : eval om (act lb) with
          | error y => rw [hea, heb] at hx'; cases hx'
          | ok xb =>
            have oka := iha hd.1 la xa ha hea
            have okb := ihb hd.2 lb xb hbb heb
            refine ⟨?_, oka, okb⟩
            rintro rfl
            obtain ⟨l', hl', hv'⟩ := eval_build om b okb
            rw [hbb] at hl'; cases hl'
            rw [heb] at hv'; cases hv'
            rw [hea, heb] at hx'
            simp only [bind, Except.bind] at hx'
            cases xa <;> cases hx'
  | left op y e ih =>
    intro hd l x hb hx
    cases ha : build e with
    | error z => cases y <;> cases op <;> simp only [build, ha] at hb <;> cases hb
    | ok la =>
      have na := constChild_of (build_notScalar e la ha).2
      have hl : l = .bin op (.T (.val y)) la ∧ (∀ A, y ≠ .arr A) ∧ (op = .mul → ∀ v, y ≠ .gf v) ∧ (op = .div → ∀ v, y ≠ .gf v) := by
        cases y <;> cases op <;> simp only [build, ha] at hb <;> cases hb <;>
          simp [bind, Except.bind]
      obtain ⟨rfl, h1, h2, h3⟩ := hl
      have hea : ∃ xa, eval om (act la) = .ok xa := by
        cases hea : eval om (act la) with
        | ok xa => exact ⟨xa, rfl⟩
        | error z =>
          exfalso
          obtain ⟨w, hw1, -⟩ := eval_constChild (o := o) om y
          cases op with
          | add => simp only [act, na, eval, hea, hw1, bind, Except.bind] at hx; cases hx
          | sub => simp only [act, na, eval, hea, hw1, bind, Except.bind] at hx; cases hx
          | mul => simp only [act, eval, hea, bind, Except.bind] at hx; cases hx
          | div => simp only [act, eval, hea, bind, Except.bind] at hx; cases hx
      obtain ⟨xa, hea⟩ := hea
      have oka := ih hd la xa ha hea
      refine ⟨⟨?_, h1, h2⟩, oka⟩
      rintro rfl
      obtain ⟨l', hl', hv'⟩ := eval_build om e oka
      rw [ha] at hl'; cases hl'
      simp only [act, eval, hv', bind, Except.bind] at hx
      cases y <;> cases hx
  | right op e y ih =>
    intro hd l x hb hx
    cases ha : build e with
    | error z => simp only [build, ha] at hb; cases hb
    | ok la =>
      have na := constChild_of (build_notScalar e la ha).2
      simp only [build, ha, bind, Except.bind, Except.ok.injEq] at hb
      subst hb
      have hea : ∃ xa, eval om (act la) = .ok xa := by
        cases hea : eval om (act la) with
        | ok xa => exact ⟨xa, rfl⟩
        | error z => exfalso; cases op <;> simp only [act, na, eval, hea, bind, Except.bind] at hx <;> cases hx
      obtain ⟨xa, hea⟩ := hea
      have oka := ih hd.2 la xa ha hea
      refine ⟨?_, oka⟩
      rintro rfl
      obtain ⟨l', hl', hv'⟩ := eval_build om e oka
      rw [ha] at hl'; cases hl'
      simp only [act, eval, hv', bind, Except.bind] at hx
      cases y with
      | gf w => cases hx
      | arr A => exact absurd rfl (hd.1 rfl A)
      | num c =>
        refine ⟨c, rfl, ?_⟩
        rintro rfl
        simp [apply] at hx
  | inv e ih =>
    intro hd l x hb hx
    cases ha : build e with
    | error z => simp only [build, ha] at hb; cases hb
    | ok la =>
      simp only [build, ha, bind, Except.bind, Except.ok.injEq] at hb
      subst hb
      have hea : ∃ xa, eval om (act la) = .ok xa := by
        cases hea : eval om (act la) with
        | ok xa => exact ⟨xa, rfl⟩
        | error z => exfalso; simp only [act, eval, hea, bind, Except.bind] at hx; cases hx
      obtain ⟨xa, hea⟩ := hea
      have oka := ih hd la xa ha hea
      refine ⟨oka, ?_⟩
      obtain ⟨l', hl', hv'⟩ := eval_build om e oka
      rw [ha] at hl'; cases hl'
      simp only [act, eval, hv', bind, Except.bind, invert] at hx
      by_contra hn
      rw [if_neg hn] at hx
      cases hx

/-- C140: a number or matrix alone. -/
theorem C140_scalar (om : ι → ℂ) (x : Val ι o) : ∃ v, lshift om (.T (.val x)) = .ok v ∧ ∀ i, v i = x.at i := by
  cases x with
  | gf v => exact ⟨v, rfl, fun _ => rfl⟩
  | num c => exact ⟨_, rfl, fun _ => rfl⟩
  | arr A => exact ⟨_, rfl, fun _ => rfl⟩

/-- C140: sums, differences and products of a Green function with a Green function, a number or an array, on either side, are
those of the matrices at each point of the mesh, and never fail. -/
theorem C140_operators (op : Op) (hop : op ≠ .div) (x : Val ι o) (v : ι → Matrix o o ℂ) :
    (∃ z, apply op (.gf v) x = .ok (.gf z) ∧ ∀ i, z i = opM op (v i) (x.at i)) ∧
    (∃ z, apply op x (.gf v) = .ok (.gf z) ∧ ∀ i, z i = opM op (x.at i) (v i)) := by
  cases op with
  | div => exact absurd rfl hop
  | add => cases x <;> exact ⟨⟨_, rfl, fun i => by simp [opM, Val.at]⟩, ⟨_, rfl, fun i => by simp [opM, Val.at, add_comm]⟩⟩
  | sub =>
    cases x <;> refine ⟨⟨_, rfl, fun i => by simp [opM, Val.at]⟩, ⟨_, rfl, fun i => ?_⟩⟩
    · rfl
    · simp only [opM, Val.at, neg_smul, one_smul]; abel
    · simp only [opM, Val.at, neg_smul, one_smul]; abel
  | mul => cases x <;> exact ⟨⟨_, rfl, fun i => by simp [opM, Val.at]⟩, ⟨_, rfl, fun i => by simp [opM, Val.at]⟩⟩

/-- `2 - g` is not `g - 2` -/
example : ∃ z : Unit → Matrix (Fin 1) (Fin 1) ℂ, apply .sub (.num 2) (.gf fun _ => !![5]) = .ok (.gf z) ∧ z () 0 0 = -3 := by
  obtain ⟨z, h1, h2⟩ := (C140_operators .sub (by decide) (.num 2) (fun _ : Unit => (!![5] : Matrix (Fin 1) (Fin 1) ℂ))).2
  refine ⟨z, h1, ?_⟩
  rw [h2 ()]
  simp [opM, Val.at]
  norm_num

/-- C140: quotients by an array are taken element by element, so that `(e * A) / A` is not `e`. -/
theorem C140_division_witness :
    assign (ι := Unit) (o := Fin 2) (fun _ => 1) (.right .div (.right .mul (.desc .omega) (.arr !![1, 1; 1, 2])) (.arr !![1, 1; 1, 2])) =
      .ok fun _ => !![1, 1; 1, 1] := by
  have hne : ¬ ∃ a b : Fin 2, (!![1, 1; 1, 2] : Matrix (Fin 2) (Fin 2) ℂ) a b = 0 := by
    rintro ⟨a, b, h⟩
    fin_cases a <;> fin_cases b <;> norm_num at h
  simp only [assign, build, lshift, convert, act, eval, bind, Except.bind, apply, if_neg hne, copyFrom, Desc.call]
  congr 1
  funext _
  ext a b
  simp only [one_smul, one_mul]
  fin_cases a <;> fin_cases b <;> norm_num

/-! ### blocks -/

/-- C140: the blocks of a block function are assigned in the order of the blocks, whatever their names. -/
theorem C140_blocks {D G : Type} (set : D → G → G) (gs : List (String × G)) (ds : List D) (h : gs.length = ds.length) :
    blockAssign set gs ds = (List.zipWith (fun p d => (p.1, set d p.2)) gs ds, []) := by
  induction gs generalizing ds with
  | nil => cases ds with
    | nil => rfl
    | cons d ds => simp at h
  | cons p gs ih =>
    cases ds with
    | nil => simp at h
    | cons d ds =>
      simp only [List.length_cons, Nat.add_right_cancel_iff] at h
      simp [blockAssign, ih ds h]

/-- C140: if the source has the same names in the same order, each block is set from the block of the same name. -/
theorem C140_blocks_names {S G : Type} (set : S → G → G) (gs : List (String × G)) (src : List (String × S)) (h : gs.map Prod.fst = src.map Prod.fst)
    (n : String) (g : G) (hm : (n, g) ∈ (blockAssign set gs (src.map Prod.snd)).1) : ∃ s g0, (n, s) ∈ src ∧ (n, g0) ∈ gs ∧ g = set s g0 := by
  rw [C140_blocks set gs (src.map Prod.snd) (by have := congrArg List.length h; simpa using this)] at hm
  simp only at hm
  induction gs generalizing src with
  | nil => simp at hm
  | cons p gs ih =>
    cases src with
    | nil => simp at h
    | cons q src =>
      simp only [List.map_cons, List.cons.injEq] at h
      simp only [List.map_cons, List.zipWith_cons_cons, List.mem_cons, Prod.mk.injEq] at hm
      rcases hm with ⟨rfl, rfl⟩ | hm
      · exact ⟨q.2, p.2, by rw [h.1]; simp, by simp, rfl⟩
      · obtain ⟨s, g0, h1, h2, h3⟩ := ih src h.2 hm
        exact ⟨s, g0, by simp [h1], by simp [h2], h3⟩

/-- C140: with the blocks in another order they are mixed up. -/
theorem C140_blocks_witness :
    (blockAssign (fun (d : ℕ) (_ : ℕ) => d) [("up", 0), ("down", 0)] ([("down", 1), ("up", 2)].map Prod.snd)).1 = [("up", 1), ("down", 2)] := rfl

/-- C140: a second assignment with the same descriptor has no effect, if there are at least as many blocks as in the source. -/
theorem C140_once {D G : Type} (set : D → G → G) (gs hs : List (String × G)) (ds : List D) (h : ds.length ≤ gs.length) :
    (blockAssign set hs (blockAssign set gs ds).2).1 = hs := by
  have : (blockAssign set gs ds).2 = [] := by
    induction gs generalizing ds with
    | nil => cases ds with
      | nil => rfl
      | cons d ds => simp at h
    | cons p gs ih =>
      cases ds with
      | nil => rfl
      | cons d ds => exact ih ds (by simpa using h)
  rw [this]
  cases hs <;> rfl

/-! ### Examples -/

/-- `g << inverse(iOmega_n + 2 - Delta)` at the frequency 3 -/
example (Delta : ι → Matrix (Fin 1) (Fin 1) ℂ) (om : ι → ℂ) (h : ∀ i, IsUnit ((om i • 1 + (2 : ℂ) • 1 - Delta i).det)) :
    assign om (.inv (.right .sub (.right .add (.desc .omega) (.num 2)) (.gf Delta))) = .ok fun i => (om i • 1 + (2 : ℂ) • 1 - Delta i)⁻¹ := by
  rw [C140_assign]
  · rfl
  · exact ⟨⟨fun h => (by cases h), ⟨fun h => (by cases h), trivial⟩⟩, h⟩

/-- `g * iOmega_n` fails, `iOmega_n * g` works -/
example (g : ι → Matrix (Fin 1) (Fin 1) ℂ) (om : ι → ℂ) : assign om (.left .mul (.gf g) (.desc .omega)) = .error .assertion ∧
    assign om (.right .mul (.desc .omega) (.gf g)) = .ok fun i => om i • 1 * g i :=
  ⟨rfl, C140_assign om _ ⟨fun h => (by cases h), trivial⟩⟩

/-- the second block function is not changed -/
example : (blockAssign (fun (d : ℕ) (_ : ℕ) => d) [("up", 0)] (blockAssign (fun (d : ℕ) (_ : ℕ) => d) [("up", 0)] [5]).2).1 = [("up", 0)] :=
  C140_once _ _ _ _ (by simp)

end Verif.LazyExpr
