import Mathlib.Data.List.Perm.Basic
import Mathlib.Data.List.Count
import Mathlib.Data.List.Perm.Subperm
import Mathlib.Data.List.Induction

/-!
# Functions to be called at the end of a scope

`c++/triqs/utility/scope_guard.hpp`: a guard holds a function and a flag; its destructor calls the
function when the flag is set.  Guards can be dismissed, moved into a new guard and move-assigned.

* C184: at whatever statement the scope is left (end, `return`, exception), every function handed to
  a guard and not dismissed is called exactly once, whatever moves and assignments happened before.

Simplifications: the functions are names (numbers); the effect of a call is its name in the list of
calls; a function that throws inside a destructor (which terminates the program) is not modelled.
-/

namespace Verif.ScopeExit

/-! ## Model -/

/-- `scope_guard` (scope_guard.hpp 27-29): members `f_` and `active_`. -/
structure Guard where
  f : ℕ
  active : Bool
deriving DecidableEq, Repr

/-- The statements of a scope that touch guards; guards are numbered in the order of construction.
* `create f` : `auto g = make_scope_guard(f)`, `exec_at_scope_exit(f)` or `SCOPE_EXIT {...}`
  (scope_guard.hpp 32, 51, 53, 59, 64): one constructor call, the temporaries are elided.
* `dismiss i` (scope_guard.hpp 36).
* `moveFrom i junk` : a new guard is constructed from guard `i` (scope_guard.hpp 40); the function
  left in the moved-from guard is unspecified, here `junk`.
* `assign i j` : `g_i = std::move(g_j)` (scope_guard.hpp 42-47). -/
inductive Op
  | create (f : ℕ)
  | dismiss (i : ℕ)
  | moveFrom (i junk : ℕ)
  | assign (i j : ℕ)
deriving DecidableEq, Repr

/-- One statement.  A statement naming a guard that does not exist is not a program; it is given the
meaning "nothing happens". -/
def step (gs : List Guard) : Op → List Guard
  -- scope_guard.hpp 32: f_(std::move(f)), active_(true)
  | .create f => gs ++ [⟨f, true⟩]
  -- scope_guard.hpp 36: active_ = false
  | .dismiss i =>
    match gs[i]? with
    | some g => gs.set i ⟨g.f, false⟩
    | none => gs
  -- scope_guard.hpp 40: f_(std::move(rhs.f_)), active_(rhs.active_), then rhs.dismiss()
  | .moveFrom i junk =>
    match gs[i]? with
    | some g => gs.set i ⟨junk, false⟩ ++ [⟨g.f, g.active⟩]
    | none => gs
  -- scope_guard.hpp 44-45: swap(f_, rhs.f_); swap(active_, rhs.active_)
  | .assign i j =>
    match gs[i]?, gs[j]? with
    | some a, some b => (gs.set i b).set j a
    | _, _ => gs

def run (ops : List Op) : List Guard := ops.foldl step []

/-- The destructors at the end of the scope, in reverse order of construction; each calls its
function when active (scope_guard.hpp 33-35).  The result is the list of calls. -/
def leave : List Guard → List ℕ
  | [] => []
  | g :: gs => leave gs ++ (if g.active then [g.f] else [])

/-! ## Specification -/

/-- The functions handed to guards by the program. -/
def created : List Op → List ℕ
  | [] => []
  | .create f :: ops => f :: created ops
  | _ :: ops => created ops

/-- The program dismisses no guard. -/
def NoDismiss (ops : List Op) : Prop := ∀ i, Op.dismiss i ∉ ops

/-- The program neither moves nor assigns guards. -/
def Still (ops : List Op) : Prop := (∀ i k, Op.moveFrom i k ∉ ops) ∧ ∀ i j, Op.assign i j ∉ ops

/-! ## Proofs -/

def one (g : Guard) : List ℕ := if g.active then [g.f] else []

theorem leave_append (a b : List Guard) : leave (a ++ b) = leave b ++ leave a := by
  induction a with
  | nil => simp [leave]
  | cons g a ih => simp [leave, ih, List.append_assoc]

theorem count_set (x : ℕ) : ∀ (gs : List Guard) (i : ℕ) (g g' : Guard), gs[i]? = some g →
    (leave (gs.set i g')).count x + (one g).count x = (leave gs).count x + (one g').count x
  | [], i, g, g', h => by simp at h
  | a :: gs, 0, g, g', h => by
    simp only [List.getElem?_cons_zero, Option.some.injEq] at h
    subst h
    simp only [List.set_cons_zero, leave, List.count_append, one]
    omega
  | a :: gs, i + 1, g, g', h => by
    simp only [List.getElem?_cons_succ] at h
    have := count_set x gs i g g' h
    simp only [List.set_cons_succ, leave, List.count_append]
    omega

theorem count_create (x : ℕ) (gs : List Guard) (f : ℕ) :
    (leave (step gs (.create f))).count x = (leave gs).count x + [f].count x := by
  simp only [step, leave_append, List.count_append, leave]
  simp [Nat.add_comm]

theorem count_move (x : ℕ) (gs : List Guard) (i junk : ℕ) :
    (leave (step gs (.moveFrom i junk))).count x = (leave gs).count x := by
  simp only [step]
  cases h : gs[i]? with
  | none => rfl
  | some g =>
    have := count_set x gs i g ⟨junk, false⟩ h
    simp only [leave_append, List.count_append, leave, one] at this ⊢
    simp only [List.nil_append, List.count_nil, Bool.false_eq_true, if_false] at this ⊢
    omega

theorem count_assign (x : ℕ) (gs : List Guard) (i j : ℕ) :
    (leave (step gs (.assign i j))).count x = (leave gs).count x := by
  simp only [step]
  cases hi : gs[i]? with
  | none => rfl
  | some a =>
    cases hj : gs[j]? with
    | none => rfl
    | some b =>
      have h1 := count_set x gs i a b hi
      have h2 : (gs.set i b)[j]? = some b := by
        rw [List.getElem?_set]
        split
        · next h =>
          subst h
          have : i < gs.length := by
            by_contra hc
            rw [List.getElem?_eq_none (by omega)] at hi
            exact absurd hi (by simp)
          rw [if_pos this]
        · exact hj
      have h3 := count_set x (gs.set i b) j b a h2
      show (leave ((gs.set i b).set j a)).count x = _
      omega

theorem count_dismiss (x : ℕ) (gs : List Guard) (i : ℕ) :
    (leave (step gs (.dismiss i))).count x + ((gs[i]?.map one).getD []).count x
      = (leave gs).count x := by
  simp only [step]
  cases h : gs[i]? with
  | none => simp
  | some g =>
    have := count_set x gs i g ⟨g.f, false⟩ h
    simp only [one, Bool.false_eq_true, if_false, List.count_nil] at this
    simpa [one] using this

theorem run_snoc (ops : List Op) (o : Op) : run (ops ++ [o]) = step (run ops) o := by
  simp [run]

theorem created_append (a b : List Op) : created (a ++ b) = created a ++ created b := by
  induction a with
  | nil => rfl
  | cons o a ih => cases o <;> simp [created, ih]

/-- **C184.**  In a scope that dismisses nothing, every function handed to a guard is called exactly
as often as it was handed over (once per guard created), whatever moves and assignments the program
made in between.  Since the theorem holds for every list of statements it holds for every prefix,
that is for a scope left early by `return` or by an exception. -/
theorem C184_all (ops : List Op) (h : NoDismiss ops) : (leave (run ops)).Perm (created ops) := by
  rw [List.perm_iff_count]
  intro x
  induction ops using List.reverseRecOn with
  | nil => rfl
  | append_singleton ops o ih =>
    have ih := ih (fun i hi => h i (by simp [hi]))
    rw [run_snoc, created_append, List.count_append, ← ih]
    cases o with
    | create f => rw [count_create]; rfl
    | dismiss i => exact absurd (by simp) (h i)
    | moveFrom i k => rw [count_move]; rfl
    | assign i j => rw [count_assign]; rfl

/-- **C184, at most once.**  Whatever the program does, no function is called more often than it was
handed over. -/
theorem C184_at_most (ops : List Op) : (leave (run ops)).Subperm (created ops) := by
  rw [List.subperm_iff_count]
  intro x
  induction ops using List.reverseRecOn with
  | nil => exact Nat.le_refl _
  | append_singleton ops o ih =>
    rw [run_snoc, created_append, List.count_append]
    cases o with
    | create f =>
      rw [count_create]
      exact Nat.add_le_add_right ih _
    | dismiss i =>
      have := count_dismiss x (run ops) i
      omega
    | moveFrom i k => rw [count_move]; exact Nat.le_add_right_of_le ih
    | assign i j => rw [count_assign]; exact Nat.le_add_right_of_le ih

/-- **C184, dismissal.**  Dismissing a guard takes exactly one call of the function it holds away
(nothing when the guard was dismissed or moved from before) and leaves the number of calls of every
function otherwise as it was. -/
theorem C184_dismiss (ops : List Op) (i : ℕ) (g : Guard) (h : (run ops)[i]? = some g) :
    (leave (run ops)).Perm
      ((if g.active then [g.f] else []) ++ leave (run (ops ++ [.dismiss i]))) := by
  rw [List.perm_iff_count]
  intro x
  have := count_dismiss x (run ops) i
  rw [h] at this
  rw [run_snoc, List.count_append, ← this]
  simp only [Option.map_some, Option.getD_some, one]
  omega

/-- The guards of a program without moves: function `k` of the program in guard `k`. -/
theorem run_still (ops : List Op) (h : Still ops) :
    (run ops).map Guard.f = created ops := by
  induction ops using List.reverseRecOn with
  | nil => rfl
  | append_singleton ops o ih =>
    have ih := ih ⟨fun i k hi => h.1 i k (by simp [hi]), fun i j hi => h.2 i j (by simp [hi])⟩
    rw [run_snoc, created_append, ← ih]
    cases o with
    | create f => simp [step, created]
    | dismiss i =>
      simp only [step, created, List.append_nil]
      cases hg : (run ops)[i]? with
      | none => rfl
      | some g =>
        show ((run ops).set i ⟨g.f, false⟩).map Guard.f = _
        apply List.ext_getElem?
        intro k
        rw [List.getElem?_map, List.getElem?_map, List.getElem?_set]
        split
        · next hk =>
          subst hk
          rw [hg]
          have : i < (run ops).length := by
            by_contra hc
            rw [List.getElem?_eq_none (by omega)] at hg
            exact absurd hg (by simp)
          rw [if_pos this]
          rfl
        · rfl
    | moveFrom i k => exact absurd (by simp) (h.1 i k)
    | assign i j => exact absurd (by simp) (h.2 i j)

theorem active_still (ops : List Op) (h : Still ops) (hd : NoDismiss ops) :
    ∀ g ∈ run ops, g.active = true := by
  induction ops using List.reverseRecOn with
  | nil => intro g hg; simp [run] at hg
  | append_singleton ops o ih =>
    have ih := ih ⟨fun i k hi => h.1 i k (by simp [hi]), fun i j hi => h.2 i j (by simp [hi])⟩
      (fun i hi => hd i (by simp [hi]))
    rw [run_snoc]
    intro g hg
    cases o with
    | create f =>
      simp only [step, List.mem_append, List.mem_singleton] at hg
      rcases hg with hg | hg
      · exact ih g hg
      · rw [hg]
    | dismiss i => exact absurd (by simp) (hd i)
    | moveFrom i k => exact absurd (by simp) (h.1 i k)
    | assign i j => exact absurd (by simp) (h.2 i j)

theorem leave_active (gs : List Guard) (h : ∀ g ∈ gs, g.active = true) :
    leave gs = (gs.map Guard.f).reverse := by
  induction gs with
  | nil => rfl
  | cons g gs ih =>
    rw [leave, ih fun g hg => h g (by simp [hg]), h g (by simp)]
    simp

/-- **C184, order.**  In a scope that neither moves nor dismisses guards the functions are called in
the reverse of the order in which they were handed over. -/
theorem C184_order (ops : List Op) (h : Still ops) (hd : NoDismiss ops) :
    leave (run ops) = (created ops).reverse := by
  rw [leave_active _ (active_still ops h hd), run_still ops h]

/-! ### Examples -/

/-- Two guards; the second is moved into a third, which is then dismissed: only the first function
is called. -/
example : leave (run [.create 7, .create 8, .moveFrom 1 99, .dismiss 2]) = [7] := by decide

/-- Dismissing the moved-from guard changes nothing. -/
example : leave (run [.create 7, .create 8, .moveFrom 1 99, .dismiss 1]) = [8, 7] := by decide

/-- Move assignment exchanges the guards: the function that was in the assigned guard is called when
the other one is destroyed, one scope entry later than it would have been. -/
example : leave (run [.create 7, .create 8, .assign 0 1]) = [7, 8] := by decide

/-- A guard assigned to itself still runs its function. -/
example : leave (run [.create 7, .assign 0 0]) = [7] := by decide

example : NoDismiss [.create 7, .create 8, .assign 0 1, .moveFrom 0 3] := by
  intro i h
  simp at h

example : Still [.create 7, .create 8, .dismiss 0] := by
  constructor <;> intro i k h <;> simp at h

end Verif.ScopeExit
