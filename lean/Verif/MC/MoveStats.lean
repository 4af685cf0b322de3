import Mathlib.Algebra.BigOperators.Fin
import Mathlib.Algebra.Order.BigOperators.Group.Finset
import Mathlib.Algebra.BigOperators.Group.List.Basic
import Mathlib.Data.List.Infix
import Mathlib.Tactic.Ring

/-!
# Acceptance rates of Monte Carlo moves

Source: `/repo/c++/triqs/mc_tools/mc_move_set.hpp` (counters of `class move`, statistics of `class move_set`) and the calls in `mc_generic.hpp`.

The moves of a calculation form a forest, since a set of moves is itself a move. All processes of a parallel run register the same moves, so one forest
carries the counters of all processes. The counters are natural numbers (`uint64_t` does not wrap around in a calculation). The type `F` of the rates and
the division of two counters are arbitrary, so that nothing is assumed on floating point numbers.
-/

namespace Verif.MC.MoveStats

/-! ## Model -/

/-- name and members `NProposed`, `Naccepted`, `acceptance_rate_` of one move on each of the `P` processes, mc_move_set.hpp:47-48 and 137 -/
structure Node (P : Nat) (F : Type) where
  name : String
  prop : Fin P → Nat
  acc : Fin P → Nat
  rate : Fin P → F

/-- the vector `move_vec` with its names: simple moves and sets of moves, mc_move_set.hpp:136-137 and 49 -/
inductive Forest (P : Nat) (F : Type) where
  | nil
  | move (c : Node P F) (rest : Forest P F)
  | set (c : Node P F) (sub : Forest P F) (rest : Forest P F)

/-- doubles as far as the statistics use them: `nacc_tot / static_cast<double>(nprop_tot)`, mc_move_set.hpp:117, and `-1`, 84 and 111 -/
structure Arith (F : Type) where
  div : Nat → Nat → F
  unset : F

variable {P : Nat} {F : Type}

def incProp (p : Fin P) (c : Node P F) : Node P F := { c with prop := fun q => if q = p then c.prop q + 1 else c.prop q }
def incAcc (p : Fin P) (c : Node P F) : Node P F := { c with acc := fun q => if q = p then c.acc q + 1 else c.acc q }

/-- A call that is passed on from the set to the move chosen, from this one to the move it chooses if it is a set, and so on, and that applies `g` to the
counters of each of these moves. The list has the numbers of the moves chosen. `move_set::attempt`, mc_move_set.hpp:207 and 214, `accept`, 232-233, and
the lambdas of the constructor of `move`, 70-71. -/
def along (g : Node P F → Node P F) : Forest P F → List Nat → Forest P F
  | .nil, _ => .nil
  | f, [] => f
  | .move c rest, 0 :: _ => .move (g c) rest
  | .set c sub rest, 0 :: path => .set (g c) (along g sub path) rest
  | .move c rest, (i + 1) :: path => .move c (along g rest (i :: path))
  | .set c sub rest, (i + 1) :: path => .set c sub (along g rest (i :: path))

/-- `attempt` of the moves along the path, mc_move_set.hpp:94-97 -/
def attempt (p : Fin P) (f : Forest P F) (path : List Nat) : Forest P F := along (incProp p) f path

/-- `accept` of the moves along the path, mc_move_set.hpp:98-101. The pointers `current` still designate the moves of the attempt. -/
def accept (p : Fin P) (f : Forest P F) (path : List Nat) : Forest P F := along (incAcc p) f path

/-- `clear_statistics` of a move on process `p`, mc_move_set.hpp:108-112 -/
def clearNode (A : Arith F) (p : Fin P) (c : Node P F) : Node P F :=
  { c with
    prop := fun q => if q = p then 0 else c.prop q
    acc := fun q => if q = p then 0 else c.acc q
    rate := fun q => if q = p then A.unset else c.rate q }

/-- `clear_statistics` of a set, mc_move_set.hpp:254-260 -/
def clear (A : Arith F) (p : Fin P) : Forest P F → Forest P F
  | .nil => .nil
  | .move c rest => .move (clearNode A p c) (clear A p rest)
  | .set c sub rest => .set (clearNode A p c) (clear A p sub) (clear A p rest)

/-- `collect_statistics` of a move, mc_move_set.hpp:114-117; the sums over processes arrive at all processes. -/
def collectNode (A : Arith F) (c : Node P F) : Node P F := { c with rate := fun _ => A.div (∑ q, c.acc q) (∑ q, c.prop q) }

/-- `collect_statistics` of a set, mc_move_set.hpp:263-265, and of the moves inside of moves, 73-75 and 118. It is called by all processes. -/
def collect (A : Arith F) : Forest P F → Forest P F
  | .nil => .nil
  | .move c rest => .move (collectNode A c) (collect A rest)
  | .set c sub rest => .set (collectNode A c) (collect A sub) (collect A rest)

/-- what the moves see of a parallel calculation. A step of process `p` proposes the moves along a path; then it is accepted or not
(rejected, or an exception in `attempt`), mc_generic.hpp:264-276. `run` starts with `clear`, mc_generic.hpp:246, and `collect_results` collects, 339. -/
inductive Ev (P : Nat) where
  | step (p : Fin P) (path : List Nat) (accepted : Bool)
  | run (p : Fin P)
  | collect

def exec1 (A : Arith F) (f : Forest P F) : Ev P → Forest P F
  | .step p path true => accept p (attempt p f path) path
  | .step p path false => attempt p f path
  | .run p => clear A p f
  | .collect => collect A f

def exec (A : Arith F) : Forest P F → List (Ev P) → Forest P F
  | f, [] => f
  | f, e :: es => exec A (exec1 A f e) es

/-- `std::map::insert`: nothing happens when the key is there. -/
def ins (m : String → Option F) (k : String) (v : F) : String → Option F := fun x => if x = k then (m x).or (some v) else m x

/-- `insert(begin, end)` of another map -/
def insAll (m n : String → Option F) : String → Option F := fun x => (m x).or (n x)

/-- the loop of `get_acceptance_rates` on process `p` with the map `r` of the moves before, mc_move_set.hpp:270-277 -/
def ratesAux (p : Fin P) : (String → Option F) → Forest P F → String → Option F
  | r, .nil => r
  | r, .move c rest => ratesAux p (ins r c.name (c.rate p)) rest
  | r, .set c sub rest => ratesAux p (insAll (ins r c.name (c.rate p)) (ratesAux p (fun _ => none) sub)) rest

/-- `get_acceptance_rates`, mc_move_set.hpp:268-279 -/
def rates (p : Fin P) (f : Forest P F) : String → Option F := ratesAux p (fun _ => none) f

/-- `get_statistics`, mc_move_set.hpp:282-290; `fmt` prints a number. -/
def statistics (fmt : F → String) (p : Fin P) : String → Forest P F → String
  | _, .nil => ""
  | decal, .move c rest => decal ++ "Move " ++ " " ++ c.name ++ ": " ++ fmt (c.rate p) ++ "\n" ++ statistics fmt p decal rest
  | decal, .set c sub rest =>
    decal ++ "Move " ++ "set " ++ c.name ++ ": " ++ fmt (c.rate p) ++ "\n" ++ statistics fmt p (decal ++ "  ") sub ++ statistics fmt p decal rest

/-! ## Specification -/

/-- the move at a place: number in the outer set, number in the set found there, ... -/
def at? : Forest P F → List Nat → Option (Node P F)
  | .nil, _ => none
  | _, [] => none
  | .move c _, [0] => some c
  | .set c _ _, [0] => some c
  | .move _ _, 0 :: _ :: _ => none
  | .set _ sub _, 0 :: i :: path => at? sub (i :: path)
  | .move _ rest, (i + 1) :: path => at? rest (i :: path)
  | .set _ _ rest, (i + 1) :: path => at? rest (i :: path)


/-- process `p` proposed the move at `π` in this event -/
def proposes (p : Fin P) (π : List Nat) : Ev P → Bool
  | .step q path _ => q = p ∧ π <+: path
  | _ => false

/-- ... and the step was accepted -/
def accepts (p : Fin P) (π : List Nat) : Ev P → Bool
  | .step q path true => q = p ∧ π <+: path
  | _ => false

/-- no new run is started on process `p` -/
def NoRun (p : Fin P) (es : List (Ev P)) : Prop := ∀ e ∈ es, e ≠ .run p

/-- all moves with their depth, whether they are sets, in the order in which they are met -/
def walk : Nat → Forest P F → List (Nat × Bool × Node P F)
  | _, .nil => []
  | d, .move c rest => (d, false, c) :: walk d rest
  | d, .set c sub rest => (d, true, c) :: (walk (d + 1) sub ++ walk d rest)

/-- names of all the moves -/
def names (f : Forest P F) : List String := (walk 0 f).map fun x => x.2.2.name

/-! ## Proofs -/

theorem at?_along (g : Node P F → Node P F) (f : Forest P F) (path π : List Nat) (hπ : π ≠ []) :
    at? (along g f path) π = (at? f π).map fun c => if π <+: path then g c else c := by
  induction f generalizing path π with
  | nil => simp [along, at?]
  | move c rest ih =>
    match path, π, hπ with
    | _, [], h => exact absurd rfl h
    | [], a :: π', _ => simp [along]
    | 0 :: path', [0], _ => simp [along, at?]
    | 0 :: path', 0 :: b :: π', _ => simp [along, at?]
    | 0 :: path', (a + 1) :: π', _ => simp [along, at?]
    | (i + 1) :: path', [0], _ => simp [along, at?]
    | (i + 1) :: path', 0 :: b :: π', _ => simp [along, at?]
    | (i + 1) :: path', (a + 1) :: π', _ =>
      have h := ih (i :: path') (a :: π') (by simp)
      simpa [along, at?, List.cons_prefix_cons] using h
  | set c sub rest ihs ih =>
    match path, π, hπ with
    | _, [], h => exact absurd rfl h
    | [], a :: π', _ => simp [along]
    | 0 :: path', [0], _ => simp [along, at?]
    | 0 :: path', 0 :: b :: π', _ =>
      have h := ihs path' (b :: π') (by simp)
      simpa [along, at?, List.cons_prefix_cons] using h
    | 0 :: path', (a + 1) :: π', _ => simp [along, at?]
    | (i + 1) :: path', [0], _ => simp [along, at?]
    | (i + 1) :: path', 0 :: b :: π', _ => simp [along, at?]
    | (i + 1) :: path', (a + 1) :: π', _ =>
      have h := ih (i :: path') (a :: π') (by simp)
      simpa [along, at?, List.cons_prefix_cons] using h

theorem at?_clear (A : Arith F) (p : Fin P) (f : Forest P F) (π : List Nat) : at? (clear A p f) π = (at? f π).map (clearNode A p) := by
  induction f generalizing π with
  | nil => simp [clear, at?]
  | move c rest ih =>
    match π with
    | [] => simp [clear, at?]
    | [0] => simp [clear, at?]
    | 0 :: b :: π' => simp [clear, at?]
    | (a + 1) :: π' => simp [clear, at?, ih]
  | set c sub rest ihs ih =>
    match π with
    | [] => simp [clear, at?]
    | [0] => simp [clear, at?]
    | 0 :: b :: π' => simp [clear, at?, ihs]
    | (a + 1) :: π' => simp [clear, at?, ih]

theorem at?_collect (A : Arith F) (f : Forest P F) (π : List Nat) : at? (collect A f) π = (at? f π).map (collectNode A) := by
  induction f generalizing π with
  | nil => simp [collect, at?]
  | move c rest ih =>
    match π with
    | [] => simp [collect, at?]
    | [0] => simp [collect, at?]
    | 0 :: b :: π' => simp [collect, at?]
    | (a + 1) :: π' => simp [collect, at?, ih]
  | set c sub rest ihs ih =>
    match π with
    | [] => simp [collect, at?]
    | [0] => simp [collect, at?]
    | 0 :: b :: π' => simp [collect, at?, ihs]
    | (a + 1) :: π' => simp [collect, at?, ih]

theorem at?_ne (f : Forest P F) (π : List Nat) (c : Node P F) (h : at? f π = some c) : π ≠ [] := by
  rintro rfl; cases f <;> simp [at?] at h

theorem at?_nil (f : Forest P F) : at? f [] = none := by cases f <;> simp [at?]

/-- what one event does to the move at a place -/
theorem at?_exec1 (A : Arith F) (f : Forest P F) (e : Ev P) (π : List Nat) :
    at? (exec1 A f e) π = (at? f π).map fun c => match e with
      | .step p path ok =>
        let c := if π <+: path then incProp p c else c
        if ok = true ∧ π <+: path then incAcc p c else c
      | .run p => clearNode A p c
      | .collect => collectNode A c := by
  by_cases hπ : π = []
  · subst hπ; simp [at?_nil]
  cases e with
  | step p path ok =>
    cases ok with
    | false => simp [exec1, attempt, at?_along _ _ _ _ hπ]
    | true =>
      simp only [exec1, attempt, accept, at?_along _ _ _ _ hπ, Option.map_map]
      congr 1; funext c; simp
  | run p => simp [exec1, at?_clear]
  | collect => simp [exec1, at?_collect]

/-- Which moves there are, and their names, never changes. -/
theorem C166_names (A : Arith F) (f : Forest P F) (es : List (Ev P)) (π : List Nat) :
    (at? (exec A f es) π).map Node.name = (at? f π).map Node.name := by
  induction es generalizing f with
  | nil => rfl
  | cons e es ih =>
    rw [exec, ih, at?_exec1]
    cases at? f π with
    | none => rfl
    | some c =>
      cases e with
      | step p path ok => simp only [Option.map_some]; split <;> split <;> simp [incProp, incAcc]
      | run p => simp [clearNode]
      | collect => simp [collectNode]

theorem counts_from (A : Arith F) (f : Forest P F) (es : List (Ev P)) (p : Fin P) (hr : NoRun p es) (π : List Nat) (c₀ c : Node P F)
    (h₀ : at? f π = some c₀) (h : at? (exec A f es) π = some c) :
    c.prop p = c₀.prop p + es.countP (proposes p π) ∧ c.acc p = c₀.acc p + es.countP (accepts p π) := by
  induction es generalizing f c₀ with
  | nil => simp only [exec] at h; rw [h₀] at h; cases h; simp
  | cons e es ih =>
    have hr' : NoRun p es := fun e he => hr e (List.mem_cons_of_mem _ he)
    rw [exec] at h
    have h1 := at?_exec1 A f e π
    rw [h₀, Option.map_some] at h1
    obtain ⟨hp, ha⟩ := ih _ hr' _ h1 h
    rw [hp, ha, List.countP_cons, List.countP_cons]
    cases e with
    | step q path ok =>
      by_cases hq : q = p <;> by_cases hx : π <+: path <;> cases ok <;>
        simp [hq, hx, proposes, accepts, incProp, incAcc, eq_comm (a := p)] <;> omega
    | run q =>
      have hq : p ≠ q := fun hq => hr (.run q) (by simp) (by rw [hq])
      simp [clearNode, hq, proposes, accepts]
    | collect => simp [collectNode, proposes, accepts]

/-- After a run was started on a process, whatever happened before, the counters of each move on this process are the numbers of steps in which this move
was proposed and accepted, by itself or inside of the sets that contain it, no matter what the other processes do. -/
theorem C166_counts (A : Arith F) (f : Forest P F) (es : List (Ev P)) (p : Fin P) (hr : NoRun p es) (π : List Nat) (c : Node P F)
    (h : at? (exec A f (.run p :: es)) π = some c) :
    c.prop p = es.countP (proposes p π) ∧ c.acc p = es.countP (accepts p π) := by
  rw [exec, exec1] at h
  have hsome : (at? f π).isSome := by
    have hn := C166_names A (clear A p f) es π
    rw [h, at?_clear] at hn
    cases hx : at? f π with
    | none => rw [hx] at hn; simp at hn
    | some _ => rfl
  obtain ⟨c₁, hc₁⟩ := Option.isSome_iff_exists.1 hsome
  have h₀ : at? (clear A p f) π = some (clearNode A p c₁) := by rw [at?_clear, hc₁]; rfl
  have := counts_from A (clear A p f) es p hr π _ c h₀ h
  simpa [clearNode] using this

theorem accepts_le (es : List (Ev P)) (p : Fin P) (π : List Nat) : es.countP (accepts p π) ≤ es.countP (proposes p π) := by
  apply List.countP_mono_left
  intro e _ he
  cases e with
  | step q path ok => cases ok <;> simp_all [accepts, proposes]
  | run q => simp [accepts] at he
  | collect => simp [accepts] at he

/-- the events after each process started its run, in any order -/
theorem counts_all (A : Arith F) (f : Forest P F) (es : List (Ev P)) (hr : ∀ p, NoRun p es) (π : List Nat) (c : Node P F)
    (hc : ∀ c₀, at? f π = some c₀ → ∀ p, c₀.prop p = 0 ∧ c₀.acc p = 0) (h : at? (exec A f es) π = some c) (p : Fin P) :
    c.prop p = es.countP (proposes p π) ∧ c.acc p = es.countP (accepts p π) := by
  cases h₀ : at? f π with
  | none => have hn := C166_names A f es π; rw [h, h₀] at hn; simp at hn
  | some c₀ =>
    have := counts_from A f es p (hr p) π c₀ c h₀ h
    rw [(hc c₀ h₀ p).1, (hc c₀ h₀ p).2] at this
    simpa using this

theorem exec_append (A : Arith F) (f : Forest P F) (es es' : List (Ev P)) : exec A f (es ++ es') = exec A (exec A f es) es' := by
  induction es generalizing f with
  | nil => rfl
  | cons e es ih => rw [List.cons_append, exec, exec, ih]

/-- After the results are collected all processes have the same rate of each move: all acceptances divided by all proposals of this move on all processes
since their runs started; there are never more acceptances than proposals. -/
theorem C166_rate (A : Arith F) (f : Forest P F) (es : List (Ev P)) (hr : ∀ p, NoRun p es) (π : List Nat) (c : Node P F)
    (hc : ∀ c₀, at? f π = some c₀ → ∀ p, c₀.prop p = 0 ∧ c₀.acc p = 0) (h : at? (exec A f (es ++ [.collect])) π = some c) (p : Fin P) :
    c.rate p = A.div (∑ q, es.countP (accepts q π)) (∑ q, es.countP (proposes q π)) ∧
      ∑ q, es.countP (accepts q π) ≤ ∑ q, es.countP (proposes q π) := by
  refine ⟨?_, Finset.sum_le_sum fun q _ => accepts_le es q π⟩
  rw [exec_append] at h
  simp only [exec, exec1] at h
  rw [at?_collect] at h
  cases h1 : at? (exec A f es) π with
  | none => rw [h1] at h; simp at h
  | some c1 =>
    rw [h1, Option.map_some, Option.some.injEq] at h
    have hcnt := counts_all A f es hr π c1 hc h1
    subst h
    simp only [collectNode]
    congr 1
    · exact Finset.sum_congr rfl fun q _ => (hcnt q).2
    · exact Finset.sum_congr rfl fun q _ => (hcnt q).1

/-- A run that is started forgets everything about the runs before, also the rates. -/
theorem C166_forget (A : Arith F) (f : Forest P F) (es : List (Ev P)) (p : Fin P) (π : List Nat) (c : Node P F)
    (h : at? (exec A f (es ++ [.run p])) π = some c) : c.prop p = 0 ∧ c.acc p = 0 ∧ c.rate p = A.unset := by
  rw [exec_append] at h
  simp only [exec, exec1] at h
  rw [at?_clear] at h
  cases h1 : at? (exec A f es) π with
  | none => rw [h1] at h; simp at h
  | some c1 => rw [h1, Option.map_some, Option.some.injEq] at h; subst h; simp [clearNode]

theorem mixture_events (es : List (Ev P)) (p : Fin P) (π : List Nat) (n : Nat)
    (hfull : ∀ q path ok, Ev.step q path ok ∈ es → π <+: path → ∃ i < n, π ++ [i] <+: path) :
    ((List.range n).map fun i => es.countP (proposes p (π ++ [i]))).sum = es.countP (proposes p π) ∧
      ((List.range n).map fun i => es.countP (accepts p (π ++ [i]))).sum = es.countP (accepts p π) := by
  have one : ∀ (path : List Nat) (b : Prop) [Decidable b], (π <+: path → ∃ i < n, π ++ [i] <+: path) →
      ((List.range n).map fun i => if b ∧ π ++ [i] <+: path then 1 else 0).sum = if b ∧ π <+: path then 1 else 0 := by
    intro path b _ hx
    by_cases hb : b
    · by_cases hp : π <+: path
      · obtain ⟨i, hi, hpi⟩ := hx hp
        have hiff : ∀ j, (π ++ [j] <+: path) ↔ j = i := by
          intro j
          constructor
          · intro hj
            obtain ⟨t, ht⟩ := hj
            obtain ⟨t', ht'⟩ := hpi
            rw [← ht', List.append_assoc, List.append_assoc, List.append_cancel_left_eq] at ht
            simpa using (List.cons.inj ht).1
          · rintro rfl; exact hpi
        have : ∀ m, ((List.range m).map fun j => if b ∧ π ++ [j] <+: path then 1 else 0).sum = if i < m then 1 else 0 := by
          intro m
          induction m with
          | zero => simp
          | succ m ih =>
            rw [List.range_succ, List.map_append, List.sum_append, ih]
            simp only [List.map_cons, List.map_nil, List.sum_cons, List.sum_nil, hiff, hb, true_and]
            split <;> split <;> split <;> omega
        rw [this, if_pos hi, if_pos ⟨hb, hp⟩]
      · have : ∀ j, ¬ (b ∧ π ++ [j] <+: path) := fun j hj => hp ((List.prefix_append _ _).trans hj.2)
        simp [this, hp]
    · simp [hb]
  induction es with
  | nil => simp
  | cons e es ih =>
    have ih := ih fun q path ok hm => hfull q path ok (List.mem_cons_of_mem _ hm)
    have split_sum : ∀ a b : Nat → Nat, ((List.range n).map fun i => a i + b i).sum = ((List.range n).map a).sum + ((List.range n).map b).sum :=
      fun a b => List.sum_map_add
    simp only [List.countP_cons, split_sum, ih]
    cases e with
    | step q path ok =>
      have hx := hfull q path ok (by simp)
      have h1 := one path (q = p) hx
      cases ok with
      | false => simp only [proposes, accepts, decide_eq_true_eq, h1]; simp
      | true => simp only [proposes, accepts, decide_eq_true_eq, h1]; simp
    | run q => simp [proposes, accepts]
    | collect => simp [proposes, accepts]

/-- Every step goes to exactly one move of a set: the proposals (and the acceptances) counted by the `n` moves in a set add up to those counted by the set,
if each step of the run that reaches the set goes on to one of its moves. -/
theorem C166_mixture (A : Arith F) (f : Forest P F) (es : List (Ev P)) (p : Fin P) (hr : NoRun p es) (π : List Nat) (n : Nat) (c : Node P F)
    (k : Nat → Node P F) (h : at? (exec A f (.run p :: es)) π = some c) (hk : ∀ i < n, at? (exec A f (.run p :: es)) (π ++ [i]) = some (k i))
    (hfull : ∀ q path ok, Ev.step q path ok ∈ es → π <+: path → ∃ i < n, π ++ [i] <+: path) :
    ((List.range n).map fun i => (k i).prop p).sum = c.prop p ∧ ((List.range n).map fun i => (k i).acc p).sum = c.acc p := by
  have hc := C166_counts A f es p hr π c h
  have hm := mixture_events es p π n hfull
  rw [hc.1, hc.2, ← hm.1, ← hm.2]
  constructor
  · congr 1; apply List.map_congr_left; intro i hi; exact (C166_counts A f es p hr _ _ (hk i (List.mem_range.1 hi))).1
  · congr 1; apply List.map_congr_left; intro i hi; exact (C166_counts A f es p hr _ _ (hk i (List.mem_range.1 hi))).2

theorem walk_nodes (d : Nat) (f : Forest P F) : (walk d f).map (fun x => (x.2.1, x.2.2)) = (walk 0 f).map fun x => (x.2.1, x.2.2) := by
  induction f generalizing d with
  | nil => rfl
  | move c rest ih => simp [walk, ih d]
  | set c sub rest ihs ih => simp [walk, ih d, ihs (d + 1), ihs 1]

theorem find_walk (d : Nat) (f : Forest P F) (x : String) :
    ((walk d f).find? fun y => y.2.2.name = x).map (fun y => y.2.2) = ((walk 0 f).find? fun y => y.2.2.name = x).map fun y => y.2.2 := by
  have h := congrArg (fun l : List (Bool × Node P F) => (l.find? fun y => y.2.name = x).map fun y => y.2) (walk_nodes d f)
  simpa [List.find?_map, Function.comp_def] using h

theorem ratesAux_eq (p : Fin P) (f : Forest P F) (r : String → Option F) (x : String) :
    ratesAux p r f x = (r x).or (((walk 0 f).find? fun y => y.2.2.name = x).map fun y => y.2.2.rate p) := by
  induction f generalizing r with
  | nil => simp [ratesAux, walk]
  | move c rest ih =>
    rw [ratesAux, ih, walk, List.find?_cons]
    by_cases hx : x = c.name
    · subst hx; simp only [ins, if_true, decide_true]; cases r c.name <;> simp
    · simp [ins, hx, Ne.symm hx]
  | set c sub rest ihs ih =>
    rw [ratesAux, ih, walk, List.find?_cons]
    by_cases hx : x = c.name
    · subst hx; simp only [ins, insAll, if_true, decide_true]; cases r c.name <;> simp
    · have h1 := find_walk 1 sub x
      have h1' : ((walk 1 sub).find? fun y => y.2.2.name = x).map (fun y => y.2.2.rate p) =
          ((walk 0 sub).find? fun y => y.2.2.name = x).map fun y => y.2.2.rate p := by
        have := congrArg (Option.map fun c : Node P F => c.rate p) h1
        simpa [Option.map_map, Function.comp_def] using this
      simp only [ins, insAll, hx, if_false, ihs, Ne.symm hx, decide_false, List.find?_append, zero_add]
      rw [Option.or_assoc]
      congr 1
      rw [← h1']
      cases ((walk 1 sub).find? fun y => y.2.2.name = x) <;> simp

/-- The map of acceptance rates has the names of all the moves, also of those inside of sets, and no others; for a name that several moves have it is the
rate of the first of them. -/
theorem C166_map (p : Fin P) (f : Forest P F) (x : String) :
    rates p f x = ((walk 0 f).find? fun y => y.2.2.name = x).map fun y => y.2.2.rate p := by
  rw [rates, ratesAux_eq]; simp

theorem at?_walk (d : Nat) (f : Forest P F) (π : List Nat) (c : Node P F) (h : at? f π = some c) : ∃ y ∈ walk d f, y.2.2 = c := by
  induction f generalizing π d with
  | nil => simp [at?] at h
  | move c' rest ih =>
    match π with
    | [] => simp [at?] at h
    | [0] => simp only [at?, Option.some.injEq] at h; exact ⟨_, by simp [walk]; left; rfl, h⟩
    | 0 :: b :: π' => simp [at?] at h
    | (a + 1) :: π' =>
      obtain ⟨y, hy, hc⟩ := ih d (a :: π') (by simpa [at?] using h)
      exact ⟨y, by simp [walk, hy], hc⟩
  | set c' sub rest ihs ih =>
    match π with
    | [] => simp [at?] at h
    | [0] => simp only [at?, Option.some.injEq] at h; exact ⟨_, by simp [walk]; left; rfl, h⟩
    | 0 :: b :: π' =>
      obtain ⟨y, hy, hc⟩ := ihs (d + 1) (b :: π') (by simpa [at?] using h)
      exact ⟨y, by simp [walk, hy], hc⟩
    | (a + 1) :: π' =>
      obtain ⟨y, hy, hc⟩ := ih d (a :: π') (by simpa [at?] using h)
      exact ⟨y, by simp [walk, hy], hc⟩

/-- If all moves have different names, the map has for each name the rate of the move with this name. -/
theorem C166_lookup (p : Fin P) (f : Forest P F) (hn : (names f).Nodup) (π : List Nat) (c : Node P F) (h : at? f π = some c) :
    rates p f c.name = some (c.rate p) := by
  obtain ⟨y, hy, rfl⟩ := at?_walk 0 f π c h
  rw [C166_map]
  have : ((walk 0 f).find? fun z => z.2.2.name = y.2.2.name) = some y := by
    rw [names] at hn
    generalize walk 0 f = l at hy hn
    induction l with
    | nil => simp at hy
    | cons z l ih =>
      rw [List.map_cons, List.nodup_cons] at hn
      rw [List.find?_cons]
      by_cases hz : z.2.2.name = y.2.2.name
      · simp only [hz, decide_true]
        rcases List.mem_cons.1 hy with h1 | h1
        · rw [h1]
        · exact absurd (List.mem_map.2 ⟨y, h1, hz.symm⟩) hn.1
      · simp only [hz, decide_false]
        rcases List.mem_cons.1 hy with h1 | h1
        · exact absurd (by rw [h1]) hz
        · exact ih h1 hn.2
  rw [this]; rfl

/-- blanks in front of a line -/
def indent : Nat → String
  | 0 => ""
  | d + 1 => indent d ++ "  "

theorem C166_text_aux (fmt : F → String) (p : Fin P) (f : Forest P F) (base : String) (d : Nat) :
    statistics fmt p (base ++ indent d) f = ((walk d f).map fun y =>
      base ++ indent y.1 ++ "Move " ++ (if y.2.1 then "set " else " ") ++ y.2.2.name ++ ": " ++ fmt (y.2.2.rate p) ++ "\n").foldr (· ++ ·) "" := by
  induction f generalizing d with
  | nil => simp [statistics, walk]
  | move c rest ih => simp only [statistics, walk, List.map_cons, List.foldr_cons, ih]; simp
  | set c sub rest ihs ih =>
    have h := ihs (d + 1)
    rw [indent, ← String.append_assoc] at h
    simp only [statistics, walk, List.map_cons, List.foldr_cons, List.map_append, List.foldr_append, ih, h]
    have fold : ∀ (l : List String) (s : String), l.foldr (· ++ ·) s = l.foldr (· ++ ·) "" ++ s := by
      intro l; induction l with
      | nil => intro s; simp
      | cons a l ih => intro s; rw [List.foldr_cons, List.foldr_cons, ih, String.append_assoc]
    rw [fold _ (List.foldr _ "" _)]
    simp [String.append_assoc]

/-- The printed statistics have one line for each move, the moves of a set after the line of the set and further to the right by two. -/
theorem C166_text (fmt : F → String) (p : Fin P) (f : Forest P F) :
    statistics fmt p "" f = ((walk 0 f).map fun y =>
      indent y.1 ++ "Move " ++ (if y.2.1 then "set " else " ") ++ y.2.2.name ++ ": " ++ fmt (y.2.2.rate p) ++ "\n").foldr (· ++ ·) "" := by
  have := C166_text_aux fmt p f "" 0
  simpa [indent] using this

/-! ### Examples -/

def A₀ : Arith (Option (Nat × Nat)) := ⟨fun a b => some (a, b), none⟩
def fresh (n : String) : Node 2 (Option (Nat × Nat)) := ⟨n, fun _ => 0, fun _ => 0, fun _ => none⟩
/-- a move and a set with two moves, of which the last has the name of the first move -/
def f₀ : Forest 2 (Option (Nat × Nat)) := .move (fresh "flip") (.set (fresh "pairs") (.move (fresh "insert") (.move (fresh "flip") .nil)) .nil)

def es₀ : List (Ev 2) := [.run 0, .run 1, .step 0 [0] true, .step 1 [1, 1] true, .step 0 [1, 0] false, .step 1 [1, 0] true, .step 1 [1, 1] false]

example : ((at? (exec A₀ f₀ (es₀ ++ [.collect])) [1]).map fun c => c.rate 0) = some (some (2, 4)) := by decide +kernel
example : ((at? (exec A₀ f₀ (es₀ ++ [.collect])) [1, 1]).map fun c => (c.rate 1, c.prop 0, c.prop 1)) = some (some (1, 2), 0, 2) := by decide +kernel
example : rates 0 (exec A₀ f₀ (es₀ ++ [.collect])) "pairs" = some (some (2, 4)) := by decide +kernel
example : NoRun (0 : Fin 2) [.step 0 [0] true, .collect, .run 1] := by
  intro e he; simp only [List.mem_cons, List.not_mem_nil, or_false] at he; rcases he with rfl | rfl | rfl <;> simp

/-- The rate of a move with the name of another one cannot be found in the map: it is 1/2 here, the map has 1/1. -/
theorem C166_hidden : ∃ (es : List (Ev 2)) (π : List Nat) (c : Node 2 (Option (Nat × Nat))), at? (exec A₀ f₀ es) π = some c ∧
    c.rate 0 = some (1, 2) ∧ c.name = "flip" ∧ rates 0 (exec A₀ f₀ es) "flip" = some (some (1, 1)) := by
  refine ⟨es₀ ++ [.collect], [1, 1], (at? (exec A₀ f₀ (es₀ ++ [.collect])) [1, 1]).get (by decide +kernel), by simp, ?_, ?_, ?_⟩ <;> decide +kernel

end Verif.MC.MoveStats
