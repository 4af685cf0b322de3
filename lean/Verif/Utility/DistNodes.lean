import Verif.Utility.MpiSlice
import Mathlib.Tactic.Linarith

/-!
# Property C172: calculations distributed over processes, and runs without MPI

Sources: `/repo/python/triqs/utility/dist_on_nodes.py`, `/repo/python/triqs/utility/mpi_nompi.py`, `/repo/python/triqs/utility/mpi_mpi4py.py`
(38-76 and 111-130).

A list is a Python object: the stack of points handed to `DistributionOnNodesOneStack` is kept and not copied. `heap r` is the content of the
list object `r`, its last element last. A point is an `Option`: `none` is Python's `None`. The function to compute may raise (`none`).

Simplifications: points can be compared with `None` (an array of numpy cannot). A message of MPI is kept until it is received, so that a send
does not wait; a process that receives when no message ever comes and one in a barrier which another process does not reach wait forever.
`DistributionOnNodes.run` on several processes is modelled up to the first use of `mpi.irecv`, a name which `triqs.utility.mpi` does not have.
-/

namespace Verif.DistNodes

/-! ## Model -/

variable {X Y : Type}

/-- the list objects -/
abbrev Heap (X : Type) := ℕ → List (Option X)

def Heap.set (h : Heap X) (r : ℕ) (l : List (Option X)) : Heap X := fun i => if i = r then l else h i

/-- an object of the class: the reference to the stack and the results with the rank where they were computed -/
structure OneStack (Y : Type) where
  stack : ℕ
  result : List (ℕ × Y)

/-- the constructor, dist_on_nodes.py:120-123: the list of the caller is reversed in place -/
def new (h : Heap X) (r : ℕ) : Heap X × OneStack Y := (h.set r (h r).reverse, ⟨r, []⟩)

/-- the loop of a run on one process, dist_on_nodes.py:49-52 with `finished`, `__next__` and `treate` of 125-132. The first list is the stack
with its last element first. The result is the stack that is left, the results and whether the loop came to its end. -/
def loop (f : X → Option Y) : List (Option X) → List (ℕ × Y) → List (Option X) × List (ℕ × Y) × Bool
  | [], res => ([], res, true)
  | none :: l, res => loop f l res
  | some x :: l, res => match f x with
    | none => (l, res, false)
    | some y => loop f l (res ++ [(0, y)])

/-- `run` on one process, dist_on_nodes.py:136-138 and 44-53; `none`: the function raised -/
def run (f : X → Option Y) (h : Heap X) (d : OneStack Y) : Heap X × OneStack Y × Option (List (ℕ × Y)) :=
  let r := loop f (h d.stack).reverse d.result
  (h.set d.stack r.1.reverse, ⟨d.stack, r.2.1⟩, if r.2.2 then some r.2.1 else none)

/-- `D(l).run()` for a class `D` with the function `f` -/
def runNew (f : X → Option Y) (h : Heap X) (r : ℕ) : Heap X × OneStack Y × Option (List (ℕ × Y)) :=
  let p : Heap X × OneStack Y := new h r
  run f p.1 p.2

/-- messages of the master -/
inductive Msg (X : Type) where
  | flag (finished : Bool)
  | point (x : Option X)
deriving DecidableEq

/-- how a process ends -/
inductive End where
  | done | attributeError | valueError | assertionError | waitsForever
deriving DecidableEq

/-- `if not(self.finished())` and the sends to the idle nodes, dist_on_nodes.py:74-82, for the nodes of the list and the stack with its last
element first: the messages with their destinations, and whether `mpi.irecv` was looked up -/
def sendLoop : List ℕ → List (Option X) → List (ℕ × Msg X) × Bool
  | [], _ => ([], false)
  | n :: ns, [] => let r := sendLoop ns []; ((n, .flag true) :: r.1, r.2)
  | n :: _, x :: _ => ([(n, .flag false), (n, .point x)], true)

/-- the master of several processes, dist_on_nodes.py:56-100: the condition of the loop of line 60 at its beginning, with nothing running, is that
the stack is not empty; without a pass through the loop the master goes to the barrier (`none`). The nodes are `1`, ..., `size - 1`. -/
def master (size : ℕ) (stack : List (Option X)) : List (ℕ × Msg X) × Option End :=
  if stack.isEmpty then ([], none)
  else
    let r := sendLoop ((List.range (size - 1)).map (· + 1)) stack
    (r.1, if r.2 then some .attributeError else none)

/-- a worker with the messages it gets in this order, dist_on_nodes.py:103-109: the points it computes and whether it comes to the barrier. The
points of a run in which the messages are not flags and points in turn are not described. -/
def worker : List (Msg X) → List (Option X) × Bool
  | [] => ([], false)
  | .flag true :: _ => ([], true)
  | .flag false :: .point x :: l => let r := worker l; (x :: r.1, r.2)
  | _ => ([], false)

/-- the messages for a node -/
def inbox (n : ℕ) (l : List (ℕ × Msg X)) : List (Msg X) := (l.filter fun m => m.1 == n).map Prod.snd

/-- how `run` ends on the process `rank` of `size ≥ 2`: the barrier of line 111 lets nobody pass before all are there -/
def endOf (size : ℕ) (stack : List (Option X)) (rank : ℕ) : End :=
  let m := master size stack
  let at_barrier := fun r => if r = 0 then m.2.isNone else (worker (inbox r m.1)).2
  if rank = 0 then
    match m.2 with
    | some e => e
    | none => if (List.range size).all at_barrier then .done else .waitsForever
  else if (List.range size).all at_barrier then .done else .waitsForever

/-- `master_gets_host_names` of mpi_mpi4py.py:114-125 with the names of the hosts as lists of characters. `HostNames[proc],status = recv(proc)`
takes a string of two characters apart and is a `ValueError` for all others. The result is the table of the master or its exception. -/
def hostTable (names : ℕ → List Char) (size : ℕ) : Except End (List (ℕ × List Char)) :=
  (List.range (size - 1)).foldl (fun t i => match t with
    | .error e => .error e
    | .ok l => match names (i + 1) with
      | [a, _] => .ok (l ++ [(i + 1, [a])])
      | _ => .error .valueError) (.ok [(0, names 0)])

/-- how `master_gets_host_names` ends on a process: a node which is not the master has one entry, its own, when `len(HostNames)==size` is checked
after the barrier -/
def hostEnd (names : ℕ → List Char) (size rank : ℕ) : End :=
  match hostTable names size with
  | .error e => if rank = 0 then e else .waitsForever
  | .ok l => if rank = 0 then (if l.length = size then .done else .assertionError) else if 1 = size then .done else .assertionError

/-- `all_reduce` of mpi_mpi4py.py:67-76 called with the number `x` on each of the nodes -/
def allReduce {M : Type*} [AddCommMonoid M] (size : ℕ) (x : ℕ → M) : M := ((List.range size).map x).sum

/-- `slice_array` of mpi_nompi.py:73-75 -/
def serialSlice {α : Type*} (l : List α) : List α := l

/-- `all_reduce` of mpi_nompi.py:54-60 -/
def serialReduce {M : Type*} (x : M) : M := x

/-- the names of a Python function: those it assigns are local to it, and reading one before the assignment is an `UnboundLocalError` -/
def readName (assigned : List String) (locals globals : List (String × Y)) (n : String) : Option Y :=
  if n ∈ assigned then locals.lookup n else globals.lookup n

/-- `send` of mpi_nompi.py:62-64: the assignment makes `_sendval` a local name, and the module is left as it was -/
def serialSend (globals : List (String × Y)) (_ : Y) : List (String × Y) := globals

/-- `recv` of mpi_nompi.py:66-71 up to its first use of `_sendval`, which line 70 assigns; `none`: `UnboundLocalError` -/
def serialRecv (globals : List (String × Y)) : Option Y := readName ["recval", "_sendval"] [] globals "_sendval"

/-! ## Specification -/

/-- the points of a list which are not `None`, in order -/
def points (l : List (Option X)) : List X := l.filterMap id

/-! ## Proofs -/

theorem loop_ok (f : X → Option Y) (g : X → Y) : ∀ (l : List (Option X)) (res : List (ℕ × Y)), (∀ x ∈ points l, f x = some (g x)) →
    loop f l res = ([], res ++ (points l).map (fun x => (0, g x)), true) := by
  intro l
  induction l with
  | nil => intro res _; simp [loop, points]
  | cons a l ih =>
    intro res h
    cases a with
    | none =>
      rw [loop, ih res (by simpa [points] using h)]
      simp [points]
    | some x =>
      have hx : f x = some (g x) := h x (by simp [points])
      rw [loop]
      simp only [hx]
      rw [ih _ (fun y hy => h y (by simp only [points, List.filterMap_cons, id] at hy ⊢; exact List.mem_cons_of_mem _ hy))]
      simp [points, List.filterMap_cons]

theorem loop_raise (f : X → Option Y) (g : X → Y) (x : X) (hx : f x = none) (b : List (Option X)) : ∀ (a : List (Option X)) (res : List (ℕ × Y)),
    (∀ y ∈ points a, f y = some (g y)) → loop f (a ++ some x :: b) res = (b, res ++ (points a).map (fun x => (0, g x)), false) := by
  intro a
  induction a with
  | nil => intro res _; simp [loop, points, hx]
  | cons c a ih =>
    intro res h
    cases c with
    | none =>
      rw [List.cons_append, loop, ih res (by simpa [points] using h)]
      simp [points]
    | some y =>
      have hy : f y = some (g y) := h y (by simp [points])
      rw [List.cons_append, loop]
      simp only [hy]
      rw [ih _ (fun z hz => h z (by simp only [points, List.filterMap_cons, id] at hz ⊢; exact List.mem_cons_of_mem _ hz))]
      simp [points, List.filterMap_cons]

/-- **C172, one process.** `DistributionOnNodesOneStack(l).run()` computes the function once for each point of the list in its order, `None` being
passed over, and returns the values with the rank zero in this order. -/
theorem C172_serial (f : X → Option Y) (g : X → Y) (h : Heap X) (r : ℕ) (hf : ∀ x ∈ points (h r), f x = some (g x)) :
    (runNew f h r).2.2 = some ((points (h r)).map fun x => (0, g x)) := by
  have := loop_ok f g (h r) [] hf
  simp [runNew, run, new, Heap.set, this]

/-- **C172, the list of the caller** is used up: the constructor turns it around, a complete run leaves it empty, other lists are left alone, and a
second run computes nothing and returns the same values. -/
theorem C172_callers_list (f : X → Option Y) (g : X → Y) (h : Heap X) (r : ℕ) (hf : ∀ x ∈ points (h r), f x = some (g x)) :
    ((new (Y := Y) h r).1 r = (h r).reverse) ∧
    ((runNew f h r).1 r = []) ∧
    (∀ i, i ≠ r → (runNew f h r).1 i = h i) ∧
    (∀ k : X → Option Y, let s := (runNew f h r)
      run k s.1 s.2.1 = (s.1, s.2.1, s.2.2)) := by
  have e := loop_ok f g (h r) [] hf
  refine ⟨by simp [new, Heap.set], by simp [runNew, run, new, Heap.set, e], fun i hi => by simp [runNew, run, new, Heap.set, hi], ?_⟩
  intro k
  simp only [runNew, run, new, Heap.set, if_true, List.reverse_reverse, e, List.reverse_nil, loop, List.nil_append]
  refine Prod.ext ?_ rfl
  funext i
  by_cases hi : i = r <;> simp [Heap.set, hi]

/-- **C172, an exception** of the function: the values of the points before are kept, the point is lost, and another run goes on with those after it. -/
theorem C172_exception (f k : X → Option Y) (g g' : X → Y) (h : Heap X) (r : ℕ) (a b : List (Option X)) (x : X) (hl : h r = a ++ some x :: b)
    (ha : ∀ y ∈ points a, f y = some (g y)) (hx : f x = none) (hb : ∀ y ∈ points b, k y = some (g' y)) :
    let s := (runNew f h r)
    s.2.2 = none ∧ s.2.1.result = (points a).map (fun y => (0, g y)) ∧ s.1 r = b.reverse ∧
      (run k s.1 s.2.1).2.2 = some ((points a).map (fun y => (0, g y)) ++ (points b).map fun y => (0, g' y)) := by
  have e := loop_raise f g x hx b a [] ha
  have e2 := loop_ok k g' b ((points a).map fun y => (0, g y)) hb
  simp only [List.nil_append] at e
  simp only [runNew, run, new, Heap.set, if_true, List.reverse_reverse, hl, e]
  refine ⟨by simp, trivial, trivial, ?_⟩
  rw [e2]
  simp

/-- a worker with no message waits -/
theorem inbox_nil (n : ℕ) : inbox n ([] : List (ℕ × Msg X)) = [] := rfl

/-- **C172, several processes: no run comes to its end.** With points to compute the master has sent the first one to the node 1 and stops with an
`AttributeError`, and all other processes wait forever; with an empty stack the master does not tell the nodes that it is finished, and all processes
wait forever. -/
theorem C172_parallel (size : ℕ) (hs : 2 ≤ size) (stack : List (Option X)) :
    (∀ rank < size, endOf size stack rank ≠ .done) ∧
    (∀ x l, stack = x :: l → (master size stack).1 = [(1, .flag false), (1, .point x)] ∧ endOf size stack 0 = .attributeError ∧
      ∀ rank, 0 < rank → rank < size → endOf size stack rank = .waitsForever) ∧
    (stack = [] → (master size stack).1 = [] ∧ ∀ rank < size, endOf size stack rank = .waitsForever) := by
  obtain ⟨n, rfl⟩ : ∃ n, size = n + 2 := ⟨size - 2, by omega⟩
  have hr : (List.range (n + 2 - 1)).map (· + 1) = 1 :: ((List.range n).map (· + 1)).map (· + 1) := by
    rw [show n + 2 - 1 = n + 1 from rfl, List.range_succ_eq_map]
    simp
  have hcons : ∀ x l, stack = x :: l → (master (n + 2) stack).1 = [(1, .flag false), (1, .point x)] ∧ (master (n + 2) stack).2 = some .attributeError := by
    rintro x l rfl
    simp only [master, hr, List.isEmpty_cons, Bool.false_eq_true, if_false, sendLoop, if_true, and_self]
  have h2 : ∀ x l, stack = x :: l → (master (n + 2) stack).1 = [(1, .flag false), (1, .point x)] ∧ endOf (n + 2) stack 0 = .attributeError ∧
      ∀ rank, 0 < rank → rank < n + 2 → endOf (n + 2) stack rank = .waitsForever := by
    intro x l h
    obtain ⟨h1, h2⟩ := hcons x l h
    refine ⟨h1, by simp [endOf, h2], fun rank h0 hlt => ?_⟩
    have : ¬ ((List.range (n + 2)).all fun r => if r = 0 then (master (n + 2) stack).2.isNone else (worker (inbox r (master (n + 2) stack).1)).2) = true := by
      rw [List.all_eq_true]
      intro hall
      have := hall 0 (by simp)
      simp [h2] at this
    simp only [endOf, if_neg (show ¬ rank = 0 by omega)]
    rw [if_neg this]
  have h3 : stack = [] → (master (n + 2) stack).1 = [] ∧ ∀ rank < n + 2, endOf (n + 2) stack rank = .waitsForever := by
    rintro rfl
    have hm : master (n + 2) ([] : List (Option X)) = ([], none) := by simp [master]
    refine ⟨by rw [hm], fun rank hlt => ?_⟩
    have : ¬ ((List.range (n + 2)).all fun r => if r = 0 then (master (n + 2) ([] : List (Option X))).2.isNone else
        (worker (inbox r (master (n + 2) ([] : List (Option X))).1)).2) = true := by
      rw [List.all_eq_true]
      intro hall
      have := hall 1 (by simp)
      simp [hm, inbox, worker] at this
    unfold endOf
    simp only
    rw [if_neg this, hm]
    simp
  refine ⟨?_, h2, h3⟩
  intro rank hlt
  cases stack with
  | nil => rw [(h3 rfl).2 rank hlt]; decide
  | cons x l =>
    obtain ⟨_, ha, hb⟩ := h2 x l rfl
    by_cases h0 : rank = 0
    · subst h0; rw [ha]; decide
    · rw [hb rank (by omega) hlt]; decide

theorem foldl_error (names : ℕ → List Char) (l : List ℕ) (e : End) : l.foldl (fun t i => match t with
    | .error e => .error e
    | .ok l => match names (i + 1) with
      | [a, _] => .ok (l ++ [(i + 1, [a])])
      | _ => .error .valueError) (.error e : Except End (List (ℕ × List Char))) = .error e := by
  induction l with
  | nil => rfl
  | cons a l ih => exact ih

/-- **C172, names of the hosts.** On one process the table is complete. On several processes no process other than the master comes to the end, and the
master does so only if the names of all other hosts have two characters, of which the table then has the first. -/
theorem C172_host_names (names : ℕ → List Char) (size : ℕ) (hs : 1 ≤ size) :
    (size = 1 → hostTable names size = .ok [(0, names 0)] ∧ hostEnd names size 0 = .done) ∧
    (2 ≤ size → ∀ rank, 0 < rank → rank < size → hostEnd names size rank ≠ .done) ∧
    (2 ≤ size → (∃ i, 0 < i ∧ i < size ∧ (names i).length ≠ 2) → hostEnd names size 0 = .valueError ∧ ∀ rank, 0 < rank → hostEnd names size rank = .waitsForever) ∧
    ((∀ i, 0 < i → i < size → (names i).length = 2) → hostTable names size = .ok ((0, names 0) :: (List.range (size - 1)).map fun i => (i + 1, (names (i + 1)).take 1)) ∧
      hostEnd names size 0 = .done) := by
  have main : ∀ n : ℕ, (∀ i, 0 < i → i < n + 1 → (names i).length = 2) →
      hostTable names (n + 1) = .ok ((0, names 0) :: (List.range n).map fun i => (i + 1, (names (i + 1)).take 1)) := by
    intro n
    induction n with
    | zero => intro _; rfl
    | succ n ih =>
      intro h
      have e := ih fun i h0 hi => h i h0 (by omega)
      have h2 := h (n + 1) (by omega) (by omega)
      obtain ⟨a, b, hab⟩ : ∃ a b, names (n + 1) = [a, b] := by
        match hn : names (n + 1), h2 with
        | [a, b], _ => exact ⟨a, b, rfl⟩
      simp only [hostTable, Nat.add_sub_cancel] at e ⊢
      rw [List.range_succ, List.foldl_append, e]
      simp [hab, List.range_succ]
  have bad : ∀ n : ℕ, (∃ i, 0 < i ∧ i < n + 1 ∧ (names i).length ≠ 2) → hostTable names (n + 1) = .error .valueError := by
    intro n
    induction n with
    | zero => rintro ⟨i, h0, hi, _⟩; omega
    | succ n ih =>
      rintro ⟨i, h0, hi, hl⟩
      by_cases hb : ∃ i, 0 < i ∧ i < n + 1 ∧ (names i).length ≠ 2
      · have e := ih hb
        simp only [hostTable, Nat.add_sub_cancel] at e ⊢
        rw [List.range_succ, List.foldl_append, e]
        rfl
      · have e := main n (fun j h0 hj => by
          by_contra hc
          exact hb ⟨j, h0, hj, hc⟩)
        have hi' : i = n + 1 := by
          by_contra hc
          exact hb ⟨i, h0, by omega, hl⟩
        subst hi'
        simp only [hostTable, Nat.add_sub_cancel] at e ⊢
        rw [List.range_succ, List.foldl_append, e]
        simp only [List.foldl_cons, List.foldl_nil]
        split
        · rename_i hn; rw [hn] at hl; simp at hl
        · rfl
  obtain ⟨n, rfl⟩ : ∃ n, size = n + 1 := ⟨size - 1, by omega⟩
  refine ⟨?_, ?_, ?_, ?_⟩
  · intro h
    have : n = 0 := by omega
    subst this
    exact ⟨rfl, rfl⟩
  · intro h rank h0 hlt
    unfold hostEnd
    cases hostTable names (n + 1) with
    | error e => simp [show ¬ rank = 0 by omega]
    | ok l =>
      simp only [if_neg (show ¬ rank = 0 by omega), if_neg (show ¬ 1 = n + 1 by omega)]
      decide
  · intro _ hb
    refine ⟨by simp [hostEnd, bad n hb], fun rank h0 => ?_⟩
    simp [hostEnd, bad n hb, show ¬ rank = 0 by omega]
  · intro h
    refine ⟨main n h, ?_⟩
    simp [hostEnd, main n h]

/-- **C172, without MPI** slices and sums are those of MPI on one process; `send` followed by `recv`, which on one process of MPI gives the value back,
raises an exception whatever was sent. -/
theorem C172_serial_mpi {α M : Type*} [AddCommMonoid M] (l : List α) (f : α → M) (x : M) (globals : List (String × Y)) (v : Y) :
    serialSlice l = MpiSlice.sliceArray 1 0 l ∧ serialReduce x = allReduce 1 (fun _ => x) ∧
    serialReduce ((serialSlice l).map f).sum = MpiSlice.reduceSum 1 f l ∧ serialRecv (serialSend globals v) = none := by
  have e : MpiSlice.sliceArray 1 0 l = l := by
    simp only [MpiSlice.sliceArray, MpiSlice.pySlice, MpiSlice.pyEnd, MpiSlice.sliceInf, MpiSlice.sliceSup]
    simp
    split
    · omega
    · simp
  refine ⟨e.symm, by simp [serialReduce, allReduce], ?_, rfl⟩
  simp [serialReduce, serialSlice, MpiSlice.reduceSum, e]

/-! ### Examples -/

def exHeap : Heap ℕ := fun i => if i = 7 then [some 1, none, some 2, some 3] else [some 9]

/-- three points; the list of the caller is empty afterwards -/
example : (runNew (fun x => some (10 * x)) exHeap 7).2.2 = some [(0, 10), (0, 20), (0, 30)] ∧
    (runNew (fun x => some (10 * x)) exHeap 7).1 7 = [] ∧
    (runNew (fun x => some (10 * x)) exHeap 7).1 3 = [some 9] := by decide

/-- the point 2 raises: only its successor is left -/
example : (runNew (fun x => if x = 2 then none else some x) exHeap 7).1 7 = [some 3] := by decide

/-- three processes and two points, and three processes and none -/
example : (List.range 3).map (endOf 3 [some 5, some 6]) = [.attributeError, .waitsForever, .waitsForever] ∧
    (List.range 3).map (endOf 3 ([] : List (Option ℕ))) = [.waitsForever, .waitsForever, .waitsForever] := by decide

/-- hosts `ab` and `node`: the master raises; `ab` and `cd`: the table has `c` -/
example : hostEnd (fun i => if i = 0 then ['a', 'b'] else ['n', 'o', 'd', 'e']) 2 0 = .valueError ∧
    (hostTable (fun i => if i = 0 then ['a', 'b'] else ['c', 'd']) 2 matches .ok [(0, ['a', 'b']), (1, ['c'])]) := by decide

end Verif.DistNodes
