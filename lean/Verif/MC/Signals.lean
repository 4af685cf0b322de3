import Verif.MC.Run

/-!
# Property C160: signals and time limits of simulations

Source: `/repo/c++/triqs/utility/signal_handler.cpp` (30-67), `/repo/c++/triqs/utility/callbacks.cpp` (27-33) and the calls in
`/repo/c++/triqs/mc_tools/mc_generic.hpp` (251, 265, 308, 318, 319).

The main loop is that of property C29, whose signals are an oracle; here the oracle is what the handler answers.

Simplifications: a signal arrives between two operations of the program, never during one. A signal without handler ends the process (the default of
all signals in the list but SIGSTOP). No handler can be set for SIGSTOP, which suspends the process and changes nothing.
-/

namespace Verif.MC.Signals

open Verif.MC

/-! ## Model -/

inductive Sig where
  | int | term | xcpu | quit | usr1 | usr2 | stop
deriving DecidableEq

/-- `sigaction` sets the handler for all of them (44-50); for SIGSTOP the call fails -/
def Sig.canCatch : Sig → Bool
  | .stop => false
  | _ => true

/-- the handlers, `initialized` and `signals_list` (30-31), and whether the process is there -/
structure Proc where
  installed : Bool
  initialized : Bool
  list : List Sig
  alive : Bool
deriving DecidableEq

def init : Proc := ⟨false, false, [], true⟩

/-- `start`, 39-52 -/
def start (p : Proc) : Proc := if p.initialized then p else { p with installed := true, initialized := true }

/-- `stop`, 54-57 -/
def stop (p : Proc) : Proc := { p with list := [], initialized := false }

/-- a signal arrives: `slot`, 33-36, or the default -/
def arrive (p : Proc) (s : Sig) : Proc :=
  if s.canCatch then (if p.installed then { p with list := p.list ++ [s] } else { p with alive := false }) else p

/-- `received(false)`, 59-64 -/
def received (p : Proc) : Bool := p.list.length != 0

/-- `pop`, 67; undefined on an empty list -/
def pop (p : Proc) : Option Proc := if p.list = [] then none else some { p with list := p.list.dropLast }

/-- `received(true)`, 59-64 -/
def receivedPop (p : Proc) : Option (Bool × Proc) :=
  if received p then (match pop p with | none => none | some q => some (true, q)) else some (false, p)

/-- `last`, 66; undefined on an empty list -/
def last (p : Proc) : Option Sig := p.list.getLast?

/-- what happens to a process that does not pop -/
inductive Ev where
  | start
  | stop
  | arrive (s : Sig)
deriving DecidableEq

def step (p : Proc) : Ev → Proc
  | .start => Signals.start p
  | .stop => Signals.stop p
  | .arrive s => Signals.arrive p s

def exec (p : Proc) (h : List Ev) : Proc := h.foldl step p

/-- the process before the poll number `k` of a run that began at `p`: `arr j` arrive after the poll `j - 1` -/
def atPoll (p : Proc) (arr : ℕ → List Sig) : ℕ → Proc
  | 0 => (arr 0).foldl arrive (start p)
  | k + 1 => (arr (k + 1)).foldl arrive (atPoll p arr k)

/-- the environment of a run with this handler -/
def withSignals {S : Type} (e : RunEnv S) (p : Proc) (arr : ℕ → List Sig) : RunEnv S := { e with signal := fun k => received (atPoll p arr k) }

/-- `clock_callback`, `callbacks.cpp` 27-33, created at the time `now`: the answer at the time `t`; times are ticks, `tps` of them in a second -/
def clock (tps now seconds : ℤ) (t : ℤ) : Bool := if seconds ≤ 0 then false else decide (t > now + seconds * tps)

/-! ## Specification -/

/-- the signals with a handler since the last `stop`, given the history from the first `start` on -/
def sinceStop : List Ev → List Sig
  | [] => []
  | .arrive s :: h => if .stop ∈ h then sinceStop h else (if s.canCatch then [s] else []) ++ sinceStop h
  | _ :: h => sinceStop h

/-! ## Proofs -/

theorem exec_cons (p : Proc) (a : Ev) (h : List Ev) : exec p (a :: h) = exec (step p a) h := rfl

theorem exec_list (h : List Ev) (p : Proc) (hp : p.installed = true) :
    (exec p h).list = (if .stop ∈ h then [] else p.list) ++ sinceStop h ∧ (exec p h).installed = true ∧ (exec p h).alive = p.alive := by
  induction h generalizing p with
  | nil => simp [exec, sinceStop, hp]
  | cons a h ih =>
    rw [exec_cons]
    cases a with
    | start =>
      have h1 : (step p .start).installed = true := by simp only [step, start]; split <;> simp [hp]
      have h2 : (step p .start).list = p.list ∧ (step p .start).alive = p.alive := by simp only [step, start]; split <;> simp
      obtain ⟨i1, i2, i3⟩ := ih _ h1
      refine ⟨?_, i2, by rw [i3, h2.2]⟩
      rw [i1, h2.1]
      simp [sinceStop]
    | stop =>
      obtain ⟨i1, i2, i3⟩ := ih (step p .stop) (by simp [step, stop, hp])
      refine ⟨?_, i2, by rw [i3]; rfl⟩
      rw [i1]
      simp [step, stop, sinceStop]
    | arrive s =>
      have h1 : (step p (.arrive s)).installed = true := by simp only [step, arrive, hp]; split <;> simp [hp]
      have h2 : (step p (.arrive s)).list = p.list ++ (if s.canCatch then [s] else []) ∧ (step p (.arrive s)).alive = p.alive := by
        simp only [step, arrive, hp]; split <;> simp
      obtain ⟨i1, i2, i3⟩ := ih _ h1
      refine ⟨?_, i2, by rw [i3, h2.2]⟩
      rw [i1, h2.1]
      by_cases hs : Ev.stop ∈ h <;> simp [sinceStop, hs]

/-- after the first `start` the process survives all signals, also after `stop`, and `received` answers whether one has arrived since the last `stop` -/
theorem C160_received (h : List Ev) : received (exec (start init) h) = !(sinceStop h).isEmpty ∧ (exec (start init) h).alive = true ∧
    last (exec (start init) h) = (sinceStop h).getLast? := by
  obtain ⟨h1, _, h3⟩ := exec_list h (start init) rfl
  have hl : (exec (start init) h).list = sinceStop h := by
    rw [h1]
    simp [start, init]
  refine ⟨?_, by rw [h3]; rfl, by rw [last, hl]⟩
  unfold received
  rw [hl]
  cases sinceStop h <;> simp

/-- before the first `start` a signal ends the process -/
theorem C160_default (s : Sig) (hs : s.canCatch = true) : (arrive init s).alive = false := by
  simp [arrive, hs, init]

/-- what popping does: `received(true)` answers as `received(false)`, is always defined, and removes the latest signal only; `pop` and `last` are
undefined exactly if there is none -/
theorem C160_pop (p : Proc) : (∃ q, receivedPop p = some (received p, q) ∧ q.list = p.list.dropLast ∧ q.installed = p.installed ∧ q.alive = p.alive) ∧
    (pop p = none ↔ received p = false) ∧ (last p = none ↔ received p = false) := by
  unfold receivedPop pop received last
  cases hl : p.list with
  | nil => simp [hl]
  | cons a l => simp

theorem foldl_arrive (l : List Sig) (p : Proc) (hp : p.installed = true) :
    (l.foldl arrive p).list = p.list ++ l.filter Sig.canCatch ∧ (l.foldl arrive p).installed = true := by
  induction l generalizing p with
  | nil => simp [hp]
  | cons s l ih =>
    simp only [List.foldl_cons]
    by_cases hs : s.canCatch
    · have : arrive p s = { p with list := p.list ++ [s] } := by simp [arrive, hs, hp]
      obtain ⟨h1, h2⟩ := ih (arrive p s) (by rw [this]; exact hp)
      exact ⟨by rw [h1, this]; simp [hs], h2⟩
    · have : arrive p s = p := by simp [arrive, hs]
      rw [this]
      obtain ⟨h1, h2⟩ := ih p hp
      exact ⟨by rw [h1]; simp [hs], h2⟩

/-- a process whose handlers are set if it says so: all that come from `init` -/
def Ok (p : Proc) : Prop := p.initialized = true → p.installed = true

theorem ok_exec (h : List Ev) (p : Proc) (hp : Ok p) : Ok (exec p h) := by
  induction h generalizing p with
  | nil => exact hp
  | cons a h ih =>
    refine ih _ ?_
    unfold Ok at *
    cases a with
    | start => simp only [step, start]; split <;> simp_all
    | stop => simp [step, stop]
    | arrive s => simp only [step, arrive]; split <;> (try split) <;> simp_all

/-- every process that began at `init` -/
theorem ok_reachable (h : List Ev) : Ok (exec init h) := ok_exec h init (by simp [Ok, init])

theorem start_spec (p : Proc) (hp : Ok p) : (start p).installed = true ∧ (start p).list = p.list := by
  unfold start
  split
  · rename_i h; exact ⟨hp h, rfl⟩
  · exact ⟨rfl, rfl⟩

theorem atPoll_spec (p : Proc) (hp : Ok p) (arr : ℕ → List Sig) (k : ℕ) : (atPoll p arr k).installed = true ∧
    (atPoll p arr k).list = p.list ++ (List.range (k + 1)).flatMap fun j => (arr j).filter Sig.canCatch := by
  induction k with
  | zero =>
    obtain ⟨h1, h2⟩ := start_spec p hp
    obtain ⟨h3, h4⟩ := foldl_arrive (arr 0) (start p) h1
    exact ⟨h4, by simp only [atPoll]; rw [h3, h2]; simp⟩
  | succ k ih =>
    obtain ⟨h3, h4⟩ := foldl_arrive (arr (k + 1)) (atPoll p arr k) ih.1
    refine ⟨h4, ?_⟩
    simp only [atPoll]
    rw [h3, ih.2, List.range_succ (n := k + 1)]
    simp [List.flatMap_append]

/-- the answers to the polls of a run: a signal was left from before the run, or one has arrived. Once the answer is `true` it stays. -/
theorem C160_polls {S : Type} (e : RunEnv S) (p : Proc) (hp : Ok p) (arr : ℕ → List Sig) :
    (∀ k, (withSignals e p arr).signal k = true ↔ p.list ≠ [] ∨ ∃ j ≤ k, ∃ s ∈ arr j, s ≠ Sig.stop) ∧
      ∀ i j, i ≤ j → (withSignals e p arr).signal i = true → (withSignals e p arr).signal j = true := by
  have hk : ∀ k, (withSignals e p arr).signal k = true ↔ p.list ≠ [] ∨ ∃ j ≤ k, ∃ s ∈ arr j, s ≠ Sig.stop := by
    intro k
    show received (atPoll p arr k) = true ↔ _
    unfold received
    rw [(atPoll_spec p hp arr k).2]
    have hc : ∀ s : Sig, s.canCatch = true ↔ s ≠ Sig.stop := by intro s; cases s <;> simp [Sig.canCatch]
    rw [bne_iff_ne, Ne, List.length_eq_zero_iff, List.append_eq_nil_iff, not_and_or]
    refine or_congr Iff.rfl ?_
    rw [List.flatMap_eq_nil_iff]
    push Not
    refine exists_congr fun j => ?_
    rw [List.mem_range, Nat.lt_succ_iff]
    refine and_congr_right fun _ => ?_
    rw [Ne, List.filter_eq_nil_iff]
    push Not
    exact exists_congr fun s => and_congr_right fun _ => hc s
  refine ⟨hk, fun i j hij hi => (hk j).mpr ?_⟩
  rcases (hk i).mp hi with h | ⟨a, ha, h⟩
  · exact Or.inl h
  · exact Or.inr ⟨a, ha.trans hij, h⟩

/-- the accounting of property C29 with the real handler: no assumption on the signals is left. The last cycle is interrupted, and the status is 2,
only if a signal was there. -/
theorem C160_run {S : Type} (e : RunEnv S) (p : Proc) (hp : Ok p) (arr : ℕ → List Sig) (g : Ghost (withSignals e p arr))
    (hrem : ∀ i j, i ≤ j → e.remote i = true → e.remote j = true) (n : Int) (hn : n ≠ 0) (len : Nat) (dm : Bool) (fuel : Nat) (m m' : Sim S) (status : Nat)
    (h : run (withSignals e p arr) n len dm fuel m = .ret status m') :
    ∃ NC full part : Nat, 1 ≤ NC ∧ (0 < n → NC ≤ n) ∧ g.steps m'.s = g.steps m.s + full * len + part ∧
      ((full = NC ∧ part = 0) ∨ (full + 1 = NC ∧ part < len ∧ (p.list ≠ [] ∨ ∃ j, ∃ s ∈ arr j, s ≠ Sig.stop))) ∧
      (status = 0 ↔ (NC : Int) = n) ∧ (status = 2 → p.list ≠ [] ∨ ∃ j, ∃ s ∈ arr j, s ≠ Sig.stop) ∧
      (status = 1 → p.list = [] ∧ ∀ j ≤ m'.polls - 1, ∀ s ∈ arr j, s = Sig.stop) ∧ status ≤ 2 := by
  obtain ⟨hk, hmono⟩ := C160_polls e p hp arr
  have hex : (∃ k, (withSignals e p arr).signal k = true) → p.list ≠ [] ∨ ∃ j, ∃ s ∈ arr j, s ≠ Sig.stop := by
    rintro ⟨k, h⟩
    rcases (hk k).mp h with h | ⟨j, _, h⟩
    · exact Or.inl h
    · exact Or.inr ⟨j, h⟩
  obtain ⟨NC, full, part, h1, h2, _, h4, _, _, h7, _, h9, h10, h11, h12⟩ := C29_accounting_partial g hmono hrem n hn len dm fuel m m' status h
  refine ⟨NC, full, part, h1, h2, h4, ?_, h9, fun hs => hex (h10 hs), fun hs => ?_, h12⟩
  · rcases h7 with h | ⟨a, b, c⟩
    · exact Or.inl h
    · exact Or.inr ⟨a, b, hex c⟩
  · have hno := h11 hs
    have hneg : ∀ k ≤ m'.polls - 1, ¬ (p.list ≠ [] ∨ ∃ j ≤ k, ∃ s ∈ arr j, s ≠ Sig.stop) := fun k hk' hc => by
      have := (hk k).mpr hc
      rw [hno k hk'] at this
      cases this
    refine ⟨?_, fun j hj s hs' => ?_⟩
    · by_contra hc
      exact hneg 0 (Nat.zero_le _) (Or.inl hc)
    · by_contra hc
      exact hneg j hj (Or.inr ⟨j, le_rfl, s, hs', hc⟩)

/-- a signal that is left from before the run stops it before the first step, whatever the number of cycles (more than one) -/
theorem C160_stale {S : Type} (e : RunEnv S) (p : Proc) (hp : Ok p) (hl : p.list ≠ []) (arr : ℕ → List Sig) (g : Ghost (withSignals e p arr)) (he : e.rethrow = false)
    (n : Int) (hn : n ≠ 0) (h1 : n ≠ 1) (len : Nat) (hlen : 1 ≤ len) (dm : Bool) (fuel : Nat) (m : Sim S) :
    ∃ m', run (withSignals e p arr) n len dm (fuel + 1) m = .ret 2 m' ∧ g.steps m'.s = g.steps m.s ∧ g.meas m'.s = g.meas m.s := by
  have hs : ∀ k, (withSignals e p arr).signal k = true := fun k => ((C160_polls e p hp arr).1 k).mpr (Or.inl hl)
  have he' : (withSignals e p arr).rethrow = false := he
  obtain ⟨l, rfl⟩ : ∃ l, len = l + 1 := ⟨len - 1, by omega⟩
  have hfin : (decide ((0 : Int) + 1 ≥ n) && !decide (n < 0)) = false := by
    rcases lt_or_gt_of_ne hn with h | h
    · simp [h]
    · have : ¬ ((0 : Int) + 1 ≥ n) := by omega
      simp
      omega
  have hcb := g.callback_ok m.s
  have hi : ¬ ((0 : Int) + 1 > intMax) := by unfold intMax; omega
  unfold run
  rw [if_neg hn]
  simp only [mainLoop, cycle, cycleSteps, hs, if_true, afterCycle, if_neg hi, hfin, he', Bool.or_false, Bool.false_and]
  cases hb : ((withSignals e p arr).callback m.s).1 <;> simp [hb, finish, hs, he', hcb]

/-- `clock_callback`: `true` exactly after the time asked for, and never for a time that is not positive -/
theorem C160_clock (tps now seconds t : ℤ) : clock tps now seconds t = true ↔ 0 < seconds ∧ seconds * tps < t - now := by
  unfold clock
  split
  · rename_i h
    simp
    omega
  · rename_i h
    simp only [decide_eq_true_eq]
    constructor
    · intro h'; exact ⟨by omega, by omega⟩
    · rintro ⟨_, h'⟩; omega

/-! ### Examples and disagreements -/

/-- a signal while no run is going on (after `stop`, before the next `start`): nothing happens at once, the next run stops at its first poll -/
theorem C160_between_runs : (exec (start init) [.stop, .arrive .int]).alive = true ∧
    received (exec (start init) [.stop, .arrive .int, .start]) = true := by decide

/-- SIGINT arrives before the poll 2, in the last of the warmup cycles: the status of the warmup is 0, the signal is forgotten, and all cycles of the
accumulation are done -/
theorem C160_lost : ∃ arr : ℕ → List Sig,
    outcome (warmupAndAccumulate (withSignals (cEnv 0 none none) init arr) (withSignals (cEnv 0 none none) (stop (atPoll init arr 3)) fun _ => []) 1 3 4 10 c0)
      = some (0, 9, 3, 14, 3) := ⟨fun k => if k = 2 then [.int] else [], by decide +kernel⟩

example : sinceStop [.arrive .int, .stop, .arrive .stop, .arrive .usr1, .start, .arrive .term] = [.usr1, .term] := by decide
example : received (exec (start init) [.arrive .int, .stop, .arrive .stop]) = false := by
  rw [(C160_received _).1]; decide
example : (arrive init .term).alive = false := C160_default _ rfl
example : receivedPop (exec (start init) [.arrive .int, .arrive .term]) = some (true, ⟨true, true, [.int], true⟩) := by decide
-- a signal in the second cycle: the same as in property C29
example : outcome (run (withSignals (cEnv 0 none none) init fun k => if k = 7 then [.usr1] else []) 3 4 true 10 c0) = some (2, 7, 1, 6, 1) := by decide +kernel
-- SIGSTOP does not stop the run
example : outcome (run (withSignals (cEnv 0 none none) init fun k => if k = 7 then [.stop] else []) 3 4 true 10 c0) = some (0, 8, 3, 12, 3) := by decide +kernel
example : outcome (run (withSignals (cEnv 0 none none) (exec (start init) [.stop, .arrive .int]) fun _ => []) 3 4 true 10 c0) = some (2, 6, 0, 0, 0) := by
  decide +kernel
example : clock 10 100 2 120 = false ∧ clock 10 100 2 121 = true := by decide
/-- a time limit of zero is no limit -/
example (t : ℤ) : clock 10 100 0 t = false := by
  by_contra h
  have := (C160_clock 10 100 0 t).mp (by simpa using h)
  omega

end Verif.MC.Signals
