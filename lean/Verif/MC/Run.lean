import Verif.MC.Moves
import Mathlib.Order.Monotone.Basic
import Mathlib.Algebra.Order.Ring.Int

/-!
# The main loop of a simulation

Source: `/repo/c++/triqs/mc_tools/mc_generic.hpp:243-333` (`run`), `:130-221` (`warmup`, `accumulate`, `warmup_and_accumulate`) and
`/repo/c++/triqs/utility/signal_handler.cpp`.

The step, the function called after each cycle, the measures and the stop callback are functions of a world `S` that may throw (the callback may not). Signals are an oracle: `signal k` is
the result of the `k`-th call of `signal_handler::received()` (asynchronous arrivals between two calls are seen by the next one; the list is only emptied at
the end of the run). Emergency stops of other nodes are an oracle as well. Assumed of `mpi::monitor`, which is not in the repository: after a local request,
`emergency_occured()` is true.
-/

namespace Verif.MC

/-! ## Model -/

structure RunEnv (S : Type) where
  step : S → Out S Unit
  duty : S → Out S Unit
  measure : S → Out S Unit
  callback : S → Bool × S
  signal : Nat → Bool
  remote : Nat → Bool
  hasEnv : Bool
  rethrow : Bool

/-- the members of `mc_generic` that `run` changes beside those in `S`, mc_generic.hpp:432-440, and the number of signal polls so far -/
structure Sim (S : Type) where
  s : S
  nmeasures : Int
  cycleNumber : Int
  polls : Nat

inductive CycOut (S : Type) where
  | done (m : Sim S)
  | signal (m : Sim S)
  | exn (m : Sim S)
  | undef

inductive RunOut (S : Type) where
  | ret (status : Nat) (m : Sim S)
  | throws (m : Sim S)
  | aborted (m : Sim S)
  | undef
  | running

section
variable {S : Type}

def Out.run (m : Sim S) (k : Sim S → CycOut S) : Out S Unit → CycOut S
  | .ok _ s => k { m with s := s }
  | .exn s => .exn { m with s := s }
  | .undef => .undef

/-- `for (k = 1; k <= length_cycle; k++) { if (received()) throw ...; step }`, mc_generic.hpp:264-276 -/
def cycleSteps (e : RunEnv S) (k : Sim S → CycOut S) : Nat → Sim S → CycOut S
  | 0, m => k m
  | n + 1, m =>
    let m1 := { m with polls := m.polls + 1 }
    if e.signal m.polls then .signal m1
    else (e.step m1.s).run m1 (cycleSteps e k n)

/-- after the steps, mc_generic.hpp:277-282 -/
def cycleEnd (e : RunEnv S) (doMeasure : Bool) (m : Sim S) : CycOut S :=
  (e.duty m.s).run m (fun m =>
    if doMeasure then
      let m := { m with nmeasures := m.nmeasures + 1 }
      (e.measure m.s).run m .done
    else .done m)

/-- the body of the `try` block, mc_generic.hpp:263-282 -/
def cycle (e : RunEnv S) (len : Nat) (doMeasure : Bool) (m : Sim S) : CycOut S := cycleSteps e (cycleEnd e doMeasure) len m

def intMax : Int := 2147483647

/-- the end of `run`, mc_generic.hpp:315-333 -/
def finish (e : RunEnv S) (local_ : Bool) (NC : Int) (iter : Nat) (finished : Bool) (m : Sim S) : RunOut S :=
  let m := { m with cycleNumber := m.cycleNumber + NC }
  let p := (if finished then (0, m) else (if e.signal m.polls then 2 else 1, { m with polls := m.polls + 1 }))
  if (e.rethrow && e.hasEnv) && (local_ || e.remote iter) then .throws p.2 else .ret p.1 p.2

/-- one pass after the `try` block, mc_generic.hpp:295-312: the new `NC`, `finished`, `stop_it` and state; `none` is the overflow of `int NC`. -/
def afterCycle (e : RunEnv S) (n : Int) (local_ : Bool) (NC : Int) (iter : Nat) (m : Sim S) : Option (Bool × Bool × Sim S) :=
  if NC + 1 > intMax then none
  else
    let finished := decide (NC + 1 ≥ n) && !decide (n < 0)
    let c := e.callback m.s
    let m := { m with s := c.2 }
    let q := if c.1 then (true, m) else (e.signal m.polls || finished, { m with polls := m.polls + 1 })
    some (finished, q.1 || ((e.rethrow && e.hasEnv) && (local_ || e.remote iter)), q.2)

/-- the main loop; the first argument bounds the number of passes of the model (`running` when it is not enough) -/
def mainLoop (e : RunEnv S) (n : Int) (len : Nat) (doMeasure : Bool) : Nat → Int → Nat → Sim S → RunOut S
  | 0, _, _, _ => .running
  | f + 1, NC, iter, m =>
    let next (local_ : Bool) (m : Sim S) : RunOut S :=
      match afterCycle e n local_ NC iter m with
      | none => .undef
      | some (finished, stop, m) =>
        if stop then finish e local_ (NC + 1) (iter + 1) finished m else mainLoop e n len doMeasure f (NC + 1) (iter + 1) m
    match cycle e len doMeasure m with
    | .done m => next false m
    | .signal m => next false m
    | .exn m => if e.rethrow then (if e.hasEnv then next true m else .undef) else .aborted m
    | .undef => .undef

/-- `run`, mc_generic.hpp:243-333, for a positive length of the cycles; `clear_statistics` and the timers are not in `Sim`. -/
def run (e : RunEnv S) (n : Int) (len : Nat) (doMeasure : Bool) (fuel : Nat) (m : Sim S) : RunOut S :=
  if n = 0 then .ret 0 m else mainLoop e n len doMeasure fuel 0 0 { m with nmeasures := 0 }

/-- `warmup_and_accumulate`, mc_generic.hpp:190-195; the oracles of the second run may be others (signals are cleared by `signal_handler::stop`). -/
def warmupAndAccumulate (e1 e2 : RunEnv S) (nw na : Int) (len : Nat) (fuel : Nat) (m : Sim S) : RunOut S :=
  match run e1 nw len false fuel m with
  | .ret 0 m => run e2 na len true fuel { m with polls := 0 }
  | o => o

/-! ## Specification -/

/-- what is counted in the world: steps, calls of the measures, and the values returned by the stop callback -/
structure Ghost (e : RunEnv S) where
  steps : S → Nat
  meas : S → Nat
  cb : S → List Bool
  step_ok : ∀ s s', e.step s = .ok () s' → steps s' = steps s + 1 ∧ meas s' = meas s ∧ cb s' = cb s
  duty_ok : ∀ s s', e.duty s = .ok () s' → steps s' = steps s ∧ meas s' = meas s ∧ cb s' = cb s
  measure_ok : ∀ s s', e.measure s = .ok () s' → steps s' = steps s ∧ meas s' = meas s + 1 ∧ cb s' = cb s
  callback_ok : ∀ s, steps (e.callback s).2 = steps s ∧ meas (e.callback s).2 = meas s ∧ cb (e.callback s).2 = cb s ++ [(e.callback s).1]

/-! ## Proofs -/

/-- a complete cycle -/
theorem cycle_done {e : RunEnv S} (g : Ghost e) {len : Nat} {dm : Bool} {m m' : Sim S} (h : cycle e len dm m = .done m') :
    g.steps m'.s = g.steps m.s + len ∧ g.meas m'.s = g.meas m.s + (if dm then 1 else 0) ∧ g.cb m'.s = g.cb m.s ∧
      m'.nmeasures = m.nmeasures + (if dm then 1 else 0) ∧ m'.cycleNumber = m.cycleNumber ∧ m.polls ≤ m'.polls := by
  unfold cycle at h
  induction len generalizing m with
  | zero =>
    simp only [cycleSteps, cycleEnd] at h
    rcases h1 : e.duty m.s with ⟨u, s1⟩ | s1 | _ <;> rw [h1] at h <;> simp only [Out.run] at h
    · obtain ⟨d1, d2, d3⟩ := g.duty_ok _ _ h1
      cases dm with
      | false =>
        simp only [Bool.false_eq_true, if_false] at h
        injection h with h
        subst h
        exact ⟨d1, d2, d3, by simp, rfl, le_rfl⟩
      | true =>
        simp only [if_true] at h
        rcases h2 : e.measure s1 with ⟨u, s2⟩ | s2 | _ <;> rw [h2] at h <;> simp only [Out.run] at h
        · obtain ⟨e1, e2, e3⟩ := g.measure_ok _ _ h2
          injection h with h
          subst h
          exact ⟨by simp only; omega, by simp only [if_true]; omega, by simp only; rw [e3, d3], rfl, rfl, le_rfl⟩
        · cases h
        · cases h
    · cases h
    · cases h
  | succ len ih =>
    simp only [cycleSteps] at h
    cases hs : e.signal m.polls with
    | true => rw [hs] at h; simp at h
    | false =>
    simp only [hs, Bool.false_eq_true, if_false] at h
    rcases h1 : e.step m.s with ⟨u, s1⟩ | s1 | _ <;> rw [h1] at h <;> simp only [Out.run] at h
    · obtain ⟨d1, d2, d3⟩ := g.step_ok _ _ h1
      obtain ⟨f1, f2, f3, f4, f5, f6⟩ := ih h
      simp only at f1 f2 f3 f4 f5 f6
      exact ⟨by omega, by omega, by rw [f3, d3], f4, f5, by omega⟩
    · cases h
    · cases h

/-- a cycle interrupted by a signal -/
theorem cycle_signal {e : RunEnv S} (g : Ghost e) {len : Nat} {dm : Bool} {m m' : Sim S} (h : cycle e len dm m = .signal m') :
    ∃ k < len, g.steps m'.s = g.steps m.s + k ∧ g.meas m'.s = g.meas m.s ∧ g.cb m'.s = g.cb m.s ∧ m'.nmeasures = m.nmeasures ∧
      m'.cycleNumber = m.cycleNumber ∧ m.polls < m'.polls ∧ e.signal (m'.polls - 1) = true := by
  unfold cycle at h
  induction len generalizing m with
  | zero =>
    simp only [cycleSteps, cycleEnd] at h
    rcases h1 : e.duty m.s with ⟨u, s1⟩ | s1 | _ <;> rw [h1] at h <;> simp only [Out.run] at h
    · cases dm with
      | false => simp at h
      | true =>
        simp only [if_true] at h
        rcases h2 : e.measure s1 with ⟨u, s2⟩ | s2 | _ <;> rw [h2] at h <;> simp only [Out.run] at h <;> cases h
    · cases h
    · cases h
  | succ len ih =>
    simp only [cycleSteps] at h
    cases hs : e.signal m.polls with
    | true =>
      simp only [hs, if_true] at h
      injection h with h
      subst h
      exact ⟨0, by omega, rfl, rfl, rfl, rfl, rfl, by simp, by simpa using hs⟩
    | false =>
      simp only [hs, Bool.false_eq_true, if_false] at h
      rcases h1 : e.step m.s with ⟨u, s1⟩ | s1 | _ <;> rw [h1] at h <;> simp only [Out.run] at h
      · obtain ⟨d1, d2, d3⟩ := g.step_ok _ _ h1
        obtain ⟨k, hk, f1, f2, f3, f4, f5, f6, f7⟩ := ih h
        simp only at f1 f2 f3 f4 f5 f6
        exact ⟨k + 1, by omega, by omega, by omega, by rw [f3, d3], f4, f5, by omega, f7⟩
      · cases h
      · cases h

theorem afterCycle_some {e : RunEnv S} (g : Ghost e) {n : Int} {l : Bool} {NC : Int} {iter : Nat} {m m' : Sim S} {fin stop : Bool}
    (h : afterCycle e n l NC iter m = some (fin, stop, m')) :
    NC + 1 ≤ intMax ∧ (fin = true ↔ NC + 1 ≥ n ∧ 0 ≤ n) ∧ m.polls ≤ m'.polls ∧
    (∃ b, g.cb m'.s = g.cb m.s ++ [b] ∧ (stop = false → b = false ∧ fin = false ∧ e.signal (m'.polls - 1) = false ∧ m'.polls = m.polls + 1 ∧ (e.rethrow && e.hasEnv && (l || e.remote iter)) = false) ∧
      (stop = true → b = true ∨ (e.signal (m'.polls - 1) = true ∧ m'.polls = m.polls + 1) ∨ fin = true ∨ (e.rethrow && e.hasEnv && (l || e.remote iter)) = true)) ∧
    g.steps m'.s = g.steps m.s ∧ g.meas m'.s = g.meas m.s ∧ m'.nmeasures = m.nmeasures ∧ m'.cycleNumber = m.cycleNumber := by
  unfold afterCycle at h
  by_cases h1 : NC + 1 > intMax
  · rw [if_pos h1] at h; cases h
  rw [if_neg h1] at h
  cases h2 : (e.callback m.s).1
  case true =>
    obtain ⟨c1, c2, c3⟩ := g.callback_ok m.s
    simp only [h2, if_true, Option.some.injEq, Prod.mk.injEq] at h
    obtain ⟨h3, h4, rfl⟩ := h
    refine ⟨by omega, ?_, le_rfl, ⟨true, by simp only; rw [c3, h2], ?_, ?_⟩, c1, c2, rfl, rfl⟩
    · rw [← h3]; simp [not_lt]
    · intro hs; rw [← h4] at hs; simp at hs
    · intro _; exact Or.inl rfl
  case false =>
    obtain ⟨c1, c2, c3⟩ := g.callback_ok m.s
    simp only [h2, Bool.false_eq_true, if_false, Option.some.injEq, Prod.mk.injEq] at h
    obtain ⟨h3, h4, rfl⟩ := h
    refine ⟨by omega, ?_, by simp, ⟨false, by simp only; rw [c3, h2], ?_, ?_⟩, c1, c2, rfl, rfl⟩
    · rw [← h3]; simp [not_lt]
    · intro hs
      rw [hs] at h4
      simp only [Bool.or_eq_false_iff] at h4
      obtain ⟨⟨h4, h5⟩, h6⟩ := h4
      refine ⟨rfl, by rw [← h3, h5], by simpa using h4, rfl, ?_⟩
      simpa using h6
    · intro hs
      rw [hs] at h4
      simp only [Bool.or_eq_true] at h4
      rcases h4 with (h4 | h4) | h4
      · exact Or.inr (Or.inl ⟨by simpa using h4, rfl⟩)
      · exact Or.inr (Or.inr (Or.inl (by rw [← h3, h4])))
      · exact Or.inr (Or.inr (Or.inr (by simpa using h4)))

/-- what a run that returned did -/
structure Returned (e : RunEnv S) (g : Ghost e) (n : Int) (len : Nat) (dm : Bool) (NC0 : Int) (m : Sim S) (status : Nat) (m' : Sim S)
    (NC full part : Nat) : Prop where
  pos : 1 ≤ NC
  cycles : m'.cycleNumber = m.cycleNumber + NC0 + NC
  steps : g.steps m'.s = g.steps m.s + full * len + part
  measures : g.meas m'.s = g.meas m.s + (if dm then full else 0)
  nmeasures : m'.nmeasures = m.nmeasures + (if dm then full else 0)
  /-- all cycles are complete, but for the last one when a signal was received -/
  whole : (full = NC ∧ part = 0) ∨ (full + 1 = NC ∧ part < len ∧ ∃ k, e.signal k = true)
  bound : 0 ≤ n → NC0 + NC ≤ max n (NC0 + 1)
  /-- the callback was called once per cycle, and returned `false` each time but the last -/
  calls : ∃ b, g.cb m'.s = g.cb m.s ++ List.replicate (NC - 1) false ++ [b] ∧ (status = 1 → b = true)
  status0 : status = 0 ↔ 0 ≤ n ∧ NC0 + NC ≥ n
  status2 : status = 2 → ∃ k, e.signal k = true
  /-- an earlier signal is reported, unless the run is at its end -/
  status1 : status = 1 → ∀ k ≤ m'.polls - 1, e.signal k = false
  range : status ≤ 2

theorem mainLoop_ret {e : RunEnv S} (g : Ghost e) (hsig : ∀ i j, i ≤ j → e.signal i = true → e.signal j = true) (hrem : ∀ i j, i ≤ j → e.remote i = true → e.remote j = true) {n : Int} {len : Nat} {dm : Bool} :
    ∀ (f : Nat) (NC0 : Int) (iter : Nat) (m m' : Sim S) (status : Nat), mainLoop e n len dm f NC0 iter m = .ret status m' →
      ∃ NC full part, Returned e g n len dm NC0 m status m' NC full part := by
  intro f
  induction f with
  | zero => intro NC0 iter m m' status h; cases h
  | succ f ih =>
    intro NC0 iter m m' status h
    simp only [mainLoop] at h
    -- the part after the cycle
    have key : ∀ (m1 : Sim S) (d part : Nat) (l : Bool), m1.cycleNumber = m.cycleNumber → g.steps m1.s = g.steps m.s + d * len + part →
        g.meas m1.s = g.meas m.s + (if dm then d else 0) → m1.nmeasures = m.nmeasures + (if dm then d else 0) → g.cb m1.s = g.cb m.s → l = false →
        ((d = 1 ∧ part = 0) ∨ (d = 0 ∧ part < len ∧ 0 < m1.polls ∧ e.signal (m1.polls - 1) = true)) →
        (match afterCycle e n l NC0 iter m1 with
          | none => RunOut.undef
          | some (finished, stop, m) => if stop = true then finish e l (NC0 + 1) (iter + 1) finished m else mainLoop e n len dm f (NC0 + 1) (iter + 1) m) = .ret status m' →
        ∃ NC full part, Returned e g n len dm NC0 m status m' NC full part := by
      intro m1 d part l k1 k2 k3 k4 k5 kl k6 hk
      rcases ha : afterCycle e n l NC0 iter m1 with _ | ⟨fin, stop, m2⟩ <;> rw [ha] at hk
      · cases hk
      · obtain ⟨a1, a2, ap, ⟨b, a3, a4, a5⟩, a6, a7, a8, a9⟩ := afterCycle_some g ha
        simp only at hk
        cases stop with
        | true =>
          simp only [if_true] at hk
          unfold finish at hk
          simp only at hk
          cases hc : (e.rethrow && e.hasEnv) && (l || e.remote (iter + 1)) with
          | true => rw [hc] at hk; cases hk
          | false =>
            rw [hc] at hk
            simp only [Bool.false_eq_true, if_false] at hk
            have hno : (e.rethrow && e.hasEnv && (l || e.remote iter)) = false := by
              rw [kl] at hc ⊢
              by_contra hcon
              simp only [Bool.false_or, Bool.not_eq_false, Bool.and_eq_true] at hcon
              have := hrem iter (iter + 1) (by omega) hcon.2
              simp [hcon.1, this] at hc
            have hb : b = true ∨ (e.signal (m2.polls - 1) = true ∧ m2.polls = m1.polls + 1) ∨ fin = true := by
              rcases a5 rfl with h | h | h | h
              · exact Or.inl h
              · exact Or.inr (Or.inl h)
              · exact Or.inr (Or.inr h)
              · rw [hno] at h; cases h
            cases hf : fin with
            | true =>
              rw [hf] at hk
              simp only [if_true] at hk
              injection hk with hs hm
              subst hm hs
              have hn := a2.1 hf
              refine ⟨1, d, part, ⟨le_rfl, by simp only; omega, by rw [a6]; exact k2, by rw [a7]; exact k3, by simp only; rw [a8]; exact k4, ?_, ?_, ⟨b, ?_, by simp⟩, ?_, by simp, by simp, by omega⟩⟩
              · rcases k6 with ⟨r1, r2⟩ | ⟨r1, r2, _, r3⟩
                · exact Or.inl ⟨r1, r2⟩
                · exact Or.inr ⟨by omega, r2, _, r3⟩
              · intro _; exact le_max_right _ _
              · rw [a3, k5]; simp
              · simp only [true_iff]; exact ⟨hn.2, hn.1⟩
            | false =>
              rw [hf] at hk
              simp only [Bool.false_eq_true, if_false] at hk
              injection hk with hs hm
              subst hm
              have hn : ¬(0 ≤ n ∧ NC0 + ((1 : Nat) : Int) ≥ n) := by
                intro hn
                have := a2.2 ⟨hn.2, hn.1⟩
                rw [hf] at this; cases this
              refine ⟨1, d, part, ⟨le_rfl, by simp only; omega, by rw [a6]; exact k2, by rw [a7]; exact k3, by simp only; rw [a8]; exact k4, ?_, ?_, ⟨b, ?_, ?_⟩, ?_, ?_, ?_, ?_⟩⟩
              · rcases k6 with ⟨r1, r2⟩ | ⟨r1, r2, _, r3⟩
                · exact Or.inl ⟨r1, r2⟩
                · exact Or.inr ⟨by omega, r2, _, r3⟩
              · intro _; exact le_max_right _ _
              · rw [a3, k5]; simp
              · intro h1
                rw [← hs] at h1
                rcases hb with h | ⟨h, h'⟩ | h
                · exact h
                · rw [if_pos (hsig _ _ (by omega) h)] at h1; cases h1
                · rw [hf] at h; cases h
              · constructor
                · intro h0
                  rw [← hs] at h0
                  split_ifs at h0
                · intro h0; exact absurd h0 hn
              · intro h2
                rw [← hs] at h2
                by_cases h3 : e.signal m2.polls = true
                · exact ⟨_, h3⟩
                · rw [if_neg h3] at h2; cases h2
              · intro h1 k hk
                rw [← hs] at h1
                have h3 : ¬e.signal m2.polls = true := by
                  intro h3
                  rw [if_pos h3] at h1; cases h1
                simp only at hk
                by_contra hc
                simp only [Bool.not_eq_false] at hc
                exact h3 (hsig k _ (by omega) hc)
              · rw [← hs]; split_ifs <;> omega
        | false =>
          simp only [Bool.false_eq_true, if_false] at hk
          obtain ⟨b1, b2, b3, b4, b5⟩ := a4 rfl
          obtain ⟨NC, full, prt, r⟩ := ih _ _ _ _ _ hk
          have hd : d = 1 ∧ part = 0 := by
            rcases k6 with h | ⟨_, _, _, h⟩
            · exact h
            · rw [hsig _ _ (by omega) h] at b3; cases b3
          obtain ⟨rfl, rfl⟩ := hd
          have hn : ¬(NC0 + 1 ≥ n ∧ 0 ≤ n) := by
            intro hn
            have := a2.2 hn
            rw [b2] at this; cases this
          obtain ⟨c, hc1, hc2⟩ := r.calls
          have hpos := r.pos
          refine ⟨NC + 1, full + 1, prt, ⟨by omega, ?_, ?_, ?_, ?_, ?_, ?_, ⟨c, ?_, hc2⟩, ?_, r.status2, r.status1, r.range⟩⟩
          · rw [r.cycles, a9, k1]; push_cast; ring
          · rw [r.steps, a6, k2]; ring
          · rw [r.measures, a7, k3]; split_ifs <;> omega
          · rw [r.nmeasures, a8, k4]; split_ifs <;> push_cast <;> ring
          · rcases r.whole with ⟨h1, h2⟩ | ⟨h1, h2⟩
            · exact Or.inl ⟨by omega, h2⟩
            · exact Or.inr ⟨by omega, h2⟩
          · intro h0
            have := r.bound h0
            have hlt : NC0 + 1 < n := by
              by_contra hc
              exact hn ⟨by omega, h0⟩
            push_cast
            rw [max_eq_left (by omega)] at this
            rw [max_eq_left (by omega)]
            omega
          · rw [hc1, a3, k5, b1]
            simp only [List.append_assoc]
            rw [show NC + 1 - 1 = (NC - 1) + 1 by omega, List.replicate_succ]
            simp
          · rw [r.status0]; push_cast
            constructor <;> rintro ⟨h1, h2⟩ <;> exact ⟨h1, by omega⟩
    rcases hcy : cycle e len dm m with m1 | m1 | m1 | _ <;> rw [hcy] at h
    · obtain ⟨c1, c2, c3, c4, c5, -⟩ := cycle_done g hcy
      exact key m1 1 0 false c5 (by omega) c2 (by rw [c4]; split_ifs <;> rfl) c3 rfl (Or.inl ⟨rfl, rfl⟩) h
    · obtain ⟨k, hk, c1, c2, c3, c4, c5, c6, c7⟩ := cycle_signal g hcy
      exact key m1 0 k false c5 (by omega) (by rw [c2]; split_ifs <;> rfl) (by rw [c4]; split_ifs <;> simp) c3 rfl (Or.inr ⟨rfl, hk, by omega, c7⟩) h
    · simp only at h
      split_ifs at h with h1 h2
      rcases ha : afterCycle e n true NC0 iter m1 with _ | ⟨fin, stop, m2⟩ <;> rw [ha] at h
      · cases h
      · obtain ⟨a1, a2, ap, ⟨b, a3, a4, a5⟩, a6, a7, a8, a9⟩ := afterCycle_some g ha
        simp only at h
        cases stop with
        | true =>
          simp only [if_true] at h
          unfold finish at h
          simp [h1, h2] at h
        | false =>
          have := (a4 rfl).2.2.2.2
          simp [h1, h2] at this
    · cases h

/-- **C29 (partial).** For all cycle lengths, requested numbers of cycles, user functions, signal and emergency histories: if a run with `n ≠ 0` returns, then it performed a number `NC ≥ 1` of
cycles, added to the cycle counter, at most `n` when `n > 0`. Every cycle performed `len` steps and, if measures are enabled, one call of the measures; only the last cycle may be
interrupted, and only by a signal, and then it is not measured. The callback was called once per cycle and returned `false` until the last. Status 0 means that the requested number of cycles was reached, 1 that the callback returned `true` and
no signal was seen, 2 that a signal was received. Missing: status 0 does not say that the last cycle is complete (`C29_signal_in_last_cycle`), and beyond `2^31 - 1` cycles the run is undefined (`C29_counter_overflow`). -/
theorem C29_accounting_partial {e : RunEnv S} (g : Ghost e) (hsig : ∀ i j, i ≤ j → e.signal i = true → e.signal j = true)
    (hrem : ∀ i j, i ≤ j → e.remote i = true → e.remote j = true) (n : Int) (hn : n ≠ 0) (len : Nat) (dm : Bool) (fuel : Nat) (m m' : Sim S) (status : Nat)
    (h : run e n len dm fuel m = .ret status m') :
    ∃ NC full part : Nat, 1 ≤ NC ∧ (0 < n → NC ≤ n) ∧ m'.cycleNumber = m.cycleNumber + NC ∧ g.steps m'.s = g.steps m.s + full * len + part ∧
      g.meas m'.s = g.meas m.s + (if dm then full else 0) ∧ m'.nmeasures = (if dm then full else 0) ∧
      ((full = NC ∧ part = 0) ∨ (full + 1 = NC ∧ part < len ∧ ∃ k, e.signal k = true)) ∧
      (∃ b, g.cb m'.s = g.cb m.s ++ List.replicate (NC - 1) false ++ [b] ∧ (status = 1 → b = true)) ∧
      (status = 0 ↔ (NC : Int) = n) ∧ (status = 2 → ∃ k, e.signal k = true) ∧ (status = 1 → ∀ k ≤ m'.polls - 1, e.signal k = false) ∧ status ≤ 2 := by
  unfold run at h
  rw [if_neg hn] at h
  obtain ⟨NC, full, part, r⟩ := mainLoop_ret g hsig hrem _ _ _ _ _ _ h
  have hp := r.pos
  have hb : 0 < n → (NC : Int) ≤ n := by
    intro h0
    have := r.bound h0.le
    rw [max_eq_left (by omega)] at this
    omega
  refine ⟨NC, full, part, hp, hb, by rw [r.cycles]; simp, r.steps, r.measures, by rw [r.nmeasures]; simp, r.whole, r.calls, ?_, r.status2, r.status1, r.range⟩
  rw [r.status0]
  constructor
  · rintro ⟨h1, h2⟩
    have := hb (by omega)
    omega
  · intro h1
    exact ⟨by omega, by omega⟩

/-- user functions that never throw -/
structure Total (e : RunEnv S) : Prop where
  step : ∀ s, ∃ s', e.step s = .ok () s'
  duty : ∀ s, ∃ s', e.duty s = .ok () s'
  measure : ∀ s, ∃ s', e.measure s = .ok () s'
  remote : ∀ k, e.remote k = false

theorem cycle_total {e : RunEnv S} (ht : Total e) (len : Nat) (dm : Bool) (m : Sim S) :
    (∃ m', cycle e len dm m = .done m') ∨ (∃ m', cycle e len dm m = .signal m') := by
  unfold cycle
  induction len generalizing m with
  | zero =>
    obtain ⟨s1, h1⟩ := ht.duty m.s
    obtain ⟨s2, h2⟩ := ht.measure s1
    simp only [cycleSteps, cycleEnd]
    rw [h1]
    simp only [Out.run]
    left
    cases dm with
    | false => exact ⟨_, rfl⟩
    | true => simp only [if_true]; rw [h2]; exact ⟨_, rfl⟩
  | succ len ih =>
    obtain ⟨s1, h1⟩ := ht.step m.s
    simp only [cycleSteps]
    split_ifs with hs
    · exact Or.inr ⟨_, rfl⟩
    · rw [h1]; exact ih _

theorem mainLoop_total {e : RunEnv S} (ht : Total e) {n : Int} (h0 : 0 < n) (hmax : n ≤ intMax) (len : Nat) (dm : Bool) :
    ∀ (f : Nat) (NC : Int) (iter : Nat) (m : Sim S), NC < n → n ≤ NC + f → ∃ st m', mainLoop e n len dm f NC iter m = .ret st m' := by
  intro f
  induction f with
  | zero => intro NC iter m h1 h2; simp at h2; omega
  | succ f ih =>
    intro NC iter m h1 h2
    have key : ∀ m1 : Sim S, ∃ st m', (match afterCycle e n false NC iter m1 with
          | none => RunOut.undef
          | some (finished, stop, m) => if stop = true then finish e false (NC + 1) (iter + 1) finished m else mainLoop e n len dm f (NC + 1) (iter + 1) m) = .ret st m' := by
      intro m1
      have hr := ht.remote
      rcases ha : afterCycle e n false NC iter m1 with _ | ⟨fin, stop, m2⟩
      · unfold afterCycle at ha
        rw [if_neg (by omega)] at ha
        cases ha
      · simp only
        cases stop with
        | true =>
          simp only [if_true]
          unfold finish
          simp only [Bool.false_or, hr, Bool.and_false, Bool.false_eq_true, if_false]
          exact ⟨_, _, rfl⟩
        | false =>
          simp only [Bool.false_eq_true, if_false]
          by_cases hlast : NC + 1 < n
          · exact ih _ _ _ hlast (by push_cast at h2; omega)
          · exfalso
            unfold afterCycle at ha
            rw [if_neg (by omega)] at ha
            have hd : decide (NC + 1 ≥ n) = true := by simp; omega
            have hd' : decide (n < 0) = false := by simp; omega
            simp only [hd, hd'] at ha
            split_ifs at ha <;> simp at ha
    simp only [mainLoop]
    rcases cycle_total ht len dm m with ⟨m1, h⟩ | ⟨m1, h⟩ <;> rw [h] <;> exact key m1

/-- **C29, termination.** A run of `0 < n < 2^31` cycles whose user functions do not throw returns, whatever the signals and the callback. -/
theorem C29_returns {e : RunEnv S} (ht : Total e) (n : Int) (h0 : 0 < n) (hmax : n < 2 ^ 31) (len : Nat) (dm : Bool) (m : Sim S) :
    ∃ st m', run e n len dm n.toNat m = .ret st m' := by
  unfold run
  rw [if_neg (by omega)]
  exact mainLoop_total ht h0 (by unfold intMax; omega) len dm _ _ _ _ h0 (by omega)

/-- more passes of the model do not change the outcome -/
theorem mainLoop_more {e : RunEnv S} {n : Int} {len : Nat} {dm : Bool} : ∀ (f g : Nat) (NC : Int) (iter : Nat) (m : Sim S), f ≤ g →
    mainLoop e n len dm f NC iter m ≠ .running → mainLoop e n len dm g NC iter m = mainLoop e n len dm f NC iter m := by
  intro f
  induction f with
  | zero => intro g NC iter m _ h; exact absurd rfl h
  | succ f ih =>
    intro g NC iter m hg h
    obtain ⟨g, rfl⟩ : ∃ g', g = g' + 1 := ⟨g - 1, by omega⟩
    simp only [mainLoop] at h ⊢
    have key : ∀ (l : Bool) (m1 : Sim S), (match afterCycle e n l NC iter m1 with
          | none => RunOut.undef
          | some (finished, stop, m) => if stop = true then finish e l (NC + 1) (iter + 1) finished m else mainLoop e n len dm f (NC + 1) (iter + 1) m) ≠ .running →
        (match afterCycle e n l NC iter m1 with
          | none => RunOut.undef
          | some (finished, stop, m) => if stop = true then finish e l (NC + 1) (iter + 1) finished m else mainLoop e n len dm g (NC + 1) (iter + 1) m) =
        (match afterCycle e n l NC iter m1 with
          | none => RunOut.undef
          | some (finished, stop, m) => if stop = true then finish e l (NC + 1) (iter + 1) finished m else mainLoop e n len dm f (NC + 1) (iter + 1) m) := by
      intro l m1 hh
      rcases ha : afterCycle e n l NC iter m1 with _ | ⟨fin, stop, m2⟩ <;> rw [ha] at hh
      · simp only at hh ⊢
        cases stop with
        | true => rfl
        | false =>
          simp only [Bool.false_eq_true, if_false] at hh ⊢
          exact ih g _ _ _ (by omega) hh
    rcases hcy : cycle e len dm m with m1 | m1 | m1 | _ <;> rw [hcy] at h
    · exact key false m1 h
    · exact key false m1 h
    · simp only at h ⊢
      split_ifs at h ⊢ with h1 h2
      · exact key true m1 h
      · rfl
      · rfl

/-- **C29, exceptions.** If the first cycle in which a user function throws is reached, the run does not return: it throws when exceptions are sent to all nodes, and ends
the program otherwise (it is undefined when they should be sent and MPI is not initialised). -/
theorem C29_exception {e : RunEnv S} (n : Int) (hn : n ≠ 0) (len : Nat) (dm : Bool) (fuel : Nat) (m m1 : Sim S)
    (h : cycle e len dm { m with nmeasures := 0 } = .exn m1) :
    (e.rethrow = true → e.hasEnv = true → ∃ m', run e n len dm (fuel + 1) m = .throws m') ∧
    (e.rethrow = true → e.hasEnv = false → run e n len dm (fuel + 1) m = .undef) ∧
    (e.rethrow = false → run e n len dm (fuel + 1) m = .aborted m1) := by
  unfold run
  rw [if_neg hn]
  simp only [mainLoop]
  rw [h]
  refine ⟨?_, ?_, ?_⟩
  · intro h1 h2
    simp only [h1, h2, if_true]
    rcases ha : afterCycle e n true 0 0 m1 with _ | ⟨fin, stop, m2⟩
    · unfold afterCycle at ha
      rw [if_neg (by decide)] at ha
      cases ha
    · have hst : stop = true := by
        unfold afterCycle at ha
        rw [if_neg (by decide)] at ha
        simp only [h1, h2, Bool.and_self, Bool.true_or, Bool.or_true, Option.some.injEq, Prod.mk.injEq] at ha
        exact ha.2.1.symm
      simp only [hst, if_true]
      unfold finish
      simp [h1, h2]
  · intro h1 h2
    simp [h1, h2]
  · intro h1
    simp [h1]

end

/-! ### Examples and disagreements -/

/-- a world with three counters: steps, measures, values of the callback -/
structure CW where
  steps : Nat
  meas : Nat
  cb : List Bool
deriving DecidableEq

/-- the callback stops at the `stopAt`-th call; a signal arrives before the poll `sig`; the step number `bad` throws -/
def cEnv (stopAt : Nat) (sig : Option Nat) (bad : Option Nat) : RunEnv CW where
  step s := if bad = some s.steps then .exn s else .ok () { s with steps := s.steps + 1 }
  duty s := .ok () s
  measure s := .ok () { s with meas := s.meas + 1 }
  callback s := (decide (s.cb.length + 1 = stopAt), { s with cb := s.cb ++ [decide (s.cb.length + 1 = stopAt)] })
  signal k := match sig with | some a => decide (a ≤ k) | none => false
  remote _ := false
  hasEnv := true
  rethrow := true

def cGhost (a : Nat) (b c : Option Nat) : Ghost (cEnv a b c) where
  steps := CW.steps
  meas := CW.meas
  cb := CW.cb
  step_ok := by
    intro s s' h
    simp only [cEnv] at h
    split_ifs at h
    injection h with _ h
    subst h
    exact ⟨rfl, rfl, rfl⟩
  duty_ok := by intro s s' h; injection h with _ h; subst h; exact ⟨rfl, rfl, rfl⟩
  measure_ok := by intro s s' h; injection h with _ h; subst h; exact ⟨rfl, rfl, rfl⟩
  callback_ok := by intro s; exact ⟨rfl, rfl, rfl⟩

/-- status, number of cycles, `nmeasures`, steps, measures -/
def outcome : RunOut CW → Option (Nat × Int × Int × Nat × Nat)
  | .ret st m => some (st, m.cycleNumber, m.nmeasures, m.s.steps, m.s.meas)
  | _ => none

def c0 : Sim CW := ⟨⟨0, 0, []⟩, 77, 5, 0⟩

-- three cycles of four steps, measured
example : outcome (run (cEnv 0 none none) 3 4 true 10 c0) = some (0, 8, 3, 12, 3) := by decide
-- stopped by the callback in the second cycle
example : outcome (run (cEnv 2 none none) (-1) 4 true 10 c0) = some (1, 7, 2, 8, 2) := by decide
-- a signal in the second cycle: two steps of it are done and it is not measured
example : outcome (run (cEnv 0 (some 7) none) 3 4 true 10 c0) = some (2, 7, 1, 6, 1) := by decide
-- an exception in the second cycle
example : (match run (cEnv 0 none (some 5)) 3 4 true 10 c0 with | .throws m => m.s.steps | _ => 0) = 5 := by decide
example : outcome (warmupAndAccumulate (cEnv 0 none none) (cEnv 0 none none) 2 3 4 10 c0) = some (0, 10, 3, 20, 3) := by decide

/-- **A signal during the last requested cycle**: the cycle is interrupted and not measured, and the status is 0 ("the computation has run until the end"). -/
theorem C29_signal_in_last_cycle : ∃ m', run (cEnv 0 (some 2) none) 1 4 true 1 c0 = .ret 0 m' ∧ m'.s.steps = 2 ∧ m'.s.meas = 0 ∧ m'.nmeasures = 0 :=
  ⟨⟨⟨2, 0, [false]⟩, 0, 6, 4⟩, rfl, rfl, rfl, rfl⟩

/-- **No cycle requested**: the number of measures of an earlier run (or the uninitialised member) stays. -/
theorem C29_no_cycle (dm : Bool) (fuel : Nat) : run (cEnv 0 none none) 0 4 dm fuel c0 = .ret 0 c0 := rfl

/-- **The counter of cycles is an `int`** while the number of cycles has 64 bits: a run without signal, exception and stop that reaches `2^31 - 1` cycles and is to continue is undefined. -/
theorem C29_counter_overflow {S : Type} {e : RunEnv S} (ht : Total e) (hs : ∀ k, e.signal k = false) (hc : ∀ s, (e.callback s).1 = false) (n : Int) (hn : n < 0 ∨ 2 ^ 31 ≤ n) (len : Nat)
    (dm : Bool) (m : Sim S) : run e n len dm (2 ^ 31) m = .undef := by
  have key : ∀ (f : Nat) (NC : Int) (iter : Nat) (m : Sim S), 0 ≤ NC → NC + f = 2 ^ 31 → 1 ≤ f → mainLoop e n len dm f NC iter m = .undef := by
    intro f
    induction f with
    | zero => intro NC iter m _ _ h; omega
    | succ f ih =>
      intro NC iter m h0 hf _
      have hcy : ∃ m1, cycle e len dm m = .done m1 := by
        rcases cycle_total ht len dm m with h | ⟨m1, h⟩
        · exact h
        · exfalso
          have : ∀ len m, cycle e len dm m ≠ .signal m1 := by
            intro len
            unfold cycle
            induction len with
            | zero =>
              intro m h
              obtain ⟨s1, h1⟩ := ht.duty m.s
              obtain ⟨s2, h2⟩ := ht.measure s1
              simp only [cycleSteps, cycleEnd] at h
              rw [h1] at h
              simp only [Out.run] at h
              cases dm with
              | false => simp at h
              | true => simp only [if_true] at h; rw [h2] at h; cases h
            | succ len ih =>
              intro m h
              obtain ⟨s1, h1⟩ := ht.step m.s
              simp only [cycleSteps, hs, Bool.false_eq_true, if_false] at h
              rw [h1] at h
              exact ih _ h
          exact this len m h
      obtain ⟨m1, h1⟩ := hcy
      simp only [mainLoop]
      rw [h1]
      simp only
      unfold afterCycle
      by_cases hlast : f = 0
      · subst hlast
        rw [if_pos (by unfold intMax; push_cast at hf; omega)]
      · rw [if_neg (by unfold intMax; push_cast at hf; omega)]
        have hfin : (decide (NC + 1 ≥ n) && !decide (n < 0)) = false := by
          simp only [Bool.and_eq_false_iff, decide_eq_false_iff_not, Bool.not_eq_false', decide_eq_true_eq]
          push_cast at hf
          omega
        simp only [hfin, hc, hs, ht.remote, Bool.or_self, Bool.and_false, Bool.false_eq_true, if_false]
        exact ih _ _ _ (by omega) (by push_cast at hf; omega) (by omega)
  unfold run
  rw [if_neg (by omega)]
  exact key _ _ _ _ le_rfl (by norm_num) (by norm_num)

end Verif.MC
