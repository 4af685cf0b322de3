import Mathlib.Data.Rat.Defs
import Mathlib.Algebra.Order.Field.Basic
import Mathlib.Algebra.BigOperators.Group.List.Basic
import Mathlib.Algebra.Order.BigOperators.Group.List
import Mathlib.Data.List.GetD
import Mathlib.Tactic.Linarith
import Mathlib.Tactic.FieldSimp
import Mathlib.Tactic.Ring
import Mathlib.Tactic.Positivity

/-!
# Monte Carlo moves and move sets

Source: `/repo/c++/triqs/mc_tools/mc_move_set.hpp` and the Metropolis step of `mc_generic.hpp`.

A user move is a record of three functions on a world `W` (configuration, random generator, anything else), which may throw. Doubles are an exact
ordered field `R`; the sign type is a field `K` with an absolute value in `R` (`Num`); what `attempt` returns may also be infinite or not a number.
A move set is a move of the world `W × SetSt K`, so that sets can be nested.
-/

namespace Verif.MC

/-! ## Model -/

/-- normal return, C++ exception, undefined behaviour -/
inductive Out (W α : Type) where
  | ok (a : α) (w : W)
  | exn (w : W)
  | undef

/-- a number of the sign type, as far as the code looks at it -/
inductive Ratio (K : Type) where
  | fin (k : K)
  | inf (neg : Bool)
  | nan
deriving DecidableEq

/-- concept `Move`, as erased by `class move`, mc_move_set.hpp:59-86 -/
structure Move (W K : Type) where
  attempt : W → Out W (Ratio K)
  accept : W → Out W K
  reject : W → Out W Unit

/-- the sign type: `double` or `std::complex<double>` -/
structure Num (K R : Type) where
  abs : K → R
  ofReal : R → K
  complex : Bool

/-- mutable members of a move set: counters of the moves (`NProposed`, `Naccepted`), `current`, `try_sign_ratio`, mc_move_set.hpp:47 and 136-142 -/
structure SetSt (K : Type) where
  nprop : List Nat
  nacc : List Nat
  current : Option Nat
  trySign : K

/-- the moves and their probabilities, and the random generator of the world -/
structure SetDef (W K R : Type) where
  moves : List (Move W K)
  probs : List R
  draw : W → R × W

section
variable {W K R : Type} [Field R] [LinearOrder R] [Field K]

/-- running sums: `for (u = 1; ...) v[u] += v[u - 1]`, mc_move_set.hpp:300 -/
def runningSums : R → List R → List R
  | _, [] => []
  | acc, p :: ps => (acc + p) :: runningSums (acc + p) ps

/-- the last element is increased by 0.001, mc_move_set.hpp:302 -/
def shiftLast : List R → List R
  | [] => []
  | [c] => [c + 1 / 1000]
  | c :: cs => c :: shiftLast cs

/-- `normaliseProba`, mc_move_set.hpp:293-305; `probs` are the probabilities without the leading zero of the constructor. -/
def accSums (probs : List R) : List R :=
  let v := (0 : R) :: probs
  let acc := v.sum
  shiftLast (runningSums 0 (v.map (· / acc)))

/-- `while (proba >= Proba_Moves_Acc_Sum[n]) n++`, mc_move_set.hpp:203; `none` when the end of the table is passed. -/
def scan (u : R) : List R → Nat → Option Nat
  | [], _ => none
  | c :: cs, n => if u ≥ c then scan u cs (n + 1) else some n

/-- the number of the move chosen, mc_move_set.hpp:200-206; `none` is an access outside the tables. -/
def pick (probs : List R) (u : R) : Option Nat :=
  match scan u (accSums probs) 0 with
  | some (n + 1) => if n < probs.length then some n else none
  | _ => none

def bump (l : List Nat) (i : Nat) : List Nat := l.set i (l.getD i 0 + 1)

/-- `try_sign_ratio` for a number that is accepted by the tests, mc_move_set.hpp:181-188 and 222 -/
def signOf (N : Num K R) : Ratio K → K
  | .fin k => if N.abs k > 1 / 10 ^ 14 then k / N.ofReal (N.abs k) else 1
  | .inf neg => if neg then -1 else 1
  | .nan => 1

/-- `attempt`, mc_move_set.hpp:196-225, with `move::attempt`, 94-97. -/
def setAttempt (N : Num K R) (d : SetDef W K R) (s : W × SetSt K) : Out (W × SetSt K) R :=
  if d.moves.length = 0 then .exn s
  else
    let p := d.draw s.1
    match pick d.probs p.1 with
    | none => .undef
    | some n =>
      match d.moves[n]? with
      | none => .undef
      | some m =>
        let st := { s.2 with current := some n, nprop := bump s.2.nprop n }
        match m.attempt p.2 with
        | .undef => .undef
        | .exn w => .exn (w, st)
        | .ok r w =>
          match r with
          | .fin k => .ok (N.abs k) (w, { st with trySign := signOf N r })
          | .inf _ => if N.complex then .exn (w, st) else .ok 100 (w, { st with trySign := signOf N r })
          | .nan => .exn (w, st)

/-- `accept`, mc_move_set.hpp:232-244, with `move::accept`, 98-101. -/
def setAccept (d : SetDef W K R) (s : W × SetSt K) : Out (W × SetSt K) K :=
  match s.2.current.bind (fun n => d.moves[n]?.map (fun m => (n, m))) with
  | none => .undef
  | some (n, m) =>
    let st := { s.2 with nacc := bump s.2.nacc n }
    match m.accept s.1 with
    | .undef => .undef
    | .exn w => .exn (w, st)
    | .ok a w => .ok (st.trySign * a) (w, st)

/-- `reject`, mc_move_set.hpp:248-251. -/
def setReject (d : SetDef W K R) (s : W × SetSt K) : Out (W × SetSt K) Unit :=
  match s.2.current.bind (fun n => d.moves[n]?) with
  | none => .undef
  | some m =>
    match m.reject s.1 with
    | .undef => .undef
    | .exn w => .exn (w, s.2)
    | .ok _ w => .ok () (w, s.2)

/-- a move set used as a move: the `double` returned by its `attempt` is converted to the sign type, mc_move_set.hpp:70-72 -/
def asMove (N : Num K R) (d : SetDef W K R) : Move (W × SetSt K) K where
  attempt s := match setAttempt N d s with
    | .ok r s => .ok (.fin (N.ofReal r)) s
    | .exn s => .exn s
    | .undef => .undef
  accept := setAccept d
  reject := setReject d

/-- apply a function of one part of the world to the world -/
def Out.via {V U α : Type} (e : V ≃ W × U) (v : V) : Out W α → Out V α
  | .ok a w => .ok a (e.symm (w, (e v).2))
  | .exn w => .exn (e.symm (w, (e v).2))
  | .undef => .undef

/-- a move that looks at one part of the world only (the state of other moves is in the other part) -/
def liftMove {V U : Type} (e : V ≃ W × U) (m : Move W K) : Move V K where
  attempt v := (m.attempt (e v).1).via e v
  accept v := (m.accept (e v).1).via e v
  reject v := (m.reject (e v).1).via e v

/-- the generator, seen in a larger world -/
def liftDraw {V : Type} (draw : W → R × W) : W × V → R × (W × V) := fun s => ((draw s.1).1, ((draw s.1).2, s.2))

/-- `clear_statistics`, mc_move_set.hpp:254-260, for the moves of one set -/
def clearStats (d : SetDef W K R) (s : SetSt K) : SetSt K := { s with nprop := d.moves.map (fun _ => 0), nacc := d.moves.map (fun _ => 0) }

/-- one step of the Metropolis loop, mc_generic.hpp:266-276: the sign and `config_id` are members of `mc_generic`. -/
def mcStep (N : Num K R) (d : SetDef W K R) (s : (W × SetSt K) × K × Nat) : Out ((W × SetSt K) × K × Nat) Unit :=
  match setAttempt N d s.1 with
  | .undef => .undef
  | .exn w => .exn (w, s.2)
  | .ok r w =>
    let p := liftDraw d.draw w
    if p.1 < min 1 r then
      match setAccept d p.2 with
      | .undef => .undef
      | .exn w => .exn (w, s.2)
      | .ok a w => .ok () (w, s.2.1 * a, s.2.2 + 1)
    else
      match setReject d p.2 with
      | .undef => .undef
      | .exn w => .exn (w, s.2)
      | .ok _ w => .ok () (w, s.2.1, s.2.2 + 1)

/-- repeated steps -/
def mcSteps (N : Num K R) (d : SetDef W K R) : Nat → (W × SetSt K) × K × Nat → Out ((W × SetSt K) × K × Nat) Unit
  | 0, s => .ok () s
  | n + 1, s => match mcStep N d s with
    | .ok _ s => mcSteps N d n s
    | .exn s => .exn s
    | .undef => .undef

/-! ## Specification -/

/-- what the Metropolis test compares the random number with -/
def mag (N : Num K R) : Ratio K → R
  | .fin k => N.abs k
  | .inf _ => 100
  | .nan => 0

/-- what an observer of the user moves sees -/
inductive Event (K : Type) where
  | att (id : Nat) (r : Ratio K)
  | acc (id : Nat) (a : K)
  | rej (id : Nat)
deriving DecidableEq

/-- an observer around a user move -/
def observe (id : Nat) (m : Move W K) : Move (W × List (Event K)) K where
  attempt s := match m.attempt s.1 with | .ok r w => .ok r (w, s.2 ++ [.att id r]) | .exn w => .exn (w, s.2) | .undef => .undef
  accept s := match m.accept s.1 with | .ok a w => .ok a (w, s.2 ++ [.acc id a]) | .exn w => .exn (w, s.2) | .undef => .undef
  reject s := match m.reject s.1 with | .ok u w => .ok u (w, s.2 ++ [.rej id]) | .exn w => .exn (w, s.2) | .undef => .undef

/-- one attempt and its resolution: the move, the ratio it returned, and the sign if it was accepted -/
structure Trial (K : Type) where
  id : Nat
  ratio : Ratio K
  accepted : Option K

/-- the events of a trial -/
def Trial.events (t : Trial K) : List (Event K) :=
  [.att t.id t.ratio, match t.accepted with | some a => .acc t.id a | none => .rej t.id]

/-- the factor of a trial in the sign -/
def Trial.factor (N : Num K R) (t : Trial K) : K :=
  match t.accepted with | some a => signOf N t.ratio * a | none => 1

/-- A move (a user move or a set) follows the protocol: a successful attempt is one attempt of one user move; a following accept or reject (after one
random number was drawn) is that of the same user move, and the product of signs is the factor of the trial; after an exception the trial has no
resolution. -/
structure Protocol (N : Num K R) (draw : W → R × W) (log : W → List (Event K)) (m : Move W K) : Prop where
  draw_log : ∀ w, log (draw w).2 = log w
  run : ∀ w r w1, m.attempt w = .ok r w1 → ∃ id v, log w1 = log w ++ [.att id v] ∧ mag N r = mag N v ∧
    (∀ a w2, m.accept (draw w1).2 = .ok a w2 → ∃ a', log w2 = log w1 ++ [.acc id a'] ∧ signOf N r * a = signOf N v * a') ∧
    (∀ w2, m.reject (draw w1).2 = .ok () w2 → log w2 = log w1 ++ [.rej id])
  attempt_exn : ∀ w w1, m.attempt w = .exn w1 → log w1 = log w ∨ ∃ id v, log w1 = log w ++ [.att id v]
  accept_exn : ∀ w w1, m.accept w = .exn w1 → log w1 = log w
  reject_exn : ∀ w w1, m.reject w = .exn w1 → log w1 = log w

/-- Moves made of user moves: an observed user move; a move in a larger world; a set of such moves. -/
inductive Built {K R : Type} [Field R] [LinearOrder R] [Field K] (N : Num K R) :
    (W : Type) → (W → R × W) → (W → List (Event K)) → Move W K → Prop
  | user {W : Type} (draw : W → R × W) (id : Nat) (m : Move W K) : Built N (W × List (Event K)) (liftDraw draw) (fun s => s.2) (observe id m)
  | lift {V W U : Type} {draw : W → R × W} {log : W → List (Event K)} {m : Move W K} (e : V ≃ W × U) (h : Built N W draw log m) :
      Built N V (fun v => ((draw (e v).1).1, e.symm ((draw (e v).1).2, (e v).2))) (fun v => log (e v).1) (liftMove e m)
  | set {W : Type} {log : W → List (Event K)} (d : SetDef W K R) (h0 : d.moves ≠ []) (h : ∀ m ∈ d.moves, Built N W d.draw log m) :
      Built N (W × SetSt K) (liftDraw d.draw) (fun s => log s.1) (asMove N d)

/-! ## Proofs -/

theorem observe_protocol (N : Num K R) (draw : W → R × W) (id : Nat) (m : Move W K) :
    Protocol N (liftDraw draw) (fun s : W × List (Event K) => s.2) (observe id m) where
  draw_log _ := rfl
  run := by
    intro w r w1 h
    simp only [observe] at h
    rcases hm : m.attempt w.1 with ⟨r', w'⟩ | w' | _ <;> rw [hm] at h
    · injection h with h1 h2
      subst h1 h2
      refine ⟨id, r', rfl, rfl, ?_, ?_⟩
      · intro a w2 ha
        simp only [observe, liftDraw] at ha
        rcases hb : m.accept (draw w').2 with ⟨a', w''⟩ | w'' | _ <;> rw [hb] at ha
        · injection ha with h1 h2
          subst h1 h2
          exact ⟨a', rfl, rfl⟩
        · cases ha
        · cases ha
      · intro w2 ha
        simp only [observe, liftDraw] at ha
        rcases hb : m.reject (draw w').2 with ⟨a', w''⟩ | w'' | _ <;> rw [hb] at ha
        · injection ha with h1 h2
          subst h2
          rfl
        · cases ha
        · cases ha
    · cases h
    · cases h
  attempt_exn := by
    intro w w1 h
    simp only [observe] at h
    rcases hm : m.attempt w.1 with ⟨r', w'⟩ | w' | _ <;> rw [hm] at h
    · cases h
    · injection h with h
      subst h
      exact Or.inl rfl
    · cases h
  accept_exn := by
    intro w w1 h
    simp only [observe] at h
    rcases hm : m.accept w.1 with ⟨r', w'⟩ | w' | _ <;> rw [hm] at h
    · cases h
    · injection h with h
      subst h
      rfl
    · cases h
  reject_exn := by
    intro w w1 h
    simp only [observe] at h
    rcases hm : m.reject w.1 with ⟨r', w'⟩ | w' | _ <;> rw [hm] at h
    · cases h
    · injection h with h
      subst h
      rfl
    · cases h

theorem via_ok {V U α : Type} {e : V ≃ W × U} {v v1 : V} {a : α} {o : Out W α} (h : o.via e v = .ok a v1) :
    ∃ w, o = .ok a w ∧ v1 = e.symm (w, (e v).2) := by
  cases o with
  | ok b w => injection h with h1 h2; subst h1 h2; exact ⟨w, rfl, rfl⟩
  | exn w => cases h
  | undef => cases h

theorem via_exn {V U α : Type} {e : V ≃ W × U} {v v1 : V} {o : Out W α} (h : o.via e v = .exn v1) :
    ∃ w, o = .exn w ∧ v1 = e.symm (w, (e v).2) := by
  cases o with
  | ok b w => cases h
  | exn w => injection h with h1; subst h1; exact ⟨w, rfl, rfl⟩
  | undef => cases h

/-- a move that follows the protocol does so in a larger world -/
theorem lift_protocol {V U : Type} (e : V ≃ W × U) {N : Num K R} {draw : W → R × W} {log : W → List (Event K)} {m : Move W K}
    (h : Protocol N draw log m) :
    Protocol N (fun v => ((draw (e v).1).1, e.symm ((draw (e v).1).2, (e v).2))) (fun v => log (e v).1) (liftMove e m) where
  draw_log v := by simp [h.draw_log]
  run := by
    intro v r v1 ha
    obtain ⟨w, h1, rfl⟩ := via_ok ha
    obtain ⟨id, q, hl, hq, hacc, hrej⟩ := h.run _ _ _ h1
    refine ⟨id, q, by simpa using hl, hq, ?_, ?_⟩
    · intro a v2 ha
      obtain ⟨w', h2, rfl⟩ := via_ok ha
      simp only [Equiv.apply_symm_apply] at h2 ⊢
      exact hacc _ _ h2
    · intro v2 ha
      obtain ⟨w', h2, rfl⟩ := via_ok ha
      simp only [Equiv.apply_symm_apply] at h2 ⊢
      exact hrej _ h2
  attempt_exn := by
    intro v v1 ha
    obtain ⟨w, h1, rfl⟩ := via_exn ha
    simpa using h.attempt_exn _ _ h1
  accept_exn := by
    intro v v1 ha
    obtain ⟨w, h1, rfl⟩ := via_exn ha
    simpa using h.accept_exn _ _ h1
  reject_exn := by
    intro v v1 ha
    obtain ⟨w, h1, rfl⟩ := via_exn ha
    simpa using h.reject_exn _ _ h1

/-- what a successful attempt of a set did -/
theorem setAttempt_ok {N : Num K R} {d : SetDef W K R} {s : W × SetSt K} {r : R} {s1 : W × SetSt K} (h : setAttempt N d s = .ok r s1) :
    ∃ n m q w, pick d.probs (d.draw s.1).1 = some n ∧ d.moves[n]? = some m ∧ m.attempt (d.draw s.1).2 = .ok q w ∧
      s1 = (w, { s.2 with current := some n, nprop := bump s.2.nprop n, trySign := signOf N q }) ∧
      ((∃ k, q = .fin k ∧ r = N.abs k) ∨ (∃ b, q = .inf b ∧ r = 100 ∧ N.complex = false)) := by
  unfold setAttempt at h
  by_cases h0 : d.moves.length = 0
  · rw [if_pos h0] at h; cases h
  rw [if_neg h0] at h
  simp only at h
  rcases hp : pick d.probs (d.draw s.1).1 with _ | n <;> rw [hp] at h
  · cases h
  · simp only at h
    rcases hm : d.moves[n]? with _ | m <;> rw [hm] at h
    · cases h
    · simp only at h
      rcases ha : m.attempt (d.draw s.1).2 with ⟨q, w⟩ | w | _ <;> rw [ha] at h
      · cases q with
        | fin k =>
          simp only at h
          injection h with h1 h2
          exact ⟨n, m, .fin k, w, rfl, hm, ha, h2.symm, Or.inl ⟨k, rfl, h1.symm⟩⟩
        | inf b =>
          simp only at h
          split_ifs at h with hc
          injection h with h1 h2
          exact ⟨n, m, .inf b, w, rfl, hm, ha, h2.symm, Or.inr ⟨b, rfl, h1.symm, by simpa using hc⟩⟩
        | nan => cases h
      · cases h
      · cases h

theorem setAccept_ok {d : SetDef W K R} {s : W × SetSt K} {a : K} {s2 : W × SetSt K} (h : setAccept d s = .ok a s2) :
    ∃ n m b w, s.2.current = some n ∧ d.moves[n]? = some m ∧ m.accept s.1 = .ok b w ∧ a = s.2.trySign * b ∧ s2 = (w, { s.2 with nacc := bump s.2.nacc n }) := by
  unfold setAccept at h
  rcases hc : s.2.current with _ | n <;> rw [hc] at h
  · cases h
  · simp only [Option.bind_some] at h
    rcases hm : d.moves[n]? with _ | m <;> rw [hm] at h
    · cases h
    · simp only [Option.map_some] at h
      rcases ha : m.accept s.1 with ⟨b, w⟩ | w | _ <;> rw [ha] at h
      · simp only at h
        injection h with h1 h2
        exact ⟨n, m, b, w, rfl, hm, ha, h1.symm, h2.symm⟩
      · cases h
      · cases h

theorem setReject_ok {d : SetDef W K R} {s : W × SetSt K} {s2 : W × SetSt K} (h : setReject d s = .ok () s2) :
    ∃ n m w, s.2.current = some n ∧ d.moves[n]? = some m ∧ m.reject s.1 = .ok () w ∧ s2 = (w, s.2) := by
  unfold setReject at h
  rcases hc : s.2.current with _ | n <;> rw [hc] at h
  · cases h
  · simp only [Option.bind_some] at h
    rcases hm : d.moves[n]? with _ | m <;> rw [hm] at h
    · cases h
    · simp only at h
      rcases ha : m.reject s.1 with ⟨b, w⟩ | w | _ <;> rw [ha] at h
      · simp only at h
        injection h with h1 h2
        exact ⟨n, m, w, rfl, hm, by rw [ha], h2.symm⟩
      · cases h
      · cases h

/-- what an attempt of a set did when it threw -/
theorem setAttempt_exn {N : Num K R} {d : SetDef W K R} {s s1 : W × SetSt K} (h : setAttempt N d s = .exn s1) (h0 : d.moves ≠ []) :
    ∃ n m, d.moves[n]? = some m ∧ s1.2.nprop = bump s.2.nprop n ∧ s1.2.nacc = s.2.nacc ∧
      (m.attempt (d.draw s.1).2 = .exn s1.1 ∨ ∃ q, m.attempt (d.draw s.1).2 = .ok q s1.1) := by
  unfold setAttempt at h
  rw [if_neg (by simpa using h0)] at h
  simp only at h
  rcases hp : pick d.probs (d.draw s.1).1 with _ | n <;> rw [hp] at h
  · cases h
  · simp only at h
    rcases hm : d.moves[n]? with _ | m <;> rw [hm] at h
    · cases h
    · simp only at h
      rcases ha : m.attempt (d.draw s.1).2 with ⟨q, w⟩ | w | _ <;> rw [ha] at h
      · cases q with
        | fin k => cases h
        | inf b =>
          simp only at h
          split_ifs at h with hc
          injection h with h
          subst h
          exact ⟨n, m, hm, rfl, rfl, Or.inr ⟨_, ha⟩⟩
        | nan =>
          injection h with h
          subst h
          exact ⟨n, m, hm, rfl, rfl, Or.inr ⟨_, ha⟩⟩
      · injection h with h
        subst h
        exact ⟨n, m, hm, rfl, rfl, Or.inl ha⟩
      · cases h

theorem setAccept_exn {d : SetDef W K R} {s s2 : W × SetSt K} (h : setAccept d s = .exn s2) :
    ∃ n m, s.2.current = some n ∧ d.moves[n]? = some m ∧ m.accept s.1 = .exn s2.1 ∧ s2.2 = { s.2 with nacc := bump s.2.nacc n } := by
  unfold setAccept at h
  rcases hc : s.2.current with _ | n <;> rw [hc] at h
  · cases h
  · simp only [Option.bind_some] at h
    rcases hm : d.moves[n]? with _ | m <;> rw [hm] at h
    · cases h
    · simp only [Option.map_some] at h
      rcases ha : m.accept s.1 with ⟨b, w⟩ | w | _ <;> rw [ha] at h
      · cases h
      · injection h with h
        subst h
        exact ⟨n, m, rfl, hm, ha, rfl⟩
      · cases h

theorem setReject_exn {d : SetDef W K R} {s s2 : W × SetSt K} (h : setReject d s = .exn s2) :
    ∃ n m, s.2.current = some n ∧ d.moves[n]? = some m ∧ m.reject s.1 = .exn s2.1 ∧ s2.2 = s.2 := by
  unfold setReject at h
  rcases hc : s.2.current with _ | n <;> rw [hc] at h
  · cases h
  · simp only [Option.bind_some] at h
    rcases hm : d.moves[n]? with _ | m <;> rw [hm] at h
    · cases h
    · simp only at h
      rcases ha : m.reject s.1 with ⟨b, w⟩ | w | _ <;> rw [ha] at h
      · cases h
      · injection h with h
        subst h
        exact ⟨n, m, rfl, hm, ha, rfl⟩
      · cases h

/-- the properties of the absolute value that are used -/
structure Num.Ok (N : Num K R) : Prop where
  abs_nonneg : ∀ k, 0 ≤ N.abs k
  abs_ofReal : ∀ r, 0 ≤ r → N.abs (N.ofReal r) = r
  ofReal_ne : ∀ r, r ≠ 0 → N.ofReal r ≠ 0

variable [IsStrictOrderedRing R]

theorem signOf_pos {N : Num K R} (hN : N.Ok) {r : R} (hr : 0 ≤ r) : signOf N (.fin (N.ofReal r)) = 1 := by
  unfold signOf
  simp only
  rw [hN.abs_ofReal r hr]
  split_ifs with h
  · refine div_self (hN.ofReal_ne r ?_)
    intro h0
    rw [h0] at h
    have : (0 : R) < 1 / 10 ^ 14 := by positivity
    exact absurd h (not_lt.mpr this.le)
  · rfl

/-- **Sets can be nested**: a set of moves that follow the protocol is a move that follows the protocol. -/
theorem set_protocol {N : Num K R} (hN : N.Ok) {d : SetDef W K R} {log : W → List (Event K)} (h0 : d.moves ≠ [])
    (hm : ∀ m ∈ d.moves, Protocol N d.draw log m) : Protocol N (liftDraw d.draw) (fun s : W × SetSt K => log s.1) (asMove N d) := by
  have hd : ∀ w, log (d.draw w).2 = log w := (hm _ (List.head_mem h0)).draw_log
  refine ⟨fun s => hd s.1, ?_, ?_, ?_, ?_⟩
  case refine_2 =>
    intro s s1 h
    simp only [asMove] at h
    rcases hs : setAttempt N d s with ⟨r', s'⟩ | s' | _ <;> rw [hs] at h
    · cases h
    · injection h with h
      subst h
      obtain ⟨n, m, hmn, -, -, h1 | ⟨q, h1⟩⟩ := setAttempt_exn hs h0
      · have := (hm m (List.mem_of_getElem? hmn)).attempt_exn _ _ h1
        rwa [hd] at this
      · obtain ⟨id, v, hl, -⟩ := (hm m (List.mem_of_getElem? hmn)).run _ _ _ h1
        rw [hd] at hl
        exact Or.inr ⟨id, v, hl⟩
    · cases h
  case refine_3 =>
    intro s s1 h
    obtain ⟨n, m, -, hmn, h1, -⟩ := setAccept_exn h
    exact (hm m (List.mem_of_getElem? hmn)).accept_exn _ _ h1
  case refine_4 =>
    intro s s1 h
    obtain ⟨n, m, -, hmn, h1, -⟩ := setReject_exn h
    exact (hm m (List.mem_of_getElem? hmn)).reject_exn _ _ h1
  intro s r s1 h
  simp only [asMove] at h
  rcases hs : setAttempt N d s with ⟨r', s'⟩ | s' | _ <;> rw [hs] at h
  · injection h with h1 h2
    subst h1 h2
    obtain ⟨n, m, q, w, hp, hmn, ha, rfl, hr⟩ := setAttempt_ok hs
    obtain ⟨id, v, hl, hv, hacc, hrej⟩ := (hm m (List.mem_of_getElem? hmn)).run _ _ _ ha
    have hr0 : 0 ≤ r' := by
      rcases hr with ⟨k, -, rfl⟩ | ⟨b, -, rfl, -⟩
      · exact hN.abs_nonneg k
      · norm_num
    refine ⟨id, v, by simp only; rw [hl, hd], ?_, ?_, ?_⟩
    · rw [← hv]
      rcases hr with ⟨k, rfl, rfl⟩ | ⟨b, rfl, rfl, -⟩
      · exact hN.abs_ofReal _ (hN.abs_nonneg k)
      · exact hN.abs_ofReal _ (by norm_num)
    · intro a s2 h2
      simp only [asMove] at h2
      obtain ⟨n', m', b, w', hc, hm', hacc', rfl, rfl⟩ := setAccept_ok h2
      simp only [liftDraw] at hc hacc'
      injection hc with hc
      subst hc
      rw [hmn] at hm'
      injection hm' with hm'
      subst hm'
      obtain ⟨a', e1, e2⟩ := hacc b w' hacc'
      exact ⟨a', e1, by rw [signOf_pos hN hr0, one_mul]; exact e2⟩
    · intro s2 h2
      simp only [asMove] at h2
      obtain ⟨n', m', w', hc, hm', hrej', rfl⟩ := setReject_ok h2
      simp only [liftDraw] at hc hrej'
      injection hc with hc
      subst hc
      rw [hmn] at hm'
      injection hm' with hm'
      subst hm'
      exact hrej w' hrej'
  · cases h
  · cases h

/-- every move made of user moves follows the protocol -/
theorem Built.protocol {K R : Type} [Field R] [LinearOrder R] [Field K] [IsStrictOrderedRing R] {N : Num K R} (hN : N.Ok) {W : Type} {draw : W → R × W}
    {log : W → List (Event K)} {m : Move W K} (h : Built N W draw log m) : Protocol N draw log m := by
  induction h with
  | user draw id m => exact observe_protocol N draw id m
  | lift e h ih => exact lift_protocol e ih
  | set d h0 h ih => exact set_protocol hN h0 ih

theorem bump_length (l : List Nat) (i : Nat) : (bump l i).length = l.length := List.length_set

theorem bump_sum {l : List Nat} {i : Nat} (h : i < l.length) : (bump l i).sum = l.sum + 1 := by
  unfold bump
  induction l generalizing i with
  | nil => simp at h
  | cons a l ih =>
    cases i with
    | zero => simp; omega
    | succ i =>
      simp only [List.set_cons_succ, List.sum_cons, List.getD_cons_succ]
      rw [ih (by simpa using h)]
      omega

theorem bump_getD (l : List Nat) (i j : Nat) (h : i < l.length) : (bump l i).getD j 0 = l.getD j 0 + if i = j then 1 else 0 := by
  unfold bump
  by_cases c : i = j
  · subst c
    rw [if_pos rfl, List.getD_eq_getElem?_getD, List.getElem?_set_self h]; rfl
  · rw [if_neg c, List.getD_eq_getElem?_getD, List.getElem?_set_ne c, ← List.getD_eq_getElem?_getD]; rfl

/-- what one step did -/
theorem mcStep_ok {N : Num K R} {d : SetDef W K R} {log : W → List (Event K)}
    (hm : ∀ m ∈ d.moves, Protocol N d.draw log m) {s s' : (W × SetSt K) × K × Nat} (h : mcStep N d s = .ok () s') :
    ∃ (t : Trial K) (n : Nat) (u : R), (∃ w, u = (d.draw w).1) ∧ (t.accepted.isSome ↔ u < min 1 (mag N t.ratio)) ∧
      n < d.moves.length ∧ log s'.1.1 = log s.1.1 ++ t.events ∧ s'.2.1 = s.2.1 * t.factor N ∧ s'.2.2 = s.2.2 + 1 ∧
      s'.1.2.nprop = bump s.1.2.nprop n ∧ s'.1.2.nacc = if t.accepted.isSome then bump s.1.2.nacc n else s.1.2.nacc := by
  unfold mcStep at h
  rcases hs : setAttempt N d s.1 with ⟨r, s1⟩ | s1 | _ <;> rw [hs] at h
  · simp only at h
    obtain ⟨n, m, q, w, hp, hmn, ha, rfl, hr⟩ := setAttempt_ok hs
    have hn : n < d.moves.length := by
      by_contra hc
      rw [List.getElem?_eq_none (by omega)] at hmn; cases hmn
    obtain ⟨id, v, hl, hv, hacc, hrej⟩ := (hm m (List.mem_of_getElem? hmn)).run _ _ _ ha
    rw [(hm m (List.mem_of_getElem? hmn)).draw_log] at hl
    have hrv : r = mag N v := by
      rw [← hv]
      rcases hr with ⟨k, rfl, rfl⟩ | ⟨b, rfl, rfl, -⟩ <;> rfl
    split_ifs at h with hlt
    · rcases hc : setAccept d (liftDraw d.draw (w, { s.1.2 with current := some n, nprop := bump s.1.2.nprop n, trySign := signOf N q })).2 with ⟨a, s2⟩ | s2 | _ <;> rw [hc] at h
      · obtain ⟨n', m', b, w', hc', hm', hacc', rfl, rfl⟩ := setAccept_ok hc
        simp only [liftDraw] at hc' hacc'
        injection hc' with hc'
        subst hc'
        rw [hmn] at hm'
        injection hm' with hm'
        subst hm'
        obtain ⟨a', e1, e2⟩ := hacc b w' hacc'
        simp only at h
        injection h with _ h
        subst h
        refine ⟨⟨id, v, some a'⟩, n, _, ⟨_, rfl⟩, ⟨fun _ => by rw [hrv] at hlt; exact hlt, fun _ => rfl⟩, hn, ?_, ?_, rfl, rfl, rfl⟩
        · simp only [Trial.events]
          rw [e1, hl, List.append_assoc]; rfl
        · simp only [Trial.factor, liftDraw]
          rw [e2]
      · cases h
      · cases h
    · rcases hc : setReject d (liftDraw d.draw (w, { s.1.2 with current := some n, nprop := bump s.1.2.nprop n, trySign := signOf N q })).2 with ⟨a, s2⟩ | s2 | _ <;> rw [hc] at h
      · obtain ⟨n', m', w', hc', hm', hrej', rfl⟩ := setReject_ok hc
        simp only [liftDraw] at hc' hrej'
        injection hc' with hc'
        subst hc'
        rw [hmn] at hm'
        injection hm' with hm'
        subst hm'
        have e1 := hrej w' hrej'
        simp only at h
        injection h with _ h
        subst h
        refine ⟨⟨id, v, none⟩, n, _, ⟨_, rfl⟩, ⟨fun h => (by cases h), fun h => (by rw [hrv] at hlt; exact absurd h hlt)⟩, hn, ?_, ?_, rfl, rfl, rfl⟩
        · simp only [Trial.events]
          rw [e1, hl, List.append_assoc]; rfl
        · simp only [Trial.factor, mul_one]
      · cases h
      · cases h
  · cases h
  · cases h

/-- a throwing step: at most one attempt without resolution -/
theorem mcStep_exn {N : Num K R} {d : SetDef W K R} {log : W → List (Event K)} (h0 : d.moves ≠ [])
    (hm : ∀ m ∈ d.moves, Protocol N d.draw log m) {s s' : (W × SetSt K) × K × Nat} (h : mcStep N d s = .exn s') :
    s'.2 = s.2 ∧ (∃ n < d.moves.length, s'.1.2.nprop = bump s.1.2.nprop n ∧ (s'.1.2.nacc = s.1.2.nacc ∨ s'.1.2.nacc = bump s.1.2.nacc n)) ∧
      (log s'.1.1 = log s.1.1 ∨ ∃ id v, log s'.1.1 = log s.1.1 ++ [.att id v]) := by
  have lt : ∀ n m, d.moves[n]? = some m → n < d.moves.length := by
    intro n m h
    by_contra hc
    rw [List.getElem?_eq_none (by omega)] at h; cases h
  have hd : ∀ w, log (d.draw w).2 = log w := (hm _ (List.head_mem h0)).draw_log
  unfold mcStep at h
  rcases hs : setAttempt N d s.1 with ⟨r, s1⟩ | s1 | _ <;> rw [hs] at h
  · simp only at h
    obtain ⟨n, m, q, w, hp, hmn, ha, rfl, hr⟩ := setAttempt_ok hs
    obtain ⟨id, v, hl, hv, hacc, hrej⟩ := (hm m (List.mem_of_getElem? hmn)).run _ _ _ ha
    rw [hd] at hl
    split_ifs at h with hlt
    · rcases hc : setAccept d (liftDraw d.draw (w, { s.1.2 with current := some n, nprop := bump s.1.2.nprop n, trySign := signOf N q })).2 with ⟨a, s2⟩ | s2 | _ <;> rw [hc] at h
      · cases h
      · obtain ⟨n', m', hc', hm', hacc', e⟩ := setAccept_exn hc
        injection h with h
        subst h
        simp only [liftDraw] at hc' hacc' e
        injection hc' with hc'
        subst hc'
        have e1 := (hm m' (List.mem_of_getElem? hm')).accept_exn _ _ hacc'
        rw [hd, hl] at e1
        exact ⟨rfl, ⟨n, lt _ _ hmn, by rw [e], Or.inr (by rw [e])⟩, Or.inr ⟨id, v, e1⟩⟩
      · cases h
    · rcases hc : setReject d (liftDraw d.draw (w, { s.1.2 with current := some n, nprop := bump s.1.2.nprop n, trySign := signOf N q })).2 with ⟨a, s2⟩ | s2 | _ <;> rw [hc] at h
      · cases h
      · obtain ⟨n', m', hc', hm', hacc', e⟩ := setReject_exn hc
        injection h with h
        subst h
        simp only [liftDraw] at hc' hacc' e
        have e1 := (hm m' (List.mem_of_getElem? hm')).reject_exn _ _ hacc'
        rw [hd, hl] at e1
        exact ⟨rfl, ⟨n, lt _ _ hmn, by rw [e], Or.inl (by rw [e])⟩, Or.inr ⟨id, v, e1⟩⟩
      · cases h
  · injection h with h
    subst h
    obtain ⟨n, m, hmn, e1, e2, h1 | ⟨q, h1⟩⟩ := setAttempt_exn hs h0
    · have := (hm m (List.mem_of_getElem? hmn)).attempt_exn _ _ h1
      rw [hd] at this
      exact ⟨rfl, ⟨n, lt _ _ hmn, e1, Or.inl e2⟩, this⟩
    · obtain ⟨id, v, hl, -⟩ := (hm m (List.mem_of_getElem? hmn)).run _ _ _ h1
      rw [hd] at hl
      exact ⟨rfl, ⟨n, lt _ _ hmn, e1, Or.inl e2⟩, Or.inr ⟨id, v, hl⟩⟩
  · cases h

/-- a trial of a run: accepted when the number drawn is below the size of the ratio -/
def Fair (N : Num K R) (draw : W → R × W) (t : Trial K) : Prop :=
  ∃ u, (∃ w, u = (draw w).1) ∧ (t.accepted.isSome ↔ u < min 1 (mag N t.ratio))

/-- all steps -/
theorem mcSteps_ok {N : Num K R} {d : SetDef W K R} {log : W → List (Event K)}
    (hm : ∀ m ∈ d.moves, Protocol N d.draw log m) : ∀ (n : Nat) (s s' : (W × SetSt K) × K × Nat), mcSteps N d n s = .ok () s' →
      s.1.2.nprop.length = d.moves.length → s.1.2.nacc.length = d.moves.length → (∀ i, s.1.2.nacc.getD i 0 ≤ s.1.2.nprop.getD i 0) →
      ∃ ts : List (Trial K), ts.length = n ∧ (∀ t ∈ ts, Fair N d.draw t) ∧ log s'.1.1 = log s.1.1 ++ ts.flatMap Trial.events ∧ s'.2.1 = s.2.1 * (ts.map (Trial.factor N)).prod ∧
        s'.2.2 = s.2.2 + n ∧ s'.1.2.nprop.length = d.moves.length ∧ s'.1.2.nacc.length = d.moves.length ∧
        s'.1.2.nprop.sum = s.1.2.nprop.sum + n ∧ s'.1.2.nacc.sum = s.1.2.nacc.sum + ts.countP (fun t => t.accepted.isSome) ∧
        ∀ i, s'.1.2.nacc.getD i 0 ≤ s'.1.2.nprop.getD i 0 := by
  intro n
  induction n with
  | zero =>
    intro s s' h hp ha hi
    simp only [mcSteps] at h
    injection h with _ h
    subst h
    exact ⟨[], rfl, by simp, by simp, by simp, rfl, hp, ha, rfl, rfl, hi⟩
  | succ n ih =>
    intro s s' h hp ha hi
    simp only [mcSteps] at h
    rcases h1 : mcStep N d s with ⟨u, s1⟩ | s1 | _ <;> rw [h1] at h
    · simp only at h
      obtain ⟨t, k, u, hu, hacc, hk, e1, e2, e3, e4, e5⟩ := mcStep_ok hm h1
      have hp1 : s1.1.2.nprop.length = d.moves.length := by rw [e4, bump_length, hp]
      have ha1 : s1.1.2.nacc.length = d.moves.length := by rw [e5]; split_ifs <;> simp [bump_length, ha]
      have hi1 : ∀ i, s1.1.2.nacc.getD i 0 ≤ s1.1.2.nprop.getD i 0 := by
        intro i
        rw [e4, e5, bump_getD _ _ _ (by omega)]
        split_ifs with c c'
        all_goals first
          | (rw [bump_getD _ _ _ (by omega)]; have := hi i; split_ifs <;> omega)
          | (have := hi i; omega)
      obtain ⟨ts, f1, f0, f2, f3, f4, f5, f6, f7, f8, f9⟩ := ih s1 s' h hp1 ha1 hi1
      refine ⟨t :: ts, by simp [f1], ?_, ?_, ?_, by omega, f5, f6, ?_, ?_, f9⟩
      · intro t' ht'
        rcases List.mem_cons.1 ht' with rfl | ht'
        · exact ⟨u, hu, hacc⟩
        · exact f0 t' ht'
      · rw [f2, e1, List.flatMap_cons, List.append_assoc]
      · rw [f3, e2, List.map_cons, List.prod_cons, mul_assoc]
      · rw [f7, e4, bump_sum (by omega)]; omega
      · rw [f8, e5, List.countP_cons]
        split_ifs
        · rw [bump_sum (by omega)]; omega
        · omega
    · cases h
    · cases h

/-- a run that throws: complete steps, then one throwing step -/
theorem mcSteps_exn {N : Num K R} {d : SetDef W K R} : ∀ (n : Nat) (s s' : (W × SetSt K) × K × Nat), mcSteps N d n s = .exn s' →
    ∃ (k : Nat) (s1 : (W × SetSt K) × K × Nat), k < n ∧ mcSteps N d k s = .ok () s1 ∧ mcStep N d s1 = .exn s' := by
  intro n
  induction n with
  | zero => intro s s' h; cases h
  | succ n ih =>
    intro s s' h
    simp only [mcSteps] at h
    rcases h1 : mcStep N d s with ⟨u, s1⟩ | s1 | _ <;> rw [h1] at h
    · obtain ⟨k, s2, hk, e1, e2⟩ := ih _ _ h
      exact ⟨k + 1, s2, by omega, by simp only [mcSteps]; rw [h1]; exact e1, e2⟩
    · injection h with h
      subst h
      exact ⟨0, s, by omega, rfl, h1⟩
    · cases h

end

end Verif.MC
