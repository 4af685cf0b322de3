import Mathlib.Data.Int.Interval
import Mathlib.Data.Finset.Card
import Mathlib.Algebra.Order.Group.Int
import Mathlib.Data.Rat.Lemmas
import Mathlib.Tactic.FieldSimp
import Mathlib.Tactic.Ring
import Std.Data.String.ToNat

/-!
# Property C154: timers and the time left

Source: `/repo/c++/triqs/utility/timer.hpp` (28-52), `/repo/c++/triqs/utility/timestamp.hpp` (38-52),
`/repo/c++/triqs/mc_tools/mc_generic.hpp` (129-134, 182-188, 248-250, 302, 316, 391-406).

Simplifications: the clock counts ticks, integers, and seconds are exact numbers; `int(sec)` does not overflow.
-/

namespace Verif.Timer

/-! ## Model -/

/-- timer.hpp:33-35; a time point is zero at first -/
structure Timer where
  start : ℤ := 0
  total : ℤ := 0
  running : Bool := false
deriving DecidableEq

/-- a call of `start` or `stop` with the time of the clock -/
inductive Event where
  | start (t : ℤ)
  | stop (t : ℤ)
deriving DecidableEq

/-- 38-45 -/
def Timer.step (T : Timer) : Event → Timer
  | .start t => { T with running := true, start := t }
  | .stop t => { T with total := T.total + (t - T.start), running := false }

/-- `operator double`, 47-51 -/
def Timer.read (T : Timer) (now : ℤ) : ℤ := if T.running then T.total + (now - T.start) else T.total

/-- the calls in the life of a timer -/
def run (l : List Event) : Timer := l.foldl Timer.step {}

/-- hours, minutes, seconds, timestamp.hpp:39-42 -/
def split (s : ℤ) : ℤ × ℤ × ℤ :=
  let h := Int.tdiv s 3600
  let s1 := s - 3600 * h
  let m := Int.tdiv s1 60
  (h, m, s1 - 60 * m)

/-- `setfill('0') << setw(2)` -/
def pad (x : ℤ) : List Char := let d := (toString x).toList; if d.length < 2 then '0' :: d else d

/-- `hours_minutes_seconds_from_seconds` for `int(sec)`, 38-47 -/
def hms (s : ℤ) : List Char := pad (split s).1 ++ ':' :: (pad (split s).2.1 ++ ':' :: pad (split s).2.2)

/-- `eta`, 50 -/
def eta (ntot iter : ℤ) (time : ℚ) : ℚ := (ntot - 1 - iter) * time / (iter + 1)

/-- the timer after `mc_generic::run` from `t0` to `t1`, mc_generic.hpp:248-250, 316; `warmup` and `accumulate` keep a copy of it (132, 186) -/
def runTimer (nCycles t0 t1 : ℤ) : Timer :=
  let T := Timer.step {} (.start t0)
  if nCycles = 0 then T else T.step (.stop t1)

/-- conversion of a 64 bit integer to `int`, as in the call of `estimate_time_left`, mc_generic.hpp:302 -/
def toInt32 (n : ℤ) : ℤ := Int.bmod n (2 ^ 32)

/-! ## Specification -/

def Event.time : Event → ℤ
  | .start t => t
  | .stop t => t

def Event.isStart : Event → Bool
  | .start _ => true
  | .stop _ => false

/-- is the timer on during the tick that begins at `u`: the last call before is `start` -/
def onAt (l : List Event) (u : ℤ) : Bool := (((l.filter fun e => decide (e.time ≤ u)).getLast?).map Event.isStart).getD false

/-- `start` and `stop` alternate, beginning with `start` -/
def Alternate : Bool → List Event → Prop
  | _, [] => True
  | on, e :: l => e.isStart = !on ∧ Alternate (!on) l

/-- the times do not decrease -/
def Chronological (l : List Event) : Prop := l.Pairwise fun e e' => e.time ≤ e'.time

/-! ## Proofs -/

theorem run_snoc (l : List Event) (e : Event) : run (l ++ [e]) = (run l).step e := by
  unfold run
  rw [List.foldl_append]
  rfl

theorem alternate_snoc (b : Bool) (l : List Event) (e : Event) :
    Alternate b (l ++ [e]) ↔ Alternate b l ∧ e.isStart = !((l.getLast?.map Event.isStart).getD b) := by
  induction l generalizing b with
  | nil => simp [Alternate]
  | cons x l ih =>
    simp only [List.cons_append, Alternate, ih]
    constructor
    · rintro ⟨h1, h2, h3⟩
      refine ⟨⟨h1, h2⟩, ?_⟩
      rw [h3, List.getLast?_cons]
      cases hl : l.getLast? with
      | none => simp [h1]
      | some y => simp
    · rintro ⟨⟨h1, h2⟩, h3⟩
      refine ⟨h1, h2, ?_⟩
      rw [h3, List.getLast?_cons]
      cases hl : l.getLast? with
      | none => simp [h1]
      | some y => simp

theorem running_eq (l : List Event) : (run l).running = (l.getLast?.map Event.isStart).getD false := by
  induction l using List.reverseRecOn with
  | nil => rfl
  | append_singleton l e _ =>
    rw [run_snoc]
    cases e <;> simp [Timer.step, Event.isStart]

theorem onAt_snoc (l : List Event) (e : Event) (u : ℤ) : onAt (l ++ [e]) u = if e.time ≤ u then e.isStart else onAt l u := by
  unfold onAt
  rw [List.filter_append]
  by_cases h : e.time ≤ u
  · simp [h]
  · simp [h]

/-- **Timers.** If `start` and `stop` alternate, a timer counts the ticks during which it is on. -/
theorem C154_timer (l : List Event) (ha : Alternate false l) (hc : Chronological l) (t0 now : ℤ) (h0 : ∀ e ∈ l, t0 ≤ e.time)
    (hn : ∀ e ∈ l, e.time ≤ now) : (run l).read now = (((Finset.Ico t0 now).filter fun u => onAt l u = true).card : ℤ) := by
  induction l using List.reverseRecOn generalizing now with
  | nil => simp [run, Timer.read, onAt]
  | append_singleton l e ih =>
    rw [alternate_snoc] at ha
    unfold Chronological at hc
    rw [List.pairwise_append] at hc
    have hbe : ∀ x ∈ l, x.time ≤ e.time := fun x hx => hc.2.2 x hx e (by simp)
    have ih' := ih ha.1 hc.1 e.time (fun x hx => h0 x (by simp [hx])) hbe
    have ht0 : t0 ≤ e.time := h0 e (by simp)
    have hnow : e.time ≤ now := hn e (by simp)
    have hsplit : ((Finset.Ico t0 now).filter fun u => onAt (l ++ [e]) u = true) =
        ((Finset.Ico t0 e.time).filter fun u => onAt l u = true) ∪ (Finset.Ico e.time now).filter fun _ => e.isStart = true := by
      ext u
      simp only [Finset.mem_filter, Finset.mem_Ico, Finset.mem_union, onAt_snoc]
      constructor
      · rintro ⟨⟨a, b⟩, c⟩
        split at c
        · exact Or.inr ⟨⟨by assumption, b⟩, c⟩
        · exact Or.inl ⟨⟨a, by omega⟩, c⟩
      · rintro (⟨⟨a, b⟩, c⟩ | ⟨⟨a, b⟩, c⟩)
        · exact ⟨⟨a, by omega⟩, by rw [if_neg (by omega)]; exact c⟩
        · exact ⟨⟨by omega, b⟩, by rw [if_pos a]; exact c⟩
    have hdisj : Disjoint ((Finset.Ico t0 e.time).filter fun u => onAt l u = true) ((Finset.Ico e.time now).filter fun _ => e.isStart = true) := by
      rw [Finset.disjoint_left]
      intro u h1 h2
      simp only [Finset.mem_filter, Finset.mem_Ico] at h1 h2
      omega
    rw [hsplit, Finset.card_union_of_disjoint hdisj, Nat.cast_add, ← ih', run_snoc]
    have hrun := running_eq l
    cases e with
    | start t =>
      have hr : (run l).running = false := by
        rw [hrun]
        simpa [Event.isStart] using ha.2
      simp only [Event.time] at hnow
      simp [Timer.step, Timer.read, hr, Event.isStart, Event.time, hnow]
    | stop t =>
      have hr : (run l).running = true := by
        rw [hrun]
        simpa [Event.isStart] using ha.2
      simp [Timer.step, Timer.read, hr, Event.isStart, Event.time]

/-- a second `start` forgets the time since the first, a second `stop` adds the time since the last `start` again, whatever came before -/
theorem C154_repeated (l : List Event) (t u v now : ℤ) :
    (run (l ++ [.start t, .start u, .stop v])).read now = (run l).total + (v - u) ∧
    (run (l ++ [.start t, .stop u, .stop v])).read now = (run l).total + (u - t) + (v - t) := by
  unfold run
  simp [List.foldl_append, Timer.step, Timer.read]

theorem split_nat (n : ℕ) : split n = (((n / 3600 : ℕ) : ℤ), ((n / 60 % 60 : ℕ) : ℤ), ((n % 60 : ℕ) : ℤ)) := by
  unfold split
  simp only
  rw [Int.tdiv_eq_ediv_of_nonneg (by omega)]
  have h1 : 0 ≤ (n : ℤ) - 3600 * ((n : ℤ) / 3600) := by omega
  rw [Int.tdiv_eq_ediv_of_nonneg h1]
  refine Prod.ext ?_ (Prod.ext ?_ ?_)
  · simp
  · simp only
    omega
  · simp only
    omega

theorem toString_nat (n : ℕ) : (toString (n : ℤ)).toList = Nat.toDigits 10 n := by
  have : (toString (n : ℤ)) = toString n := rfl
  rw [this]
  exact Nat.toList_repr

theorem pad_value (n : ℕ) : Nat.ofDigitChars 10 (pad n) 0 = n := by
  unfold pad
  simp only [toString_nat]
  split
  · rw [Nat.ofDigitChars_cons]
    simpa using Nat.ofDigitChars_ten_toDigits (n := n)
  · exact Nat.ofDigitChars_ten_toDigits

theorem pad_digits (n : ℕ) (c : Char) (h : c ∈ pad n) : c.isDigit = true := by
  unfold pad at h
  simp only [toString_nat] at h
  split at h
  · rcases List.mem_cons.mp h with rfl | h
    · decide
    · exact Nat.isDigit_of_mem_toDigits (by decide) (by decide) h
  · exact Nat.isDigit_of_mem_toDigits (by decide) (by decide) h

theorem pad_length (n : ℕ) (h : n < 100) : (pad n).length = 2 := by
  revert n
  decide +kernel

/-- **Format.** Three groups of digits with colons between them, hours, minutes and seconds; minutes and seconds are below sixty and have
two digits, and the number of seconds is the sum. -/
theorem C154_format (n : ℕ) : ∃ a b c : List Char, hms n = a ++ ':' :: (b ++ ':' :: c) ∧ (∀ x ∈ a ++ b ++ c, x.isDigit = true) ∧
    b.length = 2 ∧ c.length = 2 ∧ 2 ≤ a.length ∧ Nat.ofDigitChars 10 b 0 < 60 ∧ Nat.ofDigitChars 10 c 0 < 60 ∧
    3600 * Nat.ofDigitChars 10 a 0 + 60 * Nat.ofDigitChars 10 b 0 + Nat.ofDigitChars 10 c 0 = n := by
  have hs := split_nat n
  refine ⟨pad (n / 3600 : ℕ), pad (n / 60 % 60 : ℕ), pad (n % 60 : ℕ), ?_, ?_, ?_, ?_, ?_, ?_, ?_, ?_⟩
  · unfold hms
    rw [hs]
  · intro x hx
    simp only [List.mem_append] at hx
    rcases hx with (hx | hx) | hx <;> exact pad_digits _ x hx
  · exact pad_length _ (by omega)
  · exact pad_length _ (by omega)
  · unfold pad
    simp only [toString_nat]
    split
    · have : Nat.toDigits 10 (n / 3600) ≠ [] := by simp
      have := List.length_pos_iff.mpr this
      simp only [List.length_cons]
      omega
    · omega
  · rw [pad_value]; omega
  · rw [pad_value]; omega
  · simp only [pad_value]; omega

/-- the estimate is exact if every cycle takes the same time -/
theorem C154_eta (ntot iter : ℤ) (h : 0 ≤ iter) (cycle : ℚ) : eta ntot iter ((iter + 1) * cycle) = (ntot - (iter + 1)) * cycle := by
  unfold eta
  have : (iter + 1 : ℚ) ≠ 0 := by exact_mod_cast (by omega : iter + 1 ≠ 0)
  field_simp
  ring_nf

/-- the time reported for a run of `mc_generic` is the time it took, whenever it is read; without cycles it is the time since its start -/
theorem C154_run (nCycles t0 t1 now : ℤ) : (nCycles ≠ 0 → (runTimer nCycles t0 t1).read now = t1 - t0) ∧
    (nCycles = 0 → (runTimer nCycles t0 t1).read now = now - t0) := by
  constructor
  · intro h
    simp [runTimer, h, Timer.step, Timer.read]
  · intro h
    simp [runTimer, h, Timer.step, Timer.read]

/-- for less than `2^31` cycles the estimate uses their number -/
theorem C154_cycles (n : ℤ) (h0 : 0 ≤ n) (h : n < 2 ^ 31) : toInt32 n = n := by
  unfold toInt32
  rw [Int.bmod_eq_of_le] <;> omega

/-! ### Examples -/

/-- for `2^32 + 2` cycles the estimate after the first is that for two -/
theorem C154_many_cycles : eta (toInt32 (2 ^ 32 + 2)) 0 5 = 5 := by decide +kernel

/-- `stop` without `start` adds the time since the epoch of the clock -/
theorem C154_stop_only : (run [.stop 1000]).read 1000 = 1000 := by decide

example : (run [.start 3, .stop 5, .start 10]).read 11 = 3 := by decide

example : hms 3723 = "01:02:03".toList := by decide +kernel

/-- negative times are not readable -/
example : hms (-61) = "00:-1:-1".toList := by decide +kernel

end Verif.Timer
