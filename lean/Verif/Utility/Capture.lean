import Mathlib.Data.List.Basic
import Mathlib.Logic.Function.Basic
import Mathlib.Order.Basic
import Mathlib.Order.Defs.PartialOrder
import Mathlib.Order.Nat

/-!
# Capturing the standard output

`python/triqs/utility/capture_stdout.py`: `with capture_stdout() as lines: ...` collects what Python
code prints inside the block as a list of lines and puts `sys.stdout` back afterwards.

* C185: for every program of prints, exceptions and (nested or successive) captures in which no
  capture object is entered again inside its own block, `sys.stdout` is put back also when the block
  raises, the text printed outside of the blocks reaches the old stream untouched, and every
  capture object has gained exactly the lines printed directly inside its own blocks.
* Entering the object again inside its own block loses `sys.stdout` (witness).

Simplifications: text is a list of characters; the only statements are `print`, `raise` and `with`;
an exception is not caught within the program.
-/

namespace Verif.Capture

/-! ## Model -/

/-- The line boundaries of `str.splitlines` (Python library reference, text sequence type). -/
def isBreak (c : Char) : Bool :=
  [10, 11, 12, 13, 28, 29, 30, 0x85, 0x2028, 0x2029].contains c.toNat

/-- `str.splitlines()`: no empty last line after a final boundary, `\r\n` is one boundary.
`cur` is the line read so far, reversed. -/
def splitGo : List Char → List Char → List (List Char)
  | cur, [] => if cur.isEmpty then [] else [cur.reverse]
  | cur, [c] => if isBreak c then [cur.reverse] else [(c :: cur).reverse]
  | cur, c :: d :: cs =>
    if c = '\r' ∧ d = '\n' then cur.reverse :: splitGo [] cs
    else if isBreak c then cur.reverse :: splitGo [] (d :: cs)
    else splitGo (c :: cur) (d :: cs)

def splitlines (t : List Char) : List (List Char) := splitGo [] t

/-- The interpreter: `out` is the stream `sys.stdout` names, `text` the content of every stream,
`next` the first stream not created yet; for every capture object its attributes `_stdout`,
`_stringio` and its content as a list. -/
structure State where
  out : ℕ
  next : ℕ
  text : ℕ → List Char
  saved : ℕ → Option ℕ
  sio : ℕ → Option ℕ
  got : ℕ → List (List Char)

/-- `__enter__` (capture_stdout.py 23-26). -/
def enter (c : ℕ) (s : State) : State :=
  { s with
    saved := Function.update s.saved c (some s.out)
    sio := Function.update s.sio c (some s.next)
    text := Function.update s.text s.next []
    out := s.next
    next := s.next + 1 }

/-- `__exit__` (capture_stdout.py 27-30); the flag says that it raises.  It returns `None`, so an
exception of the block goes on.  `del` removes the attribute `_stringio`: when it is not there the
first statement raises `AttributeError` and nothing else happens. -/
def leave (c : ℕ) (s : State) : State × Bool :=
  match s.sio c, s.saved c with
  | some k, some o =>
    ({ s with
        got := Function.update s.got c (s.got c ++ splitlines (s.text k))
        sio := Function.update s.sio c none
        out := o }, false)
  | some k, none =>
    ({ s with
        got := Function.update s.got c (s.got c ++ splitlines (s.text k))
        sio := Function.update s.sio c none }, true)
  | none, _ => (s, true)

/-- Programs: `print` writes to `sys.stdout`, `raise` ends the program, `cap c body rest` is
`with c: body` followed by `rest`. -/
inductive Prog
  | done
  | raise
  | print (t : List Char) (rest : Prog)
  | cap (c : ℕ) (body rest : Prog)

/-- Run a program; the flag says that an exception is on its way. -/
def run : Prog → State → State × Bool
  | .done, s => (s, false)
  | .raise, s => (s, true)
  | .print t p, s => run p { s with text := Function.update s.text s.out (s.text s.out ++ t) }
  | .cap c b p, s =>
    let r1 := run b (enter c s)
    let r2 := leave c r1.1
    if r1.2 || r2.2 then (r2.1, true) else run p r2.1

/-! ## Specification -/

/-- The capture objects of a program. -/
def objs : Prog → List ℕ
  | .done => []
  | .raise => []
  | .print _ p => objs p
  | .cap c b p => c :: (objs b ++ objs p)

/-- No object is entered again inside its own block (it may be used again later). -/
def Proper : Prog → Prop
  | .done => True
  | .raise => True
  | .print _ p => Proper p
  | .cap c b p => c ∉ objs b ∧ Proper b ∧ Proper p

/-- Does the program end with an exception? -/
def fails : Prog → Bool
  | .done => false
  | .raise => true
  | .print _ p => fails p
  | .cap _ b p => fails b || fails p

/-- The text the program prints outside of its captures, up to the exception if there is one. -/
def printed : Prog → List Char
  | .done => []
  | .raise => []
  | .print t p => t ++ printed p
  | .cap _ b p => if fails b then [] else printed p

/-- The lines that belong to object `c`: those printed directly in its blocks. -/
def linesOf (c : ℕ) : Prog → List (List Char)
  | .done => []
  | .raise => []
  | .print _ p => linesOf c p
  | .cap c' b p =>
    (if c' = c then splitlines (printed b) else linesOf c b)
      ++ (if fails b then [] else linesOf c p)

/-! ## Proofs -/

structure After (p : Prog) (s r : State) : Prop where
  out : r.out = s.out
  mono : s.next ≤ r.next
  text : r.text s.out = s.text s.out ++ printed p
  other : ∀ k, k < s.next → k ≠ s.out → r.text k = s.text k
  got : ∀ c, r.got c = s.got c ++ linesOf c p
  saved : ∀ c, c ∉ objs p → r.saved c = s.saved c
  sio : ∀ c, c ∉ objs p → r.sio c = s.sio c

theorem run_spec (p : Prog) : ∀ (s : State), Proper p → s.out < s.next →
    After p s (run p s).1 ∧ (run p s).2 = fails p := by
  induction p with
  | done =>
    intro s _ _
    exact ⟨⟨rfl, le_refl _, by simp [run, printed], fun _ _ _ => rfl, by simp [run, linesOf],
      fun _ _ => rfl, fun _ _ => rfl⟩, rfl⟩
  | raise =>
    intro s _ _
    exact ⟨⟨rfl, le_refl _, by simp [run, printed], fun _ _ _ => rfl, by simp [run, linesOf],
      fun _ _ => rfl, fun _ _ => rfl⟩, rfl⟩
  | print t p ih =>
    intro s hp hs
    obtain ⟨h, hf⟩ := ih { s with text := Function.update s.text s.out (s.text s.out ++ t) } hp hs
    refine ⟨⟨h.out, h.mono, ?_, ?_, h.got, h.saved, h.sio⟩, hf⟩
    · have := h.text
      simp only [Function.update_self] at this
      rw [run, this, printed, List.append_assoc]
    · intro k hk hk'
      have := h.other k hk hk'
      simp only [Function.update_of_ne hk'] at this
      rw [run, this]
  | cap c b p ihb ihp =>
    intro s hp hs
    obtain ⟨hc, hb, hp⟩ := hp
    have hs' : (enter c s).out < (enter c s).next := by simp [enter]
    obtain ⟨h1, hf1⟩ := ihb (enter c s) hb hs'
    have hsio : (run b (enter c s)).1.sio c = some s.next := by
      rw [h1.sio c hc]; simp [enter]
    have hsav : (run b (enter c s)).1.saved c = some s.out := by
      rw [h1.saved c hc]; simp [enter]
    have hleave : leave c (run b (enter c s)).1 =
        ({ (run b (enter c s)).1 with
            got := Function.update (run b (enter c s)).1.got c
              ((run b (enter c s)).1.got c ++ splitlines ((run b (enter c s)).1.text s.next))
            sio := Function.update (run b (enter c s)).1.sio c none
            out := s.out }, false) := by
      unfold leave
      rw [hsio, hsav]
    have htext : (run b (enter c s)).1.text s.next = printed b := by
      have := h1.text
      simp only [enter, Function.update_self, List.nil_append] at this
      exact this
    have hne : s.out ≠ s.next := Nat.ne_of_lt hs
    have hself : ∀ x, x ∉ objs b → linesOf x b = [] := by
      intro x
      clear ihb ihp hs' h1 hf1 hsio hsav hleave htext hc hb
      induction b with
      | done => intro _; rfl
      | raise => intro _; rfl
      | print t q ih => intro hx; exact ih hx
      | cap d q r ih1 ih2 =>
        intro hx
        simp only [objs, List.mem_cons, List.mem_append, not_or] at hx
        rw [linesOf, if_neg (fun e => hx.1 e.symm), ih1 hx.2.1, ih2 hx.2.2]
        simp
    have hmid : After (.cap c b .done) s (leave c (run b (enter c s)).1).1 := by
      rw [hleave]
      refine ⟨rfl, ?_, ?_, ?_, ?_, ?_, ?_⟩
      · exact Nat.le_trans (Nat.le_succ s.next) h1.mono
      · have := h1.other s.out (by simp [enter]; omega) (by simpa [enter] using hne)
        simp only [enter, Function.update_of_ne hne] at this
        simp [printed, this, enter]
      · intro k hk hk'
        have hk2 : k ≠ s.next := Nat.ne_of_lt hk
        have := h1.other k (by simp [enter]; omega) (by simpa [enter] using hk2)
        simp only [enter, Function.update_of_ne hk2] at this
        exact this
      · intro x
        by_cases hx : x = c
        · subst hx
          simp only [Function.update_self, htext, linesOf]
          rw [h1.got x, hself x hc]
          simp [enter]
        · simp only [Function.update_of_ne hx]
          rw [h1.got x, linesOf, if_neg (fun e => hx e.symm)]
          simp [enter, linesOf]
      · intro x hx
        simp only [objs, List.mem_cons, List.mem_append, not_or] at hx
        show (run b (enter c s)).1.saved x = _
        rw [h1.saved x hx.2.1]
        simp [enter, Function.update_of_ne hx.1]
      · intro x hx
        simp only [objs, List.mem_cons, List.mem_append, not_or] at hx
        simp only [Function.update_of_ne hx.1]
        rw [h1.sio x hx.2.1]
        simp [enter, Function.update_of_ne hx.1]
    have hl2 : (leave c (run b (enter c s)).1).2 = false := by rw [hleave]
    simp only [run, hl2, Bool.or_false, hf1]
    cases hfb : fails b with
    | true =>
      simp only [if_true]
      refine ⟨⟨hmid.out, hmid.mono, ?_, hmid.other, ?_, ?_, ?_⟩, by simp [fails, hfb]⟩
      · rw [hmid.text]; simp [printed, hfb]
      · intro x; rw [hmid.got x]; simp [linesOf, hfb]
      · intro x hx
        simp only [objs, List.mem_cons, List.mem_append, not_or] at hx
        exact hmid.saved x (by simp [objs, hx.1, hx.2.1])
      · intro x hx
        simp only [objs, List.mem_cons, List.mem_append, not_or] at hx
        exact hmid.sio x (by simp [objs, hx.1, hx.2.1])
    | false =>
      simp only [Bool.false_eq_true, if_false]
      generalize hq : (leave c (run b (enter c s)).1).1 = q at hmid ⊢
      obtain ⟨h2, hf2⟩ := ihp q hp (by rw [hmid.out]; exact lt_of_lt_of_le hs hmid.mono)
      refine ⟨⟨h2.out.trans hmid.out, hmid.mono.trans h2.mono, ?_, ?_, ?_, ?_, ?_⟩,
        by rw [hf2]; simp [fails, hfb]⟩
      · have := h2.text
        rw [hmid.out, hmid.text] at this
        rw [this]
        simp [printed, hfb]
      · intro k hk hk'
        rw [h2.other k (lt_of_lt_of_le hk hmid.mono) (by rw [hmid.out]; exact hk'),
          hmid.other k hk hk']
      · intro x
        rw [h2.got x, hmid.got x]
        simp [linesOf, hfb, List.append_assoc]
      · intro x hx
        simp only [objs, List.mem_cons, List.mem_append, not_or] at hx
        rw [h2.saved x hx.2.2, hmid.saved x (by simp [objs, hx.1, hx.2.1])]
      · intro x hx
        simp only [objs, List.mem_cons, List.mem_append, not_or] at hx
        rw [h2.sio x hx.2.2, hmid.sio x (by simp [objs, hx.1, hx.2.1])]

/-- **C185, the stream is put back.**  After every proper program, whether it ended normally or with
an exception, `sys.stdout` names the stream it named before; the program raises exactly when one of
its `raise` statements is reached, the capturing itself never raises. -/
theorem C185_restored (p : Prog) (s : State) (hp : Proper p) (hs : s.out < s.next) :
    (run p s).1.out = s.out ∧ (run p s).2 = fails p :=
  ⟨(run_spec p s hp hs).1.out, (run_spec p s hp hs).2⟩

/-- **C185, nothing leaks.**  The old stream receives exactly the text printed outside of the
captures, and every other existing stream keeps its content. -/
theorem C185_outside (p : Prog) (s : State) (hp : Proper p) (hs : s.out < s.next) :
    (run p s).1.text s.out = s.text s.out ++ printed p ∧
    ∀ k, k < s.next → k ≠ s.out → (run p s).1.text k = s.text k :=
  ⟨(run_spec p s hp hs).1.text, (run_spec p s hp hs).1.other⟩

/-- **C185, lines.**  Every capture object has gained exactly the lines printed directly in its own
blocks, in order, also when the block raised. -/
theorem C185_lines (p : Prog) (s : State) (hp : Proper p) (hs : s.out < s.next) (c : ℕ) :
    (run p s).1.got c = s.got c ++ linesOf c p :=
  (run_spec p s hp hs).1.got c

theorem splitGo_line (l : List Char) (hl : ∀ c ∈ l, isBreak c = false) (t : List Char) :
    ∀ cur, splitGo cur (l ++ '\n' :: t) = (cur.reverse ++ l) :: splitGo [] t := by
  have hnl : isBreak '\n' = true := by decide
  induction l with
  | nil =>
    intro cur
    cases t with
    | nil => simp [splitGo, hnl]
    | cons d t => simp [splitGo, hnl]
  | cons a l ih =>
    intro cur
    have ha := hl a (by simp)
    have ih := ih (fun c hc => hl c (by simp [hc])) (a :: cur)
    have hr : a ≠ '\r' := by
      rintro rfl
      exact absurd ha (by decide)
    cases hq : l ++ '\n' :: t with
    | nil => simp at hq
    | cons d q =>
      rw [hq] at ih
      rw [List.cons_append, hq, splitGo, if_neg (fun h => hr h.1), if_neg (by simp [ha]), ih]
      simp

theorem splitGo_rest (l : List Char) (hl : ∀ c ∈ l, isBreak c = false) :
    ∀ cur, splitGo cur l = if (cur.reverse ++ l).isEmpty then [] else [cur.reverse ++ l] := by
  induction l with
  | nil => intro cur; cases cur <;> simp [splitGo]
  | cons a l ih =>
    intro cur
    have ha := hl a (by simp)
    have ih := ih (fun c hc => hl c (by simp [hc])) (a :: cur)
    have hr : a ≠ '\r' := by
      rintro rfl
      exact absurd ha (by decide)
    cases l with
    | nil => simp [splitGo, ha]
    | cons d q =>
      rw [splitGo, if_neg (fun h => hr h.1), if_neg (by simp [ha]), ih]
      simp

/-- **C185, printed lines come back.**  Lines without line boundaries printed one after the other
(each with its newline) followed by an unfinished line come back as these lines; the unfinished one
counts when it is not empty. -/
theorem C185_splitlines (ls : List (List Char)) (last : List Char)
    (hl : ∀ l ∈ ls, ∀ c ∈ l, isBreak c = false) (h : ∀ c ∈ last, isBreak c = false) :
    splitlines (ls.flatMap (fun l => l ++ ['\n']) ++ last)
      = ls ++ (if last.isEmpty then [] else [last]) := by
  unfold splitlines
  induction ls with
  | nil => simpa using splitGo_rest last h []
  | cons l ls ih =>
    have ih := ih fun m hm => hl m (by simp [hm])
    have := splitGo_line l (hl l (by simp)) (ls.flatMap (fun l => l ++ ['\n']) ++ last) []
    simp only [List.flatMap_cons, List.append_assoc, List.singleton_append, List.cons_append,
      List.nil_append] at this ⊢
    rw [this, ih]
    simp

/-! ### Examples -/

/-- A fresh interpreter: stream 0 is the terminal. -/
def start : State := ⟨0, 1, fun _ => [], fun _ => none, fun _ => none, fun _ => []⟩

/-- print a; with 5: (print b; with 6: (print c; raise)); print d -/
def nested : Prog :=
  .print ['a'] (.cap 5 (.print ['b', '\n'] (.cap 6 (.print ['c'] .raise) .done)) (.print ['d'] .done))

example : Proper nested := by simp [Proper, nested, objs]

example : (run nested start).1.out = 0 ∧ (run nested start).2 = true ∧
    (run nested start).1.text 0 = ['a'] ∧ (run nested start).1.got 5 = [['b']] ∧
    (run nested start).1.got 6 = [['c']] := by decide

/-- The same object used twice in a row collects both blocks. -/
example : (run (.cap 5 (.print ['b'] .done) (.cap 5 (.print ['c'] .done) .done)) start).1.got 5
    = [['b'], ['c']] := by decide

/-- `with c: with c: print` : the second exit raises and `sys.stdout` stays on a dead buffer. -/
def reentered : Prog := .cap 5 (.cap 5 (.print ['b'] .done) .done) (.print ['d'] .done)

/-- **C185, witness.**  Entering the same object inside its own block: the program raises although it
contains no `raise`, and `sys.stdout` is not put back. -/
theorem C185_reentry :
    (run reentered start).1.out ≠ start.out ∧ (run reentered start).2 = true ∧
      fails reentered = false ∧ ¬ Proper reentered := by
  refine ⟨by decide, by decide, by decide, ?_⟩
  intro h
  exact h.1 (by decide)

example : splitlines "a\r\nb\n\nc".toList = ["a".toList, "b".toList, [], "c".toList] := by decide

end Verif.Capture
