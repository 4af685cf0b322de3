import Mathlib.Logic.Function.Basic
import Mathlib.Order.Basic
import Mathlib.Order.Nat
import Mathlib.Data.List.Basic

/-!
# Redirecting the C++ standard output from Python

`python/triqs/utility/redirect.py`: `start_redirect()` saves descriptor 1 with `dup` and starts a
thread that glues descriptor 1 to a pipe, empties the pipe once per second and, after
`stop_redirect()`, puts descriptor 1 back.  The model runs the main program and any number of these
threads under every interleaving of their system calls.

* C186: when every `start_redirect` waits for the threads of earlier redirections to finish,
  descriptor 1 names the terminal again as soon as no thread is running, whatever the interleaving.
* A redirection started while the previous thread is still asleep (`stop_redirect` does not wait)
  leaves descriptor 1 on a pipe that nobody reads, for good (witness).
* Every redirection keeps one more descriptor open for good; nothing else is left open.
* What C++ writes while redirected never reaches the terminal: `os.read` returns `bytes`, the
  `write` of a text stream raises `TypeError`, and the exception is swallowed.

Simplifications: the choice of a free descriptor by the system is arbitrary; the limits on the number
of descriptors and the size of a pipe are not modelled; what Python itself writes is not modelled.
-/

namespace Verif.Redirect

/-! ## Model -/

/-- What a descriptor names: the terminal (whatever descriptor 1 named when the module was loaded),
another file, the write or the read end of pipe `k`. -/
inductive File
  | term
  | other
  | pw (k : ℕ)
  | pr (k : ℕ)
deriving DecidableEq, Repr

/-- Where the thread stands in `run` (redirect.py 37-62): before `os.pipe()` (41), before
`os.dup2(pipew, 1)` (42), before `os.close(pipew)` (43), before the test of the loop (46), inside the
loop (49-56), before `os.dup2(self.oldhandle, 1)` (60), before `os.close(piper)` (61), returned. -/
inductive Pc
  | fresh | piped | glued | loop | read | back | clear | done
deriving DecidableEq, Repr

/-- A thread `T` (redirect.py 25-62): program counter, `go_on`, `oldhandle`, `piper`, `pipew`. -/
structure Thread where
  pc : Pc
  goOn : Bool
  old : ℕ
  r : ℕ
  w : ℕ
deriving DecidableEq, Repr

/-- The process: the table of descriptors, the threads in the order of creation (the global `a` is
the last one), the flag `started`, the number of pipes made so far, for every pipe its content and
whether its read end is open, the text on the terminal, and whether a write has failed. -/
structure St where
  fd : ℕ → Option File
  threads : List Thread
  started : Bool
  pipes : ℕ
  buf : ℕ → List Char
  reader : ℕ → Bool
  screen : List Char
  broken : Bool

/-- The steps: `start_redirect()` (`n` is the descriptor `dup` returns), `stop_redirect()`, one step
of thread `i` (`r`, `w` are the descriptors `pipe` returns), C++ code writing to descriptor 1. -/
inductive Act
  | start (n : ℕ)
  | stop
  | thread (i r w : ℕ)
  | output (t : List Char)

/-- One step of a thread; `none` when the thread has returned or the system cannot return these
descriptors. -/
def threadStep (s : St) (i : ℕ) (t : Thread) (r w : ℕ) : Option St :=
  match t.pc with
  -- redirect.py 41: piper, pipew = os.pipe()
  | .fresh =>
    if r ≠ w ∧ s.fd r = none ∧ s.fd w = none then
      some { s with
        fd := Function.update (Function.update s.fd r (some (.pr s.pipes))) w (some (.pw s.pipes))
        pipes := s.pipes + 1
        buf := Function.update s.buf s.pipes []
        reader := Function.update s.reader s.pipes true
        threads := s.threads.set i { t with pc := .piped, r := r, w := w } }
    else none
  -- redirect.py 42: os.dup2(pipew, 1)
  | .piped =>
    some { s with
      fd := Function.update s.fd 1 (s.fd t.w)
      threads := s.threads.set i { t with pc := .glued } }
  -- redirect.py 43: os.close(pipew); 44 changes no table
  | .glued =>
    some { s with
      fd := Function.update s.fd t.w none
      threads := s.threads.set i { t with pc := .loop } }
  -- redirect.py 46: while self.go_on
  | .loop =>
    some { s with threads := s.threads.set i { t with pc := if t.goOn then .read else .back } }
  -- redirect.py 49-56: os.read takes up to 10000 bytes out of the pipe; sys.stdout.write raises
  -- TypeError on bytes, which `except: pass` swallows
  | .read =>
    some { s with
      buf := match s.fd t.r with
        | some (.pr k) => Function.update s.buf k ((s.buf k).drop 10000)
        | _ => s.buf
      threads := s.threads.set i { t with pc := .loop } }
  -- redirect.py 60: os.dup2(self.oldhandle, 1)
  | .back =>
    some { s with
      fd := Function.update s.fd 1 (s.fd t.old)
      threads := s.threads.set i { t with pc := .clear } }
  -- redirect.py 61: os.close(piper)
  | .clear =>
    some { s with
      reader := match s.fd t.r with
        | some (.pr k) => Function.update s.reader k false
        | _ => s.reader
      fd := Function.update s.fd t.r none
      threads := s.threads.set i { t with pc := .done } }
  | .done => none

/-- One step of the process. -/
def step (s : St) : Act → Option St
  -- redirect.py 68-77 with the constructor 27-32: self.oldhandle = os.dup(1)
  | .start n =>
    if s.started then some s
    else if s.fd n = none then
      some { s with
        started := true
        fd := Function.update s.fd n (s.fd 1)
        threads := s.threads ++ [⟨.fresh, true, n, 0, 0⟩] }
    else none
  -- redirect.py 80-85 with 34-35: a.stop()
  | .stop =>
    if s.started then
      match s.threads[s.threads.length - 1]? with
      | some t =>
        some { s with
          started := false
          threads := s.threads.set (s.threads.length - 1) { t with goOn := false } }
      | none => none
    else some s
  | .thread i r w =>
    match s.threads[i]? with
    | some t => threadStep s i t r w
    | none => none
  -- C++ writes t to descriptor 1; without a reader of the pipe the write fails with EPIPE
  | .output t =>
    match s.fd 1 with
    | some .term => some { s with screen := s.screen ++ t }
    | some (.pw k) =>
      if s.reader k then some { s with buf := Function.update s.buf k (s.buf k ++ t) }
      else some { s with broken := true }
    | _ => some { s with broken := true }

/-- The process when the module is loaded: descriptor 1 names the terminal, other descriptors are
free or name other files. -/
def init (others : ℕ → Bool) : St :=
  { fd := fun n => if n = 1 then some .term else if others n then some .other else none
    threads := []
    started := false
    pipes := 0
    buf := fun _ => []
    reader := fun _ => false
    screen := []
    broken := false }

/-! ## Specification -/

/-- The states reached by executions in which every step satisfies `ok`. -/
inductive Reach (ok : St → Act → Prop) (s₀ : St) : St → Prop
  | refl : Reach ok s₀ s₀
  | step {s s' : St} (a : Act) : Reach ok s₀ s → ok s a → step s a = some s' → Reach ok s₀ s'

/-- Every execution. -/
def any : St → Act → Prop := fun _ _ => True

/-- No thread is running. -/
def quiet (s : St) : Prop := ∀ t ∈ s.threads, t.pc = .done

/-- A new redirection is started only when no thread is running. -/
def careful (s : St) : Act → Prop
  | .start _ => s.started = false → quiet s
  | _ => True

/-- The thread has glued descriptor 1 to its pipe and not put it back yet. -/
def Glued (t : Thread) : Prop := t.pc = .glued ∨ t.pc = .loop ∨ t.pc = .read ∨ t.pc = .back

/-! ## Proofs -/

def hasR : Pc → Bool
  | .fresh => false
  | .done => false
  | _ => true

def hasW : Pc → Bool
  | .piped => true
  | .glued => true
  | _ => false

/-- Descriptors in the hands of a thread. -/
def holds (t : Thread) (n : ℕ) : Prop :=
  n = t.old ∨ (n = t.r ∧ hasR t.pc = true) ∨ (n = t.w ∧ hasW t.pc = true)

structure Inv (others : ℕ → Bool) (s : St) : Prop where
  one : s.fd 1 ≠ none
  live : ∀ (i : ℕ) t n, s.threads[i]? = some t → holds t n → n ≠ 1 ∧ s.fd n ≠ none ∧ others n = false
  sep : ∀ (i j : ℕ) t u n, s.threads[i]? = some t → s.threads[j]? = some u → i ≠ j → holds t n →
    ¬ holds u n
  ro : ∀ (i : ℕ) t, s.threads[i]? = some t → hasR t.pc = true → t.r ≠ t.old
  wo : ∀ (i : ℕ) t, s.threads[i]? = some t → hasW t.pc = true → t.w ≠ t.old ∧ t.w ≠ t.r
  all : ∀ n, s.fd n ≠ none → n = 1 ∨ others n = true ∨ ∃ (i : ℕ) (t : Thread), s.threads[i]? = some t ∧ holds t n
  init : ∀ n, others n = true → n ≠ 1 → s.fd n ≠ none

theorem get_lt {α : Type} {l : List α} {i : ℕ} {a : α} (h : l[i]? = some a) : i < l.length := by
  by_contra hc
  rw [List.getElem?_eq_none (by omega)] at h
  exact absurd h (by simp)

theorem get_set {α : Type} {l : List α} {i j : ℕ} {a b c : α} (h : l[i]? = some a)
    (h' : (l.set i b)[j]? = some c) : (i = j ∧ c = b) ∨ (i ≠ j ∧ l[j]? = some c) := by
  rw [List.getElem?_set] at h'
  by_cases e : i = j
  · rw [if_pos e, if_pos (get_lt h)] at h'
    exact .inl ⟨e, (Option.some.inj h').symm⟩
  · rw [if_neg e] at h'
    exact .inr ⟨e, h'⟩

theorem set_get {α : Type} {l : List α} {i : ℕ} {a b : α} (h : l[i]? = some a) :
    (l.set i b)[i]? = some b := by
  rw [List.getElem?_set, if_pos rfl, if_pos (get_lt h)]

theorem set_get_ne {α : Type} {l : List α} {i j : ℕ} {b : α} (h : i ≠ j) :
    (l.set i b)[j]? = l[j]? := by
  rw [List.getElem?_set, if_neg h]

theorem Inv.upd {others : ℕ → Bool} {s s' : St} {i : ℕ} {t t' : Thread} (h : Inv others s)
    (hi : s.threads[i]? = some t) (hth : s'.threads = s.threads.set i t')
    (hsub : ∀ n, holds t' n → holds t n ∨ s.fd n = none)
    (hone : s'.fd 1 ≠ none)
    (hlive : ∀ n, holds t' n → s'.fd n ≠ none)
    (hkeep : ∀ n, n ≠ 1 → ¬ holds t n → ¬ holds t' n → s'.fd n = s.fd n)
    (hdrop : ∀ n, n ≠ 1 → holds t n → ¬ holds t' n → s'.fd n = none)
    (hro : hasR t'.pc = true → t'.r ≠ t'.old)
    (hwo : hasW t'.pc = true → t'.w ≠ t'.old ∧ t'.w ≠ t'.r) : Inv others s' := by
  have hnew : ∀ n, holds t' n → n ≠ 1 ∧ others n = false := by
    intro n hn
    rcases hsub n hn with hn | hn
    · exact ⟨(h.live i t n hi hn).1, (h.live i t n hi hn).2.2⟩
    · have h1 : n ≠ 1 := by
        rintro rfl
        exact h.one hn
      refine ⟨h1, ?_⟩
      cases ho : others n with
      | false => rfl
      | true => exact absurd hn (h.init n ho h1)
  have hoth : ∀ j u n, s.threads[j]? = some u → i ≠ j → holds u n → ¬ holds t n ∧ ¬ holds t' n := by
    intro j u n hj hij hu
    have h1 := h.sep j i u t n hj hi (Ne.symm hij) hu
    refine ⟨h1, fun h2 => ?_⟩
    rcases hsub n h2 with h2 | h2
    · exact h1 h2
    · exact (h.live j u n hj hu).2.1 h2
  refine ⟨hone, ?_, ?_, ?_, ?_, ?_, ?_⟩
  · intro j u n hj hu
    rw [hth] at hj
    rcases get_set hi hj with ⟨rfl, rfl⟩ | ⟨hij, hj⟩
    · exact ⟨(hnew n hu).1, hlive n hu, (hnew n hu).2⟩
    · obtain ⟨h1, h2, h3⟩ := h.live j u n hj hu
      obtain ⟨h4, h5⟩ := hoth j u n hj hij hu
      exact ⟨h1, by rw [hkeep n h1 h4 h5]; exact h2, h3⟩
  · intro j k u v n hj hk hjk hu hv
    rw [hth] at hj hk
    rcases get_set hi hj with ⟨rfl, rfl⟩ | ⟨hij, hj'⟩
    · rcases get_set hi hk with ⟨rfl, rfl⟩ | ⟨hik, hk'⟩
      · exact hjk rfl
      · exact (hoth k v n hk' hik hv).2 hu
    · rcases get_set hi hk with ⟨rfl, rfl⟩ | ⟨hik, hk'⟩
      · exact (hoth j u n hj' hij hu).2 hv
      · exact h.sep j k u v n hj' hk' hjk hu hv
  · intro j u hj
    rw [hth] at hj
    rcases get_set hi hj with ⟨rfl, rfl⟩ | ⟨_, hj⟩
    · exact hro
    · exact h.ro j u hj
  · intro j u hj
    rw [hth] at hj
    rcases get_set hi hj with ⟨rfl, rfl⟩ | ⟨_, hj⟩
    · exact hwo
    · exact h.wo j u hj
  · intro n hn
    by_cases h1 : n = 1
    · exact .inl h1
    by_cases h2 : holds t' n
    · exact .inr (.inr ⟨i, t', by rw [hth, set_get hi], h2⟩)
    by_cases h3 : holds t n
    · exact absurd (hdrop n h1 h3 h2) hn
    rw [hkeep n h1 h3 h2] at hn
    rcases h.all n hn with h4 | h4 | ⟨j, u, hj, hu⟩
    · exact .inl h4
    · exact .inr (.inl h4)
    · by_cases hij : i = j
      · subst hij
        rw [hi] at hj
        exact absurd (Option.some.inj hj ▸ hu) h3
      · exact .inr (.inr ⟨j, u, by rw [hth, set_get_ne hij]; exact hj, hu⟩)
  · intro n ho hn1
    have hn := h.init n ho hn1
    have h1 : ¬ holds t n := fun hc => by
      have := (h.live i t n hi hc).2.2
      rw [ho] at this
      exact absurd this (by simp)
    have h2 : ¬ holds t' n := fun hc => by
      have := (hnew n hc).2
      rw [ho] at this
      exact absurd this (by simp)
    rw [hkeep n hn1 h1 h2]
    exact hn

theorem Inv.start {others : ℕ → Bool} {s s' : St} {n : ℕ} {t : Thread} (h : Inv others s)
    (hfree : s.fd n = none) (hth : s'.threads = s.threads ++ [t]) (hold : t.old = n)
    (hpc : t.pc = .fresh) (hfd : s'.fd = Function.update s.fd n (s.fd 1)) : Inv others s' := by
  have h1 : n ≠ 1 := by
    rintro rfl
    exact h.one hfree
  have hn : others n = false := by
    cases ho : others n with
    | false => rfl
    | true => exact absurd hfree (h.init n ho h1)
  have ht : ∀ m, holds t m ↔ m = n := by
    intro m
    simp [holds, hold, hpc, hasR, hasW]
  have hget : ∀ (j : ℕ) (u : Thread), s'.threads[j]? = some u →
      (j = s.threads.length ∧ u = t) ∨ (j < s.threads.length ∧ s.threads[j]? = some u) := by
    intro j u hj
    rw [hth, List.getElem?_append] at hj
    split at hj
    · next hlt => exact .inr ⟨hlt, hj⟩
    · next hlt =>
      have hlt := get_lt hj
      simp only [List.length_singleton] at hlt
      have : j = s.threads.length := by omega
      subst this
      simp only [Nat.sub_self, List.getElem?_cons_zero, Option.some.injEq] at hj
      exact .inl ⟨rfl, hj.symm⟩
  have hgetold : ∀ (j : ℕ) (u : Thread), s.threads[j]? = some u → s'.threads[j]? = some u := by
    intro j u hj
    rw [hth, List.getElem?_append_left (get_lt hj)]
    exact hj
  have hne : ∀ (j : ℕ) (u : Thread) m, s.threads[j]? = some u → holds u m → m ≠ n := by
    rintro j u m hj hu rfl
    exact (h.live j u m hj hu).2.1 hfree
  refine ⟨?_, ?_, ?_, ?_, ?_, ?_, ?_⟩
  · rw [hfd, Function.update_of_ne (Ne.symm h1)]
    exact h.one
  · intro j u m hj hu
    rcases hget j u hj with ⟨rfl, rfl⟩ | ⟨_, hj⟩
    · rw [(ht m).1 hu]
      refine ⟨h1, ?_, hn⟩
      rw [hfd, Function.update_self]
      exact h.one
    · obtain ⟨h2, h3, h4⟩ := h.live j u m hj hu
      refine ⟨h2, ?_, h4⟩
      rw [hfd, Function.update_of_ne (hne j u m hj hu)]
      exact h3
  · intro j k u v m hj hk hjk hu hv
    rcases hget j u hj with ⟨rfl, rfl⟩ | ⟨_, hj⟩
    · rcases hget k v hk with ⟨rfl, rfl⟩ | ⟨_, hk⟩
      · exact hjk rfl
      · exact hne k v m hk hv ((ht m).1 hu)
    · rcases hget k v hk with ⟨rfl, rfl⟩ | ⟨_, hk⟩
      · exact hne j u m hj hu ((ht m).1 hv)
      · exact h.sep j k u v m hj hk hjk hu hv
  · intro j u hj
    rcases hget j u hj with ⟨rfl, rfl⟩ | ⟨_, hj⟩
    · rw [hpc]; simp [hasR]
    · exact h.ro j u hj
  · intro j u hj
    rcases hget j u hj with ⟨rfl, rfl⟩ | ⟨_, hj⟩
    · rw [hpc]; simp [hasW]
    · exact h.wo j u hj
  · intro m hm
    by_cases hmn : m = n
    · refine .inr (.inr ⟨s.threads.length, t, ?_, (ht m).2 hmn⟩)
      rw [hth, List.getElem?_append_right (Nat.le_refl _)]
      simp
    · rw [hfd, Function.update_of_ne hmn] at hm
      rcases h.all m hm with h4 | h4 | ⟨j, u, hj, hu⟩
      · exact .inl h4
      · exact .inr (.inl h4)
      · exact .inr (.inr ⟨j, u, hgetold j u hj, hu⟩)
  · intro m ho hm
    rw [hfd, Function.update_of_ne (by rintro rfl; rw [hn] at ho; exact absurd ho (by simp))]
    exact h.init m ho hm

theorem Inv.congr {others : ℕ → Bool} {s s' : St} (h : Inv others s) (hfd : s'.fd = s.fd)
    (hth : s'.threads = s.threads) : Inv others s' := by
  refine ⟨?_, ?_, ?_, ?_, ?_, ?_, ?_⟩
  · rw [hfd]; exact h.one
  · rw [hfd, hth]; exact h.live
  · rw [hth]; exact h.sep
  · rw [hth]; exact h.ro
  · rw [hth]; exact h.wo
  · rw [hfd, hth]; exact h.all
  · rw [hfd]; exact h.init

theorem inv_thread {others : ℕ → Bool} {s s' : St} {i : ℕ} {t : Thread} {r w : ℕ}
    (h : Inv others s) (hi : s.threads[i]? = some t) (hs : threadStep s i t r w = some s') :
    Inv others s' := by
  have hlive := fun n => h.live i t n hi
  have hro := h.ro i t hi
  have hwo := h.wo i t hi
  unfold threadStep at hs
  cases hpc : t.pc with
  | fresh =>
    rw [hpc] at hs
    simp only at hs
    split at hs
    · next hf =>
      obtain ⟨hrw, hr, hw⟩ := hf
      rw [← Option.some.inj hs]
      have hr1 : r ≠ 1 := by rintro rfl; exact h.one hr
      have hw1 : w ≠ 1 := by rintro rfl; exact h.one hw
      have hro : t.old ≠ r := by
        intro e
        exact (hlive t.old (.inl rfl)).2.1 (by rw [e]; exact hr)
      have hwo : t.old ≠ w := by
        intro e
        exact (hlive t.old (.inl rfl)).2.1 (by rw [e]; exact hw)
      refine h.upd hi rfl ?_ ?_ ?_ ?_ ?_ ?_ ?_
      · rintro n (hn | ⟨hn, _⟩ | ⟨hn, _⟩)
        · exact .inl (.inl hn)
        · exact .inr (by rw [hn]; exact hr)
        · exact .inr (by rw [hn]; exact hw)
      · simp only
        rw [Function.update_of_ne (Ne.symm hw1), Function.update_of_ne (Ne.symm hr1)]
        exact h.one
      · rintro n (hn | ⟨hn, _⟩ | ⟨hn, _⟩)
        · simp only at hn ⊢
          rw [hn, Function.update_of_ne hwo, Function.update_of_ne hro]
          exact (hlive t.old (.inl rfl)).2.1
        · simp only at hn ⊢
          rw [hn, Function.update_of_ne hrw, Function.update_self]
          simp
        · simp only at hn ⊢
          rw [hn, Function.update_self]
          simp
      · intro n _ _ hn
        simp only [holds, hasR, hasW, and_true, not_or] at hn
        simp only
        rw [Function.update_of_ne hn.2.2, Function.update_of_ne hn.2.1]
      · intro n _ h1 h2
        simp only [holds, hpc, hasR, hasW, and_true, not_or] at h1 h2
        rcases h1 with h1 | h1 | h1
        · exact absurd h1 h2.1
        · simp at h1
        · simp at h1
      · exact fun _ => Ne.symm hro
      · exact fun _ => ⟨Ne.symm hwo, Ne.symm hrw⟩
    · exact absurd hs (by simp)
  | piped =>
    rw [hpc] at hs hro hwo
    rw [← Option.some.inj hs]
    have e : ∀ n, holds { t with pc := .glued } n ↔ holds t n := by
      intro n; simp [holds, hpc, hasR, hasW]
    refine h.upd hi rfl (fun n hn => .inl ((e n).1 hn)) ?_ ?_ ?_ ?_ hro hwo
    · simp only
      rw [Function.update_self]
      exact (hlive t.w (.inr (.inr ⟨rfl, by rw [hpc]; rfl⟩))).2.1
    · intro n hn
      obtain ⟨h1, h2, _⟩ := hlive n ((e n).1 hn)
      simp only
      rw [Function.update_of_ne h1]
      exact h2
    · intro n h1 _ _
      simp only
      rw [Function.update_of_ne h1]
    · intro n _ h1 h2
      exact absurd ((e n).2 h1) h2
  | glued =>
    rw [hpc] at hs hro hwo
    rw [← Option.some.inj hs]
    have hw1 := hlive t.w (.inr (.inr ⟨rfl, by rw [hpc]; rfl⟩))
    have hw2 := hwo rfl
    refine h.upd hi rfl ?_ ?_ ?_ ?_ ?_ hro ?_
    · rintro n (hn | ⟨hn, _⟩ | ⟨_, hn⟩)
      · exact .inl (.inl hn)
      · exact .inl (.inr (.inl ⟨hn, by rw [hpc]; rfl⟩))
      · exact absurd hn (by simp [hasW])
    · simp only
      rw [Function.update_of_ne (Ne.symm hw1.1)]
      exact h.one
    · rintro n (hn | ⟨hn, _⟩ | ⟨_, hn⟩)
      · simp only at hn ⊢
        rw [hn, Function.update_of_ne (Ne.symm hw2.1)]
        exact (hlive t.old (.inl rfl)).2.1
      · simp only at hn ⊢
        rw [hn, Function.update_of_ne (Ne.symm hw2.2)]
        exact (hlive t.r (.inr (.inl ⟨rfl, by rw [hpc]; rfl⟩))).2.1
      · exact absurd hn (by simp [hasW])
    · intro n _ h1 _
      simp only [holds, hpc, hasR, hasW, and_true, not_or] at h1
      simp only
      rw [Function.update_of_ne h1.2.2]
    · intro n _ h1 h2
      simp only [holds, hpc, hasR, hasW, and_true, not_or] at h1 h2
      rcases h1 with h1 | h1 | h1
      · exact absurd h1 h2.1
      · exact absurd h1 h2.2.1
      · simp only
        rw [h1, Function.update_self]
    · exact fun hc => absurd hc (by simp [hasW])
  | loop =>
    rw [hpc] at hs hro hwo
    rw [← Option.some.inj hs]
    have e : ∀ n, holds { t with pc := if t.goOn then .read else .back } n ↔ holds t n := by
      intro n; cases hg : t.goOn <;> simp [holds, hpc, hasR, hasW]
    refine h.upd hi rfl (fun n hn => .inl ((e n).1 hn)) h.one
      (fun n hn => (hlive n ((e n).1 hn)).2.1) (fun _ _ _ _ => rfl)
      (fun n _ h1 h2 => absurd ((e n).2 h1) h2) (fun _ => hro rfl) ?_
    intro hc
    exfalso
    cases hg : t.goOn <;> simp [hg, hasW] at hc
  | read =>
    rw [hpc] at hs hro hwo
    rw [← Option.some.inj hs]
    have e : ∀ n, holds { t with pc := .loop } n ↔ holds t n := by
      intro n; simp [holds, hpc, hasR, hasW]
    exact h.upd hi rfl (fun n hn => .inl ((e n).1 hn)) h.one
      (fun n hn => (hlive n ((e n).1 hn)).2.1) (fun _ _ _ _ => rfl)
      (fun n _ h1 h2 => absurd ((e n).2 h1) h2) hro hwo
  | back =>
    rw [hpc] at hs hro hwo
    rw [← Option.some.inj hs]
    have e : ∀ n, holds { t with pc := .clear } n ↔ holds t n := by
      intro n; simp [holds, hpc, hasR, hasW]
    refine h.upd hi rfl (fun n hn => .inl ((e n).1 hn)) ?_ ?_ ?_ ?_ hro hwo
    · simp only
      rw [Function.update_self]
      exact (hlive t.old (.inl rfl)).2.1
    · intro n hn
      obtain ⟨h1, h2, _⟩ := hlive n ((e n).1 hn)
      simp only
      rw [Function.update_of_ne h1]
      exact h2
    · intro n h1 _ _
      simp only
      rw [Function.update_of_ne h1]
    · intro n _ h1 h2
      exact absurd ((e n).2 h1) h2
  | clear =>
    rw [hpc] at hs hro hwo
    rw [← Option.some.inj hs]
    have hr1 := hlive t.r (.inr (.inl ⟨rfl, by rw [hpc]; rfl⟩))
    have hr2 := hro rfl
    refine h.upd hi rfl ?_ ?_ ?_ ?_ ?_ ?_ ?_
    · rintro n (hn | ⟨_, hn⟩ | ⟨_, hn⟩)
      · exact .inl (.inl hn)
      · exact absurd hn (by simp [hasR])
      · exact absurd hn (by simp [hasW])
    · simp only
      rw [Function.update_of_ne (Ne.symm hr1.1)]
      exact h.one
    · rintro n (hn | ⟨_, hn⟩ | ⟨_, hn⟩)
      · simp only at hn ⊢
        rw [hn, Function.update_of_ne (Ne.symm hr2)]
        exact (hlive t.old (.inl rfl)).2.1
      · exact absurd hn (by simp [hasR])
      · exact absurd hn (by simp [hasW])
    · intro n _ h1 _
      simp only [holds, hpc, hasR, hasW, and_true, not_or] at h1
      simp only
      rw [Function.update_of_ne h1.2.1]
    · intro n _ h1 h2
      simp only [holds, hpc, hasR, hasW, and_true, not_or] at h1 h2
      rcases h1 with h1 | h1 | h1
      · exact absurd h1 h2.1
      · simp only
        rw [h1, Function.update_self]
      · simp at h1
    · exact fun hc => absurd hc (by simp [hasR])
    · exact fun hc => absurd hc (by simp [hasW])
  | done =>
    rw [hpc] at hs
    exact absurd hs (by simp)

theorem inv_step {others : ℕ → Bool} {s s' : St} {a : Act} (h : Inv others s)
    (hs : step s a = some s') : Inv others s' := by
  cases a with
  | start n =>
    simp only [step] at hs
    split at hs
    · rw [← Option.some.inj hs]; exact h
    · split at hs
      · next hf =>
        rw [← Option.some.inj hs]
        exact h.start hf rfl rfl rfl rfl
      · exact absurd hs (by simp)
  | stop =>
    simp only [step] at hs
    split at hs
    · split at hs
      · next t ht =>
        rw [← Option.some.inj hs]
        have e : ∀ n, holds { t with goOn := false } n ↔ holds t n := fun _ => Iff.rfl
        exact h.upd ht rfl (fun n hn => .inl ((e n).1 hn)) h.one
          (fun n hn => (h.live _ t n ht ((e n).1 hn)).2.1) (fun _ _ _ _ => rfl)
          (fun n _ h1 h2 => absurd ((e n).2 h1) h2) (h.ro _ t ht) (h.wo _ t ht)
      · exact absurd hs (by simp)
    · rw [← Option.some.inj hs]; exact h
  | thread i r w =>
    simp only [step] at hs
    split at hs
    · next t ht => exact inv_thread h ht hs
    · exact absurd hs (by simp)
  | output t =>
    simp only [step] at hs
    split at hs
    · rw [← Option.some.inj hs]; exact h.congr rfl rfl
    · split at hs
      · rw [← Option.some.inj hs]; exact h.congr rfl rfl
      · rw [← Option.some.inj hs]; exact h.congr rfl rfl
    · rw [← Option.some.inj hs]; exact h.congr rfl rfl

theorem inv_init (others : ℕ → Bool) : Inv others (init others) := by
  refine ⟨by simp [init], by simp [init], by simp [init], by simp [init], by simp [init], ?_, ?_⟩
  · intro n hn
    by_cases h1 : n = 1
    · exact .inl h1
    · cases ho : others n with
      | true => exact .inr (.inl rfl)
      | false => simp [init, h1, ho] at hn
  · intro n ho h1
    simp [init, h1, ho]

theorem inv_reach {others : ℕ → Bool} {ok : St → Act → Prop} {s : St}
    (h : Reach ok (init others) s) : Inv others s := by
  induction h with
  | refl => exact inv_init others
  | step a _ _ hs ih => exact inv_step ih hs

/-- What careful executions keep. -/
structure Good (s : St) : Prop where
  last : ∀ (i : ℕ) t, s.threads[i]? = some t → i + 1 < s.threads.length → t.pc = .done
  old : ∀ (i : ℕ) t, s.threads[i]? = some t → s.fd t.old = some .term
  one : (∀ (i : ℕ) t, s.threads[i]? = some t → ¬ Glued t) → s.fd 1 = some .term
  pipe : ∀ (i : ℕ) t, s.threads[i]? = some t → hasR t.pc = true →
    ∃ k, s.fd t.r = some (.pr k) ∧ s.reader k = true ∧
      (hasW t.pc = true → s.fd t.w = some (.pw k)) ∧ (Glued t → s.fd 1 = some (.pw k))
  ok : s.broken = false

theorem not_glued_done {t : Thread} (h : t.pc = .done) : ¬ Glued t := by
  simp [Glued, h]

theorem Good.one' {s : St} {i : ℕ} {t : Thread} (h : Good s) (hi : s.threads[i]? = some t)
    (hl : i + 1 = s.threads.length) (hg : ¬ Glued t) : s.fd 1 = some .term := by
  apply h.one
  intro j u hj
  by_cases e : j = i
  · subst e
    rw [hi] at hj
    rw [← Option.some.inj hj]
    exact hg
  · exact not_glued_done (h.last j u hj (by have := get_lt hj; omega))

theorem Good.upd {others : ℕ → Bool} {s s' : St} {i : ℕ} {t t' : Thread} (hg : Good s)
    (h : Inv others s) (hi : s.threads[i]? = some t) (hl : i + 1 = s.threads.length)
    (hth : s'.threads = s.threads.set i t')
    (hkeep : ∀ n, n ≠ 1 → ¬ holds t n → s.fd n ≠ none → s'.fd n = s.fd n)
    (hold : s'.fd t'.old = some .term)
    (hone : ¬ Glued t' → s'.fd 1 = some .term)
    (hpipe : hasR t'.pc = true → ∃ k, s'.fd t'.r = some (.pr k) ∧ s'.reader k = true ∧
      (hasW t'.pc = true → s'.fd t'.w = some (.pw k)) ∧ (Glued t' → s'.fd 1 = some (.pw k)))
    (hok : s'.broken = s.broken) : Good s' := by
  have hdone : ∀ (j : ℕ) u, s.threads[j]? = some u → i ≠ j → u.pc = .done := by
    intro j u hj hij
    exact hg.last j u hj (by have := get_lt hj; omega)
  refine ⟨?_, ?_, ?_, ?_, by rw [hok]; exact hg.ok⟩
  · intro j u hj hlt
    rw [hth] at hj hlt
    rw [List.length_set] at hlt
    rcases get_set hi hj with ⟨rfl, rfl⟩ | ⟨hij, hj'⟩
    · omega
    · exact hdone j u hj' hij
  · intro j u hj
    rw [hth] at hj
    rcases get_set hi hj with ⟨rfl, rfl⟩ | ⟨hij, hj'⟩
    · exact hold
    · have hu := h.live j u u.old hj' (.inl rfl)
      rw [hkeep u.old hu.1 (h.sep j i u t u.old hj' hi (Ne.symm hij) (.inl rfl)) hu.2.1]
      exact hg.old j u hj'
  · intro hall
    exact hone (hall i t' (by rw [hth, set_get hi]))
  · intro j u hj hR
    rw [hth] at hj
    rcases get_set hi hj with ⟨rfl, rfl⟩ | ⟨hij, hj'⟩
    · exact hpipe hR
    · rw [hdone j u hj' hij] at hR
      exact absurd hR (by simp [hasR])

theorem good_thread {others : ℕ → Bool} {s s' : St} {i : ℕ} {t : Thread} {r w : ℕ}
    (hg : Good s) (h : Inv others s) (hi : s.threads[i]? = some t)
    (hs : threadStep s i t r w = some s') : Good s' := by
  have hold := hg.old i t hi
  have hlive := fun n => h.live i t n hi
  have hro := h.ro i t hi
  have hwo := h.wo i t hi
  have hpipe := hg.pipe i t hi
  have ho1 := (hlive t.old (.inl rfl)).1
  have hl : t.pc ≠ .done → i + 1 = s.threads.length := by
    intro hd
    have := get_lt hi
    by_contra hc
    exact hd (hg.last i t hi (by omega))
  unfold threadStep at hs
  cases hpc : t.pc with
  | fresh =>
    have hl := hl (by rw [hpc]; simp)
    have hone := hg.one' hi hl (by simp [Glued, hpc])
    rw [hpc] at hs
    simp only at hs
    split at hs
    · next hf =>
      obtain ⟨hrw, hr, hw⟩ := hf
      rw [← Option.some.inj hs]
      have hr1 : r ≠ 1 := by rintro rfl; exact h.one hr
      have hw1 : w ≠ 1 := by rintro rfl; exact h.one hw
      have hro : t.old ≠ r := by
        intro e
        exact (hlive t.old (.inl rfl)).2.1 (by rw [e]; exact hr)
      have hwo : t.old ≠ w := by
        intro e
        exact (hlive t.old (.inl rfl)).2.1 (by rw [e]; exact hw)
      refine hg.upd h hi hl rfl ?_ ?_ ?_ ?_ rfl
      · intro n _ _ hn
        simp only
        rw [Function.update_of_ne (by rintro rfl; exact hn hw),
          Function.update_of_ne (by rintro rfl; exact hn hr)]
      · simp only
        rw [Function.update_of_ne hwo, Function.update_of_ne hro]
        exact hold
      · intro _
        simp only
        rw [Function.update_of_ne (Ne.symm hw1), Function.update_of_ne (Ne.symm hr1)]
        exact hone
      · intro _
        refine ⟨s.pipes, ?_, ?_, ?_, ?_⟩
        · simp only
          rw [Function.update_of_ne hrw, Function.update_self]
        · simp only
          rw [Function.update_self]
        · intro _
          simp only
          rw [Function.update_self]
        · intro hc
          exact absurd hc (by simp [Glued])
    · exact absurd hs (by simp)
  | piped =>
    have hl := hl (by rw [hpc]; simp)
    rw [hpc] at hs hro hwo hpipe
    obtain ⟨k, hk1, hk2, hk3, _⟩ := hpipe rfl
    have hr1 := (hlive t.r (.inr (.inl ⟨rfl, by rw [hpc]; rfl⟩))).1
    have hw1 := (hlive t.w (.inr (.inr ⟨rfl, by rw [hpc]; rfl⟩))).1
    rw [← Option.some.inj hs]
    refine hg.upd h hi hl rfl ?_ ?_ ?_ ?_ rfl
    · intro n h1 _ _
      simp only
      rw [Function.update_of_ne h1]
    · simp only
      rw [Function.update_of_ne ho1]
      exact hold
    · intro hc
      exact absurd (by simp [Glued]) hc
    · intro _
      refine ⟨k, ?_, hk2, ?_, ?_⟩
      · simp only
        rw [Function.update_of_ne hr1]
        exact hk1
      · intro _
        simp only
        rw [Function.update_of_ne hw1]
        exact hk3 rfl
      · intro _
        simp only
        rw [Function.update_self]
        exact hk3 rfl
  | glued =>
    have hl := hl (by rw [hpc]; simp)
    have hG : Glued t := by simp [Glued, hpc]
    rw [hpc] at hs hro hwo hpipe
    obtain ⟨k, hk1, hk2, _, hk4⟩ := hpipe rfl
    have hw1 := (hlive t.w (.inr (.inr ⟨rfl, by rw [hpc]; rfl⟩))).1
    have hw2 := hwo rfl
    rw [← Option.some.inj hs]
    refine hg.upd h hi hl rfl ?_ ?_ ?_ ?_ rfl
    · intro n _ h1 _
      simp only [holds, hpc, hasR, hasW, and_true, not_or] at h1
      simp only
      rw [Function.update_of_ne h1.2.2]
    · simp only
      rw [Function.update_of_ne (Ne.symm hw2.1)]
      exact hold
    · intro hc
      exact absurd (by simp [Glued]) hc
    · intro _
      refine ⟨k, ?_, hk2, ?_, ?_⟩
      · simp only
        rw [Function.update_of_ne (Ne.symm hw2.2)]
        exact hk1
      · intro hc
        exact absurd hc (by simp [hasW])
      · intro _
        simp only
        rw [Function.update_of_ne (Ne.symm hw1)]
        exact hk4 hG
  | loop =>
    have hl := hl (by rw [hpc]; simp)
    have hG : Glued t := by simp [Glued, hpc]
    have hG' : Glued { t with pc := if t.goOn then .read else .back } := by
      cases hgo : t.goOn <;> simp [Glued]
    rw [hpc] at hs hro hwo hpipe
    obtain ⟨k, hk1, hk2, _, hk4⟩ := hpipe rfl
    rw [← Option.some.inj hs]
    refine hg.upd h hi hl rfl (fun _ _ _ _ => rfl) hold (fun hc => absurd hG' hc) ?_ rfl
    intro _
    refine ⟨k, hk1, hk2, ?_, fun _ => hk4 hG⟩
    intro hc
    exfalso
    cases hgo : t.goOn <;> simp [hgo, hasW] at hc
  | read =>
    have hl := hl (by rw [hpc]; simp)
    have hG : Glued t := by simp [Glued, hpc]
    rw [hpc] at hs hro hwo hpipe
    obtain ⟨k, hk1, hk2, _, hk4⟩ := hpipe rfl
    rw [← Option.some.inj hs]
    refine hg.upd h hi hl rfl (fun _ _ _ _ => rfl) hold
      (fun hc => absurd (by simp [Glued]) hc) ?_ rfl
    intro _
    exact ⟨k, hk1, hk2, fun hc => absurd hc (by simp [hasW]), fun _ => hk4 hG⟩
  | back =>
    have hl := hl (by rw [hpc]; simp)
    rw [hpc] at hs hro hwo hpipe
    obtain ⟨k, hk1, hk2, _, _⟩ := hpipe rfl
    have hr1 := (hlive t.r (.inr (.inl ⟨rfl, by rw [hpc]; rfl⟩))).1
    rw [← Option.some.inj hs]
    refine hg.upd h hi hl rfl ?_ ?_ ?_ ?_ rfl
    · intro n h1 _ _
      simp only
      rw [Function.update_of_ne h1]
    · simp only
      rw [Function.update_of_ne ho1]
      exact hold
    · intro _
      simp only
      rw [Function.update_self]
      exact hold
    · intro _
      refine ⟨k, ?_, hk2, fun hc => absurd hc (by simp [hasW]),
        fun hc => absurd hc (by simp [Glued])⟩
      simp only
      rw [Function.update_of_ne hr1]
      exact hk1
  | clear =>
    have hl := hl (by rw [hpc]; simp)
    have hone := hg.one' hi hl (by simp [Glued, hpc])
    have hr1 := (hlive t.r (.inr (.inl ⟨rfl, by rw [hpc]; rfl⟩))).1
    rw [hpc] at hs hro hwo hpipe
    have hr2 := hro rfl
    rw [← Option.some.inj hs]
    refine hg.upd h hi hl rfl ?_ ?_ ?_ ?_ rfl
    · intro n _ h1 _
      simp only [holds, hpc, hasR, hasW, and_true, not_or] at h1
      simp only
      rw [Function.update_of_ne h1.2.1]
    · simp only
      rw [Function.update_of_ne (Ne.symm hr2)]
      exact hold
    · intro _
      simp only
      rw [Function.update_of_ne (Ne.symm hr1)]
      exact hone
    · intro hc
      exact absurd hc (by simp [hasR])
  | done =>
    rw [hpc] at hs
    exact absurd hs (by simp)

theorem good_step {others : ℕ → Bool} {s s' : St} {a : Act} (hg : Good s) (h : Inv others s)
    (hc : careful s a) (hs : step s a = some s') : Good s' := by
  cases a with
  | start n =>
    simp only [step] at hs
    split at hs
    · rw [← Option.some.inj hs]; exact hg
    · next hst =>
      have hq : ∀ (j : ℕ) (u : Thread), s.threads[j]? = some u → u.pc = .done := by
        intro j u hj
        exact hc (by simpa using hst) u (List.mem_of_getElem? hj)
      have hone := hg.one fun j u hj => not_glued_done (hq j u hj)
      split at hs
      · next hf =>
        rw [← Option.some.inj hs]
        have h1 : n ≠ 1 := by rintro rfl; exact h.one hf
        have hget : ∀ (j : ℕ) (u : Thread),
            (s.threads ++ [(⟨.fresh, true, n, 0, 0⟩ : Thread)])[j]? = some u →
            (j = s.threads.length ∧ u = ⟨.fresh, true, n, 0, 0⟩) ∨ s.threads[j]? = some u := by
          intro j u hj
          rw [List.getElem?_append] at hj
          split at hj
          · exact .inr hj
          · next hlt =>
            have hlt := get_lt hj
            simp only [List.length_singleton] at hlt
            have : j = s.threads.length := by omega
            subst this
            simp only [Nat.sub_self, List.getElem?_cons_zero, Option.some.injEq] at hj
            exact .inl ⟨rfl, hj.symm⟩
        refine ⟨?_, ?_, ?_, ?_, hg.ok⟩
        · intro j u hj hlt
          simp only [List.length_append, List.length_singleton] at hlt
          rcases hget j u hj with ⟨e, _⟩ | hj
          · omega
          · exact hq j u hj
        · intro j u hj
          rcases hget j u hj with ⟨_, rfl⟩ | hj
          · simp only
            rw [Function.update_self]
            exact hone
          · simp only
            have hu := (h.live j u u.old hj (.inl rfl)).2.1
            rw [Function.update_of_ne (by intro e; rw [e] at hu; exact hu hf)]
            exact hg.old j u hj
        · intro _
          simp only
          rw [Function.update_of_ne (Ne.symm h1)]
          exact hone
        · intro j u hj hR
          rcases hget j u hj with ⟨_, rfl⟩ | hj
          · exact absurd hR (by simp [hasR])
          · rw [hq j u hj] at hR
            exact absurd hR (by simp [hasR])
      · exact absurd hs (by simp)
  | stop =>
    simp only [step] at hs
    split at hs
    · split at hs
      · next t ht =>
        rw [← Option.some.inj hs]
        have hl : s.threads.length - 1 + 1 = s.threads.length := by
          have := get_lt ht
          omega
        exact hg.upd h ht hl rfl (fun _ _ _ _ => rfl) (hg.old _ t ht)
          (fun hn => hg.one' ht hl hn) (hg.pipe _ t ht) rfl
      · exact absurd hs (by simp)
    · rw [← Option.some.inj hs]; exact hg
  | thread i r w =>
    simp only [step] at hs
    split at hs
    · next t ht => exact good_thread hg h ht hs
    · exact absurd hs (by simp)
  | output x =>
    by_cases hall : ∀ (i : ℕ) t, s.threads[i]? = some t → ¬ Glued t
    · have := hg.one hall
      simp only [step, this] at hs
      rw [← Option.some.inj hs]
      exact ⟨hg.last, hg.old, hg.one, hg.pipe, hg.ok⟩
    · simp only [not_forall, not_not] at hall
      obtain ⟨i, t, hi, hG⟩ := hall
      have hR : hasR t.pc = true := by
        rcases hG with e | e | e | e <;> rw [e] <;> rfl
      obtain ⟨k, _, hk2, _, hk4⟩ := hg.pipe i t hi hR
      simp only [step, hk4 hG, hk2, if_true] at hs
      rw [← Option.some.inj hs]
      exact ⟨hg.last, hg.old, hg.one, hg.pipe, hg.ok⟩

theorem good_reach {others : ℕ → Bool} {s : St} (h : Reach careful (init others) s) : Good s := by
  induction h with
  | refl => exact ⟨by simp [init], by simp [init], by simp [init], by simp [init], rfl⟩
  | step a hr hc hs ih => exact good_step ih (inv_reach hr) hc hs

/-- **C186, descriptor 1 is put back.**  In every execution in which a redirection is started only
when no earlier thread is running, descriptor 1 names the terminal whenever no thread is running,
and no write of the C++ code has failed on the way. -/
theorem C186_restored (others : ℕ → Bool) (s : St) (h : Reach careful (init others) s) :
    (quiet s → s.fd 1 = some .term) ∧ s.broken = false := by
  refine ⟨fun hq => (good_reach h).one ?_, (good_reach h).ok⟩
  intro i t hi
  exact not_glued_done (hq t (List.mem_of_getElem? hi))

/-- **C186, what is written while redirected is never shown.**  While a thread has descriptor 1 glued
to its pipe, text written by C++ code goes into the pipe, and no later step of the threads or of the
main program other than a new output of C++ code puts anything on the terminal. -/
theorem C186_swallowed (others : ℕ → Bool) (s : St) (h : Reach careful (init others) s)
    (t : Thread) (ht : t ∈ s.threads) (hG : Glued t) (x : List Char) (s' s'' : St)
    (hs : step s (.output x) = some s')
    (hr : Reach (fun _ a => ∀ y, a ≠ .output y) s' s'') : s''.screen = s.screen := by
  have h1 : s'.screen = s.screen := by
    obtain ⟨i, hi⟩ := List.getElem?_of_mem ht
    have hR : hasR t.pc = true := by
      rcases hG with e | e | e | e <;> rw [e] <;> rfl
    obtain ⟨k, _, hk2, _, hk4⟩ := (good_reach h).pipe i t hi hR
    simp only [step, hk4 hG, hk2, if_true] at hs
    rw [← Option.some.inj hs]
  rw [← h1]
  induction hr with
  | refl => rfl
  | @step q q' a _ ha hq ih =>
    rw [← ih]
    cases a with
    | start n =>
      simp only [step] at hq
      split at hq
      · rw [← Option.some.inj hq]
      · split at hq
        · rw [← Option.some.inj hq]
        · exact absurd hq (by simp)
    | stop =>
      simp only [step] at hq
      split at hq
      · split at hq
        · rw [← Option.some.inj hq]
        · exact absurd hq (by simp)
      · rw [← Option.some.inj hq]
    | thread i r w =>
      simp only [step] at hq
      split at hq
      · next u hu =>
        unfold threadStep at hq
        cases hpc : u.pc <;> rw [hpc] at hq <;> simp only at hq
        case fresh =>
          split at hq
          · rw [← Option.some.inj hq]
          · exact absurd hq (by simp)
        case done => exact absurd hq (by simp)
        all_goals rw [← Option.some.inj hq]
      · exact absurd hq (by simp)
    | output y => exact absurd rfl (ha y)

/-- **C186, descriptors left open.**  In every execution, careful or not, each redirection started so
far keeps a descriptor of its own open, all different and different from 1; when no thread is running
these are the only ones open besides those open at the beginning. -/
theorem C186_leak (others : ℕ → Bool) (s : St) (h : Reach any (init others) s) :
    (∀ t ∈ s.threads, s.fd t.old ≠ none ∧ t.old ≠ 1 ∧ others t.old = false) ∧
    (s.threads.map Thread.old).Nodup ∧
    (quiet s → ∀ n, s.fd n ≠ none ↔ n = 1 ∨ others n = true ∨ ∃ t ∈ s.threads, n = t.old) := by
  have hinv := inv_reach h
  have hA : ∀ t ∈ s.threads, s.fd t.old ≠ none ∧ t.old ≠ 1 ∧ others t.old = false := by
    intro t ht
    obtain ⟨i, hi⟩ := List.getElem?_of_mem ht
    obtain ⟨h1, h2, h3⟩ := hinv.live i t t.old hi (.inl rfl)
    exact ⟨h2, h1, h3⟩
  refine ⟨hA, ?_, ?_⟩
  · refine List.pairwise_iff_getElem.2 ?_
    intro i j hi hj hij
    simp only [List.length_map] at hi hj
    have hi' : s.threads[i]? = some s.threads[i] := List.getElem?_eq_getElem hi
    have hj' : s.threads[j]? = some s.threads[j] := List.getElem?_eq_getElem hj
    rw [List.getElem_map, List.getElem_map]
    intro e
    exact hinv.sep i j _ _ s.threads[i].old hi' hj' (by omega) (.inl rfl) (.inl e)
  · intro hq n
    constructor
    · intro hn
      rcases hinv.all n hn with h1 | h1 | ⟨i, t, hi, ht⟩
      · exact .inl h1
      · exact .inr (.inl h1)
      · have hd := hq t (List.mem_of_getElem? hi)
        refine .inr (.inr ⟨t, List.mem_of_getElem? hi, ?_⟩)
        simpa [holds, hd, hasR, hasW] using ht
    · rintro (h1 | h1 | ⟨t, ht, h1⟩)
      · rw [h1]; exact hinv.one
      · by_cases hn : n = 1
        · rw [hn]; exact hinv.one
        · exact hinv.init n h1 hn
      · rw [h1]; exact (hA t ht).1

/-- The number of steps a thread that has been told to stop can still make. -/
def rank : Pc → ℕ
  | .fresh => 7
  | .piped => 6
  | .glued => 5
  | .read => 4
  | .loop => 3
  | .back => 2
  | .clear => 1
  | .done => 0

/-- **C186, a stopped thread ends.**  Every step of a thread that was told to stop brings it closer to
its end (at most seven steps are left); and a thread that has not returned can always make a step when
two descriptors are free. -/
theorem C186_ends (s : St) (i : ℕ) (t : Thread) (hi : s.threads[i]? = some t) :
    (t.goOn = false → ∀ r w s', step s (.thread i r w) = some s' →
      ∃ t', s'.threads[i]? = some t' ∧ t'.goOn = false ∧ rank t'.pc < rank t.pc) ∧
    (t.pc ≠ .done → ∀ r w, r ≠ w → s.fd r = none → s.fd w = none →
      ∃ s', step s (.thread i r w) = some s') := by
  constructor
  · intro hg r w s' hs
    simp only [step, hi] at hs
    unfold threadStep at hs
    cases hpc : t.pc <;> rw [hpc] at hs <;> simp only at hs
    case fresh =>
      split at hs
      · rw [← Option.some.inj hs]
        exact ⟨_, set_get hi, hg, by simp [rank]⟩
      · exact absurd hs (by simp)
    case done => exact absurd hs (by simp)
    case loop =>
      rw [← Option.some.inj hs]
      exact ⟨_, set_get hi, hg, by simp [hg, rank]⟩
    all_goals
      rw [← Option.some.inj hs]
      exact ⟨_, set_get hi, hg, by simp [rank]⟩
  · intro hd r w hrw hr hw
    simp only [step, hi]
    unfold threadStep
    cases hpc : t.pc with
    | fresh => exact ⟨_, if_pos ⟨hrw, hr, hw⟩⟩
    | done => exact absurd hpc hd
    | _ => exact ⟨_, rfl⟩

/-! ### Examples -/

/-- Run a list of steps. -/
def exec : List Act → St → Option St
  | [], s => some s
  | a :: as, s => (step s a).bind (exec as)

theorem exec_reach {as : List Act} {s₀ s s' : St} (h : Reach any s₀ s) (he : exec as s = some s') :
    Reach any s₀ s' := by
  induction as generalizing s with
  | nil => rw [← Option.some.inj he]; exact h
  | cons a as ih =>
    simp only [exec] at he
    cases hs : step s a with
    | none => rw [hs] at he; exact absurd he (by simp)
    | some q =>
      rw [hs] at he
      exact ih (.step a h trivial hs) he

/-- Descriptors 0, 1 and 2 are open at the beginning. -/
def std : ℕ → Bool := fun n => n == 0 || n == 2

/-- One redirection with an output inside and one after it: the first is lost, the second shown, and
descriptor 3 stays open. -/
example :
    (exec [.start 3, .thread 0 4 5, .thread 0 0 0, .thread 0 0 0, .thread 0 0 0, .output ['a'],
      .thread 0 0 0, .stop, .thread 0 0 0, .thread 0 0 0, .thread 0 0 0, .output ['b']]
        (init std)).map (fun s => ([s.fd 1, s.fd 3, s.fd 4, s.fd 5], s.screen, s.threads.map Thread.pc))
      = some ([some .term, some .term, none, none], ['b'], [.done]) := by decide

/-- `start; stop; start; stop` within a second, then the two threads one after the other. -/
def hasty : List Act :=
  [.start 3, .thread 0 4 5, .thread 0 0 0, .thread 0 0 0, .thread 0 0 0, .stop,
    .start 6, .thread 1 7 8, .thread 0 0 0, .thread 0 0 0, .thread 0 0 0, .thread 0 0 0,
    .thread 1 0 0, .thread 1 0 0, .stop, .thread 1 0 0, .thread 1 0 0, .thread 1 0 0,
    .output ['a']]

/-- **C186, witness.**  Two redirections in a row within the second the first thread sleeps: when both
have ended descriptor 1 names the write end of a pipe whose read end is closed, and the next write of
the C++ code fails. -/
theorem C186_hasty : ∃ s, Reach any (init std) s ∧ quiet s ∧ s.started = false ∧
    s.fd 1 = some (.pw 0) ∧ s.reader 0 = false ∧ s.broken = true := by
  have h : (exec hasty (init std)).map
      (fun s => (s.threads.map Thread.pc, s.started, s.fd 1, s.reader 0, s.broken))
      = some ([.done, .done], false, some (.pw 0), false, true) := by decide
  cases he : exec hasty (init std) with
  | none => rw [he] at h; exact absurd h (by simp)
  | some s =>
    rw [he] at h
    simp only [Option.map_some, Option.some.injEq, Prod.mk.injEq] at h
    obtain ⟨h1, h2, h3, h4, h5⟩ := h
    refine ⟨s, exec_reach .refl he, ?_, h2, h3, h4, h5⟩
    intro t ht
    have := List.mem_map_of_mem (f := Thread.pc) ht
    rw [h1] at this
    simpa using this

end Verif.Redirect
