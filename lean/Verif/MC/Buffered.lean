import Mathlib.Data.List.Basic
import Mathlib.Data.List.GetD
import Mathlib.Algebra.Order.Floor.Ring
import Mathlib.Data.Rat.Floor
import Mathlib.Tactic.Linarith

/-!
# Buffered generators

Source: `/repo/c++/triqs/utility/buffered_function.hpp` and `/repo/c++/triqs/mc_tools/random_generator.hpp`.

Simplifications: a generator is a state with a step function; the copy constructor of the generator is a function `copy` of its state
(`RandMT` has one that is not the identity, `MersenneRNG.hpp:145`). Numbers of `random_generator` are an exact ordered field.
-/

namespace Verif.Buffered

/-! ## Model -/

/-- the function object that is buffered: state, call, copy constructor -/
structure Gen (σ R : Type) where
  call : σ → R × σ
  copy : σ → σ

/-- `buffered_function`, buffered_function.hpp:68-71: `index`, `buffer`, and the function object inside `refill`. -/
structure Buf (σ R : Type) where
  index : Nat
  buffer : List R
  inner : σ

section
variable {σ R : Type}

/-- `for (auto &x : bf->buffer) x = f();`, buffered_function.hpp:49 -/
def fill (g : Gen σ R) : Nat → σ → List R × σ
  | 0, s => ([], s)
  | n + 1, s =>
    let p := g.call s
    let q := fill g n p.2
    (p.1 :: q.1, q.2)

/-- the lambda `refill`, buffered_function.hpp:48-51 -/
def refill (g : Gen σ R) (b : Buf σ R) : Buf σ R :=
  let p := fill g b.buffer.length b.inner
  ⟨0, p.1, p.2⟩

/-- constructor, buffered_function.hpp:47-53: the function object is copied into the lambda and the lambda into `refill`;
`size` is the length of the vector. -/
def ctor (g : Gen σ R) (s : σ) (size : Nat) : Buf σ R :=
  let p := fill g size (g.copy (g.copy s))
  ⟨0, p.1, p.2⟩

/-- `index > buffer.size() - 1` with 64-bit unsigned arithmetic -/
def exhausted (b : Buf σ R) : Bool := decide (b.index > (b.buffer.length + 2 ^ 64 - 1) % 2 ^ 64)

/-- the first line of both functions -/
def ready (g : Gen σ R) (b : Buf σ R) : Buf σ R := if exhausted b then refill g b else b

/-- `operator()`, buffered_function.hpp:56-59; `none` for an access outside the buffer. -/
def next (g : Gen σ R) (b : Buf σ R) : Option (R × Buf σ R) :=
  let b := ready g b
  b.buffer[b.index]?.map (fun v => (v, { b with index := b.index + 1 }))

/-- `preview`, buffered_function.hpp:62-65. -/
def preview (g : Gen σ R) (b : Buf σ R) : Option (R × Buf σ R) :=
  let b := ready g b
  b.buffer[b.index]?.map (fun v => (v, b))

/-- implicit copy constructor (the `std::function` copies the lambda, which copies the function object) -/
def copyBuf (g : Gen σ R) (b : Buf σ R) : Buf σ R := { b with inner := g.copy b.inner }

end

/-- `random_generator::operator()(T i)`, random_generator.hpp:68-70: `u` is the next number of the generator. -/
def randInt {F : Type} [Field F] [LinearOrder F] [IsStrictOrderedRing F] [FloorRing F] (i : Int) (u : F) : Int := if i = 1 then 0 else ⌊(i : F) * u⌋

/-- `random_generator::operator()(double a, double b)`, random_generator.hpp:81-84. -/
def randReal {F : Type} [Field F] (a b u : F) : F := a + (b - a) * u

/-! ## Specification -/

section
variable {σ R : Type}

/-- state of the generator after `n` calls -/
def stateAfter (g : Gen σ R) (s : σ) : Nat → σ
  | 0 => s
  | n + 1 => (g.call (stateAfter g s n)).2

/-- the `n`-th number of the generator called directly -/
def stream (g : Gen σ R) (s : σ) (n : Nat) : R := (g.call (stateAfter g s n)).1

inductive Call where
  | next | preview | copy

/-- a history of calls (a copy replaces the object), with the numbers returned -/
def run (g : Gen σ R) : List Call → Buf σ R → Option (List R × Buf σ R)
  | [], b => some ([], b)
  | .next :: cs, b => (next g b).bind fun p => (run g cs p.2).map fun q => (p.1 :: q.1, q.2)
  | .preview :: cs, b => (preview g b).bind fun p => (run g cs p.2).map fun q => (p.1 :: q.1, q.2)
  | .copy :: cs, b => run g cs (copyBuf g b)

/-- what the calls must return when `n` numbers were consumed before -/
def expected (f : Nat → R) : List Call → Nat → List R
  | [], _ => []
  | .next :: cs, n => f n :: expected f cs (n + 1)
  | .preview :: cs, n => f n :: expected f cs n
  | .copy :: cs, n => expected f cs n

/-! ## Proofs -/

theorem fill_spec (g : Gen σ R) : ∀ (n : Nat) (s : σ), (fill g n s).1 = (List.range n).map (stream g s) ∧ (fill g n s).2 = stateAfter g s n := by
  have shift : ∀ (s : σ) (n : Nat), stateAfter g (g.call s).2 n = stateAfter g s (n + 1) := by
    intro s n
    induction n with
    | zero => rfl
    | succ n ih => simp only [stateAfter] at ih ⊢; rw [ih]
  intro n
  induction n with
  | zero => intro s; exact ⟨rfl, rfl⟩
  | succ n ih =>
    intro s
    obtain ⟨h1, h2⟩ := ih (g.call s).2
    constructor
    · simp only [fill]
      rw [h1, List.range_succ_eq_map, List.map_cons, List.map_map]
      congr 1
      apply List.map_congr_left
      intro k _
      simp only [Function.comp, stream]
      rw [shift]
    · simp only [fill]
      rw [h2, shift]

theorem stateAfter_add (g : Gen σ R) (s : σ) (m n : Nat) : stateAfter g (stateAfter g s m) n = stateAfter g s (m + n) := by
  induction n with
  | zero => rfl
  | succ n ih => rw [← Nat.add_assoc]; simp only [stateAfter]; rw [ih]

theorem stream_add (g : Gen σ R) (s : σ) (m n : Nat) : stream g (stateAfter g s m) n = stream g s (m + n) := by
  unfold stream; rw [stateAfter_add]

/-- the buffer holds the numbers from `base` on, `index` of which were given out -/
structure Inv (g : Gen σ R) (s : σ) (size : Nat) (b : Buf σ R) (base : Nat) : Prop where
  buf : b.buffer = (List.range size).map (fun i => stream g s (base + i))
  idx : b.index ≤ size
  inner : b.inner = stateAfter g s (base + size)

theorem Inv.exh {g : Gen σ R} {s : σ} {size : Nat} {b : Buf σ R} {base : Nat} (h : Inv g s size b base) (h0 : 0 < size) (hs : size < 2 ^ 64) :
    exhausted b = decide (b.index = size) := by
  have hl : b.buffer.length = size := by rw [h.buf]; simp
  have := h.idx
  unfold exhausted
  rw [hl]
  rw [decide_eq_decide]
  generalize (2 : Nat) ^ 64 = N at *
  have : (size + N - 1) % N = size - 1 := by
    rw [show size + N - 1 = (size - 1) + N by omega, Nat.add_mod_right, Nat.mod_eq_of_lt (by omega)]
  omega

theorem Inv.fresh {g : Gen σ R} {s : σ} {size : Nat} {b : Buf σ R} {base : Nat} (h : Inv g s size b base) (h0 : 0 < size) (hs : size < 2 ^ 64) :
    ∃ base', Inv g s size (ready g b) base' ∧ (ready g b).index < size ∧
      base' + (ready g b).index = base + b.index := by
  have hl : b.buffer.length = size := by rw [h.buf]; simp
  unfold ready
  rw [h.exh h0 hs]
  by_cases c : b.index = size
  · rw [if_pos (by simpa using c)]
    refine ⟨base + size, ⟨?_, Nat.zero_le _, ?_⟩, h0, by simp [refill, c]⟩
    · simp only [refill]
      rw [hl, (fill_spec g size b.inner).1, h.inner]
      apply List.map_congr_left
      intro k _
      exact stream_add g s _ k
    · simp only [refill]
      rw [hl, (fill_spec g size b.inner).2, h.inner, stateAfter_add]
  · rw [if_neg (by simpa using c)]
    exact ⟨base, h, by have := h.idx; omega, rfl⟩

theorem next_spec {g : Gen σ R} {s : σ} {size : Nat} (h0 : 0 < size) (hs : size < 2 ^ 64) {b : Buf σ R} {base : Nat} (h : Inv g s size b base) :
    ∃ b1 base', next g b = some (stream g s (base + b.index), b1) ∧ Inv g s size b1 base' ∧ base' + b1.index = base + b.index + 1 := by
  obtain ⟨base', h', hi, he⟩ := h.fresh h0 hs
  unfold next
  obtain ⟨b1, hb1⟩ : ∃ b1, b1 = ready g b := ⟨_, rfl⟩
  rw [← hb1] at h' hi he ⊢
  have hv : b1.buffer[b1.index]? = some (stream g s (base + b.index)) := by
    rw [h'.buf, List.getElem?_map, List.getElem?_range hi, Option.map_some, he]
  refine ⟨{ b1 with index := b1.index + 1 }, base', ?_, ⟨h'.buf, Nat.succ_le_of_lt hi, h'.inner⟩, ?_⟩
  · simp only [hv, Option.map_some]
  · simp only; clear hs; omega

theorem preview_spec {g : Gen σ R} {s : σ} {size : Nat} (h0 : 0 < size) (hs : size < 2 ^ 64) {b : Buf σ R} {base : Nat} (h : Inv g s size b base) :
    ∃ b1 base', preview g b = some (stream g s (base + b.index), b1) ∧ Inv g s size b1 base' ∧ base' + b1.index = base + b.index := by
  obtain ⟨base', h', hi, he⟩ := h.fresh h0 hs
  unfold preview
  obtain ⟨b1, hb1⟩ : ∃ b1, b1 = ready g b := ⟨_, rfl⟩
  rw [← hb1] at h' hi he ⊢
  have hv : b1.buffer[b1.index]? = some (stream g s (base + b.index)) := by
    rw [h'.buf, List.getElem?_map, List.getElem?_range hi, Option.map_some, he]
  refine ⟨b1, base', ?_, h', he⟩
  simp only [hv, Option.map_some]

theorem run_spec {g : Gen σ R} {s : σ} {size : Nat} (hc : ∀ t, g.copy t = t) (h0 : 0 < size) (hs : size < 2 ^ 64) (cs : List Call) :
    ∀ (b : Buf σ R) (base n : Nat), base + b.index = n → Inv g s size b base → ∃ b', run g cs b = some (expected (stream g s) cs n, b') := by
  induction cs with
  | nil => intro b base n _ _; exact ⟨b, rfl⟩
  | cons c cs ih =>
    intro b base n hn h
    cases c with
    | copy =>
      have : copyBuf g b = b := by unfold copyBuf; rw [hc]
      simp only [run, expected]
      rw [this]
      exact ih b base n hn h
    | next =>
      obtain ⟨b1, base', e, h', he⟩ := next_spec h0 hs h
      obtain ⟨b2, hb2⟩ := ih b1 base' (n + 1) (by clear hs; omega) h'
      exact ⟨b2, by simp only [run, expected, e, hn, Option.bind_some, hb2, Option.map_some]⟩
    | preview =>
      obtain ⟨b1, base', e, h', he⟩ := preview_spec h0 hs h
      obtain ⟨b2, hb2⟩ := ih b1 base' n (by clear hs; omega) h'
      exact ⟨b2, by simp only [run, expected, e, hn, Option.bind_some, hb2, Option.map_some]⟩

/-- **C33**: for every non-empty buffer and every history of calls, previews and copies, the numbers returned are those of the generator, in order,
each call of `operator()` consuming one and previews none. Needs a generator whose copies are faithful. -/
theorem C33_stream_preserved (g : Gen σ R) (s : σ) (size : Nat) (hc : ∀ t, g.copy t = t) (h0 : 0 < size) (hs : size < 2 ^ 64) (cs : List Call) :
    ∃ b, run g cs (ctor g s size) = some (expected (stream g s) cs 0, b) := by
  have h : Inv g s size (ctor g s size) 0 := by
    refine ⟨?_, Nat.zero_le _, ?_⟩
    · simp only [ctor, hc]
      rw [(fill_spec g size s).1]
      apply List.map_congr_left
      intro k _; rw [Nat.zero_add]
    · simp only [ctor, hc]
      rw [(fill_spec g size s).2, Nat.zero_add]
  exact run_spec hc h0 hs cs _ 0 0 rfl h

/-- Without copies of the buffered object, a copy constructor that restarts the generator does no harm if the generator has not been used before. -/
theorem C33_stream_preserved_reseeding (g : Gen σ R) (s : σ) (size : Nat) (hc : g.copy s = s) (h0 : 0 < size) (hs : size < 2 ^ 64) (cs : List Call)
    (hn : ∀ c ∈ cs, c ≠ .copy) : ∃ b, run g cs (ctor g s size) = some (expected (stream g s) cs 0, b) := by
  -- replace the copy constructor by the identity: the histories agree
  let g' : Gen σ R := ⟨g.call, id⟩
  have hst : ∀ n, stateAfter g s n = stateAfter g' s n := by
    intro n; induction n with
    | zero => rfl
    | succ n ih => simp only [stateAfter]; rw [ih]
  have hfill : ∀ n t, fill g n t = fill g' n t := by
    intro n; induction n with
    | zero => intro t; rfl
    | succ n ih => intro t; simp only [fill]; rw [ih]
  have hrf : ∀ b, refill g b = refill g' b := by intro b; unfold refill; rw [hfill]
  have hrd : ∀ b, ready g b = ready g' b := by intro b; unfold ready; rw [hrf]
  have hrun : ∀ cs : List Call, (∀ c ∈ cs, c ≠ .copy) → ∀ b, run g cs b = run g' cs b := by
    intro cs
    induction cs with
    | nil => intro _ b; rfl
    | cons c cs ih =>
      intro hn b
      have ih' := ih (fun c hc => hn c (List.mem_cons_of_mem _ hc))
      cases c with
      | copy => exact absurd rfl (hn .copy (List.mem_cons_self))
      | next => simp only [run, next]; simp only [hrd, ih']
      | preview => simp only [run, preview]; simp only [hrd, ih']
  have hct : ctor g s size = ctor g' s size := by
    simp only [ctor, hc, hfill]; rfl
  have hstr : stream g s = stream g' s := by funext n; simp only [stream]; rw [hst]
  rw [hrun cs hn, hct, hstr]
  exact C33_stream_preserved g' s size (fun _ => rfl) h0 hs cs

/-- an empty buffer is never seen as exhausted, and its first element is read -/
theorem C33_empty_buffer_undefined (g : Gen σ R) (s : σ) : next g (ctor g s 0) = none ∧ preview g (ctor g s 0) = none := by
  constructor <;> simp [next, preview, ready, ctor, fill, exhausted]

end

/-- a counter whose copy constructor restarts it, as that of `RandMT` does -/
def restarting : Gen Nat Nat := ⟨fun n => (n, n + 1), fun _ => 0⟩

/-- **C33 is false for copies of a buffered generator whose copy constructor restarts** (such as `RandMT`): after the copy the numbers of the first
buffer come again. -/
theorem C33_copy_restarts : (run restarting [.next, .next, .next, .copy, .next, .next] (ctor restarting 0 2)).map (·.1) = some [0, 1, 2, 3, 0] ∧
    expected (stream restarting 0) [.next, .next, .next, .copy, .next, .next] 0 = [0, 1, 2, 3, 4] := by decide +kernel

-- buffer of three
example : (run (⟨fun n => (n * n, n + 1), id⟩ : Gen Nat Nat) [.next, .preview, .next, .next, .preview, .copy, .next] (ctor ⟨fun n => (n * n, n + 1), id⟩ 1 3)).map (·.1)
    = some [1, 4, 4, 9, 16, 16] := by decide +kernel

section
variable {F : Type} [Field F] [LinearOrder F] [IsStrictOrderedRing F] [FloorRing F]

/-- **C71**: the integer drawn for an upper bound `i ≥ 1` lies in `0 .. i-1`, and every value is drawn exactly for the numbers of an interval of
length `1/i`; a real number drawn between `a < b` lies in `[a, b)`. -/
theorem C71_random_ranges {i : Int} (hi : 1 ≤ i) {u : F} (h0 : 0 ≤ u) (h1 : u < 1) :
    0 ≤ randInt i u ∧ randInt i u ≤ i - 1 ∧ (∀ k : Int, randInt i u = k ↔ (k : F) / i ≤ u ∧ u < (k + 1) / i) ∧
    ∀ a b : F, a < b → a ≤ randReal a b u ∧ randReal a b u < b := by
  have hi' : (0 : F) < (i : F) := by exact_mod_cast (by omega : 0 < i)
  have key : randInt i u = ⌊(i : F) * u⌋ := by
    unfold randInt
    split_ifs with h
    · rw [h, Int.cast_one, one_mul, eq_comm, Int.floor_eq_iff]
      exact ⟨by simpa using h0, by simpa using h1⟩
    · rfl
  have hlt : (i : F) * u < i := by
    calc (i : F) * u < i * 1 := by exact mul_lt_mul_of_pos_left h1 hi'
      _ = i := mul_one _
  refine ⟨?_, ?_, ?_, ?_⟩
  · rw [key]; exact Int.floor_nonneg.mpr (mul_nonneg hi'.le h0)
  · rw [key]
    have := Int.floor_lt.mpr hlt
    omega
  · intro k
    rw [key, Int.floor_eq_iff, div_le_iff₀ hi', lt_div_iff₀ hi', mul_comm]
  · intro a b hab
    unfold randReal
    have hd : 0 < b - a := sub_pos.mpr hab
    constructor
    · have := mul_nonneg hd.le h0; linarith
    · have : (b - a) * u < (b - a) * 1 := mul_lt_mul_of_pos_left h1 hd
      linarith

end

example : randInt 6 (2 / 3 : ℚ) = 4 := by decide +kernel
example : randReal (1 : ℚ) 3 (1 / 4) = 3 / 2 := by decide +kernel

end Verif.Buffered
