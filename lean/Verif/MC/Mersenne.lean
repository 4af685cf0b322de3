import Verif.MC.Buffered
import Mathlib.Data.Nat.Bitwise
import Mathlib.Tactic.Ring
import Mathlib.Tactic.NormNum
import Mathlib.Tactic.Positivity

/-!
# Mersenne Twister

Source: `/repo/c++/triqs/mc_tools/MersenneRNG.hpp`, `MersenneRNG.cpp`.

`typedef unsigned long uint32` is a 64-bit type; words are natural numbers and left shifts and products are taken modulo 2^64. Array accesses are
checked (`none` when outside the 625 elements). Simplifications: the conversion to `double` and the arithmetic after it are exact (rational numbers);
the extra element `state[624]`, which `seedMT` does not write and `reloadMT` reads without using the value, is an arbitrary number `junk`.
-/

namespace Verif.MT

/-! ## Model -/

/-- MersenneRNG.hpp:92-94 -/
def sizeN : Nat := 624
def sizeM : Nat := 397
def magic : Nat := 0x9908B0DF

/-- shift to the left in 64 bits -/
def shl (u n : Nat) : Nat := (u <<< n) % 2 ^ 64

/-- MersenneRNG.hpp:103-117 -/
def hiBit (u : Nat) : Nat := u &&& 0x80000000
def loBit (u : Nat) : Nat := u &&& 0x00000001
def loBits (u : Nat) : Nat := u &&& 0x7FFFFFFF
def mixBits (u v : Nat) : Nat := hiBit u ||| loBits v

/-- tempering, MersenneRNG.hpp:132-135 and 211-214 -/
def temper (y : Nat) : Nat :=
  let y := y ^^^ (y >>> 11)
  let y := y ^^^ (shl y 7 &&& 0x9D2C5680)
  let y := y ^^^ (shl y 15 &&& 0xEFC60000)
  y ^^^ (y >>> 18)

/-- members of `RandMT`, MersenneRNG.hpp:98-101 (`next` is an index into `state`) -/
structure State where
  state : List Nat
  next : Nat
  initseed : Nat
  left : Int

/-- the loop of `seedMT`, MersenneRNG.hpp:201: `x` is not reduced, the stored words are. -/
def seedWords : Nat → Nat → List Nat
  | 0, _ => []
  | n + 1, x =>
    let x := (x * 69069) % 2 ^ 64
    (x &&& 0xFFFFFFFF) :: seedWords n x

/-- `seedMT`, MersenneRNG.hpp:147-203. -/
def seedMT (seed junk : Nat) : State :=
  let x := (seed ||| 1) &&& 0xFFFFFFFF
  ⟨x :: seedWords (sizeN - 1) x ++ [junk], 0, seed, 0⟩

/-- local variables of `reloadMT` -/
structure Loc where
  p0 : Nat
  pM : Nat
  p2 : Nat
  s0 : Nat
  s1 : Nat
  a : List Nat

/-- the word written by the loops -/
def word (m s0 s1 : Nat) : Nat := m ^^^ (mixBits s0 s1 >>> 1) ^^^ (if loBit s1 ≠ 0 then magic else 0)

/-- writing an element of the array -/
def put (a : List Nat) (i v : Nat) : Option (List Nat) := if i < a.length then some (a.set i v) else none

/-- body and increment of the loops, MersenneRNG.hpp:127-129 -/
def body (l : Loc) : Option Loc :=
  l.a[l.pM]?.bind fun m =>
  (put l.a l.p0 (word m l.s0 l.s1)).bind fun a =>
  a[l.p2]?.map fun s1 => ⟨l.p0 + 1, l.pM + 1, l.p2 + 1, l.s1, s1, a⟩

def loop : Nat → Loc → Option Loc
  | 0, l => some l
  | n + 1, l => (body l).bind (loop n)

/-- `reloadMT`, MersenneRNG.hpp:119-136. -/
def reloadMT (s : State) : Option (Nat × State) :=
  let s := if s.left < -1 then seedMT s.initseed (s.state.getD sizeN 0) else s
  let s := { s with left := (sizeN : Int) - 1, next := 1 }
  s.state[0]?.bind fun w0 => s.state[1]?.bind fun w1 =>
  (loop (sizeN - sizeM) ⟨0, sizeM, 2, w0, w1, s.state⟩).bind fun l =>
  (loop (sizeM - 1) { l with pM := 0 }).bind fun l =>
  l.a[0]?.bind fun s1 => l.a[l.pM]?.bind fun m =>
  (put l.a l.p0 (word m l.s0 s1)).map fun a => (temper s1, { s with state := a })

/-- `randomMT`, MersenneRNG.hpp:205-215. -/
def randomMT (s : State) : Option (Nat × State) :=
  let s := { s with left := s.left - 1 }
  if s.left < 0 then reloadMT s
  else s.state[s.next]?.map fun y => (temper y, { s with next := s.next + 1 })

/-- `DBL_EPSILON` -/
def eps : ℚ := 1 / 2 ^ 52

/-- `eval`, MersenneRNG.cpp:26-34, and `operator()`, MersenneRNG.hpp:217. -/
def toUnit (r : Nat) : ℚ := eps + (r : ℚ) / 0xFFFFFFFF * (1 - 2 * eps)

/-- copy constructor, MersenneRNG.hpp:145: the state is not copied. -/
def copyMT (s : State) (junk : Nat) : State := seedMT s.initseed junk

/-! ## Specification -/

/-- `n` draws: the numbers and the final state -/
def draws : Nat → State → Option (List Nat × State)
  | 0, s => some ([], s)
  | n + 1, s => (randomMT s).bind fun p => (draws n p.2).map fun q => (p.1 :: q.1, q.2)

/-- the matrix of the recurrence of MT19937 (Matsumoto and Nishimura): upper bit of `u`, lower bits of `v`, shifted, with the conditional constant -/
def twist (u v : Nat) : Nat :=
  let y := (u / 2 ^ 31 % 2) * 2 ^ 31 + v % 2 ^ 31
  (y / 2) ^^^ (if y % 2 = 1 then 0x9908B0DF else 0)

/-- seeding by the multiplicative generator modulo 2^32 -/
def lcg (seed : Nat) : Nat → Nat
  | 0 => (seed ||| 1) % 2 ^ 32
  | n + 1 => 69069 * lcg seed n % 2 ^ 32

/-- the sequence of MT19937 with this seeding: `x (k + 624) = x (k + 397) xor twist (x k) (x (k + 1))` -/
def mtSeq (seed n : Nat) : Nat :=
  if n < 624 then lcg seed n else mtSeq seed (n - 227) ^^^ twist (mtSeq seed (n - 624)) (mtSeq seed (n - 623))
termination_by n
decreasing_by all_goals omega

/-! ## Proofs -/

theorem mtSeq_rec (seed k : Nat) : mtSeq seed (k + 624) = mtSeq seed (k + 397) ^^^ twist (mtSeq seed k) (mtSeq seed (k + 1)) := by
  rw [mtSeq, if_neg (by omega)]
  rw [show k + 624 - 227 = k + 397 by omega, show k + 624 - 624 = k by omega, show k + 624 - 623 = k + 1 by omega]

theorem mtSeq_init (seed : Nat) {k : Nat} (h : k < 624) : mtSeq seed k = lcg seed k := by
  rw [mtSeq, if_pos h]

theorem lcg_lt (seed n : Nat) : lcg seed n < 2 ^ 32 := by
  cases n <;> exact Nat.mod_lt _ (by positivity)

theorem and_mask (x n : Nat) : x &&& (2 ^ n - 1) = x % 2 ^ n := Nat.and_two_pow_sub_one_eq_mod x n

theorem hiBit_eq {u : Nat} : hiBit u = (u / 2 ^ 31 % 2) * 2 ^ 31 := by
  unfold hiBit
  rw [show (0x80000000 : Nat) = 2 ^ 31 by norm_num, Nat.and_two_pow]
  congr 1
  rw [Nat.testBit_eq_decide_div_mod_eq]
  have := Nat.mod_two_eq_zero_or_one (u / 2 ^ 31)
  rcases this with h | h <;> rw [h] <;> rfl

theorem loBits_eq (v : Nat) : loBits v = v % 2 ^ 31 := by
  unfold loBits
  rw [show (0x7FFFFFFF : Nat) = 2 ^ 31 - 1 by norm_num, and_mask]

theorem loBit_eq (v : Nat) : loBit v = v % 2 := by
  unfold loBit
  rw [show (0x00000001 : Nat) = 2 ^ 1 - 1 by norm_num, and_mask, pow_one]

theorem mixBits_eq (u v : Nat) : mixBits u v = (u / 2 ^ 31 % 2) * 2 ^ 31 + v % 2 ^ 31 := by
  unfold mixBits
  rw [hiBit_eq, loBits_eq, mul_comm, Nat.two_pow_add_eq_or_of_lt (Nat.mod_lt _ (by positivity))]

theorem word_eq (m u v : Nat) : word m u v = m ^^^ twist u v := by
  unfold word twist
  simp only
  rw [Nat.xor_assoc, mixBits_eq, loBit_eq, Nat.shiftRight_one]
  have h : (u / 2 ^ 31 % 2 * 2 ^ 31 + v % 2 ^ 31) % 2 = v % 2 := by
    rw [Nat.add_mod, Nat.mul_mod, Nat.mod_mod_of_dvd v (show 2 ∣ 2 ^ 31 by norm_num)]
    norm_num
  rw [h]
  have := Nat.mod_two_eq_zero_or_one v
  rcases this with h | h <;> rw [h] <;> rfl

theorem twist_lt {u v : Nat} : twist u v < 2 ^ 32 := by
  unfold twist
  simp only
  apply Nat.xor_lt_two_pow
  · have h1 := Nat.mod_lt v (show 0 < 2 ^ 31 by positivity)
    have h2 := Nat.mod_lt (u / 2 ^ 31) (show 0 < 2 by norm_num)
    have : u / 2 ^ 31 % 2 * 2 ^ 31 ≤ 1 * 2 ^ 31 := Nat.mul_le_mul_right _ (by omega)
    norm_num at *
    omega
  · split_ifs <;> norm_num

theorem mtSeq_lt (seed n : Nat) : mtSeq seed n < 2 ^ 32 := by
  induction n using Nat.strong_induction_on with
  | _ n ih =>
    by_cases h : n < 624
    · rw [mtSeq_init seed h]; exact lcg_lt seed n
    · rw [mtSeq, if_neg h]
      exact Nat.xor_lt_two_pow (ih _ (by omega)) twist_lt

theorem temper_lt {y : Nat} (h : y < 2 ^ 32) : temper y < 2 ^ 32 := by
  unfold temper
  simp only
  have sr : ∀ z n : Nat, z < 2 ^ 32 → z >>> n < 2 ^ 32 := fun z n hz => lt_of_le_of_lt (Nat.shiftRight_le z n) hz
  have h1 := Nat.xor_lt_two_pow h (sr _ 11 h)
  have h2 := Nat.xor_lt_two_pow h1 (Nat.and_lt_two_pow (shl (y ^^^ y >>> 11) 7) (show 0x9D2C5680 < 2 ^ 32 by norm_num))
  have h3 := Nat.xor_lt_two_pow h2 (Nat.and_lt_two_pow (shl (y ^^^ y >>> 11 ^^^ shl (y ^^^ y >>> 11) 7 &&& 0x9D2C5680) 15) (show 0xEFC60000 < 2 ^ 32 by norm_num))
  exact Nat.xor_lt_two_pow h3 (sr _ 18 h3)

theorem seedWords_length (n x : Nat) : (seedWords n x).length = n := by
  induction n generalizing x with
  | zero => rfl
  | succ n ih => simp [seedWords, ih]

theorem seedWords_getElem (seed : Nat) : ∀ (n x k : Nat), x % 2 ^ 32 = lcg seed k → ∀ i < n, (seedWords n x)[i]? = some (lcg seed (k + 1 + i)) := by
  intro n
  induction n with
  | zero => intro x k _ i hi; omega
  | succ n ih =>
    intro x k hx i hi
    have hm : (x * 69069 % 2 ^ 64) % 2 ^ 32 = lcg seed (k + 1) := by
      rw [Nat.mod_mod_of_dvd _ (pow_dvd_pow 2 (by norm_num : 32 ≤ 64)), Nat.mul_mod, hx]
      change lcg seed k * (69069 % 2 ^ 32) % 2 ^ 32 = 69069 * lcg seed k % 2 ^ 32
      rw [Nat.mod_eq_of_lt (show 69069 < 2 ^ 32 by norm_num), mul_comm]
    cases i with
    | zero =>
      simp only [seedWords, List.getElem?_cons_zero, Nat.add_zero]
      rw [show (0xFFFFFFFF : Nat) = 2 ^ 32 - 1 by norm_num, and_mask, hm]
    | succ i =>
      simp only [seedWords, List.getElem?_cons_succ]
      rw [ih _ (k + 1) hm i (by omega), show k + 1 + 1 + i = k + 1 + (i + 1) by omega]

/-- the array holds the 624 words from `b` on -/
structure Holds (x : Nat → Nat) (b : Nat) (a : List Nat) : Prop where
  len : a.length = 625
  get : ∀ i < 624, a[i]? = some (x (b + i))

theorem seedMT_holds (seed junk : Nat) : Holds (mtSeq seed) 0 (seedMT seed junk).state := by
  have h0 : (seed ||| 1) &&& 0xFFFFFFFF = lcg seed 0 := by
    rw [show (0xFFFFFFFF : Nat) = 2 ^ 32 - 1 by norm_num, and_mask]; rfl
  refine ⟨?_, ?_⟩
  · simp [seedMT, seedWords_length, sizeN]
  · intro i hi
    rw [Nat.zero_add, mtSeq_init seed hi]
    simp only [seedMT, sizeN]
    rw [h0]
    cases i with
    | zero => rfl
    | succ i =>
      rw [List.cons_append, List.getElem?_cons_succ, List.getElem?_append_left (by rw [seedWords_length]; omega),
        seedWords_getElem seed _ _ 0 (Nat.mod_eq_of_lt (lcg_lt seed 0)) i (by omega)]
      congr 2; omega

/-- inside `reloadMT`, after `t` words were written -/
structure LInv (x : Nat → Nat) (b t : Nat) (l : Loc) : Prop where
  len : l.a.length = 625
  done : ∀ i < t, l.a[i]? = some (x (b + 624 + i))
  todo : ∀ i, t ≤ i → i < 624 → l.a[i]? = some (x (b + i))
  p0 : l.p0 = t
  p2 : l.p2 = t + 2
  s0 : l.s0 = x (b + t)
  s1 : t + 1 < 624 → l.s1 = x (b + (t + 1))

theorem body_inv {x : Nat → Nat} (hx : ∀ k, x (k + 624) = x (k + 397) ^^^ twist (x k) (x (k + 1))) {b t : Nat} {l : Loc} (h : LInv x b t l) (ht : t < 623)
    (hM : l.a[l.pM]? = some (x (b + t + 397))) : ∃ l', body l = some l' ∧ LInv x b (t + 1) l' ∧ l'.pM = l.pM + 1 := by
  have hw : word (x (b + t + 397)) l.s0 l.s1 = x (b + 624 + t) := by
    rw [word_eq, h.s0, h.s1 (by omega), show b + 624 + t = (b + t) + 624 by omega, hx]; rfl
  have hlen : (l.a.set t (x (b + 624 + t))).length = 625 := by rw [List.length_set, h.len]
  have hp2 : (l.a.set t (x (b + 624 + t)))[t + 2]? = some ((l.a.set t (x (b + 624 + t)))[t + 2]'(by omega)) := List.getElem?_eq_getElem _
  refine ⟨⟨t + 1, l.pM + 1, t + 3, l.s1, (l.a.set t (x (b + 624 + t)))[t + 2]'(by omega), l.a.set t (x (b + 624 + t))⟩, ?_, ?_, rfl⟩
  · unfold body
    rw [hM, Option.bind_some, hw, h.p0, put, if_pos (by rw [h.len]; omega), Option.bind_some, h.p2, hp2]
    rfl
  · refine ⟨hlen, ?_, ?_, rfl, rfl, ?_, ?_⟩
    · intro i hi
      simp only
      by_cases c : i = t
      · subst c
        rw [List.getElem?_set_self (by rw [h.len]; omega)]
      · rw [List.getElem?_set_ne (by omega)]
        exact h.done i (by omega)
    · intro i h1 h2
      simp only
      rw [List.getElem?_set_ne (by omega)]
      exact h.todo i (by omega) h2
    · simp only
      exact h.s1 (by omega)
    · intro h3
      simp only
      have := h.todo (t + 2) (by omega) (by omega)
      rw [← List.getElem?_set_ne (show t ≠ t + 2 by omega) (a := x (b + 624 + t)), hp2] at this
      injection this

theorem loop1_inv {x : Nat → Nat} (hx : ∀ k, x (k + 624) = x (k + 397) ^^^ twist (x k) (x (k + 1))) {b : Nat} :
    ∀ (n t : Nat) (l : Loc), LInv x b t l → l.pM = t + 397 → t + n ≤ 227 → ∃ l', loop n l = some l' ∧ LInv x b (t + n) l' := by
  intro n
  induction n with
  | zero => intro t l h _ _; exact ⟨l, rfl, h⟩
  | succ n ih =>
    intro t l h hp ht
    obtain ⟨l1, e1, h1, p1⟩ := body_inv hx h (by omega) (by rw [hp, h.todo _ (by omega) (by omega), Nat.add_assoc])
    obtain ⟨l2, e2, h2⟩ := ih (t + 1) l1 h1 (by omega) (by omega)
    exact ⟨l2, by simp only [loop]; rw [e1, Option.bind_some, e2], by rw [show t + (n + 1) = t + 1 + n by omega]; exact h2⟩

theorem loop2_inv {x : Nat → Nat} (hx : ∀ k, x (k + 624) = x (k + 397) ^^^ twist (x k) (x (k + 1))) {b : Nat} :
    ∀ (n t : Nat) (l : Loc), LInv x b t l → l.pM + 227 = t → t + n ≤ 623 → ∃ l', loop n l = some l' ∧ LInv x b (t + n) l' ∧ l'.pM + 227 = t + n := by
  intro n
  induction n with
  | zero => intro t l h hp _; exact ⟨l, rfl, h, hp⟩
  | succ n ih =>
    intro t l h hp ht
    obtain ⟨l1, e1, h1, p1⟩ := body_inv hx h (by omega) (by rw [h.done _ (by omega)]; congr 2; omega)
    obtain ⟨l2, e2, h2, p2⟩ := ih (t + 1) l1 h1 (by omega) (by omega)
    exact ⟨l2, by simp only [loop]; rw [e1, Option.bind_some, e2], by rw [show t + (n + 1) = t + 1 + n by omega]; exact h2, by omega⟩

theorem reload_spec {x : Nat → Nat} (hx : ∀ k, x (k + 624) = x (k + 397) ^^^ twist (x k) (x (k + 1))) {b : Nat} {s : State} (h : Holds x b s.state)
    (hl : ¬ s.left < -1) : ∃ s', reloadMT s = some (temper (x (b + 624)), s') ∧ Holds x (b + 624) s'.state ∧ s'.left = 623 ∧ s'.next = 1 ∧ s'.initseed = s.initseed := by
  obtain ⟨l1, e1, h1⟩ := loop1_inv hx 227 0 ⟨0, 397, 2, x (b + 0), x (b + 1), s.state⟩
    ⟨h.len, fun i hi => by omega, fun i _ h2 => h.get i h2, rfl, rfl, rfl, fun _ => rfl⟩ (Nat.zero_add _).symm (by norm_num)
  obtain ⟨l2, e2, h2, p2⟩ := loop2_inv hx 396 227 { l1 with pM := 0 }
    ⟨h1.len, h1.done, h1.todo, h1.p0, h1.p2, h1.s0, h1.s1⟩ rfl (by norm_num)
  have hw : word (x (b + 624 + 396)) l2.s0 (x (b + 624)) = x (b + 624 + 623) := by
    rw [word_eq, h2.s0, show b + 624 + 623 = (b + 623) + 624 by omega, hx (b + 623), show b + 623 + 397 = b + 624 + 396 by omega]
  refine ⟨{ s with left := 623, next := 1, state := l2.a.set 623 (x (b + 624 + 623)) }, ?_, ⟨?_, ?_⟩, rfl, rfl, rfl⟩
  · unfold reloadMT
    rw [if_neg hl]
    simp only [sizeN, sizeM]
    rw [h.get 0 (by norm_num), Option.bind_some, h.get 1 (by norm_num), Option.bind_some, e1, Option.bind_some, e2, Option.bind_some, h2.done 0 (by norm_num),
      Option.bind_some, show l2.pM = 396 by omega, h2.done 396 (by norm_num), Option.bind_some, h2.p0, Nat.add_zero, hw, put, if_pos (by rw [h2.len]; norm_num)]
    rfl
  · simp only; rw [List.length_set, h2.len]
  · intro i hi
    simp only
    by_cases c : i = 623
    · subst c
      rw [List.getElem?_set_self (by rw [h2.len]; norm_num)]
    · rw [List.getElem?_set_ne (by omega)]
      exact h2.done i (by omega)

/-- between draws: `m` numbers were drawn -/
structure Inv (x : Nat → Nat) (m : Nat) (s : State) (b : Nat) : Prop where
  holds : Holds x b s.state
  lo : 0 ≤ s.left
  hi : s.left ≤ 623
  cnt : (m : Int) + s.left = b
  nxt : 0 < s.left → (s.next : Int) = 624 - s.left

theorem random_spec {x : Nat → Nat} (hx : ∀ k, x (k + 624) = x (k + 397) ^^^ twist (x k) (x (k + 1))) {m b : Nat} {s : State} (h : Inv x m s b) :
    ∃ s' b', randomMT s = some (temper (x (m + 624)), s') ∧ Inv x (m + 1) s' b' ∧ s'.initseed = s.initseed := by
  have h1 := h.lo; have h2 := h.hi; have h3 := h.cnt
  unfold randomMT
  simp only
  by_cases c : s.left = 0
  · rw [if_pos (by omega)]
    have hb : m = b := by omega
    obtain ⟨s', e, hh, hl, hn, hs⟩ := reload_spec hx (s := { s with left := s.left - 1 }) h.holds (by simp only; omega)
    refine ⟨s', b + 624, by rw [e, hb], ⟨hh, ?_, ?_, ?_, ?_⟩, hs⟩ <;> rw [hl]
    · norm_num
    · push_cast; omega
    · intro _; rw [hn]; norm_num
  · rw [if_neg (by omega)]
    have h4 := h.nxt (by omega)
    have hg := h.holds.get s.next (by omega)
    rw [hg]
    refine ⟨{ s with left := s.left - 1, next := s.next + 1 }, b, ?_, ⟨h.holds, ?_, ?_, ?_, ?_⟩, rfl⟩
    · simp only [Option.map_some]
      rw [show b + s.next = m + 624 by omega]
    · simp only; omega
    · simp only; omega
    · simp only; push_cast; omega
    · intro _; simp only; push_cast; omega

theorem seed_inv (seed junk : Nat) : Inv (mtSeq seed) 0 (seedMT seed junk) 0 :=
  ⟨seedMT_holds seed junk, le_refl _, by change (0 : Int) ≤ 623; norm_num, rfl, fun h => absurd h (lt_irrefl _)⟩

theorem draws_spec (seed : Nat) (n : Nat) : ∀ (m b : Nat) (s : State), Inv (mtSeq seed) m s b →
    ∃ s' b', draws n s = some ((List.range n).map (fun i => temper (mtSeq seed (m + i + 624))), s') ∧ Inv (mtSeq seed) (m + n) s' b' ∧ s'.initseed = s.initseed := by
  induction n with
  | zero => intro m b s h; exact ⟨s, b, rfl, h, rfl⟩
  | succ n ih =>
    intro m b s h
    obtain ⟨s1, b1, e1, h1, i1⟩ := random_spec (mtSeq_rec seed) h
    obtain ⟨s2, b2, e2, h2, i2⟩ := ih (m + 1) b1 s1 h1
    refine ⟨s2, b2, ?_, by rw [show m + (n + 1) = m + 1 + n by omega]; exact h2, i2.trans i1⟩
    simp only [draws]
    rw [e1, Option.bind_some, e2, Option.map_some, List.range_succ_eq_map, List.map_cons, List.map_map]
    congr 3
    apply List.map_congr_left
    intro i _
    simp only [Function.comp]
    congr 2; omega

/-- **C72**: for every seed, the `n`-th number drawn is the tempered word `n + 624` of the MT19937 recurrence started from the multiplicative generator;
whatever the uninitialised extra element contains. -/
theorem C72_is_mersenne_twister (seed junk n : Nat) :
    (draws n (seedMT seed junk)).map (·.1) = some ((List.range n).map (fun i => temper (mtSeq seed (i + 624)))) := by
  obtain ⟨s', b', e, -, -⟩ := draws_spec seed n 0 0 _ (seed_inv seed junk)
  rw [e, Option.map_some]
  congr 1
  apply List.map_congr_left
  intro i _
  rw [Nat.zero_add]

/-- **C34**: for every seed and any number of draws no access leaves the array (the result is not `none`), the 624 words of the state are 32-bit values,
the next position is inside the array, and the numbers returned lie in `[eps, 1 - eps]`. -/
theorem C34_bounds (seed junk n : Nat) : ∃ l s, draws n (seedMT seed junk) = some (l, s) ∧ l.length = n ∧ s.state.length = 625 ∧
    (∀ i < 624, s.state.getD i 0 < 2 ^ 32) ∧ (0 < s.left → 1 ≤ s.next ∧ s.next < 624) ∧
    ∀ r ∈ l, r < 2 ^ 32 ∧ eps ≤ toUnit r ∧ toUnit r ≤ 1 - eps := by
  obtain ⟨s', b', e, h, -⟩ := draws_spec seed n 0 0 _ (seed_inv seed junk)
  refine ⟨_, s', e, by simp, h.holds.len, ?_, ?_, ?_⟩
  · intro i hi
    rw [List.getD_eq_getElem?_getD, h.holds.get i hi]
    exact mtSeq_lt seed _
  · intro hl
    have := h.nxt hl
    have := h.hi
    omega
  · intro r hr
    rw [List.mem_map] at hr
    obtain ⟨i, -, rfl⟩ := hr
    have hlt := temper_lt (mtSeq_lt seed (0 + i + 624))
    refine ⟨hlt, ?_⟩
    generalize temper (mtSeq seed (0 + i + 624)) = r at hlt
    have h0 : (0 : ℚ) ≤ (r : ℚ) / 0xFFFFFFFF := by positivity
    have h1 : (r : ℚ) / 0xFFFFFFFF ≤ 1 := by
      rw [div_le_one (by norm_num)]
      have : r ≤ 0xFFFFFFFF := by norm_num at hlt; omega
      exact_mod_cast this
    have he : (0 : ℚ) ≤ 1 - 2 * eps := by norm_num [eps]
    unfold toUnit
    constructor
    · have := mul_nonneg h0 he; linarith
    · have := mul_le_mul_of_nonneg_right h1 he; linarith

/-- the copy constructor restarts the sequence: after `n` draws the copy gives the numbers from the beginning -/
theorem C34_copy_restarts (seed junk junk' n k : Nat) : ∀ l s, draws n (seedMT seed junk) = some (l, s) →
    (draws k (copyMT s junk')).map (·.1) = (draws k (seedMT seed junk)).map (·.1) := by
  intro l s h
  obtain ⟨s', b', e, -, hs⟩ := draws_spec seed n 0 0 _ (seed_inv seed junk)
  rw [e] at h
  injection h with h
  injection h with _ h
  rw [copyMT, ← h, hs, C72_is_mersenne_twister]
  exact (C72_is_mersenne_twister seed junk k).symm

-- the first number for the seed 4357 (the reference output of this implementation of the generator begins with it)
example : (draws 1 (seedMT 4357 0)).map (·.1) = some [3510405877] := by
  rw [C72_is_mersenne_twister]
  simp only [List.range_one, List.map_cons, List.map_nil, Nat.zero_add]
  rw [show (624 : Nat) = 0 + 624 from rfl, mtSeq_rec, mtSeq_init _ (by norm_num), mtSeq_init _ (by norm_num), mtSeq_init _ (by norm_num)]
  decide +kernel
example : 0 < toUnit 0 ∧ toUnit 0xFFFFFFFF < 1 := by decide +kernel

end Verif.MT
