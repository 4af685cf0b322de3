import Verif.Stat.Moments
import Verif.Stat.Lin

/-!
# Logarithmic binning (C36)

`log_binning` of c++/triqs/stat/accumulator.hpp, lines 136-232, and `log_bin_errors`, 404-425.

The data are elements of a module `V` over the field `R` of real numbers, see `Verif.Stat.Moments`; arithmetic is exact. An access outside a vector and a shift
`1 << n` by 32 or more are undefined behaviour (`none`).
-/

namespace Verif.Stat

set_option linter.unusedSectionVars false

/-! ## Model -/

/-- members, accumulator.hpp:138-144 -/
structure Log (R V : Type) where
  M : List V
  Q : List R
  maxN : Int
  acc : List V
  cnt : List Int
  count : Int

section
variable {R V : Type} [Field R] [AddCommGroup V] [Module R V]

/-- constructor, accumulator.hpp:150-168 -/
def Log.ctor (maxN : Int) : Log R V :=
  if maxN = 0 then ⟨[], [], 0, [], [], 0⟩ else ⟨[0], [0], maxN, if maxN ≠ 1 then [0] else [], if maxN ≠ 1 then [0] else [], 0⟩

/-- the loop that goes up, accumulator.hpp:186-194; the first argument is `acc.size() - n`. -/
def up (x : V) : Nat → Nat → List V → List Int → Option (Nat × List V × List Int)
  | 0, n, acc, cnt => some (n, acc, cnt)
  | f + 1, n, acc, cnt =>
    acc[n]?.bind fun a => (if n = 0 then some x else acc[n - 1]?).bind fun v => cnt[n]?.bind fun c =>
      if c + 1 < 2 then some (n, acc.set n (a + v), cnt.set n (c + 1)) else up x f (n + 1) (acc.set n (a + v)) (cnt.set n (c + 1))

/-- `1 << n` for `int` -/
def shl1 (n : Nat) : Option Int := if n < 31 then some (2 ^ n) else if n = 31 then some (-2147483648) else none

/-- a new level when the number of data is a power of two, accumulator.hpp:198-210 -/
def grow (s : Log R V) : Option (Log R V) :=
  (shl1 s.acc.length).bind fun p =>
    if s.count = p ∧ (s.maxN < 0 ∨ (s.Q.length : Int) < s.maxN) then
      s.acc.getLast?.bind fun a =>
        if s.Q.length = 0 then none
        else
          let s := if s.maxN < 0 ∨ (s.Q.length : Int) < s.maxN - 1 then { s with acc := s.acc ++ [a], cnt := s.cnt ++ [1] } else s
          some { s with M := s.M ++ [a], Q := s.Q ++ [0] }
    else some s

/-- update of the pair `(Mk, Qk)` number `i` with the number `k` of blocks and the new block average `y`, accumulator.hpp:215-218 and 225-228 -/
def welford (F : Form R V) (i : Nat) (k : Int) (y : V) (s : Log R V) : Option (Log R V) :=
  s.M[i]?.bind fun m => s.Q[i]?.map fun q =>
    { s with M := s.M.set i (m + (k : R)⁻¹ • (y - m)), Q := s.Q.set i (q + ((k - 1 : Int) : R) / (k : R) * F.sq (y - m)) }

/-- body of the loop that goes down, accumulator.hpp:214-220 -/
def downBody (F : Form R V) (n : Nat) (s : Log R V) : Option (Log R V) :=
  s.acc[n]?.bind fun a => (welford F (n + 1) (s.count / 2 ^ (n + 1)) (((2 ^ (n + 1) : Nat) : R)⁻¹ • a) s).map fun s => { s with cnt := s.cnt.set n 0, acc := s.acc.set n 0 }

/-- the loop that goes down, accumulator.hpp:212-221 -/
def down (F : Form R V) : Nat → Log R V → Option (Log R V)
  | 0, s => some s
  | n + 1, s => (downBody F n s).bind (down F n)

/-- `operator<<`, accumulator.hpp:172-231 -/
def Log.push (F : Form R V) (x : V) (s : Log R V) : Option (Log R V) :=
  if s.maxN = 0 then some s
  else
    let s := { s with count := s.count + 1 }
    (if s.maxN ≠ 1 then
      (up x s.acc.length 0 s.acc s.cnt).bind fun p => (grow { s with acc := p.2.1, cnt := p.2.2 }).bind (down F p.1)
    else some s).bind fun s => welford F 0 s.count x s

def Log.run (F : Form R V) : List V → Log R V → Option (Log R V)
  | [], s => some s
  | x :: xs, s => (s.push F x).bind (Log.run F xs)

/-- `log_bin_errors`, accumulator.hpp:402-420; `sqrt` is the one of the C++ library -/
def Log.errors (sqrt : R → R) (s : Log R V) : List (R × Int) :=
  s.Q.mapIdx fun n q =>
    let k := s.count / 2 ^ n
    (if k ≤ 1 then 0 else sqrt (q / ((k * (k - 1) : Int) : R)), k)

/-! ## Specification -/

/-- average of the block `i` of `2^n` data -/
def blockAvg (R : Type) [Field R] [Module R V] (d : List V) (n i : Nat) : V := avg R ((d.drop (i * 2 ^ n)).take (2 ^ n))

/-! ## Proofs -/

theorem Rep.of_set {l : List V} {m : Nat} {g : Nat → V} (h : Rep l m g) {i : Nat} (v : V) : Rep (l.set i v) m (Function.update g i v) := by
  refine ⟨by simpa using h.1, fun k hk => ?_⟩
  rw [List.getElem?_set]
  by_cases hik : i = k
  · subst hik
    simp [h.1, hk]
  · rw [if_neg hik, h.2 k hk, Function.update_of_ne (fun e => hik e.symm)]

/-- `N / 2^m` when `N` grows by one -/
theorem succ_div_pow (N m : Nat) : (N + 1) / 2 ^ m = if 2 ^ m ∣ N + 1 then N / 2 ^ m + 1 else N / 2 ^ m := by
  rw [Nat.succ_div]
  split_ifs <;> rfl

/-- the blocks of a level -/
def blk (R : Type) [Field R] [Module R V] (d : List V) (n i : Nat) : V := ((2 ^ n : Nat) : R)⁻¹ • bs d (i * 2 ^ n) ((i + 1) * 2 ^ n)

/-- content of the partial sums after the data `d` -/
def accv (d : List V) (n : Nat) : V := bs d (d.length / 2 ^ (n + 1) * 2 ^ (n + 1)) (d.length / 2 ^ n * 2 ^ n)

def cntv (N n : Nat) : Int := ((N / 2 ^ n % 2 : Nat) : Int)

structure LInv (F : Form R V) (L nb : Nat) (maxN : Int) (d : List V) (s : Log R V) : Prop where
  hmax : s.maxN = maxN
  count : s.count = d.length
  acc : Rep s.acc L (accv d)
  cnt : s.cnt.length = L ∧ ∀ i < L, s.cnt[i]? = some (cntv d.length i)
  M : Rep s.M nb (fun n => mu R (d.length / 2 ^ n) (blk R d n))
  Q : s.Q.length = nb ∧ ∀ n < nb, s.Q[n]? = some (dev F (d.length / 2 ^ n) (blk R d n))

/-- number of levels and of partial sums -/
structure Shape (maxN : Int) (N L nb : Nat) : Prop where
  lo : 1 < L → 2 ^ (L - 1) ≤ N
  L1 : 1 ≤ L
  nb : nb = if N < 2 ^ L then L else L + 1
  lim : 0 < maxN → (L : Int) + 1 ≤ maxN
  hi : N < 2 ^ L ∨ (L : Int) + 1 = maxN

theorem pow_dvd_mul_div {N n : Nat} (h : 2 ^ n ∣ N) : N / 2 ^ n * 2 ^ n = N := Nat.div_mul_cancel h

/-- state of the loop that goes up when it reaches `n` -/
structure UpInv (d : List V) (x : V) (L n : Nat) (acc : List V) (cnt : List Int) : Prop where
  acc : Rep acc L (fun m => if m < n then bs (d ++ [x]) (d.length + 1 - 2 ^ (m + 1)) (d.length + 1) else accv d m)
  cntL : cnt.length = L
  cnt : ∀ m, n ≤ m → m < L → cnt[m]? = some (cntv d.length m)
  dvd : 2 ^ n ∣ d.length + 1

/-- state after the loop that goes up -/
structure UpPost (d : List V) (x : V) (L n : Nat) (acc : List V) (cnt : List Int) : Prop where
  acc : Rep acc L (fun m => if m < n then bs (d ++ [x]) (d.length + 1 - 2 ^ (m + 1)) (d.length + 1) else accv (d ++ [x]) m)
  cntL : cnt.length = L
  cnt : ∀ m, n ≤ m → m < L → cnt[m]? = some (cntv (d.length + 1) m)
  nL : n ≤ L
  dvd : 2 ^ n ∣ d.length + 1
  ndvd : n < L → ¬ 2 ^ (n + 1) ∣ d.length + 1

theorem accv_same (d : List V) (x : V) {m : Nat} (h : ¬ 2 ^ m ∣ d.length + 1) : accv (d ++ [x]) m = accv d m := by
  unfold accv
  have h' : ¬ 2 ^ (m + 1) ∣ d.length + 1 := fun hh => h (Dvd.dvd.trans (pow_dvd_pow 2 (by omega)) hh)
  rw [List.length_append, List.length_singleton, succ_div_pow, succ_div_pow, if_neg h, if_neg h', bs_append _ _ (Nat.div_mul_le_self _ _)]

theorem up_spec (d : List V) (x : V) (L : Nat) : ∀ (f n : Nat) (acc : List V) (cnt : List Int), f + n = L → UpInv d x L n acc cnt →
    ∃ n' acc' cnt', up x f n acc cnt = some (n', acc', cnt') ∧ UpPost d x L n' acc' cnt'
  | 0, n, acc, cnt, hf, h => by
    refine ⟨n, acc, cnt, rfl, ?_, h.cntL, ?_, by omega, h.dvd, by omega⟩
    · refine ⟨h.acc.1, fun i hi => ?_⟩
      rw [h.acc.2 i hi]
      beta_reduce
      rw [if_pos (by omega), if_pos (by omega)]
    · intro m h1 h2
      omega
  | f + 1, n, acc, cnt, hf, h => by
    have hn : n < L := by omega
    have ha : acc[n]? = some (accv d n) := by rw [h.acc.2 n hn]; beta_reduce; rw [if_neg (by omega)]
    have hc := h.cnt n le_rfl hn
    have hpos : 0 < 2 ^ n := by positivity
    have hge : 2 ^ n ≤ d.length + 1 := Nat.le_of_dvd (by omega) h.dvd
    have hdiv : (d.length + 1) / 2 ^ n = d.length / 2 ^ n + 1 := by rw [succ_div_pow, if_pos h.dvd]
    have hmul : (d.length / 2 ^ n + 1) * 2 ^ n = d.length + 1 := by rw [← hdiv]; exact pow_dvd_mul_div h.dvd
    have hmul' : d.length / 2 ^ n * 2 ^ n + 2 ^ n = d.length + 1 := by rw [← hmul]; ring
    have hv : (if n = 0 then some x else acc[n - 1]?) = some (bs (d ++ [x]) (d.length + 1 - 2 ^ n) (d.length + 1)) := by
      by_cases h0 : n = 0
      · subst h0
        rw [if_pos rfl, pow_zero, Nat.add_sub_cancel, bs_last]
      · rw [if_neg h0, h.acc.2 (n - 1) (by omega)]
        beta_reduce
        rw [if_pos (by omega), show n - 1 + 1 = n by omega]
    have hsum : accv d n + bs (d ++ [x]) (d.length + 1 - 2 ^ n) (d.length + 1) = bs (d ++ [x]) (d.length / 2 ^ (n + 1) * 2 ^ (n + 1)) (d.length + 1) := by
      unfold accv
      rw [← bs_append d x (Nat.div_mul_le_self _ _), show d.length + 1 - 2 ^ n = d.length / 2 ^ n * 2 ^ n by omega]
      apply bs_add
      · rw [pow_succ, ← Nat.div_div_eq_div_mul, mul_comm (2 ^ n) 2, ← mul_assoc]
        exact Nat.mul_le_mul_right _ (Nat.div_mul_le_self _ _)
      · omega
    have hdd : 2 ^ (n + 1) ∣ d.length + 1 ↔ d.length / 2 ^ n % 2 = 1 := by
      rw [← hmul, pow_succ, mul_comm (2 ^ n) 2, Nat.mul_dvd_mul_iff_right hpos]
      omega
    rw [up, ha, Option.bind_some, hv, Option.bind_some, hc, Option.bind_some, hsum]
    have hcn : cntv d.length n + 1 < 2 ↔ ¬ 2 ^ (n + 1) ∣ d.length + 1 := by
      rw [hdd, cntv]
      omega
    by_cases hd : 2 ^ (n + 1) ∣ d.length + 1
    · rw [if_neg (fun hh => hcn.mp hh hd)]
      apply up_spec d x L f (n + 1) _ _ (by omega)
      refine ⟨?_, by simpa using h.cntL, ?_, hd⟩
      · have r := h.acc.of_set (i := n) (bs (d ++ [x]) (d.length / 2 ^ (n + 1) * 2 ^ (n + 1)) (d.length + 1))
        refine ⟨r.1, fun i hi => ?_⟩
        rw [r.2 i hi]
        refine congrArg some ?_
        beta_reduce
        by_cases hi' : i = n
        · subst hi'
          rw [Function.update_self, if_pos (by omega)]
          congr 1
          have e1 : (d.length + 1) / 2 ^ (i + 1) = d.length / 2 ^ (i + 1) + 1 := by rw [succ_div_pow, if_pos hd]
          have e2 := pow_dvd_mul_div hd
          rw [e1, add_mul, one_mul] at e2
          omega
        · rw [Function.update_of_ne hi']
          by_cases hlt : i < n
          · rw [if_pos hlt, if_pos (by omega)]
          · rw [if_neg hlt, if_neg (by omega)]
      · intro m h1 h2
        rw [List.getElem?_set_ne (by omega)]
        exact h.cnt m (by omega) h2
    · rw [if_pos (hcn.mpr hd)]
      refine ⟨n, _, _, rfl, ?_, by simpa using h.cntL, ?_, by omega, h.dvd, fun _ => hd⟩
      · have r := h.acc.of_set (i := n) (bs (d ++ [x]) (d.length / 2 ^ (n + 1) * 2 ^ (n + 1)) (d.length + 1))
        refine ⟨r.1, fun i hi => ?_⟩
        rw [r.2 i hi]
        refine congrArg some ?_
        beta_reduce
        by_cases hi' : i = n
        · subst hi'
          rw [Function.update_self, if_neg (by omega), accv, List.length_append, List.length_singleton, pow_dvd_mul_div h.dvd, succ_div_pow, if_neg hd]
        · rw [Function.update_of_ne hi']
          by_cases hlt : i < n
          · rw [if_pos hlt, if_pos hlt]
          · rw [if_neg hlt, if_neg hlt, accv_same]
            exact fun hh => hd (Dvd.dvd.trans (pow_dvd_pow 2 (by omega)) hh)
      · intro m h1 h2
        by_cases hm : m = n
        · subst hm
          rw [List.getElem?_set_self (by rw [h.cntL]; exact h2)]
          congr 1
          rw [cntv, cntv, hdiv]
          rw [hdd] at hd
          omega
        · rw [List.getElem?_set_ne (by omega), h.cnt m h1 h2, cntv, cntv, succ_div_pow, if_neg]
          exact fun hh => hd (Dvd.dvd.trans (pow_dvd_pow 2 (by omega)) hh)

variable [CharZero R]

theorem welford_spec (F : Form R V) (i q : Nat) (b : Nat → V) (s : Log R V) (m : V) (hM : s.M[i]? = some m) (hQ : s.Q[i]? = some (dev F q b))
    (hm : q ≠ 0 → m = mu R q b) (k : Int) (hk : k = ((q + 1 : Nat) : Int)) (y : V) (hy : y = b q) :
    welford F i k y s = some { s with M := s.M.set i (mu R (q + 1) b), Q := s.Q.set i (dev F (q + 1) b) } := by
  subst hk hy
  rw [welford, hM, Option.bind_some, hQ, Option.map_some]
  refine congrArg some ?_
  have hk1 : (((q + 1 : Nat) : Int) : R) = ((q + 1 : Nat) : R) := by push_cast; rfl
  have hk2 : ((((q + 1 : Nat) : Int) - 1 : Int) : R) = (q : R) := by push_cast; ring
  rw [hk1, hk2]
  by_cases h0 : q = 0
  · subst h0
    have e1 : m + ((0 + 1 : Nat) : R)⁻¹ • (b 0 - m) = mu R (0 + 1) b := by simp [mu]
    have e2 : dev F 0 b + ((0 : Nat) : R) / ((0 + 1 : Nat) : R) * F.sq (b 0 - m) = dev F (0 + 1) b := by simp [dev, mu, F.sq_zero]
    rw [e1, e2]
  · rw [hm h0, ← mu_succ, ← dev_succ]

/-- state of the loop that goes down before level `k` is treated; `d` are all data, the last datum included -/
structure DownInv (F : Form R V) (d : List V) (L nb k : Nat) (maxN : Int) (s : Log R V) : Prop where
  hmax : s.maxN = maxN
  count : s.count = d.length
  accL : s.acc.length = L
  acc1 : ∀ m < L, m < k → s.acc[m]? = some (bs d (d.length - 2 ^ (m + 1)) d.length)
  acc2 : ∀ m < L, k ≤ m → s.acc[m]? = some (accv d m)
  cntL : s.cnt.length = L
  cnt : ∀ m < L, k ≤ m → s.cnt[m]? = some (cntv d.length m)
  ML : s.M.length = nb
  QL : s.Q.length = nb
  old : ∀ j, j ≤ k → j < nb → s.Q[j]? = some (dev F (d.length / 2 ^ j - 1) (blk R d j)) ∧
    ∃ m, s.M[j]? = some m ∧ (d.length / 2 ^ j - 1 ≠ 0 → m = mu R (d.length / 2 ^ j - 1) (blk R d j))
  new : ∀ j, k < j → j < nb → s.Q[j]? = some (dev F (d.length / 2 ^ j) (blk R d j)) ∧ s.M[j]? = some (mu R (d.length / 2 ^ j) (blk R d j))
  dvd : 2 ^ k ∣ d.length
  pos : 0 < d.length
  kL : k ≤ L
  knb : k < nb

theorem down_spec (F : Form R V) (d : List V) (L nb : Nat) (maxN : Int) : ∀ (k : Nat) (s : Log R V), DownInv F d L nb k maxN s →
    ∃ s', down F k s = some s' ∧ DownInv F d L nb 0 maxN s'
  | 0, s, h => ⟨s, rfl, h⟩
  | k + 1, s, h => by
    have hkL := h.kL
    have hknb := h.knb
    have ha := h.acc1 k (by omega) (by omega)
    obtain ⟨hQ, m, hM, hm⟩ := h.old (k + 1) le_rfl hknb
    have hpos := h.pos
    have hge : 2 ^ (k + 1) ≤ d.length := Nat.le_of_dvd hpos h.dvd
    have hq1 : 1 ≤ d.length / 2 ^ (k + 1) := Nat.div_pos hge (by positivity)
    have hmul := pow_dvd_mul_div h.dvd
    have hk : s.count / 2 ^ (k + 1) = ((d.length / 2 ^ (k + 1) - 1 + 1 : Nat) : Int) := by
      rw [Nat.sub_add_cancel hq1, h.count]
      push_cast
      rfl
    have hy : ((2 ^ (k + 1) : Nat) : R)⁻¹ • bs d (d.length - 2 ^ (k + 1)) d.length = blk R d (k + 1) (d.length / 2 ^ (k + 1) - 1) := by
      rw [blk, Nat.sub_add_cancel hq1, hmul, Nat.sub_mul, hmul, one_mul]
    have hw := welford_spec F (k + 1) (d.length / 2 ^ (k + 1) - 1) (blk R d (k + 1)) s m hM hQ hm _ hk _ hy
    rw [Nat.sub_add_cancel hq1] at hw
    rw [down, downBody, ha, Option.bind_some, hw, Option.map_some, Option.bind_some]
    have heven : d.length / 2 ^ k % 2 = 0 ∧ d.length / 2 ^ (k + 1) * 2 ^ (k + 1) = d.length / 2 ^ k * 2 ^ k := by
      obtain ⟨t, ht⟩ := h.dvd
      have e : d.length / 2 ^ k = 2 * t := by
        rw [ht, pow_succ, mul_assoc]
        exact Nat.mul_div_cancel_left _ (by positivity)
      refine ⟨by omega, ?_⟩
      rw [hmul, pow_dvd_mul_div (Dvd.dvd.trans (pow_dvd_pow 2 (by omega)) h.dvd)]
    apply down_spec F d L nb maxN k
    refine ⟨h.hmax, h.count, by simp [h.accL], ?_, ?_, by simp [h.cntL], ?_, by simp [h.ML], by simp [h.QL], ?_, ?_,
      Dvd.dvd.trans (pow_dvd_pow 2 (by omega)) h.dvd, hpos, by omega, by omega⟩
    · intro m' h1 h2
      simp only
      rw [List.getElem?_set_ne (by omega)]
      exact h.acc1 m' h1 (by omega)
    · intro m' h1 h2
      simp only
      by_cases he : m' = k
      · subst he
        rw [List.getElem?_set_self (by rw [h.accL]; exact h1), accv, heven.2, bs_self]
      · rw [List.getElem?_set_ne (by omega)]
        exact h.acc2 m' h1 (by omega)
    · intro m' h1 h2
      simp only
      by_cases he : m' = k
      · subst he
        rw [List.getElem?_set_self (by rw [h.cntL]; exact h1), cntv, heven.1]
        rfl
      · rw [List.getElem?_set_ne (by omega)]
        exact h.cnt m' h1 (by omega)
    · intro j h1 h2
      simp only
      rw [List.getElem?_set_ne (by omega), List.getElem?_set_ne (by omega)]
      exact h.old j (by omega) h2
    · intro j h1 h2
      simp only
      by_cases he : j = k + 1
      · subst he
        rw [List.getElem?_set_self (by rw [h.QL]; exact h2), List.getElem?_set_self (by rw [h.ML]; exact h2)]
        exact ⟨rfl, rfl⟩
      · rw [List.getElem?_set_ne (by omega), List.getElem?_set_ne (by omega)]
        exact h.new j (by omega) h2

theorem blk_append (d : List V) (x : V) (n i : Nat) (h : i < d.length / 2 ^ n) : blk R (d ++ [x]) n i = blk R d n i := by
  unfold blk
  rw [bs_append]
  calc (i + 1) * 2 ^ n ≤ d.length / 2 ^ n * 2 ^ n := Nat.mul_le_mul_right _ h
    _ ≤ d.length := Nat.div_mul_le_self _ _

theorem shl1_of {L : Nat} (h : L < 31) : shl1 L = some (2 ^ L) := by rw [shl1, if_pos h]

theorem DownInv.finish {F : Form R V} {L nb : Nat} {maxN : Int} {d : List V} {x : V} {s : Log R V} (h : DownInv F (d ++ [x]) L nb 0 maxN s) :
    ∃ s', welford F 0 s.count x s = some s' ∧ LInv F L nb maxN (d ++ [x]) s' := by
  have hlen : (d ++ [x]).length = d.length + 1 := by simp
  obtain ⟨hQ, m, hM, hm⟩ := h.old 0 le_rfl h.knb
  have hx : x = blk R (d ++ [x]) 0 ((d ++ [x]).length / 2 ^ 0 - 1) := by
    rw [blk, hlen, pow_zero, Nat.div_one, Nat.add_sub_cancel, mul_one, mul_one, bs_last]
    simp
  have hk : s.count = (((d ++ [x]).length / 2 ^ 0 - 1 + 1 : Nat) : Int) := by
    rw [h.count, hlen, pow_zero, Nat.div_one, Nat.add_sub_cancel]
  have hw := welford_spec F 0 _ (blk R (d ++ [x]) 0) s m hM hQ hm _ hk _ hx
  have hq : (d ++ [x]).length / 2 ^ 0 - 1 + 1 = (d ++ [x]).length / 2 ^ 0 := by
    rw [hlen, pow_zero, Nat.div_one, Nat.add_sub_cancel]
  rw [hq] at hw
  refine ⟨_, hw, h.hmax, h.count, ⟨h.accL, fun i hi => h.acc2 i hi (by omega)⟩, ⟨h.cntL, fun i hi => h.cnt i hi (by omega)⟩, ⟨by simp [h.ML], ?_⟩, ⟨by simp [h.QL], ?_⟩⟩
  · intro j hj
    simp only
    by_cases h0 : j = 0
    · subst h0
      rw [List.getElem?_set_self (by rw [h.ML]; exact hj)]
    · rw [List.getElem?_set_ne (by omega)]
      exact (h.new j (by omega) hj).2
  · intro j hj
    simp only
    by_cases h0 : j = 0
    · subst h0
      rw [List.getElem?_set_self (by rw [h.QL]; exact hj)]
    · rw [List.getElem?_set_ne (by omega)]
      exact (h.new j (by omega) hj).1

theorem two31 : ((2 : Nat) ^ 31 : Nat) = int32.toNat := by decide

theorem L_le {maxN : Int} {N L nb : Nat} (sh : Shape maxN N L nb) (hd : (N : Int) < int32) : L ≤ 31 := by
  by_contra hL
  have h1 := sh.lo (by omega)
  have h2 : 2 ^ 31 ≤ 2 ^ (L - 1) := Nat.pow_le_pow_right (by norm_num) (by omega)
  rw [two31] at h2
  omega

theorem shl1_iff {L N : Nat} (hL : L ≤ 31) (hd : (N : Int) < int32) : ∃ p, shl1 L = some p ∧ ((N : Int) = p ↔ N = 2 ^ L) := by
  by_cases h : L < 31
  · clear hd
    refine ⟨_, shl1_of h, ?_⟩
    constructor
    · intro hh
      exact_mod_cast hh
    · intro hh
      rw [hh]
      push_cast
      rfl
  · obtain rfl : L = 31 := by omega
    refine ⟨_, rfl, ?_⟩
    rw [two31]
    constructor <;> intro hh <;> omega

/-- one step for more than one level -/
theorem LInv.push_many {F : Form R V} {L nb : Nat} {maxN : Int} {d : List V} {s : Log R V} (h : LInv F L nb maxN d s) (sh : Shape maxN d.length L nb)
    (h0 : maxN ≠ 0) (h1 : maxN ≠ 1) (x : V) (hd : (d.length : Int) + 1 < int32) :
    ∃ s' L' nb', s.push F x = some s' ∧ LInv F L' nb' maxN (d ++ [x]) s' ∧ Shape maxN (d.length + 1) L' nb' := by
  have hlen : (d ++ [x]).length = d.length + 1 := by simp
  have hL := L_le sh (by omega)
  have hL1 := sh.L1
  obtain ⟨n, acc', cnt', hup, post⟩ := up_spec d x L L 0 s.acc s.cnt (by omega)
    ⟨⟨h.acc.1, fun i hi => by rw [h.acc.2 i hi]; rfl⟩, h.cnt.1, fun m _ hm => h.cnt.2 m hm, by simp⟩
  obtain ⟨p, hp, hpi⟩ := shl1_iff (N := d.length + 1) hL (by push_cast; exact hd)
  push_cast at hpi
  have hndvd : ∀ j, n < j → j ≤ L → ¬ 2 ^ j ∣ d.length + 1 := by
    intro j hj hjL hh
    exact post.ndvd (by omega) (Dvd.dvd.trans (pow_dvd_pow 2 (by omega)) hh)
  have hdvd : ∀ j, j ≤ n → 2 ^ j ∣ d.length + 1 := fun j hj => Dvd.dvd.trans (pow_dvd_pow 2 hj) post.dvd
  have hsub : ∀ j, j ≤ n → (d ++ [x]).length / 2 ^ j - 1 = d.length / 2 ^ j := by
    intro j hj
    rw [hlen, succ_div_pow, if_pos (hdvd j hj), Nat.add_sub_cancel]
  -- the state before the loop that goes down
  have key : ∃ s2 L' nb', grow { s with count := s.count + 1, acc := acc', cnt := cnt' } = some s2 ∧ DownInv F (d ++ [x]) L' nb' n maxN s2 ∧
      Shape maxN (d.length + 1) L' nb' := by
    rw [grow]
    simp only [post.acc.1]
    rw [hp, Option.bind_some]
    by_cases hA : d.length + 1 = 2 ^ L
    · have hNlt : d.length < 2 ^ L := by omega
      have hnb : nb = L := by rw [sh.nb, if_pos hNlt]
      subst hnb
      have hnL : n = nb := by
        by_contra hne
        have := post.nL
        exact hndvd nb (by omega) le_rfl (by rw [hA])
      subst hnL
      have hgrow : s.maxN < 0 ∨ (s.Q.length : Int) < s.maxN := by
        rw [h.hmax, h.Q.1]
        rcases lt_or_gt_of_ne h0 with hn | hn
        · exact Or.inl hn
        · have := sh.lim hn
          exact Or.inr (by omega)
      rw [if_pos ⟨by rw [h.count]; exact hpi.mpr hA, hgrow⟩]
      have hlast : acc'.getLast? = some (bs (d ++ [x]) 0 (d.length + 1)) := by
        rw [List.getLast?_eq_getElem?, post.acc.1, post.acc.2 (n - 1) (by omega)]
        beta_reduce
        rw [if_pos (by omega), Nat.sub_add_cancel hL1, ← hA, Nat.sub_self]
      rw [hlast, Option.bind_some, h.Q.1, if_neg (by omega)]
      have hdivn : (d ++ [x]).length / 2 ^ n = 1 := by
        rw [hlen, hA]
        exact Nat.div_self (by positivity)
      have hpow : 2 ^ (n + 1) = 2 * 2 ^ n := by rw [pow_succ, mul_comm]
      have hpos2 : 0 < 2 ^ n := by positivity
      have haccn : accv (d ++ [x]) n = bs (d ++ [x]) 0 (d.length + 1) := by
        rw [accv, hdivn, one_mul, ← hA]
        rw [hlen, hpow, Nat.div_eq_of_lt (by omega), zero_mul]
      have hcntn : cntv (d ++ [x]).length n = 1 := by
        rw [cntv, hdivn]
        rfl
      have hold : ∀ j, j ≤ n → j < n + 1 → (s.Q ++ [0])[j]? = some (dev F ((d ++ [x]).length / 2 ^ j - 1) (blk R (d ++ [x]) j)) ∧
          ∃ m, (s.M ++ [bs (d ++ [x]) 0 (d.length + 1)])[j]? = some m ∧
            ((d ++ [x]).length / 2 ^ j - 1 ≠ 0 → m = mu R ((d ++ [x]).length / 2 ^ j - 1) (blk R (d ++ [x]) j)) := by
        intro j hj _
        by_cases hjn : j = n
        · subst hjn
          rw [List.getElem?_append_right (by rw [h.Q.1]), h.Q.1, List.getElem?_append_right (by rw [h.M.1]), h.M.1, Nat.sub_self, hdivn]
          exact ⟨by simp [dev], _, rfl, fun hh => absurd rfl hh⟩
        · rw [List.getElem?_append_left (by rw [h.Q.1]; omega), List.getElem?_append_left (by rw [h.M.1]; omega), h.Q.2 j (by omega), h.M.2 j (by omega), hsub j hj]
          refine ⟨?_, _, rfl, fun _ => ?_⟩
          · rw [dev_congr F (fun i hi => (blk_append d x j i hi).symm)]
          · exact mu_congr (fun i hi => (blk_append d x j i hi).symm)
      have hshn : ∀ m < n, m < n → acc'[m]? = some (bs (d ++ [x]) ((d ++ [x]).length - 2 ^ (m + 1)) (d ++ [x]).length) := by
        intro m hm _
        rw [post.acc.2 m hm, hlen]
        beta_reduce
        rw [if_pos hm]
      by_cases hmore : s.maxN < 0 ∨ ((n : Nat) : Int) < s.maxN - 1
      · simp only [if_pos hmore]
        refine ⟨_, n + 1, n + 1, rfl, ⟨h.hmax, by simp [h.count], by simp [post.acc.1], ?_, ?_, by simp [post.cntL], ?_, by simp [h.M.1], by simp [h.Q.1], hold, by omega,
          by rw [hlen]; exact post.dvd, by simp, by omega, by omega⟩, ?_⟩
        · intro m h1 h2
          rw [List.getElem?_append_left (by rw [post.acc.1]; omega)]
          exact hshn m h2 h2
        · intro m h1 h2
          obtain rfl : m = n := by omega
          rw [List.getElem?_append_right (by rw [post.acc.1]), post.acc.1, Nat.sub_self, haccn]
          rfl
        · intro m h1 h2
          obtain rfl : m = n := by omega
          rw [List.getElem?_append_right (by rw [post.cntL]), post.cntL, Nat.sub_self, hcntn]
          rfl
        · rw [h.hmax] at hmore
          refine ⟨fun _ => by rw [Nat.add_sub_cancel]; omega, by omega, by rw [if_pos (by omega)], fun hm => by push_cast; omega, Or.inl (by omega)⟩
      · simp only [if_neg hmore]
        refine ⟨_, n, n + 1, rfl, ⟨h.hmax, by simp [h.count], post.acc.1, hshn, by omega, post.cntL, by omega, by simp [h.M.1], by simp [h.Q.1], hold, by omega,
          by rw [hlen]; exact post.dvd, by simp, by omega, by omega⟩, ?_⟩
        rw [h.hmax] at hmore
        have hlim : 0 < maxN := by omega
        have := sh.lim hlim
        refine ⟨fun hn1 => le_trans (sh.lo hn1) (by omega), hL1, by rw [if_neg (by omega)], fun _ => this, Or.inr (by omega)⟩
    · rw [if_neg (fun hh => hA (hpi.mp (by rw [← h.count]; exact hh.1)))]
      have hpos2 : 0 < 2 ^ L := by positivity
      have hnL := post.nL
      have hnnb : n < nb := by
        rw [sh.nb]
        by_cases hlt : n < L
        · split_ifs <;> omega
        · obtain rfl : n = L := by omega
          have hge := Nat.le_of_dvd (by omega) post.dvd
          rw [if_neg (by omega)]
          omega
      have hnbL : nb ≤ L + 1 := by
        rw [sh.nb]
        split_ifs <;> omega
      refine ⟨_, L, nb, rfl, ⟨h.hmax, by simp [h.count], post.acc.1, ?_, ?_, post.cntL, ?_, h.M.1, h.Q.1, ?_, ?_, by rw [hlen]; exact post.dvd, by simp, hnL, hnnb⟩, ?_⟩
      · intro m h1 h2
        simp only
        rw [post.acc.2 m h1, hlen]
        beta_reduce
        rw [if_pos h2]
      · intro m h1 h2
        simp only
        rw [post.acc.2 m h1]
        beta_reduce
        rw [if_neg (by omega)]
      · intro m h1 h2
        simp only
        rw [post.cnt m h2 h1, hlen]
      · intro j hj hjn
        simp only
        rw [h.Q.2 j hjn, h.M.2 j hjn, hsub j hj]
        refine ⟨?_, _, rfl, fun _ => ?_⟩
        · rw [dev_congr F (fun i hi => (blk_append d x j i hi).symm)]
        · exact mu_congr (fun i hi => (blk_append d x j i hi).symm)
      · intro j hj hjn
        simp only
        have hsame : (d ++ [x]).length / 2 ^ j = d.length / 2 ^ j := by
          rw [hlen, succ_div_pow, if_neg (hndvd j hj (by omega))]
        rw [h.Q.2 j hjn, h.M.2 j hjn, hsame]
        refine ⟨?_, ?_⟩
        · rw [dev_congr F (fun i hi => (blk_append d x j i hi).symm)]
        · exact congrArg some (mu_congr (fun i hi => (blk_append d x j i hi).symm))
      · refine ⟨fun hh => le_trans (sh.lo hh) (by omega), hL1, ?_, sh.lim, ?_⟩
        · rw [sh.nb]
          by_cases hlt : d.length < 2 ^ L
          · rw [if_pos hlt, if_pos (by omega)]
          · rw [if_neg hlt, if_neg (by omega)]
        · rcases sh.hi with hh | hh
          · exact Or.inl (by omega)
          · exact Or.inr hh
  obtain ⟨s2, L', nb', hg, dinv, sh'⟩ := key
  obtain ⟨s3, hdn, dinv3⟩ := down_spec F _ _ _ _ _ _ dinv
  obtain ⟨s4, hw, inv⟩ := dinv3.finish
  refine ⟨s4, L', nb', ?_, inv, sh'⟩
  rw [Log.push, if_neg (by rw [h.hmax]; exact h0)]
  simp only
  rw [if_pos (by rw [h.hmax]; exact h1), h.acc.1, hup, Option.bind_some]
  simp only
  rw [hg, Option.bind_some, hdn, Option.bind_some, hw]

/-- one step for one level -/
theorem LInv.push_one {F : Form R V} {d : List V} {s : Log R V} (h : LInv F 0 1 1 d s) (x : V) :
    ∃ s', s.push F x = some s' ∧ LInv F 0 1 1 (d ++ [x]) s' := by
  have hlen : (d ++ [x]).length = d.length + 1 := by simp
  have dinv : DownInv F (d ++ [x]) 0 1 0 1 { s with count := s.count + 1 } := by
    refine ⟨h.hmax, by simp [h.count], h.acc.1, by omega, by omega, h.cnt.1, by omega, h.M.1, h.Q.1, ?_, by omega, by simp, by simp, le_rfl, by omega⟩
    intro j hj _
    obtain rfl : j = 0 := by omega
    simp only
    have hsub : (d ++ [x]).length / 2 ^ 0 - 1 = d.length / 2 ^ 0 := by rw [hlen, pow_zero, Nat.div_one, Nat.div_one, Nat.add_sub_cancel]
    rw [h.Q.2 0 (by omega), h.M.2 0 (by omega), hsub]
    refine ⟨?_, _, rfl, fun _ => ?_⟩
    · rw [dev_congr F (fun i hi => (blk_append d x 0 i hi).symm)]
    · exact mu_congr (fun i hi => (blk_append d x 0 i hi).symm)
  obtain ⟨s4, hw, inv⟩ := dinv.finish
  refine ⟨s4, ?_, inv⟩
  rw [Log.push, if_neg (by rw [h.hmax]; decide)]
  simp only
  rw [if_neg (by rw [h.hmax]; simp), Option.bind_some]
  exact hw

theorem Log.run_append (F : Form R V) (a b : List V) (s : Log R V) : Log.run F (a ++ b) s = (Log.run F a s).bind (Log.run F b) := by
  induction a generalizing s with
  | nil => rfl
  | cons o a ih =>
    rw [List.cons_append, Log.run, Log.run, Option.bind_assoc]
    congr 1
    funext s'
    exact ih s'

theorem LInv.ctor (F : Form R V) (maxN : Int) (h0 : maxN ≠ 0) : LInv F (if maxN = 1 then 0 else 1) 1 maxN [] (Log.ctor maxN) := by
  by_cases h1 : maxN = 1
  · subst h1
    refine ⟨rfl, rfl, ⟨rfl, by simp⟩, ⟨rfl, by simp⟩, ⟨rfl, fun i hi => ?_⟩, ⟨rfl, fun i hi => ?_⟩⟩
    all_goals
      obtain rfl : i = 0 := by omega
      simp [Log.ctor, mu, dev]
  · rw [if_neg h1]
    refine ⟨by simp [Log.ctor, h0], by simp [Log.ctor, h0], ⟨by simp [Log.ctor, h0, h1], fun i hi => ?_⟩, ⟨by simp [Log.ctor, h0, h1], fun i hi => ?_⟩,
      ⟨by simp [Log.ctor, h0], fun i hi => ?_⟩, ⟨by simp [Log.ctor, h0], fun i hi => ?_⟩⟩
    all_goals
      obtain rfl : i = 0 := by omega
      simp [Log.ctor, mu, dev, h0, h1, accv, cntv, bs]

theorem Shape.ctor {maxN : Int} (h0 : maxN ≠ 0) (h1 : maxN ≠ 1) : Shape maxN 0 1 1 := by
  refine ⟨by omega, le_rfl, by simp, fun h => by push_cast; omega, Or.inl (by norm_num)⟩

theorem run_one (F : Form R V) (d : List V) : ∃ s, Log.run F d (Log.ctor 1) = some s ∧ LInv F 0 1 1 d s := by
  induction d using List.reverseRecOn with
  | nil => exact ⟨_, rfl, LInv.ctor F 1 (by decide)⟩
  | append_singleton d x ih =>
    obtain ⟨s, e, i⟩ := ih
    obtain ⟨s', e', i'⟩ := i.push_one x
    exact ⟨s', by rw [Log.run_append, e, Option.bind_some, Log.run, e']; rfl, i'⟩

theorem run_many (F : Form R V) {maxN : Int} (h0 : maxN ≠ 0) (h1 : maxN ≠ 1) (d : List V) (hd : (d.length : Int) < int32) :
    ∃ s L nb, Log.run F d (Log.ctor maxN) = some s ∧ LInv F L nb maxN d s ∧ Shape maxN d.length L nb := by
  induction d using List.reverseRecOn with
  | nil =>
    have := LInv.ctor F maxN h0
    rw [if_neg h1] at this
    exact ⟨_, 1, 1, rfl, this, Shape.ctor h0 h1⟩
  | append_singleton d x ih =>
    rw [List.length_append, List.length_singleton] at hd
    push_cast at hd
    obtain ⟨s, L, nb, e, i, sh⟩ := ih (by omega)
    obtain ⟨s', L', nb', e', i', sh'⟩ := i.push_many sh h0 h1 x hd
    exact ⟨s', L', nb', by rw [Log.run_append, e, Option.bind_some, Log.run, e']; rfl, i', by rw [List.length_append, List.length_singleton]; exact sh'⟩

theorem blk_eq (d : List V) (n i : Nat) (h : i < d.length / 2 ^ n) : blk R d n i = blockAvg R d n i := by
  have hle : (i + 1) * 2 ^ n ≤ d.length := le_trans (Nat.mul_le_mul_right _ h) (Nat.div_mul_le_self _ _)
  have hs : (i + 1) * 2 ^ n = i * 2 ^ n + 2 ^ n := by ring
  rw [blk, blockAvg, avg, hs, bs_eq_sum _ _ _ (by omega), List.length_take, List.length_drop]
  congr 3
  omega

theorem Shape.levels {maxN : Int} {N L nb : Nat} (sh : Shape maxN N L nb) (h0 : maxN ≠ 0) (n : Nat) :
    n < nb ↔ n = 0 ∨ (2 ^ n ≤ N ∧ (maxN < 0 ∨ (n : Int) < maxN)) := by
  have hL1 := sh.L1
  have hnb := sh.nb
  constructor
  · intro h
    rcases Nat.eq_zero_or_pos n with hn | hn
    · exact Or.inl hn
    · right
      have hnbL : nb ≤ L + 1 := by rw [hnb]; split_ifs <;> omega
      constructor
      · by_cases hNL : N < 2 ^ L
        · rw [if_pos hNL] at hnb
          exact le_trans (Nat.pow_le_pow_right (by norm_num) (by omega)) (sh.lo (by omega))
        · exact le_trans (Nat.pow_le_pow_right (by norm_num) (by omega)) (not_lt.mp hNL)
      · rcases lt_or_gt_of_ne h0 with hm | hm
        · exact Or.inl hm
        · have := sh.lim hm
          exact Or.inr (by omega)
  · rintro (h | ⟨h1, h2⟩)
    · rw [hnb]
      split_ifs <;> omega
    · rw [hnb]
      by_cases hNL : N < 2 ^ L
      · rw [if_pos hNL]
        by_contra hh
        have : 2 ^ L ≤ 2 ^ n := Nat.pow_le_pow_right (by norm_num) (by omega)
        omega
      · rw [if_neg hNL]
        rcases sh.hi with hh | hh
        · omega
        · rcases h2 with h2 | h2 <;> omega

/-- **C36**: after any data, the level `n` (there is one for every power of two that fits in the number of data, up to the limit) holds the mean and the sum of the
squared deviations of the averages of the consecutive blocks of `2^n` data, all complete blocks being used.
Missing: from `2^31` data on the behaviour is undefined when the number of levels is not limited (`C36_shift_overflow`). -/
theorem C36_log_binning_partial (F : Form R V) (maxN : Int) (d : List V) (hd : (d.length : Int) < 2 ^ 31) :
    ∃ s, Log.run F d (Log.ctor maxN) = some s ∧ (maxN ≠ 0 → s.count = d.length) ∧ s.Q.length = s.M.length ∧
    (∀ n, n < s.M.length ↔ maxN ≠ 0 ∧ (n = 0 ∨ (2 ^ n ≤ d.length ∧ (maxN < 0 ∨ (n : Int) < maxN)))) ∧
    (∀ n m, s.M[n]? = some m → m = mu R (d.length / 2 ^ n) (blockAvg R d n)) ∧
    (∀ n q, s.Q[n]? = some q → q = dev F (d.length / 2 ^ n) (blockAvg R d n)) := by
  have hd' : (d.length : Int) < int32 := hd
  clear hd
  have fin : ∀ {L nb : Nat} {s : Log R V}, LInv F L nb maxN d s → (∀ n m, s.M[n]? = some m → m = mu R (d.length / 2 ^ n) (blockAvg R d n)) ∧
      (∀ n q, s.Q[n]? = some q → q = dev F (d.length / 2 ^ n) (blockAvg R d n)) := by
    intro L nb s i
    constructor
    · intro n m hm
      have hn : n < nb := by rw [← i.M.1]; exact (List.getElem?_eq_some_iff.mp hm).1
      rw [i.M.2 n hn] at hm
      rw [← Option.some.inj hm]
      exact mu_congr (fun j hj => blk_eq d n j hj)
    · intro n m hm
      have hn : n < nb := by rw [← i.Q.1]; exact (List.getElem?_eq_some_iff.mp hm).1
      rw [i.Q.2 n hn] at hm
      rw [← Option.some.inj hm]
      exact dev_congr F (fun j hj => blk_eq d n j hj)
  by_cases h0 : maxN = 0
  · subst h0
    refine ⟨Log.ctor 0, ?_, by simp, rfl, by simp [Log.ctor], by simp [Log.ctor], by simp [Log.ctor]⟩
    clear hd' fin
    induction d with
    | nil => rfl
    | cons x d ih => rw [Log.run, Log.push, if_pos (show (Log.ctor 0 : Log R V).maxN = 0 from rfl), Option.bind_some]; exact ih
  · by_cases h1 : maxN = 1
    · subst h1
      obtain ⟨s, e, i⟩ := run_one F d
      refine ⟨s, e, fun _ => i.count, by rw [i.Q.1, i.M.1], fun n => ?_, (fin i).1, (fin i).2⟩
      rw [i.M.1]
      clear hd'
      constructor
      · intro hn
        exact ⟨by decide, Or.inl (by omega)⟩
      · rintro ⟨_, hn | ⟨_, hn⟩⟩ <;> omega
    · obtain ⟨s, L, nb, e, i, sh⟩ := run_many F h0 h1 d hd'
      refine ⟨s, e, fun _ => i.count, by rw [i.Q.1, i.M.1], fun n => ?_, (fin i).1, (fin i).2⟩
      rw [i.M.1, sh.levels h0]
      exact ⟨fun h => ⟨h0, h⟩, fun h => h.2⟩

/-- **C36**, errors: `log_bin_errors` returns for every level the number of blocks and the standard error of their mean (0 for fewer than two blocks). -/
theorem C36_errors_partial (F : Form R V) (sqrt : R → R) (maxN : Int) (d : List V) (hd : (d.length : Int) < 2 ^ 31) (s : Log R V)
    (h : Log.run F d (Log.ctor maxN) = some s) (n : Nat) (e : R × Int) (he : (s.errors sqrt)[n]? = some e) :
    e.2 = ((d.length / 2 ^ n : Nat) : Int) ∧
    e.1 = if d.length / 2 ^ n ≤ 1 then 0
      else sqrt (dev F (d.length / 2 ^ n) (blockAvg R d n) / (((d.length / 2 ^ n : Nat) : R) * (((d.length / 2 ^ n : Nat) : R) - 1))) := by
  obtain ⟨s', e', hc, _, hlev, _, hq⟩ := C36_log_binning_partial F maxN d hd
  rw [h] at e'
  obtain rfl := Option.some.inj e'
  clear hd
  rw [Log.errors, List.getElem?_mapIdx] at he
  obtain ⟨q, hq', rfl⟩ := Option.map_eq_some_iff.mp he
  have hm0 : maxN ≠ 0 := by
    intro h0
    subst h0
    have hs : s = Log.ctor 0 := by
      have : ∀ d : List V, Log.run F d (Log.ctor 0) = some (Log.ctor 0) := by
        intro d
        induction d with
        | nil => rfl
        | cons x d ih => rw [Log.run, Log.push, if_pos (show (Log.ctor 0 : Log R V).maxN = 0 from rfl), Option.bind_some]; exact ih
      rw [this] at h
      exact (Option.some.inj h).symm
    rw [hs] at hq'
    simp [Log.ctor] at hq'
  have hk : s.count / 2 ^ n = ((d.length / 2 ^ n : Nat) : Int) := by
    rw [hc hm0]
    push_cast
    rfl
  simp only [hk]
  refine ⟨trivial, ?_⟩
  rw [hq n q hq']
  generalize d.length / 2 ^ n = k
  by_cases h1 : k ≤ 1
  · rw [if_pos h1, if_pos (by exact_mod_cast h1)]
  · rw [if_neg h1, if_neg (by exact_mod_cast h1)]
    congr 2
    push_cast
    ring

/-- Disagreement: with an unlimited number of levels the measurement number `2^31` accesses a level that was not created (`1 << 31` is negative). -/
theorem C36_shift_overflow (F : Form R V) (maxN : Int) (hm : maxN < 0) (d : List V) (hd : (d.length : Int) = 2 ^ 31) : Log.run F d (Log.ctor maxN) = none := by
  have hd' : (d.length : Int) = int32 := hd
  clear hd
  have hpos : (0 : Int) < int32 := by decide
  obtain ⟨d0, x, rfl⟩ : ∃ d0 x, d = d0 ++ [x] := by
    rcases List.eq_nil_or_concat d with h | ⟨d0, x, h⟩
    · subst h
      simp at hd'
      omega
    · exact ⟨d0, x, by rw [h]; simp⟩
  rw [List.length_append, List.length_singleton] at hd'
  push_cast at hd'
  obtain ⟨s, L, nb, e, h, sh⟩ := run_many F (maxN := maxN) (by omega) (by omega) d0 (by omega)
  have hL := L_le sh (by omega)
  have hNL : d0.length < 2 ^ L := by
    rcases sh.hi with hh | hh
    · exact hh
    · omega
  have hN1 : d0.length + 1 = 2 ^ 31 := by
    rw [two31]
    omega
  obtain rfl : L = 31 := by
    by_contra hne
    have h2 : 2 ^ L ≤ 2 ^ 30 := Nat.pow_le_pow_right (by norm_num) (by omega)
    have h3 : (2 : Nat) ^ 31 = 2 * 2 ^ 30 := by rw [pow_succ, mul_comm]
    have h4 : 2 ≤ (2 : Nat) ^ 30 := by norm_num
    generalize (2 : Nat) ^ 30 = t at *
    omega
  have hnb : nb = 31 := by rw [sh.nb, if_pos hNL]
  obtain ⟨n, acc', cnt', hup, post⟩ := up_spec d0 x 31 31 0 s.acc s.cnt (by omega)
    ⟨⟨h.acc.1, fun i hi => by rw [h.acc.2 i hi]; simp⟩, h.cnt.1, fun m _ hm => h.cnt.2 m hm, by simp⟩
  have hn : n = 31 := by
    by_contra hne
    have := post.nL
    refine post.ndvd (by omega) ?_
    rw [hN1]
    exact pow_dvd_pow 2 (by omega)
  subst hn
  rw [Log.run_append, e, Option.bind_some, Log.run, Log.push, if_neg (by rw [h.hmax]; omega)]
  simp only
  rw [if_pos (by rw [h.hmax]; omega), h.acc.1, hup, Option.bind_some]
  simp only
  have hgrow : grow { s with count := s.count + 1, acc := acc', cnt := cnt' } = some { s with count := s.count + 1, acc := acc', cnt := cnt' } := by
    rw [grow]
    simp only [post.acc.1]
    rw [show shl1 31 = some (-2147483648) from rfl, Option.bind_some, if_neg]
    rintro ⟨h1, _⟩
    rw [h.count] at h1
    clear hN1 hNL
    omega
  rw [hgrow, Option.bind_some, down, downBody]
  have ha : acc'[30]? = some _ := post.acc.2 30 (by norm_num)
  simp only
  rw [ha, Option.bind_some, welford]
  simp only
  have hMn : s.M[30 + 1]? = none := by
    rw [List.getElem?_eq_none_iff, h.M.1, hnb]
  rw [hMn]
  rfl

end

/-- rational numbers -/
def ratForm : Form ℚ ℚ := ⟨fun x y => x * y, add_mul, fun r x y => by simp [mul_assoc], mul_comm⟩

-- seven data, three levels; a limit of two levels
example : (Log.run ratForm [1, 3, 5, 7, 9, 11, 4] (Log.ctor (-1))).map (fun s => (s.M, s.Q, s.acc, s.cnt)) =
    some ([40 / 7, 6, 4], [514 / 7, 32, 0], [4, 20, 16], [1, 1, 1]) := by decide +kernel
example : (Log.run ratForm [1, 3, 5, 7, 9, 11, 4] (Log.ctor 2)).map (fun s => (s.M, s.Q)) = some ([40 / 7, 6], [514 / 7, 32]) := by decide +kernel
example : (Log.run ratForm [1, 3, 5, 7, 9, 11, 4] (Log.ctor (-1))).map (fun s => (s.errors (fun x => x)).map (·.2)) = some [7, 3, 1] := by decide +kernel
example : blockAvg ℚ [1, 3, 5, 7, 9, 11, (4 : ℚ)] 1 2 = 10 := by decide +kernel

end Verif.Stat
