import Verif.Stat.Mean

/-!
# Accumulator: archive and errors over MPI ranks (C37, C38)

`accumulator` of c++/triqs/stat/accumulator.hpp: members 292-294, archive 112-126, 235-251, 297-309, constructor 346-348, `operator<<` 394-399,
`log_bin_errors_all_reduce` 433-490, `data_input_count` and `linear_bins` 495-501. The archive is a record with one field per dataset.
-/

namespace Verif.Stat

set_option linter.unusedSectionVars false

section
variable {R V : Type} [Field R] [AddCommGroup V] [Module R V]

/-! ## Model -/

/-- members, accumulator.hpp:292-294 -/
structure Acc (R V : Type) where
  count : Int
  log : Log R V
  lin : Lin V

/-- constructor, accumulator.hpp:347-349 -/
def Acc.ctor (nLog nLin cap : Int) : Acc R V := ⟨0, Log.ctor nLog, Lin.ctor nLin cap⟩

/-- default constructor, accumulator.hpp:40-44, 48, 141, 148 and 314 -/
def Acc.default : Acc R V := ⟨0, ⟨[], [], 0, [], [], 0⟩, ⟨0, 1, 0, [], 0⟩⟩

/-- calls that change an accumulator: `operator<<`, 394-399, and `compress_linear_bins`, 506 -/
def Acc.step (F : Form R V) (junk : V) (s : Acc R V) : LinOp V → Option (Acc R V)
  | .push x => (s.log.push F x).bind fun lo => (s.lin.push R junk x).map fun li => ⟨s.count + 1, lo, li⟩
  | .compress f => (s.lin.compress R junk f).map fun li => { s with lin := li }

def Acc.run (F : Form R V) (junk : V) : List (LinOp V) → Acc R V → Option (Acc R V)
  | [], s => some s
  | o :: os, s => (s.step F junk o).bind (Acc.run F junk os)

/-- datasets of the group of the logarithmic binning, accumulator.hpp:236-241 -/
structure LogH5 (R V : Type) where
  Qk : List R
  Mk : List V
  acc : List V
  count : Int
  accCount : List Int

/-- datasets of the group of the linear binning, accumulator.hpp:113-117 -/
structure LinH5 (V : Type) where
  bins : List V
  lastBinCount : Int
  binCapacity : Int
  maxNBins : Int

/-- accumulator.hpp:297-301 -/
structure AccH5 (R V : Type) where
  log : LogH5 R V
  lin : LinH5 V
  count : Int

/-- accumulator.hpp:235-242 -/
def Log.h5write (s : Log R V) : LogH5 R V := ⟨s.Q, s.M, s.acc, s.count, s.cnt⟩

/-- accumulator.hpp:244-251: `max_n_bins` keeps the value of the object that is read into -/
def Log.h5read (a : LogH5 R V) (s : Log R V) : Log R V := { s with Q := a.Qk, M := a.Mk, acc := a.acc, count := a.count, cnt := a.accCount }

/-- accumulator.hpp:112-118 -/
def Lin.h5write (s : Lin V) : LinH5 V := ⟨s.bins, s.last, s.cap, s.maxN⟩

/-- accumulator.hpp:120-126: `count` keeps the value of the object that is read into -/
def Lin.h5read (a : LinH5 V) (s : Lin V) : Lin V := { s with bins := a.bins, last := a.lastBinCount, cap := a.binCapacity, maxN := a.maxNBins }

def Acc.h5write (s : Acc R V) : AccH5 R V := ⟨s.log.h5write, s.lin.h5write, s.count⟩

/-- accumulator.hpp:304-309 -/
def Acc.h5read (a : AccH5 R V) (s : Acc R V) : Acc R V := ⟨a.count, s.log.h5read a.log, s.lin.h5read a.lin⟩

/-- one level of `log_bin_errors_all_reduce`: `mpi_reduce_MQ` over the given ranks, accumulator.hpp:446 and 459 -/
def reduceLevel (F : Form R V) (n : Nat) (ranks : List (Log R V)) : Option (R × Int) :=
  (ranks.mapM fun s => s.M[n]?.bind fun m => s.Q[n]?.map fun q => (m, q, s.count / 2 ^ n)).map fun l => ((mpiReduceMQ F l).2.1, (mpiReduceMQ F l).2.2)

/-- accumulator.hpp:467-476 -/
def toError (sqrt : R → R) (p : R × Int) : R × Int := (if p.2 ≤ 1 then 0 else sqrt (p.1 / ((p.2 * (p.2 - 1) : Int) : R)), p.2)

/-- `log_bin_errors_all_reduce`, accumulator.hpp:427-483. The loops over the levels that all ranks have (445-451) and over those that some have (453-465). -/
def errorsAllReduce (F : Form R V) (sqrt : R → R) (ranks : List (Log R V)) : Option (List (R × Int)) :=
  match ranks.map (fun s => s.Q.length) with
  | [] => none
  | n :: ns =>
    let mx := ns.foldl max n
    let mn := ns.foldl min n
    ((List.range mn).mapM fun n => reduceLevel F n ranks).bind fun a =>
      ((List.range' mn (mx - mn)).mapM fun n => reduceLevel F n (ranks.filter fun s => n < s.Q.length)).map fun b => (a ++ b).map (toError sqrt)

/-! ## Specification -/

/-- the averages of all complete blocks of `2^n` data -/
def blocks (R : Type) [Field R] [Module R V] (n : Nat) (d : List V) : List V := (List.range (d.length / 2 ^ n)).map (blockAvg R d n)

/-- what a user can read: number of data, linear bins, errors, numbers of bins and limits -/
structure View (R V : Type) where
  count : Int
  bins : List V
  errors : List (R × Int)
  nLin : Int
  capacity : Int

def Acc.view (sqrt : R → R) (s : Acc R V) : View R V := ⟨s.count, s.lin.bins, s.log.errors sqrt, s.lin.maxN, s.lin.cap⟩

/-! ## Proofs -/

variable [CharZero R]

theorem blocks_length (n : Nat) (d : List V) : (blocks R n d).length = d.length / 2 ^ n := by simp [blocks]

theorem sum_map_range (k : Nat) (g : Nat → V) : ((List.range k).map g).sum = ∑ i ∈ Finset.range k, g i := by
  induction k with
  | zero => simp
  | succ k ih => rw [List.range_succ, List.map_append, List.sum_append, ih, Finset.sum_range_succ]; simp

theorem avg_blocks (n : Nat) (d : List V) : avg R (blocks R n d) = mu R (d.length / 2 ^ n) (blockAvg R d n) := by
  rw [avg, blocks_length, blocks, sum_map_range, mu]

theorem sqDev_blocks (F : Form R V) (n : Nat) (d : List V) : sqDev F (blocks R n d) = dev F (d.length / 2 ^ n) (blockAvg R d n) := by
  rw [sqDev, avg_blocks, dev, blocks, List.map_map]
  exact sum_map_range (V := R) _ _

theorem List.mapM_some_map {α β : Type} (f : α → Option β) (g : α → β) (l : List α) (h : ∀ x ∈ l, f x = some (g x)) : l.mapM f = some (l.map g) := by
  induction l with
  | nil => rfl
  | cons x l ih =>
    rw [List.mapM_cons, h x (by simp), ih (fun y hy => h y (by simp [hy]))]
    rfl

theorem foldl_max_le (l : List Nat) : ∀ a m, l.foldl max a = m → a ≤ m ∧ ∀ x ∈ l, x ≤ m := by
  induction l with
  | nil =>
    rintro a m rfl
    simp
  | cons y l ih =>
    intro a m h
    obtain ⟨h1, h2⟩ := ih _ _ h
    refine ⟨le_trans (le_max_left _ _) h1, ?_⟩
    intro x hx
    rcases List.mem_cons.mp hx with rfl | hx
    · exact le_trans (le_max_right _ _) h1
    · exact h2 x hx

theorem foldl_max_mem (l : List Nat) : ∀ a, l.foldl max a ∈ a :: l := by
  induction l with
  | nil => simp
  | cons y l ih =>
    intro a
    rw [List.foldl_cons]
    rcases List.mem_cons.mp (ih (max a y)) with h | h
    · rw [h]
      rcases le_total a y with h' | h'
      · rw [max_eq_right h']; simp
      · rw [max_eq_left h']; simp
    · simp [h]

theorem foldl_min_le (l : List Nat) : ∀ a, l.foldl min a ≤ a ∧ ∀ x ∈ l, l.foldl min a ≤ x := by
  induction l with
  | nil => simp
  | cons y l ih =>
    intro a
    obtain ⟨h1, h2⟩ := ih (min a y)
    refine ⟨le_trans h1 (min_le_left _ _), ?_⟩
    intro x hx
    rcases List.mem_cons.mp hx with rfl | hx
    · exact le_trans h1 (min_le_right _ _)
    · exact h2 x hx

/-- a rank that has the level `n` -/
theorem rank_level (F : Form R V) (maxN : Int) (d : List V) (hd : (d.length : Int) < 2 ^ 31) (s : Log R V) (h : Log.run F d (Log.ctor maxN) = some s) (n : Nat)
    (hn : n < s.Q.length) : (s.M[n]?.bind fun m => s.Q[n]?.map fun q => (m, q, s.count / 2 ^ n)) = some (momentsOf F (blocks R n d)) := by
  obtain ⟨s', e', hc, hl, hlev, hM, hQ⟩ := C36_log_binning_partial F maxN d hd
  rw [h] at e'
  obtain rfl := Option.some.inj e'
  clear hd
  have hn' : n < s.M.length := by omega
  have h0 := ((hlev n).mp hn').1
  obtain ⟨m, hm⟩ : ∃ m, s.M[n]? = some m := ⟨_, List.getElem?_eq_getElem hn'⟩
  obtain ⟨q, hq⟩ : ∃ q, s.Q[n]? = some q := ⟨_, List.getElem?_eq_getElem hn⟩
  rw [hm, hq, Option.bind_some, Option.map_some, hM n m hm, hQ n q hq, hc h0, momentsOf, avg_blocks, sqDev_blocks, blocks_length]
  push_cast
  rfl

/-- the state of a rank -/
def IsRank (F : Form R V) (maxN : Int) (d : List V) (s : Log R V) : Prop := (d.length : Int) < 2 ^ 31 ∧ Log.run F d (Log.ctor maxN) = some s

theorem reduceLevel_eq (F : Form R V) (maxN : Int) (n : Nat) (ps : List (List V × Log R V)) (h : ∀ p ∈ ps, IsRank F maxN p.1 p.2) (hn : ∀ p ∈ ps, n < p.2.Q.length) :
    reduceLevel F n (ps.map (·.2)) = some ((mpiReduceMQ F ((ps.map fun p => blocks R n p.1).map (momentsOf F))).2.1,
      (mpiReduceMQ F ((ps.map fun p => blocks R n p.1).map (momentsOf F))).2.2) := by
  have : (ps.map (·.2)).mapM (fun s => s.M[n]?.bind fun m => s.Q[n]?.map fun q => (m, q, s.count / 2 ^ n)) = some ((ps.map fun p => blocks R n p.1).map (momentsOf F)) := by
    induction ps with
    | nil => rfl
    | cons p ps ih =>
      have hp := h p (by simp)
      rw [List.map_cons, List.mapM_cons, rank_level F maxN p.1 hp.1 p.2 hp.2 n (hn p (by simp)), ih (fun q hq => h q (by simp [hq])) (fun q hq => hn q (by simp [hq]))]
      rfl
  rw [reduceLevel, this, Option.map_some]

/-- **C37**: for ranks with the same limit of levels and any data, level `n` of the errors over all ranks is the standard error of the mean of all complete blocks of
`2^n` data of all ranks, and there are as many levels as on the rank with the most.
Missing: from `2^31` data on one rank on, see `C36_shift_overflow`. -/
theorem C37_errors_all_reduce_partial (F : Form R V) (sqrt : R → R) (maxN : Int) (ps : List (List V × Log R V)) (hne : ps ≠ []) (h : ∀ p ∈ ps, IsRank F maxN p.1 p.2) :
    ∃ res, errorsAllReduce F sqrt (ps.map (·.2)) = some res ∧ (∀ p ∈ ps, p.2.Q.length ≤ res.length) ∧ (∃ p ∈ ps, p.2.Q.length = res.length) ∧
    ∀ n e, res[n]? = some e → ∀ b, b = (ps.map fun p => blocks R n p.1).flatten →
      e.2 = (b.length : Int) ∧ e.1 = if b.length ≤ 1 then 0 else sqrt (sqDev F b / ((b.length : R) * ((b.length : R) - 1))) := by
  obtain ⟨pf, hpf⟩ : ∃ pf : Nat → List (List V × Log R V), ∀ n, pf n = ps.filter fun p => n < p.2.Q.length := ⟨_, fun _ => rfl⟩
  obtain ⟨bl, hbl⟩ : ∃ bl : Nat → List (List V), ∀ n, bl n = (pf n).map fun p => blocks R n p.1 := ⟨_, fun _ => rfl⟩
  obtain ⟨lv, hlv⟩ : ∃ lv : Nat → R × Int, ∀ n, lv n = ((mpiReduceMQ F ((bl n).map (momentsOf F))).2.1, (mpiReduceMQ F ((bl n).map (momentsOf F))).2.2) := ⟨_, fun _ => rfl⟩
  have hfilt : ∀ n, ((ps.map (·.2)).filter fun s => n < s.Q.length) = (pf n).map (·.2) := by
    intro n
    rw [hpf, List.filter_map]
    rfl
  have hred : ∀ n, reduceLevel F n ((pf n).map (·.2)) = some (lv n) := by
    intro n
    rw [hlv, hbl]
    apply reduceLevel_eq F maxN
    · intro p hp
      rw [hpf] at hp
      exact h p (List.mem_filter.mp hp).1
    · intro p hp
      rw [hpf] at hp
      simpa using (List.mem_filter.mp hp).2
  -- the ranks left out have no complete block
  have hblocks : ∀ n, (∃ p ∈ ps, n < p.2.Q.length) → (bl n).flatten = (ps.map fun p => blocks R n p.1).flatten := by
    rintro n ⟨p0, hp0, hn0⟩
    have lev : ∀ p ∈ ps, n < p.2.Q.length ↔ maxN ≠ 0 ∧ (n = 0 ∨ (2 ^ n ≤ p.1.length ∧ (maxN < 0 ∨ (n : Int) < maxN))) := by
      intro p hp
      obtain ⟨hd, hr⟩ := h p hp
      obtain ⟨s', e', _, hl, hlev, _⟩ := C36_log_binning_partial F maxN p.1 hd
      rw [hr] at e'
      obtain rfl := Option.some.inj e'
      rw [hl]
      exact hlev n
    obtain ⟨hm, hm'⟩ := (lev p0 hp0).mp hn0
    have hz : ∀ p ∈ ps, ¬ n < p.2.Q.length → blocks R n p.1 = [] := by
      intro p hp hnp
      rw [lev p hp] at hnp
      rw [← List.length_eq_zero_iff, blocks_length]
      apply Nat.div_eq_of_lt
      by_contra hcon
      apply hnp
      refine ⟨hm, ?_⟩
      rcases hm' with h0 | ⟨_, h1⟩
      · exact Or.inl h0
      · exact Or.inr ⟨not_lt.mp hcon, h1⟩
    rw [hbl, hpf]
    clear hlv hbl hfilt hred hpf lev h hne hp0
    induction ps with
    | nil => rfl
    | cons p ps ih =>
      have ih := ih (fun q hq => hz q (by simp [hq]))
      by_cases hp : n < p.2.Q.length
      · rw [List.filter_cons_of_pos (by simpa using hp), List.map_cons, List.flatten_cons, ih, List.map_cons, List.flatten_cons]
      · rw [List.filter_cons_of_neg (by simpa using hp), ih, List.map_cons, List.flatten_cons, hz p (by simp) hp, List.nil_append]
  obtain ⟨p0, ps', rfl⟩ := List.exists_cons_of_ne_nil hne
  obtain ⟨mx, hmx⟩ : ∃ mx, mx = (ps'.map fun p => p.2.Q.length).foldl max p0.2.Q.length := ⟨_, rfl⟩
  obtain ⟨mn, hmn⟩ : ∃ mn, mn = (ps'.map fun p => p.2.Q.length).foldl min p0.2.Q.length := ⟨_, rfl⟩
  have hmax := foldl_max_le _ _ _ hmx.symm
  have hmin := foldl_min_le (ps'.map fun p => p.2.Q.length) p0.2.Q.length
  rw [← hmn] at hmin
  have hle : mn ≤ mx := le_trans hmin.1 hmax.1
  have hmax' : ∀ p ∈ p0 :: ps', p.2.Q.length ≤ mx := by
    intro p hp
    rcases List.mem_cons.mp hp with rfl | hp
    · exact hmax.1
    · exact hmax.2 _ (List.mem_map_of_mem (f := fun p : List V × Log R V => p.2.Q.length) hp)
  have hmin' : ∀ p ∈ p0 :: ps', mn ≤ p.2.Q.length := by
    intro p hp
    rcases List.mem_cons.mp hp with rfl | hp
    · exact hmin.1
    · exact hmin.2 _ (List.mem_map_of_mem (f := fun p : List V × Log R V => p.2.Q.length) hp)
  have hmem : ∃ p ∈ p0 :: ps', p.2.Q.length = mx := by
    have := foldl_max_mem (ps'.map fun p => p.2.Q.length) p0.2.Q.length
    rw [← hmx] at this
    rcases List.mem_cons.mp this with h1 | h1
    · exact ⟨p0, by simp, h1.symm⟩
    · obtain ⟨p, hp, e⟩ := List.mem_map.mp h1
      exact ⟨p, by simp [hp], e⟩
  refine ⟨(List.range mx).map fun n => toError sqrt (lv n), ?_, ?_, ?_, ?_⟩
  · rw [errorsAllReduce, List.map_map, List.map_cons]
    simp only [Function.comp_apply, Function.comp_def]
    rw [← hmx, ← hmn]
    have e1 : ((List.range mn).mapM fun n => reduceLevel F n ((p0 :: ps').map (·.2))) = some ((List.range mn).map lv) := by
      apply List.mapM_some_map
      intro n hn
      have hn := List.mem_range.mp hn
      rw [← hred n, hpf, List.filter_eq_self.mpr]
      intro p hp
      have := hmin' p hp
      simpa using lt_of_lt_of_le hn this
    have e2 : ((List.range' mn (mx - mn)).mapM fun n => reduceLevel F n (((p0 :: ps').map (·.2)).filter fun s => n < s.Q.length)) = some ((List.range' mn (mx - mn)).map lv) := by
      apply List.mapM_some_map
      intro n _
      rw [hfilt, hred]
    rw [e1, Option.bind_some, e2, Option.map_some, ← List.map_append, List.map_map]
    refine congrArg some (congrArg (List.map _) ?_)
    rw [List.range_eq_range', List.range_eq_range']
    have := List.range'_append (s := 0) (m := mn) (n := mx - mn) (step := 1)
    rw [Nat.zero_add, Nat.one_mul] at this
    rw [this, Nat.add_sub_cancel' hle]
  · simpa using hmax'
  · simpa using hmem
  · intro n e he b hb
    rw [List.getElem?_map] at he
    obtain ⟨n', hn', rfl⟩ := Option.map_eq_some_iff.mp he
    obtain ⟨hlt, rfl⟩ : n < mx ∧ n = n' := by
      have hlt : n < mx := by
        have := (List.getElem?_eq_some_iff.mp hn').1
        simpa using this
      rw [List.getElem?_range hlt] at hn'
      exact ⟨hlt, Option.some.inj hn'⟩
    obtain ⟨p, hp, hpm⟩ := hmem
    have hfl := hblocks n ⟨p, hp, by omega⟩
    rw [← hb] at hfl
    by_cases hb0 : b = []
    · have ht : (mpiReduceMQ F ((bl n).map (momentsOf F))).2.2 = 0 := by
        rw [hb0] at hfl
        simp only [mpiReduceMQ, List.map_map]
        apply List.sum_eq_zero
        intro z hz
        obtain ⟨l, hl, rfl⟩ := List.mem_map.mp hz
        have := List.flatten_eq_nil_iff.mp hfl l hl
        simp [this, momentsOf]
      rw [toError, hlv]
      simp only
      rw [ht, hb0]
      simp
    · have hr := C37_reduce F (bl n) (by rw [hfl]; exact hb0)
      rw [toError, hlv, hr, hfl]
      refine ⟨rfl, ?_⟩
      simp only
      by_cases h1 : b.length ≤ 1
      · rw [if_pos h1, if_pos (by exact_mod_cast h1)]
      · rw [if_neg h1, if_neg (by exact_mod_cast h1)]
        push_cast
        rfl

/-! ### Archive -/

/-- two accumulators that differ at most in the number of data that the linear part counts, which is not reported anywhere -/
def Same (s t : Acc R V) : Prop := s.count = t.count ∧ s.log = t.log ∧ s.lin.h5write = t.lin.h5write

theorem Lin.compress_count (junk : V) (f : Int) (s : Lin V) (c : Int) : ({ s with count := c } : Lin V).compress R junk f = (s.compress R junk f).map fun t => { t with count := c } := by
  rw [Lin.compress, Lin.compress]
  by_cases h : s.maxN = 0 ∨ f < 2
  · rw [if_pos h, if_pos h]
    rfl
  · rw [if_neg h, if_neg h]
    simp only
    rw [Option.map_bind]
    congr 1
    funext l
    simp only [Function.comp]
    split_ifs <;> rfl

theorem Lin.store_count (x : V) (s : Lin V) (c : Int) : ({ s with count := c } : Lin V).store R x = (s.store R x).map fun t => { t with count := c } := by
  rw [Lin.store, Lin.store]
  by_cases h : s.last = s.cap ∧ s.maxN ≠ 1
  · rw [if_pos h, if_pos h]
    rfl
  · rw [if_neg h, if_neg h, Option.map_map]
    rfl

theorem Lin.push_count (junk x : V) (s : Lin V) (c : Int) : ({ s with count := c } : Lin V).push R junk x = (s.push R junk x).map fun t => { t with count := c + 1 } := by
  rw [Lin.push, Lin.push]
  simp only
  by_cases h : s.maxN = 0
  · rw [if_pos h, if_pos h]
    rfl
  · rw [if_neg h, if_neg h]
    by_cases h2 : s.maxN > 1 ∧ (s.bins.length : Int) = s.maxN ∧ s.last = s.cap
    · rw [if_pos h2, if_pos h2]
      have a := Lin.compress_count (R := R) junk 2 s (c + 1)
      have b := Lin.compress_count (R := R) junk 2 s (s.count + 1)
      rw [a, b]
      cases s.compress R junk 2 with
      | none => rfl
      | some t =>
        simp only [Option.map_some, Option.bind_some]
        rw [Lin.store_count x t (c + 1), Lin.store_count x t (s.count + 1), Option.map_map]
        rfl
    · rw [if_neg h2, if_neg h2, Option.bind_some, Option.bind_some, Lin.store_count x s (c + 1), Lin.store_count x s (s.count + 1), Option.map_map]
      rfl

theorem Same.lin {s t : Acc R V} (h : Same s t) : t.lin = ⟨s.lin.maxN, s.lin.cap, s.lin.last, s.lin.bins, t.lin.count⟩ := by
  have := h.2.2
  rw [Lin.h5write, Lin.h5write, LinH5.mk.injEq] at this
  obtain ⟨h1, h2, h3, h4⟩ := this
  rw [h1, h2, h3, h4]

theorem Same.step (F : Form R V) (junk : V) {s t : Acc R V} (h : Same s t) (o : LinOp V) :
    Option.Rel Same (s.step F junk o) (t.step F junk o) := by
  have hl := h.lin
  cases o with
  | push x =>
    rw [Acc.step, Acc.step, ← h.2.1, hl, Lin.push_count junk x s.lin t.lin.count]
    cases s.log.push F x with
    | none => exact Option.Rel.none
    | some lo =>
      rw [Option.bind_some, Option.bind_some]
      cases s.lin.push R junk x with
      | none => exact Option.Rel.none
      | some li => exact Option.Rel.some ⟨by simp [h.1], rfl, rfl⟩
  | compress f =>
    rw [Acc.step, Acc.step, hl, Lin.compress_count junk f s.lin t.lin.count]
    cases s.lin.compress R junk f with
    | none => exact Option.Rel.none
    | some li => exact Option.Rel.some ⟨h.1, h.2.1, rfl⟩

theorem Same.run (F : Form R V) (junk : V) (ops : List (LinOp V)) {s t : Acc R V} (h : Same s t) : Option.Rel Same (s.run F junk ops) (t.run F junk ops) := by
  induction ops generalizing s t with
  | nil => exact Option.Rel.some h
  | cons o ops ih =>
    rw [Acc.run, Acc.run]
    have := h.step F junk o
    generalize s.step F junk o = a at *
    generalize t.step F junk o = b at *
    cases this with
    | none => exact Option.Rel.none
    | some h' => exact ih h'

/-- **C38**: an accumulator that is written and read back, into any accumulator, reports the same. -/
theorem C38_same_report (sqrt : R → R) (s t : Acc R V) : (Acc.h5read s.h5write t).view sqrt = s.view sqrt := rfl

/-- **C38**: if the accumulator that is read into has the same limit of levels, the two behave the same under all further calls: both are defined or not, and report the
same.
Missing: the limit of levels is not in the archive, see `C38_ignores_data`. -/
theorem C38_continue_partial (F : Form R V) (sqrt : R → R) (junk : V) (s t : Acc R V) (h : t.log.maxN = s.log.maxN) (ops : List (LinOp V)) :
    (((Acc.h5read s.h5write t).run F junk ops).map fun u => u.view sqrt) = (s.run F junk ops).map fun u => u.view sqrt := by
  have hs : Same (Acc.h5read s.h5write t) s := by
    refine ⟨rfl, ?_, rfl⟩
    simp only [Acc.h5read, Log.h5read, Acc.h5write, Log.h5write, h]
  have := hs.run F junk ops
  generalize (Acc.h5read s.h5write t).run F junk ops = a at *
  generalize s.run F junk ops = b at *
  cases this with
  | none => rfl
  | some h' =>
    obtain ⟨h1, h2, h3⟩ := h'
    rw [Lin.h5write, Lin.h5write, LinH5.mk.injEq] at h3
    simp only [Option.map_some, Acc.view, h1, h2, h3]

theorem Acc.run_log (F : Form R V) (junk : V) (ops : List (LinOp V)) : ∀ (s u : Acc R V), s.log.maxN = 0 → s.run F junk ops = some u → u.log = s.log := by
  induction ops with
  | nil =>
    intro s u _ h
    rw [Acc.run, Option.some.injEq] at h
    rw [h]
  | cons o ops ih =>
    intro s u h0 h
    rw [Acc.run] at h
    obtain ⟨v, hv, hu⟩ := Option.bind_eq_some_iff.mp h
    have : v.log = s.log := by
      cases o with
      | push x =>
        rw [Acc.step, Log.push, if_pos h0, Option.bind_some] at hv
        obtain ⟨li, _, rfl⟩ := Option.map_eq_some_iff.mp hv
        rfl
      | compress f =>
        rw [Acc.step] at hv
        obtain ⟨li, _, rfl⟩ := Option.map_eq_some_iff.mp hv
        rfl
    rw [ih v u (by rw [this]; exact h0) hu, this]

/-- Disagreement: an accumulator read into one that was constructed by default ignores all further data in the logarithmic binning: the errors stay what they were. -/
theorem C38_ignores_data (F : Form R V) (sqrt : R → R) (junk : V) (s u : Acc R V) (ops : List (LinOp V)) (h : (Acc.h5read s.h5write Acc.default).run F junk ops = some u) :
    u.log.errors sqrt = s.log.errors sqrt := by
  rw [Acc.run_log F junk ops _ _ rfl h]
  rfl

end

/-! ## Examples -/

def accErr (o : Option (Acc ℚ ℚ)) : Option (Int × List ℚ × List (ℚ × Int)) := o.map fun s => (s.count, s.lin.bins, s.log.errors (fun x => x))

-- four data, an archive, two more data: read into a default accumulator and into one with the same parameters
example : accErr (((Acc.ctor (-1) 2 1).run ratForm 0 [.push 1, .push 3, .push 5, .push 7]).bind fun s => (Acc.h5read s.h5write Acc.default).run ratForm 0 [.push 9, .push 11]) =
    some (6, [4, 10], [(5 / 3, 4), (4, 2), (0, 1)]) := by decide +kernel
example : accErr (((Acc.ctor (-1) 2 1).run ratForm 0 [.push 1, .push 3, .push 5, .push 7]).bind fun s => (Acc.h5read s.h5write (Acc.ctor (-1) 0 1)).run ratForm 0 [.push 9, .push 11]) =
    some (6, [4, 10], [(7 / 3, 6), (16 / 3, 3), (0, 1)]) := by decide +kernel
example : accErr ((Acc.ctor (-1) 2 1).run ratForm 0 [.push 1, .push 3, .push 5, .push 7, .push 9, .push 11]) =
    some (6, [4, 10], [(7 / 3, 6), (16 / 3, 3), (0, 1)]) := by decide +kernel

-- three ranks with different numbers of levels, one without data
example : (errorsAllReduce ratForm (fun x => x) ((([[1, 3, 5, 7, 6], [2, 4, 9], []] : List (List ℚ)).mapM fun d => Log.run ratForm d (Log.ctor (-1))).getD [])) =
    some [(399 / 448, 8), (13 / 9, 3), (0, 1)] := by decide +kernel

end Verif.Stat
