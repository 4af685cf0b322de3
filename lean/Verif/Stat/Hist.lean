import Verif.Stat.Lin
import Mathlib.Algebra.Order.Field.Basic
import Mathlib.Algebra.Order.Floor.Ring
import Mathlib.Algebra.Order.Ring.Rat
import Mathlib.Data.Rat.Floor
import Mathlib.Algebra.Order.Group.Unbundled.Abs
import Mathlib.Algebra.BigOperators.Group.List.Basic

/-!
# Histogram (C40)

c++/triqs/stat/histograms.hpp and histograms.cpp. The real numbers are an ordered field with floor; arithmetic is exact, and the bins hold exact
numbers (the code counts in `double`). The counters are not wrapped at `2^64`. `int(...)` of a number outside the range of `int` and an access outside `_data`
are undefined behaviour (`none`); a histogram that is constructed with a wrong range throws (`none` from the constructor).
-/

namespace Verif.Stat

set_option linter.unusedSectionVars false

section
variable {K : Type} [Field K] [LinearOrder K] [IsStrictOrderedRing K] [FloorRing K]

/-! ## Model -/

/-- members, histograms.hpp:39-44 -/
structure Hist (K : Type) where
  a : K
  b : K
  nBins : Int
  nData : Nat
  nLost : Nat
  data : List K
  step : K
deriving DecidableEq

/-- `_init`, histograms.cpp:24-27 -/
def Hist.init (h : Hist K) : Option (Hist K) := if h.a ≥ h.b then none else some { h with step := ((h.nBins - 1 : Int) : K) / (h.b - h.a) }

/-- constructor, histograms.hpp:63; a negative number of bins is undefined -/
def Hist.ctor (a b : K) (n : Int) : Option (Hist K) := if n < 0 then none else Hist.init ⟨a, b, n, 0, 0, List.replicate n.toNat 0, 0⟩

/-- constructor for integers, histograms.hpp:56; an overflow of `b - a + 1` is undefined -/
def Hist.ctorInt (a b : Int) : Option (Hist K) :=
  if b - a + 1 < -int32 ∨ int32 ≤ b - a + 1 then none
  else if b - a + 1 < 0 then none
  else Hist.init ⟨a, b, b - a + 1, 0, 0, List.replicate (b - a + 1).toNat 0, 0⟩

/-- `++_data[n]` -/
def incr (l : List K) (n : Int) : Option (List K) := if n < 0 then none else l[n.toNat]?.map fun x => l.set n.toNat (x + 1)

/-- `operator<<`, histograms.cpp:39-48 -/
def Hist.push (x : K) (h : Hist K) : Option (Hist K) :=
  if x < h.a ∨ x > h.b then some { h with nLost := h.nLost + 1 }
  else
    let n : Int := ⌊(x - h.a) * h.step + 1 / 2⌋
    if n < -int32 ∨ int32 ≤ n then none else (incr h.data n).map fun d => { h with data := d, nData := h.nData + 1 }

def Hist.run : List K → Hist K → Option (Hist K)
  | [], h => some h
  | x :: xs, h => (h.push x).bind (Hist.run xs)

/-- `mesh_point`, histograms.hpp:83 -/
def Hist.meshPoint (h : Hist K) (n : Int) : K := h.a + (n : K) / h.step

/-- `operator+`, histograms.cpp:50-60 -/
def Hist.add (h1 h2 : Hist K) : Option (Hist K) :=
  if (h1.a, h1.b) ≠ (h2.a, h2.b) ∨ h1.data.length ≠ h2.data.length then none
  else some { h1 with data := List.zipWith (· + ·) h1.data h2.data, nData := h1.nData + h2.nData, nLost := h1.nLost + h2.nLost }

/-- `pdf`, histograms.hpp:206-210 -/
def Hist.pdf (h : Hist K) : Hist K := { h with data := h.data.map fun x => x / (h.nData : K) }

/-- the loop of `cdf`, histograms.hpp:218: `s` is the element before -/
def accumulate : K → List K → List K
  | _, [] => []
  | s, x :: xs => (x + s) :: accumulate (x + s) xs

/-- `cdf`, histograms.hpp:216-221 -/
def Hist.cdf (h : Hist K) : Hist K :=
  { h with data := (match h.data with | [] => [] | x :: xs => x :: accumulate x xs).map fun x => x / (h.nData : K) }

/-- `clear`, histograms.hpp:122-126 -/
def Hist.clear (h : Hist K) : Hist K := { h with nLost := 0, nData := 0, data := h.data.map fun _ => 0 }

/-- archive, histograms.cpp:62-71 -/
structure HistH5 (K : Type) where
  data : List K
  a : K
  b : K
  nBins : Int
  nData : Nat
  nLost : Nat

def Hist.h5write (h : Hist K) : HistH5 K := ⟨h.data, h.a, h.b, h.nBins, h.nData, h.nLost⟩

/-- histograms.cpp:73-82, into any histogram -/
def Hist.h5read (g : HistH5 K) (h : Hist K) : Option (Hist K) :=
  Hist.init { h with data := g.data, a := g.a, b := g.b, nBins := g.nBins, nData := g.nData, nLost := g.nLost }

/-- `mpi_broadcast`, histograms.hpp:133-143: what a rank other than the root has after it -/
def Hist.broadcast (root h : Hist K) : Option (Hist K) :=
  Hist.init { h with a := root.a, b := root.b, data := root.data, nData := root.nData, nLost := root.nLost, nBins := root.data.length }

/-- `mpi_reduce` with `all`, histograms.hpp:154-161, on the first rank; the arrays of all ranks are added -/
def Hist.reduce (h : Hist K) (hs : List (Hist K)) : Option (Hist K) :=
  (Hist.ctor h.a h.b h.nBins).map fun h2 => { h2 with
    data := hs.foldl (fun d g => List.zipWith (· + ·) d g.data) h.data, nData := hs.foldl (fun n g => n + g.nData) h.nData, nLost := hs.foldl (fun n g => n + g.nLost) h.nLost }

/-! ## Specification -/

/-- `x` belongs to the bin `i` of `n` bins on `[a, b]`: it is in the half open interval of one bin length around the centre `a + i (b - a) / (n - 1)` -/
def InBin (a b : K) (n : Nat) (i : Nat) (x : K) : Prop :=
  a ≤ x ∧ x ≤ b ∧ (n ≤ 1 ∨ (a + ((i : K) - 1 / 2) * ((b - a) / ((n : K) - 1)) ≤ x ∧ x < a + ((i : K) + 1 / 2) * ((b - a) / ((n : K) - 1))))

instance (a b : K) (n i : Nat) (x : K) : Decidable (InBin a b n i x) := by unfold InBin; infer_instance

/-- number of data in the bin `i` -/
def binCount (a b : K) (n i : Nat) (d : List K) : Nat := d.countP fun x => InBin a b n i x

/-! ## Proofs -/

/-- the bin of `x` -/
def binOf (a b : K) (n : Nat) (x : K) : Int := ⌊(x - a) * (((n : Int) - 1 : Int) / (b - a) : K) + 1 / 2⌋

theorem binOf_range {a b : K} {n : Nat} (hab : a < b) (hn : 1 ≤ n) {x : K} (h1 : a ≤ x) (h2 : x ≤ b) : 0 ≤ binOf a b n x ∧ binOf a b n x < n := by
  have hd : 0 < b - a := sub_pos.mpr hab
  have hn1 : (0 : K) ≤ (((n : Int) - 1 : Int) : K) := by
    have : (0 : Int) ≤ (n : Int) - 1 := by omega
    exact_mod_cast this
  have hle : (x - a) * ((((n : Int) - 1 : Int) : K) / (b - a)) ≤ (((n : Int) - 1 : Int) : K) := by
    rw [mul_div_assoc', div_le_iff₀ hd, mul_comm]
    exact mul_le_mul_of_nonneg_left (by linarith) hn1
  have hge : 0 ≤ (x - a) * ((((n : Int) - 1 : Int) : K) / (b - a)) := mul_nonneg (by linarith) (div_nonneg hn1 hd.le)
  constructor
  · apply Int.floor_nonneg.mpr
    linarith
  · apply Int.floor_lt.mpr
    push_cast at *
    linarith

theorem binOf_iff {a b : K} {n : Nat} (hab : a < b) (hn : 1 ≤ n) {x : K} (h1 : a ≤ x) (h2 : x ≤ b) {i : Nat} (hi : i < n) :
    binOf a b n x = i ↔ InBin a b n i x := by
  have hd : 0 < b - a := sub_pos.mpr hab
  by_cases hn1 : n = 1
  · subst hn1
    have := binOf_range hab le_rfl h1 h2
    have hi0 : i = 0 := by omega
    subst hi0
    simp only [InBin, h1, h2, le_refl, true_or, and_true, iff_true]
    simp only [Nat.cast_one] at this
    simp only [Nat.cast_zero]
    omega
  · have hm : (0 : K) < (n : K) - 1 := by
      have : (1 : K) < (n : K) := by exact_mod_cast (show 1 < n by omega)
      linarith
    have hh : 0 < (b - a) / ((n : K) - 1) := div_pos hd hm
    have e : (x - a) * ((((n : Int) - 1 : Int) : K) / (b - a)) = (x - a) / ((b - a) / ((n : K) - 1)) := by
      push_cast
      field_simp
    rw [binOf, Int.floor_eq_iff, e]
    simp only [InBin, h1, h2, true_and]
    rw [or_iff_right (by omega)]
    have c1 : (((i : Int) : K) ≤ (x - a) / ((b - a) / ((n : K) - 1)) + 1 / 2) ↔ a + ((i : K) - 1 / 2) * ((b - a) / ((n : K) - 1)) ≤ x := by
      rw [← sub_le_iff_le_add, le_div_iff₀ hh]
      push_cast
      constructor <;> intro h <;> linarith
    have c2 : ((x - a) / ((b - a) / ((n : K) - 1)) + 1 / 2 < ((i : Int) : K) + 1) ↔ x < a + ((i : K) + 1 / 2) * ((b - a) / ((n : K) - 1)) := by
      rw [← lt_sub_iff_add_lt, div_lt_iff₀ hh]
      push_cast
      constructor <;> intro h <;> linarith
    rw [c1, c2]

theorem binCount_append (a b : K) (n i : Nat) (d : List K) (x : K) : binCount a b n i (d ++ [x]) = binCount a b n i d + if InBin a b n i x then 1 else 0 := by
  simp [binCount, List.countP_append, List.countP_singleton]

/-- state after the data `d` -/
structure HInv (a b : K) (n : Nat) (d : List K) (h : Hist K) : Prop where
  ha : h.a = a
  hb : h.b = b
  hn : h.nBins = n
  hs : h.step = (((n : Int) - 1 : Int) : K) / (b - a)
  data : Rep h.data n (fun i => (binCount a b n i d : K))
  nd : h.nData = d.countP fun x => a ≤ x ∧ x ≤ b
  nl : h.nLost = d.countP fun x => ¬(a ≤ x ∧ x ≤ b)

theorem Rep.nil_count {n : Nat} : Rep (List.replicate n (0 : K)) n (fun i => ((0 : Nat) : K)) := by
  refine ⟨by simp, fun i hi => ?_⟩
  rw [List.getElem?_replicate, if_pos hi]
  simp

theorem HInv.ctor {a b : K} {n : Nat} (hab : a < b) : ∃ h, Hist.ctor a b n = some h ∧ HInv a b n [] h := by
  refine ⟨_, by rw [Hist.ctor, if_neg (by omega), Hist.init, if_neg (not_le.mpr hab)], rfl, rfl, rfl, rfl, ?_, rfl, rfl⟩
  simp only [Int.toNat_natCast, binCount, List.countP_nil]
  exact Rep.nil_count

theorem HInv.push {a b : K} {n : Nat} (hab : a < b) (hn : 1 ≤ n) (hn2 : (n : Int) ≤ int32) {d : List K} {h : Hist K} (i : HInv a b n d h) (x : K) :
    ∃ h', h.push x = some h' ∧ HInv a b n (d ++ [x]) h' := by
  by_cases hx : a ≤ x ∧ x ≤ b
  · obtain ⟨h0, h1⟩ := binOf_range hab hn hx.1 hx.2
    have hx' : ¬(x < h.a ∨ x > h.b) := by
      rw [i.ha, i.hb]
      push Not
      exact hx
    have hfl : ⌊(x - h.a) * h.step + 1 / 2⌋ = binOf a b n x := by rw [i.ha, i.hs, binOf]
    have h32 : (0 : Int) < int32 := by decide
    obtain ⟨j, hj⟩ := Int.eq_ofNat_of_zero_le h0
    have hjn : j < n := by omega
    have hr : ¬(binOf a b n x < -int32 ∨ int32 ≤ binOf a b n x) := by omega
    have hdat := i.data.2 j hjn
    refine ⟨{ h with data := h.data.set j ((binCount a b n j d : K) + 1), nData := h.nData + 1 }, ?_, ?_⟩
    · rw [Hist.push, if_neg hx']
      simp only
      rw [hfl, if_neg hr, incr, if_neg (by omega), hj, Int.toNat_natCast, hdat, Option.map_some, Option.map_some]
    · refine ⟨i.ha, i.hb, i.hn, i.hs, ⟨by simp [i.data.1], fun k hk => ?_⟩, ?_, ?_⟩
      · simp only
        rw [List.getElem?_set, binCount_append]
        have hin := binOf_iff hab hn hx.1 hx.2 hk
        rw [hj] at hin
        by_cases hjk : j = k
        · subst hjk
          rw [if_pos rfl, if_pos (by rw [i.data.1]; exact hjn), if_pos (hin.mp rfl)]
          push_cast
          rfl
        · rw [if_neg hjk, i.data.2 k hk, if_neg (fun hc => hjk (by have := hin.mpr hc; omega))]
          rfl
      · simp only
        rw [i.nd, List.countP_append, List.countP_singleton, if_pos (by simp only [decide_eq_true_eq]; exact hx)]
      · simp only
        rw [i.nl, List.countP_append, List.countP_singleton, if_neg (by simp only [decide_eq_true_eq]; exact not_not_intro hx)]
        rfl
  · have hx' : x < h.a ∨ x > h.b := by
      rw [i.ha, i.hb]
      by_contra hc
      push Not at hc
      exact hx hc
    refine ⟨{ h with nLost := h.nLost + 1 }, by rw [Hist.push, if_pos hx'], i.ha, i.hb, i.hn, i.hs, ⟨i.data.1, fun k hk => ?_⟩, ?_, ?_⟩
    · simp only
      rw [i.data.2 k hk, binCount_append, if_neg (fun hc : InBin a b n k x => hx ⟨hc.1, hc.2.1⟩)]
      rfl
    · simp only
      rw [i.nd, List.countP_append, List.countP_singleton, if_neg (by simp only [decide_eq_true_eq]; exact hx)]
      rfl
    · simp only
      rw [i.nl, List.countP_append, List.countP_singleton, if_pos (by simp only [decide_eq_true_eq]; exact hx)]

theorem Hist.run_append (d e : List K) (h : Hist K) : Hist.run (d ++ e) h = (Hist.run d h).bind (Hist.run e) := by
  induction d generalizing h with
  | nil => rfl
  | cons x d ih =>
    rw [List.cons_append, Hist.run, Hist.run, Option.bind_assoc]
    congr 1
    funext h'
    exact ih h'

theorem HInv.run {a b : K} {n : Nat} (hab : a < b) (hn : 1 ≤ n) (hn2 : (n : Int) ≤ int32) (d : List K) :
    ∃ h0 h, Hist.ctor a b n = some h0 ∧ Hist.run d h0 = some h ∧ HInv a b n d h := by
  obtain ⟨h0, e0, i0⟩ := HInv.ctor (n := n) hab
  refine ⟨h0, ?_⟩
  suffices ∃ h, Hist.run d h0 = some h ∧ HInv a b n d h by
    obtain ⟨h, e, i⟩ := this
    exact ⟨h, e0, e, i⟩
  induction d using List.reverseRecOn with
  | nil => exact ⟨h0, rfl, i0⟩
  | append_singleton d x ih =>
    obtain ⟨h, e, i⟩ := ih
    obtain ⟨h', e', i'⟩ := i.push hab hn hn2 x
    exact ⟨h', by rw [Hist.run_append, e, Option.bind_some, Hist.run, e']; rfl, i'⟩

/-- every point in the range is in exactly one bin -/
theorem InBin.unique {a b : K} {n : Nat} (hab : a < b) (hn : 1 ≤ n) {x : K} (h1 : a ≤ x) (h2 : x ≤ b) : ∃ i, i < n ∧ InBin a b n i x ∧ ∀ j < n, InBin a b n j x → j = i := by
  obtain ⟨h0, hlt⟩ := binOf_range hab hn h1 h2
  obtain ⟨i, hi⟩ := Int.eq_ofNat_of_zero_le h0
  refine ⟨i, by omega, (binOf_iff hab hn h1 h2 (by omega)).mp hi, fun j hj hin => ?_⟩
  have := (binOf_iff hab hn h1 h2 hj).mpr hin
  omega

/-- **C40**: what a histogram of any data holds. The bin of a point is the one whose centre is nearest. -/
theorem C40_histogram (a b : K) (n : Nat) (hab : a < b) (hn : 1 ≤ n) (hn2 : (n : Int) ≤ 2 ^ 31) (d : List K) :
    ∃ h0 h, Hist.ctor a b n = some h0 ∧ Hist.run d h0 = some h ∧ h.data.length = n ∧ (∀ (i : Nat) (c : K), h.data[i]? = some c → c = binCount a b n i d) ∧
    h.nData = d.countP (fun x => a ≤ x ∧ x ≤ b) ∧ h.nLost = d.countP (fun x => ¬(a ≤ x ∧ x ≤ b)) ∧ h.nData + h.nLost = d.length ∧ h.data.sum = h.nData := by
  have hn2 : (n : Int) ≤ int32 := hn2
  obtain ⟨h0, h, e0, e, i⟩ := HInv.run hab hn hn2 d
  refine ⟨h0, h, e0, e, i.data.1, ?_, i.nd, i.nl, ?_, ?_⟩
  · intro k c hc
    have hk : k < n := by rw [← i.data.1]; exact (List.getElem?_eq_some_iff.mp hc).1
    rw [i.data.2 k hk] at hc
    exact (Option.some.inj hc).symm
  · rw [i.nd, i.nl]
    clear i e e0
    induction d with
    | nil => rfl
    | cons x d ih =>
      rw [List.countP_cons, List.countP_cons, List.length_cons, ← ih]
      by_cases hx : a ≤ x ∧ x ≤ b
      · rw [if_pos (by simp only [decide_eq_true_eq]; exact hx), if_neg (by simp only [decide_eq_true_eq]; exact not_not_intro hx)]
        omega
      · rw [if_neg (by simp only [decide_eq_true_eq]; exact hx), if_pos (by simp only [decide_eq_true_eq]; exact hx)]
        omega
  · have hdat : h.data = (List.range n).map fun i => (binCount a b n i d : K) := by
      apply List.ext_getElem?
      intro k
      by_cases hk : k < n
      · rw [i.data.2 k hk, List.getElem?_map, List.getElem?_range hk]
        rfl
      · rw [List.getElem?_eq_none_iff.mpr (by rw [i.data.1]; omega), List.getElem?_eq_none_iff.mpr (by simp; omega)]
    rw [hdat, i.nd]
    clear hdat i e e0 hn2
    have key : ((List.range n).map fun i => binCount a b n i d).sum = d.countP fun x => a ≤ x ∧ x ≤ b := by
      induction d with
      | nil => simp [binCount]
      | cons x d ih =>
        have e1 : ((List.range n).map fun i => binCount a b n i (x :: d)) = (List.range n).map fun i => binCount a b n i d + if InBin a b n i x then 1 else 0 := by
          apply List.map_congr_left
          intro i _
          rw [binCount, List.countP_cons, binCount]
          simp
        rw [e1, List.sum_map_add, ih, List.countP_cons]
        congr 1
        by_cases hx : a ≤ x ∧ x ≤ b
        · obtain ⟨i0, hi0, hin, hu⟩ := InBin.unique hab hn hx.1 hx.2
          rw [if_pos (by simp only [decide_eq_true_eq]; exact hx)]
          have e2 : ((List.range n).map fun i => if InBin a b n i x then 1 else 0) = (List.range n).map fun i => if i = i0 then 1 else 0 := by
            apply List.map_congr_left
            intro i hi
            by_cases h : i = i0
            · subst h
              rw [if_pos hin, if_pos rfl]
            · rw [if_neg h, if_neg (fun hc => h (hu i (List.mem_range.mp hi) hc))]
          rw [e2]
          clear e1 e2 ih hn hu hin
          induction n with
          | zero => omega
          | succ n ihn =>
            rw [List.range_succ, List.map_append, List.sum_append]
            by_cases h : i0 = n
            · subst h
              have : ((List.range i0).map fun i => if i = i0 then 1 else 0).sum = 0 := by
                apply List.sum_eq_zero
                intro z hz
                obtain ⟨j, hj, rfl⟩ := List.mem_map.mp hz
                rw [if_neg (by have := List.mem_range.mp hj; omega)]
              rw [this]
              simp
            · rw [ihn (by push_cast at hn2; omega) (by omega)]
              simp
              exact fun hc => h hc.symm
        · rw [if_neg (by simp only [decide_eq_true_eq]; exact hx)]
          apply List.sum_eq_zero
          intro z hz
          obtain ⟨j, _, rfl⟩ := List.mem_map.mp hz
          rw [if_neg (fun hc : InBin a b n j x => hx ⟨hc.1, hc.2.1⟩)]
    rw [← key]
    push_cast
    rw [List.map_map]
    rfl

/-- **C40**, nearest centre: the centre of the bin of a point is at most half a bin length away, and every other centre is at least as far. -/
theorem C40_nearest (a b : K) (n : Nat) (hab : a < b) (hn : 2 ≤ n) (x : K) (i : Nat) (_hi : i < n) (h : InBin a b n i x) (h0 : Hist K) (e0 : Hist.ctor a b n = some h0) :
    |x - h0.meshPoint i| ≤ (b - a) / ((n : K) - 1) / 2 ∧ ∀ j : Nat, j < n → |x - h0.meshPoint i| ≤ |x - h0.meshPoint j| := by
  have hd : 0 < b - a := sub_pos.mpr hab
  have hm : (0 : K) < (n : K) - 1 := by
    have : (1 : K) < (n : K) := by exact_mod_cast (show 1 < n by omega)
    linarith
  obtain ⟨hh, hhe⟩ : ∃ hh, hh = (b - a) / ((n : K) - 1) := ⟨_, rfl⟩
  have hpos : 0 < hh := by rw [hhe]; exact div_pos hd hm
  obtain ⟨h0', e', inv⟩ := HInv.ctor (n := n) hab
  rw [e0] at e'
  obtain rfl := Option.some.inj e'
  have hmp : ∀ j : Nat, h0.meshPoint j = a + (j : K) * hh := by
    intro j
    rw [Hist.meshPoint, inv.ha, inv.hs, hhe]
    push_cast
    field_simp
  obtain ⟨_, _, hb⟩ := h
  rw [or_iff_right (by omega), ← hhe] at hb
  have hi1 : |x - h0.meshPoint i| ≤ hh / 2 := by
    rw [hmp, abs_le]
    constructor <;> linarith [hb.1, hb.2]
  refine ⟨by rw [← hhe]; exact hi1, fun j _ => ?_⟩
  rcases lt_trichotomy j i with hji | hji | hji
  · have : (j : K) + 1 ≤ (i : K) := by exact_mod_cast hji
    have : hh * ((j : K) + 1) ≤ hh * (i : K) := mul_le_mul_of_nonneg_left this hpos.le
    refine le_trans hi1 (le_trans ?_ (le_abs_self _))
    rw [hmp]
    linarith [hb.1, hb.2]
  · rw [hji]
  · have : (i : K) + 1 ≤ (j : K) := by exact_mod_cast hji
    have : hh * ((i : K) + 1) ≤ hh * (j : K) := mul_le_mul_of_nonneg_left this hpos.le
    refine le_trans hi1 (le_trans ?_ (neg_le_abs _))
    rw [hmp]
    linarith [hb.1, hb.2]

/-- **C40**: the sum of the histograms of two sets of data is the histogram of all. -/
theorem C40_add (a b : K) (n : Nat) (hab : a < b) (hn : 1 ≤ n) (hn2 : (n : Int) ≤ 2 ^ 31) (d1 d2 : List K) (h0 h1 h2 : Hist K) (e0 : Hist.ctor a b n = some h0)
    (e1 : Hist.run d1 h0 = some h1) (e2 : Hist.run d2 h0 = some h2) : ∃ h, Hist.run (d1 ++ d2) h0 = some h ∧ h1.add h2 = some h := by
  have hn2 : (n : Int) ≤ int32 := hn2
  have get : ∀ d, ∃ h, Hist.run d h0 = some h ∧ HInv a b n d h := by
    intro d
    obtain ⟨h0', h, e', e, i⟩ := HInv.run hab hn hn2 d
    rw [e0] at e'
    obtain rfl := Option.some.inj e'
    exact ⟨h, e, i⟩
  obtain ⟨h1', e1', i1⟩ := get d1
  obtain ⟨h2', e2', i2⟩ := get d2
  rw [e1] at e1'
  rw [e2] at e2'
  obtain rfl := Option.some.inj e1'
  obtain rfl := Option.some.inj e2'
  obtain ⟨h, e, i⟩ := get (d1 ++ d2)
  refine ⟨h, e, ?_⟩
  rw [Hist.add, if_neg (by rw [i1.ha, i1.hb, i2.ha, i2.hb, i1.data.1, i2.data.1]; simp)]
  refine congrArg some ?_
  obtain ⟨ha, hb, hnb, hnd, hnl, hdat, hst⟩ := h
  simp only [Hist.mk.injEq]
  refine ⟨by rw [i1.ha]; exact i.ha.symm, by rw [i1.hb]; exact i.hb.symm, by rw [i1.hn]; exact i.hn.symm, ?_, ?_, ?_, by rw [i1.hs]; exact i.hs.symm⟩
  · rw [i1.nd, i2.nd]
    have := i.nd
    simp only [List.countP_append] at this
    exact this.symm
  · rw [i1.nl, i2.nl]
    have := i.nl
    simp only [List.countP_append] at this
    exact this.symm
  · apply List.ext_getElem?
    intro k
    have hdd := i.data
    simp only at hdd
    by_cases hk : k < n
    · rw [hdd.2 k hk, List.getElem?_zipWith, i1.data.2 k hk, i2.data.2 k hk]
      simp [binCount]
    · rw [List.getElem?_eq_none_iff.mpr (by rw [List.length_zipWith, i1.data.1, i2.data.1]; omega), List.getElem?_eq_none_iff.mpr (by rw [hdd.1]; omega)]

theorem sum_div (l : List K) (c : K) : (l.map fun x => x / c).sum = l.sum / c := by
  induction l with
  | nil => simp
  | cons x l ih => rw [List.map_cons, List.sum_cons, ih, List.sum_cons, add_div]

theorem accumulate_getElem (l : List K) : ∀ (s : K) (i : Nat), i < l.length → (accumulate s l)[i]? = some (s + (l.take (i + 1)).sum) := by
  induction l with
  | nil => intro s i h; simp at h
  | cons x l ih =>
    intro s i hi
    cases i with
    | zero => simp [accumulate, add_comm]
    | succ i =>
      rw [accumulate, List.getElem?_cons_succ, ih _ _ (by simpa using hi), List.take_succ_cons, List.sum_cons]
      congr 1
      ring

theorem accumulate_length (l : List K) : ∀ s, (accumulate s l).length = l.length := by
  induction l with
  | nil => intro _; rfl
  | cons x l ih => intro s; simp [accumulate, ih]

/-- **C40**: `pdf` sums to one, and `cdf` is the fraction of the data up to the bin, one in the last bin. -/
theorem C40_pdf_cdf (a b : K) (n : Nat) (hab : a < b) (hn : 1 ≤ n) (hn2 : (n : Int) ≤ 2 ^ 31) (d : List K) (h0 h : Hist K) (e0 : Hist.ctor a b n = some h0)
    (e : Hist.run d h0 = some h) (hd : ∃ x ∈ d, a ≤ x ∧ x ≤ b) :
    h.pdf.data.sum = 1 ∧ h.cdf.data.getLast? = some 1 ∧ h.cdf.data.length = n ∧
    ∀ (i : Nat) (c : K), h.cdf.data[i]? = some c → c = (h.pdf.data.take (i + 1)).sum := by
  obtain ⟨h0', h', e0', e', hlen, _, hnd, _, _, hsum⟩ := C40_histogram a b n hab hn hn2 d
  rw [e0] at e0'
  obtain rfl := Option.some.inj e0'
  rw [e] at e'
  obtain rfl := Option.some.inj e'
  have hpos : (h.nData : K) ≠ 0 := by
    rw [Nat.cast_ne_zero, hnd]
    obtain ⟨x, hx, hx'⟩ := hd
    have : 0 < d.countP (fun x => a ≤ x ∧ x ≤ b) := List.countP_pos_iff.mpr ⟨x, hx, by simpa using hx'⟩
    omega
  have hp : h.pdf.data.sum = 1 := by
    rw [Hist.pdf]
    simp only
    rw [sum_div, hsum, div_self hpos]
  obtain ⟨y, l, hl⟩ : ∃ y l, h.data = y :: l := by
    apply List.exists_cons_of_ne_nil
    intro h0
    rw [h0] at hlen
    simp at hlen
    omega
  have hc : h.cdf.data.length = n := by
    rw [Hist.cdf, hl]
    simp only [List.length_map, List.length_cons, accumulate_length]
    rw [← hlen, hl, List.length_cons]
  have key : ∀ (i : Nat) (c : K), h.cdf.data[i]? = some c → c = (h.pdf.data.take (i + 1)).sum := by
    intro i c hic
    have hi : i < n := by rw [← hc]; exact (List.getElem?_eq_some_iff.mp hic).1
    rw [Hist.pdf]
    simp only
    rw [← List.map_take, sum_div]
    rw [Hist.cdf, hl] at hic
    simp only [List.getElem?_map] at hic
    rw [hl, List.take_succ_cons, List.sum_cons]
    rw [hl, List.length_cons] at hlen
    cases i with
    | zero =>
      simp at hic
      simp [hic]
    | succ i =>
      rw [List.getElem?_cons_succ, accumulate_getElem l y i (by omega)] at hic
      exact (Option.some.inj hic).symm
  refine ⟨hp, ?_, hc, key⟩
  rw [List.getLast?_eq_getElem?, hc]
  have hlt : n - 1 < h.cdf.data.length := by omega
  have := key (n - 1) _ (List.getElem?_eq_getElem hlt)
  rw [List.getElem?_eq_getElem hlt, this, show n - 1 + 1 = n by omega, List.take_of_length_le (by rw [Hist.pdf]; simp [hlen]), hp]

/-- **C40**, integers: with the constructor for integers an integer in the range is counted in its own bin. -/
theorem C40_integers (a b : Int) (hab : a < b) (hr : b - a + 1 < 2 ^ 31) (h0 : Hist K) (e0 : Hist.ctorInt a b = some h0) (x : Int) (h1 : a ≤ x) (h2 : x ≤ b) :
    Hist.ctor (a : K) b (b - a + 1) = some h0 ∧ InBin (a : K) b (b - a + 1).toNat (x - a).toNat x ∧ h0.meshPoint (x - a) = x := by
  have hr : b - a + 1 < int32 := hr
  have h32 : (0 : Int) < int32 := by decide
  have hc : Hist.ctor (a : K) b (b - a + 1) = some h0 := by
    rw [Hist.ctorInt, if_neg (by omega), if_neg (by omega)] at e0
    rw [Hist.ctor, if_neg (by omega)]
    exact e0
  obtain ⟨n, hn⟩ : ∃ n : Nat, b - a + 1 = n := ⟨(b - a + 1).toNat, by omega⟩
  obtain ⟨j, hj⟩ : ∃ j : Nat, x - a = j := ⟨(x - a).toNat, by omega⟩
  have hnK : ((n : K) - 1) = (b : K) - a := by
    have : (n : Int) - 1 = b - a := by omega
    have := congrArg (Int.cast (R := K)) this
    push_cast at this
    exact this
  have hba : (a : K) < b := by exact_mod_cast hab
  have hne : (b : K) - a ≠ 0 := by linarith [sub_pos.mpr hba]
  have hxj : (x : K) = a + j := by
    have : x = a + j := by omega
    rw [this]
    push_cast
    rfl
  refine ⟨hc, ?_, ?_⟩
  · rw [hn, hj, Int.toNat_natCast, Int.toNat_natCast]
    refine ⟨by exact_mod_cast h1, by exact_mod_cast h2, Or.inr ?_⟩
    rw [hnK, div_self hne, hxj]
    constructor <;> linarith
  · rw [Hist.ctor, if_neg (by omega), Hist.init, if_neg (not_le.mpr hba)] at hc
    rw [← Option.some.inj hc, Hist.meshPoint]
    simp only
    have : ((b - a + 1 - 1 : Int) : K) = (b : K) - a := by push_cast; ring
    rw [this, div_self hne, div_one]
    push_cast
    ring

/-- **C40**, archive: a histogram of any data is the same after writing and reading, into any histogram; the same holds for a broadcast. -/
theorem C40_archive (a b : K) (n : Nat) (hab : a < b) (hn : 1 ≤ n) (hn2 : (n : Int) ≤ 2 ^ 31) (d : List K) (h0 h g : Hist K) (e0 : Hist.ctor a b n = some h0)
    (e : Hist.run d h0 = some h) : Hist.h5read h.h5write g = some h ∧ Hist.broadcast h g = some h := by
  obtain ⟨h0', h', e0', e', i⟩ := HInv.run hab hn (show (n : Int) ≤ int32 from hn2) d
  rw [e0] at e0'
  obtain rfl := Option.some.inj e0'
  rw [e] at e'
  obtain rfl := Option.some.inj e'
  obtain ⟨ha, hb, hnb, hnd, hnl, hdat, hst⟩ := h
  have h1 := i.ha
  have h2 := i.hb
  have h3 := i.hn
  have h4 := i.hs
  have h5 := i.data.1
  simp only at h1 h2 h3 h4 h5
  subst h1 h2 h3 h4
  constructor
  · rw [Hist.h5read, Hist.h5write, Hist.init, if_neg (not_le.mpr hab)]
  · rw [Hist.broadcast, Hist.init]
    simp only
    rw [if_neg (not_le.mpr hab), h5]

/-- **C40**, MPI: the reduction over ranks is the histogram of the data of all ranks. -/
theorem C40_reduce (a b : K) (n : Nat) (hab : a < b) (hn : 1 ≤ n) (hn2 : (n : Int) ≤ 2 ^ 31) (d : List K) (ds : List (List K)) (h0 h : Hist K) (hs : List (Hist K))
    (e0 : Hist.ctor a b n = some h0) (e : Hist.run d h0 = some h) (es : ds.mapM (fun d => Hist.run d h0) = some hs) :
    Hist.run (d ++ ds.flatten) h0 = h.reduce hs := by
  have hctor : Hist.ctor h.a h.b h.nBins = some h0 ∧ h.step = h0.step ∧ h.a = h0.a ∧ h.b = h0.b ∧ h.nBins = h0.nBins := by
    obtain ⟨h0', h', e0', e', i⟩ := HInv.run hab hn (show (n : Int) ≤ int32 from hn2) d
    rw [e0] at e0'
    obtain rfl := Option.some.inj e0'
    rw [e] at e'
    obtain rfl := Option.some.inj e'
    obtain ⟨h0', e0', i0⟩ := HInv.ctor (n := n) hab
    rw [e0] at e0'
    obtain rfl := Option.some.inj e0'
    exact ⟨by rw [i.ha, i.hb, i.hn, e0], by rw [i.hs, i0.hs], by rw [i.ha, i0.ha], by rw [i.hb, i0.hb], by rw [i.hn, i0.hn]⟩
  have key : ∀ (ds : List (List K)) (hs : List (Hist K)) (d : List K) (h : Hist K), Hist.run d h0 = some h → ds.mapM (fun d => Hist.run d h0) = some hs →
      Hist.run (d ++ ds.flatten) h0 = some { h with data := hs.foldl (fun d g => List.zipWith (· + ·) d g.data) h.data, nData := hs.foldl (fun n g => n + g.nData) h.nData, nLost := hs.foldl (fun n g => n + g.nLost) h.nLost } := by
    intro ds
    induction ds with
    | nil =>
      intro hs d h e es
      rw [List.mapM_nil] at es
      obtain rfl := Option.some.inj es
      rw [List.flatten_nil, List.append_nil, e]
      rfl
    | cons d1 ds ih =>
      intro hs d h e es
      rw [List.mapM_cons] at es
      obtain ⟨g, hg, es⟩ := Option.bind_eq_some_iff.mp es
      obtain ⟨gs, hgs, es⟩ := Option.bind_eq_some_iff.mp es
      obtain rfl := Option.some.inj es
      obtain ⟨u, hu, hadd⟩ := C40_add a b n hab hn hn2 d d1 h0 h g e0 e hg
      rw [List.flatten_cons, ← List.append_assoc, ih gs (d ++ d1) u hu hgs]
      rw [Hist.add] at hadd
      by_cases hc : (h.a, h.b) ≠ (g.a, g.b) ∨ h.data.length ≠ g.data.length
      · rw [if_pos hc] at hadd
        exact absurd hadd (by simp)
      · rw [if_neg hc, Option.some.injEq] at hadd
        rw [← hadd]
        rfl
  rw [key ds hs d h e es, Hist.reduce, hctor.1, Option.map_some]
  obtain ⟨_, h1, h2, h3, h4⟩ := hctor
  rw [h1, h2, h3, h4]

end

/-! ## Examples -/

-- bins of length 1/2 around 0, 1/2, 1, 3/2, 2
example : ((Hist.ctor (0 : ℚ) 2 5).bind (Hist.run [0, 1 / 4, 1 / 5, 2, 7 / 4, 3, -1, 1])).map (fun h => (h.data, h.nData, h.nLost)) = some ([2, 1, 1, 0, 2], 6, 2) := by
  decide +kernel
example : ((Hist.ctor (0 : ℚ) 2 5).bind (Hist.run [0, 1 / 4, 1 / 5, 2])).map (fun h => (h.pdf.data, h.cdf.data)) = some ([1 / 2, 1 / 4, 0, 0, 1 / 4], [1 / 2, 3 / 4, 3 / 4, 3 / 4, 1]) := by
  decide +kernel
example : Hist.ctor (2 : ℚ) 2 5 = none := by decide +kernel
-- no bin: an access outside of the data
example : ((Hist.ctor (0 : ℚ) 2 0).bind (Hist.run [1])) = none := by decide +kernel
example : ((Hist.ctorInt (K := ℚ) (-1) 2).bind (Hist.run [-1, 0, 2, 2])).map (fun h => h.data) = some [1, 1, 0, 2] := by decide +kernel

end Verif.Stat
