import Verif.Float.LinearMesh
import Mathlib.Algebra.BigOperators.Group.List.Basic
import Mathlib.Data.List.Count

/-!
# Histograms in double precision

Construction, binning and counting with the rounding of the machine; the bins are doubles, as in the code.

Source: `/repo/c++/triqs/stat/histograms.hpp` (39-46, 56, 63, 83) and `/repo/c++/triqs/stat/histograms.cpp` (24-27, 39-48). The samples are finite doubles. The result
`none` is an exception of the constructor, the conversion to `int` of a number outside of its range (infinite or not a number included), or an access
outside of the bins.
-/

namespace Verif.HistDouble

open Binary64 LinearDouble

/-! ## Model -/

/-- members, histograms.hpp:39-44; the step is `none` if it is infinite -/
structure H where
  a : ℚ
  b : ℚ
  nBins : ℤ
  nData : ℕ
  nLost : ℕ
  data : List ℚ
  step : Option ℚ
deriving DecidableEq

/-- `_step`, histograms.cpp:26; division by an infinite difference gives zero -/
def stepOf (a b : ℚ) (n : ℤ) : Option ℚ :=
  match fin (b - a) with
  | none => some 0
  | some d => fin (rnd ((n - 1 : ℤ) : ℚ) / d)

/-- the constructor, histograms.hpp:63, with `_init`, histograms.cpp:24-27 -/
def ctor (a b : ℚ) (n : ℤ) : Option H :=
  if n < 0 ∨ b ≤ a then none else some ⟨a, b, n, 0, 0, List.replicate n.toNat 0, stepOf a b n⟩

/-- the constructor for integers, histograms.hpp:56; an overflow of `b - a + 1` is undefined -/
def ctorInt (a b : ℤ) : Option H := if -2 ^ 31 ≤ b - a + 1 ∧ b - a + 1 < 2 ^ 31 then ctor (rnd a) (rnd b) (b - a + 1) else none

/-- the index of the bin, histograms.cpp:43 -/
def bin (h : H) (x : ℚ) : Option ℤ :=
  match fin (x - h.a), h.step with
  | some y, some s =>
    match fin (y * s) with
    | none => none
    | some t =>
      match fin (t + 1 / 2) with
      | none => none
      | some u => if -2 ^ 31 ≤ ⌊u⌋ ∧ ⌊u⌋ < 2 ^ 31 then some ⌊u⌋ else none
  | _, _ => none

/-- `++_data[n]`, histograms.cpp:44, in double precision -/
def incr (l : List ℚ) (n : ℤ) : Option (List ℚ) := if n < 0 then none else l[n.toNat]?.map fun c : ℚ => l.set n.toNat (rnd (c + 1))

/-- `operator<<`, histograms.cpp:39-48; the counters are unsigned numbers of 64 digits -/
def push (x : ℚ) (h : H) : Option H :=
  if x < h.a ∨ h.b < x then some { h with nLost := (h.nLost + 1) % 2 ^ 64 }
  else
    match bin h x with
    | none => none
    | some n => (incr h.data n).map fun d => { h with data := d, nData := (h.nData + 1) % 2 ^ 64 }

/-- a series of samples -/
def run : List ℚ → H → Option H
  | [], h => some h
  | x :: l, h => (push x h).bind (run l)

/-- `mesh_point`, histograms.hpp:83; `none` if it is not finite -/
def meshPoint (h : H) (i : ℤ) : Option ℚ :=
  match h.step with
  | none => some h.a
  | some s =>
    if s = 0 then none else
      match fin (rnd (i : ℚ) / s) with
      | none => none
      | some q => fin (h.a + q)

/-! ## Specification -/

/-- histograms of at most `2^31` bins over an interval that is neither extremely short nor extremely far away -/
structure Hscale (a b : ℚ) (n : ℤ) : Prop where
  da : IsDouble a
  db : IsDouble b
  len : (2 : ℚ) ^ (-900 : ℤ) ≤ b - a
  la : |a| ≤ 2 ^ (1000 : ℤ)
  lb : |b| ≤ 2 ^ (1000 : ℤ)
  one : 1 ≤ n
  many : n ≤ 2 ^ 31

/-- the exact center of a bin -/
def center (a b : ℚ) (n i : ℤ) : ℚ := a + i * ((b - a) / (n - 1))

/-! ## Proofs -/

theorem Hscale.lt {a b : ℚ} {n : ℤ} (h : Hscale a b n) : a < b := by
  have := (two_zpow_pos (-900)).trans_le h.len
  linarith

theorem Hscale.up {a b : ℚ} {n : ℤ} (h : Hscale a b n) : b - a ≤ 2 ^ (1001 : ℤ) := by
  have h1 := (abs_le.1 h.la).1
  have h2 := (abs_le.1 h.lb).2
  have : (2 : ℚ) ^ (1001 : ℤ) = 2 ^ (1000 : ℤ) + 2 ^ (1000 : ℤ) := by rw [show (1001 : ℤ) = 1000 + 1 by norm_num, two_zpow_add]; ring
  rw [this]
  linarith

/-- the step is finite, and positive if there are two bins -/
theorem step_spec {a b : ℚ} {n : ℤ} (h : Hscale a b n) :
    ∃ s, stepOf a b n = some s ∧ Rel 2 (((n - 1 : ℤ) : ℚ) / (b - a)) s ∧ 0 ≤ s ∧ (2 ≤ n → 2 ^ (-1001 : ℤ) ≤ s) ∧ s ≤ 2 ^ (945 : ℤ) := by
  have hn0 : (0 : ℚ) ≤ ((n - 1 : ℤ) : ℚ) := by exact_mod_cast (by have := h.one; omega : 0 ≤ n - 1)
  have hn45 : ((n - 1 : ℤ) : ℚ) ≤ 2 ^ (45 : ℤ) := by
    have : ((n - 1 : ℤ) : ℚ) ≤ ((2 ^ 45 : ℤ) : ℚ) := by exact_mod_cast (by have := h.many; omega : n - 1 ≤ 2 ^ 45)
    exact this.trans (by norm_num)
  have hnr : rnd ((n - 1 : ℤ) : ℚ) = ((n - 1 : ℤ) : ℚ) := rnd_rep (rep_count (by have := h.one; omega) (by have := h.many; omega))
  have hlen0 : 0 < b - a := by have := h.lt; linarith
  have hD : Rel 1 (b - a) (rnd (b - a)) := rel_rnd ((two_zpow_le (by norm_num)).trans h.len)
  have hDlo : (2 : ℚ) ^ (-900 : ℤ) ≤ rnd (b - a) := le_rnd (rep_zpow (by norm_num)) h.len
  have hDhi : rnd (b - a) ≤ 2 ^ (1001 : ℤ) := rnd_le (rep_zpow (by norm_num)) h.up
  have hDfin : fin (b - a) = some (rnd (b - a)) := fin_of_le (e := 1001) (by rw [abs_of_pos hlen0]; exact h.up) (by norm_num) (by norm_num)
  generalize rnd (b - a) = D at *
  have hD0 : 0 < D := (two_zpow_pos _).trans_le hDlo
  have hstep : stepOf a b n = fin (((n - 1 : ℤ) : ℚ) / D) := by
    unfold stepOf
    rw [hDfin]
    simp only
    rw [hnr]
  have hq0 : 0 ≤ ((n - 1 : ℤ) : ℚ) / D := div_nonneg hn0 hD0.le
  have hqhi : ((n - 1 : ℤ) : ℚ) / D ≤ 2 ^ (945 : ℤ) := by
    rw [div_le_iff₀ hD0]
    calc ((n - 1 : ℤ) : ℚ) ≤ 2 ^ (45 : ℤ) := hn45
      _ = 2 ^ (945 : ℤ) * 2 ^ (-900 : ℤ) := by rw [← two_zpow_add]; norm_num
      _ ≤ 2 ^ (945 : ℤ) * D := mul_le_mul_of_nonneg_left hDlo (two_zpow_pos _).le
  have hqlo : 2 ≤ n → (2 : ℚ) ^ (-1001 : ℤ) ≤ ((n - 1 : ℤ) : ℚ) / D := by
    intro h2
    have h1 : (1 : ℚ) ≤ ((n - 1 : ℤ) : ℚ) := by exact_mod_cast (by omega : 1 ≤ n - 1)
    rw [le_div_iff₀ hD0]
    calc (2 : ℚ) ^ (-1001 : ℤ) * D ≤ 2 ^ (-1001 : ℤ) * 2 ^ (1001 : ℤ) := mul_le_mul_of_nonneg_left hDhi (two_zpow_pos _).le
      _ = 1 := by rw [← two_zpow_add]; norm_num
      _ ≤ _ := h1
  refine ⟨rnd (((n - 1 : ℤ) : ℚ) / D), ?_, ?_, rnd_nonneg hq0, fun h2 => le_rnd (rep_zpow (by norm_num)) (hqlo h2), rnd_le (rep_zpow (by norm_num)) hqhi⟩
  · rw [hstep]
    exact fin_of_le (e := 945) (by rw [abs_of_nonneg hq0]; exact hqhi) (by norm_num) (by norm_num)
  · have hdiv : Rel 1 (((n - 1 : ℤ) : ℚ) / (b - a)) (((n - 1 : ℤ) : ℚ) / D) := (Rel.refl _).div hD hn0 hlen0
    by_cases h2 : 2 ≤ n
    · exact hdiv.trans (rel_rnd ((two_zpow_le (by norm_num)).trans (hqlo h2)))
    · have : n = 1 := by have := h.one; omega
      subst this
      norm_num [Rel, rnd_zero]

/-- the number that is converted to the bin is the exact position plus one half, up to `n 2^-49` -/
theorem bin_spec {a b : ℚ} {n : ℤ} (h : Hscale a b n) {st : H} (ha : st.a = a) (hs : st.step = stepOf a b n) {x : ℚ} (hx : IsDouble x) (h0 : a ≤ x) (h1 : x ≤ b) :
    ∃ s u, stepOf a b n = some s ∧ 0 ≤ s ∧ u = rnd (rnd (rnd (x - a) * s) + 1 / 2) ∧ bin st x = some ⌊u⌋ ∧ 0 ≤ ⌊u⌋ ∧ ⌊u⌋ < n ∧
      |u - ((x - a) / (b - a) * (n - 1) + 1 / 2)| ≤ n / 562949953421312 := by
  obtain ⟨s, hs', hrel, hs0, _, hshi⟩ := step_spec h
  have hone := h.one
  have hmany := h.many
  have hlen0 : 0 < b - a := by have := h.lt; linarith
  have hn0 : (0 : ℚ) ≤ (n : ℚ) - 1 := by
    have : (1 : ℚ) ≤ n := by exact_mod_cast hone
    linarith
  have hn31 : (n : ℚ) ≤ 2147483648 := by exact_mod_cast (by omega : n ≤ 2147483648)
  have hcast : ((n - 1 : ℤ) : ℚ) = (n : ℚ) - 1 := by push_cast; ring
  rw [hcast] at hrel
  have hxa : 0 ≤ x - a := by linarith
  have hy : Rel 1 (x - a) (rnd (x - a)) := rel_sub hx.1 h.da.1 h0
  have hyfin : fin (x - a) = some (rnd (x - a)) :=
    fin_of_le (e := 1001) (by rw [abs_of_nonneg hxa]; exact (by linarith : x - a ≤ b - a).trans h.up) (by norm_num) (by norm_num)
  have hp0 : 0 ≤ (x - a) / (b - a) * ((n : ℚ) - 1) := mul_nonneg (div_nonneg hxa hlen0.le) hn0
  have hpn : (x - a) / (b - a) * ((n : ℚ) - 1) ≤ (n : ℚ) - 1 := by
    have : (x - a) / (b - a) ≤ 1 := by rw [div_le_one hlen0]; linarith
    nlinarith
  have hprod : Rel 3 ((x - a) / (b - a) * ((n : ℚ) - 1)) (rnd (x - a) * s) := by
    have := hy.mul hrel hxa (div_nonneg hn0 hlen0.le)
    rwa [show (x - a) * (((n : ℚ) - 1) / (b - a)) = (x - a) / (b - a) * ((n : ℚ) - 1) by ring] at this
  have herr := hprod.err (by norm_num) hp0
  have hP0 := hprod.nonneg hp0
  have e1 := rnd_err_abs (rnd (x - a) * s)
  have e2 := rnd_err_abs (rnd (rnd (x - a) * s) + 1 / 2)
  have ht0 : 0 ≤ rnd (rnd (x - a) * s) := rnd_nonneg hP0
  have hu0 : 0 ≤ rnd (rnd (rnd (x - a) * s) + 1 / 2) := rnd_nonneg (by linarith)
  rw [abs_of_nonneg hP0] at e1
  rw [abs_of_nonneg (by linarith : 0 ≤ rnd (rnd (x - a) * s) + 1 / 2)] at e2
  have htiny : (2 : ℚ) ^ (-1074 : ℤ) ≤ 1 / 9007199254740992 := tiny_le.trans (by norm_num)
  have htiny0 := two_zpow_pos (-1074)
  generalize (x - a) / (b - a) * ((n : ℚ) - 1) = p at *
  push_cast at herr
  have hP : rnd (x - a) * s ≤ 2 ^ (32 : ℤ) := by
    rw [abs_le] at herr
    have : (2 : ℚ) ^ (32 : ℤ) = 4294967296 := by norm_num
    rw [this]
    linarith [herr.2]
  have hbin : bin st x = if -2 ^ 31 ≤ ⌊rnd (rnd (rnd (x - a) * s) + 1 / 2)⌋ ∧ ⌊rnd (rnd (rnd (x - a) * s) + 1 / 2)⌋ < 2 ^ 31 then
      some ⌊rnd (rnd (rnd (x - a) * s) + 1 / 2)⌋ else none := by
    unfold bin
    rw [ha, hs, hyfin, hs']
    simp only
    rw [fin_of_le (e := 32) (by rw [abs_of_nonneg hP0]; exact hP) (by norm_num) (by norm_num)]
    simp only
    have ht32 : rnd (rnd (x - a) * s) ≤ 2 ^ (32 : ℤ) := rnd_le (rep_zpow (by norm_num)) hP
    rw [fin_of_le (e := 33) (by
      rw [abs_of_nonneg (by linarith)]
      have e32 : (2 : ℚ) ^ (32 : ℤ) = 4294967296 := by norm_num
      have e33 : (2 : ℚ) ^ (33 : ℤ) = 8589934592 := by norm_num
      rw [e32] at ht32
      rw [e33]
      linarith) (by norm_num) (by norm_num)]
  generalize (2 : ℚ) ^ (-1074 : ℤ) = e at *
  have habs : |rnd (rnd (rnd (x - a) * s) + 1 / 2) - (p + 1 / 2)| ≤ n / 562949953421312 := by
    rw [abs_le] at herr e1 e2 ⊢
    constructor <;> linarith [herr.1, herr.2, e1.1, e1.2, e2.1, e2.2]
  have hfl0 : 0 ≤ ⌊rnd (rnd (rnd (x - a) * s) + 1 / 2)⌋ := Int.floor_nonneg.2 hu0
  have hfl1 : ⌊rnd (rnd (rnd (x - a) * s) + 1 / 2)⌋ < n := by
    rw [Int.floor_lt]
    rw [abs_le] at habs
    linarith [habs.2]
  refine ⟨s, _, hs', hs0, rfl, ?_, hfl0, hfl1, habs⟩
  rw [hbin, if_pos ⟨by omega, by omega⟩]

/-- **C177, the bin** of every double of the interval exists, its center is nearest up to `n 2^-49` bins, the order of samples is the order of bins, and the ends of the interval
are in the first and the last bin. -/
theorem C177_bin (a b : ℚ) (n : ℤ) (h : Hscale a b n) (st : H) (ha : st.a = a) (hs : st.step = stepOf a b n) :
    (∀ x, IsDouble x → a ≤ x → x ≤ b → ∃ i, bin st x = some i ∧ 0 ≤ i ∧ i < n ∧ (2 ≤ n → |x - center a b n i| ≤ (1 / 2 + n * 2 ^ (-49 : ℤ)) * ((b - a) / (n - 1)))) ∧
    (∀ x y i j, IsDouble x → IsDouble y → a ≤ x → x ≤ y → y ≤ b → bin st x = some i → bin st y = some j → i ≤ j) ∧
    bin st a = some 0 ∧ bin st b = some (n - 1) := by
  have hlt := h.lt
  have hone := h.one
  have hmany := h.many
  have hn31 : (n : ℚ) ≤ 2147483648 := by exact_mod_cast (by omega : n ≤ 2147483648)
  refine ⟨?_, ?_, ?_, ?_⟩
  · intro x hx h0 h1
    obtain ⟨s, u, _, _, _, hb, hu0, hu1, herr⟩ := bin_spec h ha hs hx h0 h1
    refine ⟨⌊u⌋, hb, hu0, hu1, fun h2 => ?_⟩
    have hf := Int.floor_le u
    have hf' := Int.lt_floor_add_one u
    have hn1 : (1 : ℚ) ≤ (n : ℚ) - 1 := by
      have : (2 : ℚ) ≤ n := by exact_mod_cast h2
      linarith
    have hst : 0 < (b - a) / ((n : ℚ) - 1) := div_pos (by linarith) (by linarith)
    have hx' : x - center a b n ⌊u⌋ = ((x - a) / (b - a) * (n - 1) - ⌊u⌋) * ((b - a) / (n - 1)) := by
      unfold center
      have h3 : (n : ℚ) - 1 ≠ 0 := by linarith
      have h4 : b - a ≠ 0 := by linarith
      field_simp
      ring
    rw [hx', abs_mul, abs_of_pos hst]
    refine mul_le_mul_of_nonneg_right ?_ hst.le
    generalize (x - a) / (b - a) * ((n : ℚ) - 1) = p at *
    rw [show (2 : ℚ) ^ (-49 : ℤ) = 1 / 562949953421312 by norm_num]
    rw [abs_le] at herr ⊢
    constructor <;> linarith [herr.1, herr.2]
  · intro x y i j hx hy h0 hxy h1 hi hj
    obtain ⟨s, u, hs1, hs0, hu, hb, _, _, _⟩ := bin_spec h ha hs hx h0 (hxy.trans h1)
    obtain ⟨s', v, hs1', _, hv, hb', _, _, _⟩ := bin_spec h ha hs hy (h0.trans hxy) h1
    rw [hs1] at hs1'
    cases hs1'
    rw [hi] at hb; rw [hj] at hb'
    cases hb; cases hb'
    refine Int.floor_le_floor ?_
    rw [hu, hv]
    exact rnd_mono (by linarith [rnd_mono (mul_le_mul_of_nonneg_right (rnd_mono (by linarith : x - a ≤ y - a)) hs0)])
  · obtain ⟨s, u, _, _, hu, hb, _, _, _⟩ := bin_spec h ha hs h.da (le_refl a) hlt.le
    rw [hb, hu, sub_self, rnd_zero, zero_mul, rnd_zero]
    have : ⌊rnd (0 + 1 / 2)⌋ = 0 := by decide +kernel
    rw [this]
  · obtain ⟨s, u, _, _, hu, hb, hu0, hu1, herr⟩ := bin_spec h ha hs h.db hlt.le (le_refl b)
    rw [hb]
    congr 1
    rw [div_self (by linarith), one_mul] at herr
    rw [Int.floor_eq_iff]
    push_cast
    rw [abs_le] at herr
    constructor <;> linarith [herr.1, herr.2]

/-- a double that counts -/
theorem rnd_count {k : ℕ} (h : k < 2 ^ 53) : rnd ((k : ℚ) + 1) = k + 1 := by
  have : Rep (((k + 1 : ℕ) : ℤ) : ℚ) := rep_int (by rw [abs_of_nonneg (by omega)]; omega)
  push_cast at this
  exact rnd_rep this

/-- the state after the samples `d` -/
structure Inv (a b : ℚ) (n : ℤ) (d : List ℚ) (h : H) : Prop where
  ea : h.a = a
  eb : h.b = b
  en : h.nBins = n
  es : h.step = stepOf a b n
  len : h.data.length = n.toNat
  cnt : ∀ i : ℕ, i < n.toNat → h.data[i]? = some ((d.countP fun x => decide (a ≤ x ∧ x ≤ b ∧ bin h x = some (i : ℤ)) : ℕ) : ℚ)
  dat : h.nData = d.countP fun x => decide (a ≤ x ∧ x ≤ b)
  lost : h.nLost = d.countP fun x => decide (¬(a ≤ x ∧ x ≤ b))

theorem bin_congr {h h' : H} (h1 : h.a = h'.a) (h2 : h.step = h'.step) (x : ℚ) : bin h x = bin h' x := by
  unfold bin
  rw [h1, h2]

theorem Inv.push {a b : ℚ} {n : ℤ} (hsc : Hscale a b n) {d : List ℚ} {h : H} (i : Inv a b n d h) (hd : d.length < 2 ^ 53 - 1) {x : ℚ} (hx : IsDouble x) :
    ∃ h', HistDouble.push x h = some h' ∧ Inv a b n (d ++ [x]) h' := by
  have hcl : ∀ p : ℚ → Bool, d.countP p ≤ d.length := fun p => List.countP_le_length
  by_cases hin : a ≤ x ∧ x ≤ b
  · obtain ⟨k, hk, hk0, hkn, _⟩ := (C177_bin a b n hsc h i.ea i.es).1 x hx hin.1 hin.2
    obtain ⟨m, rfl⟩ := Int.eq_ofNat_of_zero_le hk0
    have hm : m < n.toNat := by omega
    have hcm := i.cnt m hm
    have hpush : HistDouble.push x h = some { h with
        data := h.data.set m (rnd (((d.countP fun x => decide (a ≤ x ∧ x ≤ b ∧ bin h x = some (m : ℤ)) : ℕ) : ℚ) + 1)), nData := (h.nData + 1) % 2 ^ 64 } := by
      unfold HistDouble.push
      rw [if_neg (by rw [i.ea, i.eb]; rintro (g | g) <;> linarith [hin.1, hin.2]), hk]
      simp only
      unfold incr
      rw [if_neg (by omega)]
      simp only [Int.toNat_natCast]
      rw [hcm]
      rfl
    refine ⟨_, hpush, i.ea, i.eb, i.en, i.es, by simpa using i.len, ?_, ?_, ?_⟩
    · intro j hj
      simp only
      have hbc : ∀ y, bin { h with data := h.data.set m (rnd (((d.countP fun x => decide (a ≤ x ∧ x ≤ b ∧ bin h x = some (m : ℤ)) : ℕ) : ℚ) + 1)), nData := (h.nData + 1) % 2 ^ 64 } y
          = bin h y := fun y => bin_congr rfl rfl y
      simp only [hbc]
      rw [List.countP_append, List.countP_singleton]
      by_cases hjm : j = m
      · subst hjm
        rw [List.getElem?_set_self (by rw [i.len]; exact hm), if_pos (by simpa using ⟨hin.1, hin.2, hk⟩), rnd_count (by have := hcl (fun x => decide (a ≤ x ∧ x ≤ b ∧ bin h x = some (j : ℤ))); omega)]
        push_cast
        rfl
      · rw [List.getElem?_set_ne (by omega), i.cnt j hj, if_neg]
        · simp
        · simp only [decide_eq_true_eq]
          rintro ⟨_, _, g⟩
          rw [hk] at g
          cases g
          exact hjm rfl
    · simp only
      rw [List.countP_append, List.countP_singleton, if_pos (by simpa using hin), ← i.dat]
      have := hcl (fun x => decide (a ≤ x ∧ x ≤ b))
      rw [← i.dat] at this
      exact Nat.mod_eq_of_lt (by omega)
    · simp only
      rw [List.countP_append, List.countP_singleton, if_neg (by simpa using hin), ← i.lost]
      simp
  · have hout : x < h.a ∨ h.b < x := by
      rw [i.ea, i.eb]
      by_contra g
      rw [not_or, not_lt, not_lt] at g
      exact hin g
    refine ⟨{ h with nLost := (h.nLost + 1) % 2 ^ 64 }, by unfold HistDouble.push; rw [if_pos hout], i.ea, i.eb, i.en, i.es, i.len, ?_, ?_, ?_⟩
    · intro j hj
      have hbc : ∀ y, bin { h with nLost := (h.nLost + 1) % 2 ^ 64 } y = bin h y := fun y => bin_congr rfl rfl y
      simp only [hbc]
      rw [List.countP_append, List.countP_singleton, if_neg, i.cnt j hj]
      · simp
      · simp only [decide_eq_true_eq]
        exact fun g => hin ⟨g.1, g.2.1⟩
    · simp only
      rw [List.countP_append, List.countP_singleton, if_neg (by simpa using hin), i.dat]
      simp
    · simp only
      rw [List.countP_append, List.countP_singleton, if_pos (decide_eq_true hin), ← i.lost]
      have := hcl (fun x => decide (¬(a ≤ x ∧ x ≤ b)))
      rw [← i.lost] at this
      exact Nat.mod_eq_of_lt (by omega)

theorem Inv.ctor {a b : ℚ} {n : ℤ} (hsc : Hscale a b n) : ∃ h, HistDouble.ctor a b n = some h ∧ Inv a b n [] h := by
  have := hsc.one
  refine ⟨_, by unfold HistDouble.ctor; rw [if_neg (by rw [not_or, not_le]; exact ⟨by omega, hsc.lt⟩)], rfl, rfl, rfl, rfl, by simp, ?_, rfl, rfl⟩
  intro i hi
  simp [List.getElem?_replicate, hi]

theorem Inv.run {a b : ℚ} {n : ℤ} (hsc : Hscale a b n) (e : List ℚ) :
    ∀ (d : List ℚ) (h : H), Inv a b n d h → d.length + e.length < 2 ^ 53 → (∀ x ∈ e, IsDouble x) → ∃ h', HistDouble.run e h = some h' ∧ Inv a b n (d ++ e) h' := by
  induction e with
  | nil => intro d h i _ _; exact ⟨h, rfl, by simpa using i⟩
  | cons x e ih =>
    intro d h i hl hx
    rw [List.length_cons] at hl
    obtain ⟨h1, p1, i1⟩ := i.push hsc (by omega) (hx x (by simp))
    obtain ⟨h2, p2, i2⟩ := ih (d ++ [x]) h1 i1 (by rw [List.length_append, List.length_singleton]; omega) fun y hy => hx y (by simp [hy])
    refine ⟨h2, ?_, by simpa using i2⟩
    unfold HistDouble.run
    rw [p1]
    exact p2

theorem sum_counts (d : List ℚ) (f : ℚ → Option ℤ) (p : ℚ → Bool) (n : ℕ) (hf : ∀ x ∈ d, p x = true → ∃ i : ℕ, i < n ∧ f x = some (i : ℤ)) :
    ((List.range n).map fun i => ((d.countP fun x => decide (p x = true ∧ f x = some ((i : ℕ) : ℤ)) : ℕ) : ℚ)).sum = ((d.countP p : ℕ) : ℚ) := by
  induction d with
  | nil => simp
  | cons x d ih =>
    have ih := ih fun y hy => hf y (by simp [hy])
    have hsplit : ∀ i : ℕ, ((List.countP (fun x => decide (p x = true ∧ f x = some ((i : ℕ) : ℤ))) (x :: d) : ℕ) : ℚ) =
        ((d.countP fun x => decide (p x = true ∧ f x = some ((i : ℕ) : ℤ)) : ℕ) : ℚ) + if p x = true ∧ f x = some (i : ℤ) then 1 else 0 := by
      intro i
      rw [List.countP_cons]
      by_cases g : p x = true ∧ f x = some (i : ℤ) <;> simp [g]
    simp only [hsplit]
    rw [List.sum_map_add, ih, List.countP_cons]
    push_cast
    congr 1
    by_cases g : p x = true
    · obtain ⟨k, hk, hk'⟩ := hf x (by simp) g
      have : ∀ i : ℕ, (if p x = true ∧ f x = some (i : ℤ) then (1 : ℚ) else 0) = if i = k then 1 else 0 := by
        intro i
        refine if_congr ?_ rfl rfl
        rw [hk']
        simp only [g, true_and, Option.some.injEq, Nat.cast_inj]
        exact eq_comm
      simp only [this]
      rw [if_pos g]
      have hsum : ∀ m : ℕ, ((List.range m).map fun i => if i = k then (1 : ℚ) else 0).sum = if k < m then 1 else 0 := by
        intro m
        induction m with
        | zero => simp
        | succ m ihm =>
          rw [List.range_succ, List.map_append, List.sum_append, ihm]
          simp only [List.map_cons, List.map_nil, List.sum_cons, List.sum_nil, add_zero]
          by_cases h1 : k < m
          · rw [if_pos h1, if_neg (by omega), if_pos (by omega)]; norm_num
          · by_cases h2 : m = k
            · rw [if_neg h1, if_pos h2, if_pos (by omega)]; norm_num
            · rw [if_neg h1, if_neg h2, if_neg (by omega)]; norm_num
      rw [hsum, if_pos hk]
    · simp [g]

/-- **C177, counting**: fewer than `2^53` samples are counted without any loss: each bin holds the number of its samples, the counters the numbers of samples inside and outside
of the interval, and the bins add up. -/
theorem C177_histogram (a b : ℚ) (n : ℤ) (hsc : Hscale a b n) (d : List ℚ) (hd : ∀ x ∈ d, IsDouble x) (hl : d.length < 2 ^ 53) :
    ∃ h0 h, ctor a b n = some h0 ∧ run d h0 = some h ∧ h.data.length = n.toNat ∧
      (∀ i : ℕ, i < n.toNat → h.data[i]? = some ((d.countP fun x => decide (a ≤ x ∧ x ≤ b ∧ bin h0 x = some (i : ℤ)) : ℕ) : ℚ)) ∧
      h.nData = (d.countP fun x => decide (a ≤ x ∧ x ≤ b)) ∧ h.nData + h.nLost = d.length ∧ h.data.sum = h.nData := by
  obtain ⟨h0, e0, i0⟩ := Inv.ctor hsc
  obtain ⟨h, e, i⟩ := i0.run hsc d [] h0 (by simpa using hl) hd
  rw [List.nil_append] at i
  have hbc : ∀ x, bin h x = bin h0 x := fun x => bin_congr (i.ea.trans i0.ea.symm) (i.es.trans i0.es.symm) x
  have hcnt := i.cnt
  simp only [hbc] at hcnt
  refine ⟨h0, h, e0, e, i.len, hcnt, i.dat, ?_, ?_⟩
  · rw [i.dat, i.lost]
    rw [List.length_eq_countP_add_countP (fun x => decide (a ≤ x ∧ x ≤ b)) (l := d)]
    congr 1
    refine List.countP_congr fun x _ => ?_
    simp only [decide_eq_true_eq]
  · have hdata : h.data = (List.range n.toNat).map fun i => ((d.countP fun x => decide (a ≤ x ∧ x ≤ b ∧ bin h0 x = some ((i : ℕ) : ℤ)) : ℕ) : ℚ) := by
      refine List.ext_getElem? fun j => ?_
      by_cases hj : j < n.toNat
      · rw [hcnt j hj, List.getElem?_map, List.getElem?_range hj]
        rfl
      · rw [List.getElem?_eq_none (by rw [i.len]; omega), List.getElem?_eq_none (by simp; omega)]
    rw [hdata, i.dat]
    have := sum_counts d (bin h0) (fun x => decide (a ≤ x ∧ x ≤ b)) n.toNat (fun x hx hp => by
      rw [decide_eq_true_eq] at hp
      obtain ⟨k, hk, hk0, hkn, _⟩ := (C177_bin a b n hsc h0 i0.ea i0.es).1 x (hd x hx) hp.1 hp.2
      obtain ⟨m, rfl⟩ := Int.eq_ofNat_of_zero_le hk0
      exact ⟨m, by omega, hk⟩)
    rw [← this]
    simp only [decide_eq_true_eq, and_assoc]

/-- integers up to `2^31` -/
theorem hscaleInt {a b : ℤ} (ha : |a| ≤ 2 ^ 31) (hb : |b| ≤ 2 ^ 31) (hab : a < b) (hl : b - a + 1 < 2 ^ 31) : Hscale a b (b - a + 1) := by
  have key : ∀ {z : ℤ}, |z| ≤ 2 ^ 31 → |(z : ℚ)| ≤ 2 ^ (31 : ℤ) := fun {z} hz => by
    have : ((|z| : ℤ) : ℚ) ≤ ((2 ^ 31 : ℤ) : ℚ) := by exact_mod_cast hz
    rw [Int.cast_abs] at this
    exact this.trans (by norm_num)
  have dbl : ∀ {z : ℤ}, |z| ≤ 2 ^ 31 → IsDouble (z : ℚ) := fun {z} hz => ⟨rep_int (by omega), lt_of_le_of_lt (key hz) (big_lt (by norm_num))⟩
  refine ⟨dbl ha, dbl hb, ?_, (key ha).trans (two_zpow_le (by norm_num)), (key hb).trans (two_zpow_le (by norm_num)), by omega, by omega⟩
  have h1 : (1 : ℚ) ≤ b - a := by
    have : ((1 : ℤ) : ℚ) ≤ ((b - a : ℤ) : ℚ) := by exact_mod_cast (by omega : 1 ≤ b - a)
    push_cast at this
    exact this
  calc (2 : ℚ) ^ (-900 : ℤ) ≤ 2 ^ (0 : ℤ) := two_zpow_le (by norm_num)
    _ = 1 := by norm_num
    _ ≤ _ := h1

/-- **C177, integer histograms** count integers exactly: the bins are the integers of the interval, and `mesh_point` gives them exactly. -/
theorem C177_integers (a b : ℤ) (ha : |a| ≤ 2 ^ 31) (hb : |b| ≤ 2 ^ 31) (hab : a < b) (hl : b - a + 1 < 2 ^ 31) (d : List ℤ) (hd : ∀ z ∈ d, |z| ≤ 2 ^ 53) (hlen : d.length < 2 ^ 53) :
    ∃ h0 h, ctorInt a b = some h0 ∧ run (d.map fun z : ℤ => (z : ℚ)) h0 = some h ∧
      (∀ i : ℕ, (i : ℤ) ≤ b - a → h.data[i]? = some ((d.count (a + i) : ℕ) : ℚ) ∧ meshPoint h i = some ((a + i : ℤ) : ℚ)) ∧ h.nLost = d.countP fun z => decide (z < a ∨ b < z) := by
  have hsc := hscaleInt ha hb hab hl
  have dbl : ∀ {z : ℤ}, |z| ≤ 2 ^ 53 → IsDouble (z : ℚ) := fun {z} hz => by
    refine ⟨rep_int hz, ?_⟩
    have : ((|z| : ℤ) : ℚ) ≤ ((2 ^ 53 : ℤ) : ℚ) := by exact_mod_cast hz
    rw [Int.cast_abs] at this
    have h53 : ((2 ^ 53 : ℤ) : ℚ) ≤ 2 ^ (53 : ℤ) := by norm_num
    exact lt_of_le_of_lt (this.trans h53) (big_lt (by norm_num))
  have hra : rnd (a : ℚ) = a := rnd_rep hsc.da.1
  have hrb : rnd (b : ℚ) = b := rnd_rep hsc.db.1
  have hba1 : (1 : ℚ) ≤ (b : ℚ) - a := by
    have : ((1 : ℤ) : ℚ) ≤ ((b - a : ℤ) : ℚ) := by exact_mod_cast (by omega : 1 ≤ b - a)
    push_cast at this
    exact this
  have finInt : ∀ {z : ℤ}, |z| ≤ 2 ^ 53 → fin (z : ℚ) = some (z : ℚ) := fun {z} hz => by
    have := dbl hz
    rw [fin_eq (by rw [rnd_rep this.1]; exact this), rnd_rep this.1]
  have hstep : stepOf a b (b - a + 1) = some 1 := by
    unfold stepOf
    have e1 : fin ((b : ℚ) - a) = some ((b : ℚ) - a) := by
      have := finInt (z := b - a) (by rw [abs_of_nonneg (by omega)]; omega)
      push_cast at this
      exact this
    rw [e1]
    simp only
    have e2 : (((b - a + 1 - 1 : ℤ)) : ℚ) = (b : ℚ) - a := by push_cast; ring
    have e3 : rnd ((b : ℚ) - a) = (b : ℚ) - a := (fin_some e1).1.symm
    rw [e2, e3, div_self (by linarith)]
    exact_mod_cast finInt (z := 1) (by norm_num)
  obtain ⟨h0, e0, i0⟩ := Inv.ctor hsc
  obtain ⟨h, e, i⟩ := i0.run hsc (d.map fun z : ℤ => (z : ℚ)) [] h0 (by simpa using hlen) (by
    intro x hx
    rw [List.mem_map] at hx
    obtain ⟨z, hz, rfl⟩ := hx
    exact dbl (hd z hz))
  rw [List.nil_append] at i
  -- the bin of an integer
  have hbin : ∀ z : ℤ, a ≤ z → z ≤ b → bin h (z : ℚ) = some (z - a) := by
    intro z h1 h2
    unfold bin
    have e1 : fin ((z : ℚ) - a) = some (((z - a : ℤ)) : ℚ) := by
      have := finInt (z := z - a) (by rw [abs_of_nonneg (by omega)]; omega)
      push_cast at this ⊢
      exact this
    have e2 := finInt (z := z - a) (by rw [abs_of_nonneg (by omega)]; omega)
    have e3 : fin (((z - a : ℤ) : ℚ) + 1 / 2) = some (((z - a : ℤ) : ℚ) + 1 / 2) := by
      have hrep : Rep (((z - a : ℤ) : ℚ) + 1 / 2) := ⟨2 * (z - a) + 1, -1, by norm_num, by rw [abs_of_nonneg (by omega)]; omega, by push_cast; norm_num; ring⟩
      have hz0 : (0 : ℚ) ≤ ((z - a : ℤ) : ℚ) := by exact_mod_cast (by omega : 0 ≤ z - a)
      have hz1 : ((z - a : ℤ) : ℚ) ≤ 2147483648 := by exact_mod_cast (by omega : z - a ≤ 2147483648)
      have := fin_of_le (x := ((z - a : ℤ) : ℚ) + 1 / 2) (e := 32) (by
        rw [abs_of_nonneg (by linarith)]
        have : (2 : ℚ) ^ (32 : ℤ) = 4294967296 := by norm_num
        rw [this]
        linarith) (by norm_num) (by norm_num)
      rw [this, rnd_rep hrep]
    rw [i.ea, i.es, hstep, e1]
    simp only
    rw [mul_one, e2]
    simp only
    rw [e3]
    simp only
    have hfl : ⌊((z - a : ℤ) : ℚ) + 1 / 2⌋ = z - a := by
      rw [Int.floor_eq_iff]
      constructor <;> linarith
    rw [hfl, if_pos ⟨by omega, by omega⟩]
  refine ⟨h0, h, ?_, e, ?_, ?_⟩
  · unfold ctorInt
    rw [if_pos ⟨by omega, hl⟩, hra, hrb, e0]
  · intro k hk
    refine ⟨?_, ?_⟩
    · rw [i.cnt k (by omega), List.countP_map]
      congr 2
      rw [List.count]
      refine List.countP_congr fun z _ => ?_
      simp only [Function.comp_apply, decide_eq_true_eq, beq_iff_eq, Int.cast_le]
      constructor
      · rintro ⟨g1, g2, g3⟩
        rw [hbin z g1 g2] at g3
        have := Option.some.inj g3
        omega
      · intro g
        refine ⟨by omega, by omega, ?_⟩
        rw [hbin z (by omega) (by omega)]
        congr 1
        omega
    · unfold meshPoint
      rw [i.es, hstep]
      simp only
      rw [if_neg (by norm_num), div_one]
      have e1 := finInt (z := (k : ℤ)) (by rw [abs_of_nonneg (by omega)]; omega)
      rw [(fin_some e1).1.symm, e1]
      simp only
      rw [i.ea]
      have := finInt (z := a + k) (by rw [abs_le] at ha ⊢; omega)
      push_cast at this ⊢
      exact this
  · rw [i.lost, List.countP_map]
    refine List.countP_congr fun z _ => ?_
    simp only [Function.comp_apply, decide_eq_true_eq, Int.cast_le]
    omega

/-- **C177, the last center** can lie outside of the interval, so that a sample at the center of the last bin is lost: two bins from zero to `1.9`. -/
theorem C177_center_lost :
    ((ctor 0 (rnd (19 / 10)) 2).bind fun h => (meshPoint h 1).bind fun x => (push x h).map fun h' => (decide (rnd (19 / 10) < x), h'.nLost, h'.data)) = some (true, 1, [0, 0]) := by
  decide +kernel

/-- **C177, half of a bin**: the largest double below one half is nearer to zero than to one, but it is counted at one. -/
theorem C177_half : ((ctorInt 0 2).bind (push (1 / 2 - 2 ^ (-54 : ℤ)))).map H.data = some [0, 1, 0] ∧ IsDouble (1 / 2 - 2 ^ (-54 : ℤ)) := by
  refine ⟨by decide +kernel, isDouble_small ⟨9007199254740991, -54, by norm_num, by norm_num, by norm_num⟩ ?_⟩
  rw [abs_of_pos (by norm_num)]
  norm_num

/-- **C177, a very short interval**: three bins from zero to the smallest double; the sample zero is converted from "not a number" to an integer. -/
theorem C177_short : ((ctor 0 (2 ^ (-1074 : ℤ)) 3).map fun h => bin h 0) = some none ∧ IsDouble (2 ^ (-1074 : ℤ)) := by
  refine ⟨by decide +kernel, isDouble_small (rep_zpow (by norm_num)) ?_⟩
  rw [abs_of_pos (two_zpow_pos _)]
  calc (2 : ℚ) ^ (-1074 : ℤ) ≤ 2 ^ (0 : ℤ) := two_zpow_le (by norm_num)
    _ = 1 := by norm_num

/-- **C177, the limit of counting**: a bin with `2^53` samples does not count any more. -/
theorem C177_limit (h : H) (x : ℚ) (i : ℕ) (hin : ¬(x < h.a ∨ h.b < x)) (hb : bin h x = some (i : ℤ)) (hc : h.data[i]? = some (2 ^ 53)) :
    (push x h).map H.data = some h.data := by
  unfold push
  rw [if_neg hin, hb]
  simp only
  unfold incr
  rw [if_neg (by omega)]
  simp only [Int.toNat_natCast]
  rw [hc]
  have : rnd ((2 : ℚ) ^ 53 + 1) = 2 ^ 53 := by decide +kernel
  simp only [Option.map_some, this, Option.some.injEq]
  refine List.ext_getElem? fun j => ?_
  by_cases hj : j = i
  · subst hj
    rw [hc, List.getElem?_set_self (by rw [List.getElem?_eq_some_iff] at hc; exact hc.1)]
  · rw [List.getElem?_set_ne (by omega)]

/-! ### Examples -/

/-- three samples on a grid of steps of one tenth, with a number outside -/
example : ((ctor 0 1 11).bind (run [rnd (1 / 10), rnd (3 / 10), rnd (26 / 100), 2])).map (fun h => (h.data, h.nData, h.nLost)) = some ([0, 1, 0, 2, 0, 0, 0, 0, 0, 0, 0], 3, 1) := by
  decide +kernel

example : ((ctorInt (-2) 2).bind (run [-2, 1, 1, 5])).map (fun h => (h.data, h.nData, h.nLost)) = some ([1, 0, 0, 2, 0], 3, 1) := by decide +kernel

theorem exHscale : Hscale 0 1 11 where
  da := ⟨rep_zero, by rw [abs_zero]; positivity⟩
  db := ⟨rep_one, by rw [abs_one]; exact one_lt_top⟩
  len := by
    calc (2 : ℚ) ^ (-900 : ℤ) ≤ 2 ^ (0 : ℤ) := two_zpow_le (by norm_num)
      _ ≤ 1 - 0 := by norm_num
  la := by rw [abs_zero]; exact (two_zpow_pos _).le
  lb := by
    rw [abs_one]
    calc (1 : ℚ) ≤ 2 ^ (0 : ℤ) := by norm_num
      _ ≤ 2 ^ (1000 : ℤ) := two_zpow_le (by norm_num)
  one := by norm_num
  many := by norm_num

end Verif.HistDouble
