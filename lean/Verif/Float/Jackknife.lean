import Verif.Float.Mean
import Verif.Float.Relative
import Mathlib.Tactic.Linarith
import Mathlib.Tactic.GCongr

/-!
# Jackknife in double precision

C39 is about exact arithmetic. Here `jackknife` of series of real numbers on one node is modelled with the rounding of the machine.

Source: `/repo/c++/triqs/stat/jackknife.hpp` (35-62, 68-114, 141-145). The function of the user is an arbitrary function of doubles which may fail (`none`: not finite), and returns the same value
when it is called again with the same arguments. The square root is an arbitrary function of doubles that is zero at zero and not negative. `none` means that a number is not finite, or an exception.
-/

namespace Verif.JackknifeDouble

open Binary64 LinearDouble MeanDouble

/-! ## Model -/

/-- the loop of the constructor, jackknife.hpp:47 -/
def sumLoop : ℚ → List ℚ → Option ℚ
  | s, [] => some s
  | s, x :: l => match fin (s + x) with
    | none => none
    | some s' => sumLoop s' l

/-- the constructor, jackknife.hpp:42-48; of an empty series the first element is read -/
def total : List ℚ → Option ℚ
  | [] => none
  | x :: l => sumLoop x l

/-- `average`, jackknife.hpp:58 -/
def average (s : ℚ) (n : ℕ) : Option ℚ := fin (s / rnd n)

/-- `operator[]`, jackknife.hpp:61; for one datum it is a division by zero -/
def leave (s x : ℚ) (n : ℕ) : Option ℚ := match fin (s - x) with
  | none => none
  | some d => if n = 1 then none else fin (d / rnd (n - 1 : ℕ))

/-- all values, or none -/
def all : List (Option ℚ) → Option (List ℚ)
  | [] => some []
  | none :: _ => none
  | some x :: l => (all l).map fun r => x :: r

/-- `ja[i]...`, the arguments of the user's function -/
def row (ss : List (ℚ × List ℚ)) (n i : ℕ) : Option (List ℚ) :=
  all (ss.map fun p => match p.2[i]? with
    | none => none
    | some x => leave p.1 x n)

/-- the sum of squares, jackknife.hpp:101-105 -/
def squares (M : ℚ) : ℚ → List ℚ → Option ℚ
  | q, [] => some q
  | q, x :: l => match fin (x - M) with
    | none => none
    | some d => match fin (d * d) with
      | none => none
      | some s => match fin (q + s) with
        | none => none
        | some q' => squares M q' l

/-- what is returned, jackknife.hpp:113 -/
structure Result where
  corrected : ℚ
  error : ℚ
  M : ℚ
  direct : ℚ
deriving DecidableEq

/-- the values of the user's function on the series, with the values on the averages, jackknife.hpp:85-113 -/
def finish (sq : ℚ → ℚ) (n : ℕ) (fs : List ℚ) (direct : ℚ) : Option Result := match fs with
  | [] => none
  | v :: l => match meanLoop 1 v l with
    | none => none
    | some M => match squares M 0 (v :: l) with
      | none => none
      | some Q => match fin (sq (rnd (rnd (n - 1 : ℕ) / rnd n)) * sq Q) with
        | none => none
        | some err => match fin (direct - M) with
          | none => none
          | some d => match fin (rnd n * d) with
            | none => none
            | some p => (fin (p + M)).map fun c => ⟨c, err, M, direct⟩

/-- `jackknife(f, a...)`, jackknife.hpp:68-114 and 141-145; series of different lengths are an exception -/
def jackknife (sq : ℚ → ℚ) (f : List ℚ → Option ℚ) (series : List (List ℚ)) : Option Result :=
  match series with
  | [] => none
  | a :: _ =>
    let n := a.length
    if series.any (fun b => b.length ≠ n) then none
    else match all (series.map total) with
      | none => none
      | some sums => match all ((List.range n).map fun i => (row (sums.zip series) n i).bind f) with
        | none => none
        | some fs => match (all (sums.map fun s => average s n)).bind f with
          | none => none
          | some direct => finish sq n fs direct

/-! ## Specification -/

/-- what is used of the square root -/
structure Root (sq : ℚ → ℚ) : Prop where
  zero : sq 0 = 0
  nonneg : ∀ x, 0 ≤ sq x

/-- the function of one series that returns its argument -/
def ident : List ℚ → Option ℚ := fun a => a.head?

/-! ## Proofs -/

theorem all_some {l : List (Option ℚ)} {r : List ℚ} (h : all l = some r) : l = r.map some := by
  induction l generalizing r with
  | nil => cases h; rfl
  | cons o l ih =>
    cases o with
    | none => cases h
    | some x =>
      simp only [all] at h
      cases e : all l with
      | none => rw [e] at h; cases h
      | some r' =>
        rw [e] at h
        cases h
        rw [ih e]
        rfl

theorem all_map (r : List ℚ) : all (r.map some) = some r := by
  induction r with
  | nil => rfl
  | cons x l ih => simp only [List.map_cons, all, ih, Option.map_some]

theorem all_map' {α : Type} (l : List α) (g : α → Option ℚ) (h : α → ℚ) (hg : ∀ a ∈ l, g a = some (h a)) : all (l.map g) = some (l.map h) := by
  rw [← all_map, List.map_map]
  congr 1
  exact List.map_congr_left hg

theorem squares_nonneg {M : ℚ} : ∀ {l : List ℚ} {q r : ℚ}, 0 ≤ q → squares M q l = some r → 0 ≤ r := by
  intro l
  induction l with
  | nil => intro q r hq h; cases h; exact hq
  | cons x l ih =>
    intro q r hq h
    unfold squares at h
    cases e1 : fin (x - M) with
    | none => rw [e1] at h; cases h
    | some d =>
      rw [e1] at h
      simp only at h
      cases e2 : fin (d * d) with
      | none => rw [e2] at h; cases h
      | some s =>
        rw [e2] at h
        simp only at h
        cases e3 : fin (q + s) with
        | none => rw [e3] at h; cases h
        | some q' =>
          rw [e3] at h
          refine ih ?_ h
          rw [(fin_some e3).1]
          refine rnd_nonneg (add_nonneg hq ?_)
          rw [(fin_some e2).1]
          exact rnd_nonneg (mul_self_nonneg d)

theorem squares_const (M : ℚ) (n : ℕ) : squares M 0 (List.replicate n M) = some 0 := by
  have h0 : fin 0 = some 0 := by decide +kernel
  induction n with
  | zero => rfl
  | succ n ih =>
    rw [List.replicate_succ]
    unfold squares
    rw [sub_self, h0]
    simp only
    rw [mul_zero, h0]
    simp only
    rw [add_zero, h0]
    exact ih

/-- the parts of a result -/
theorem finish_some {sq : ℚ → ℚ} {n : ℕ} {fs : List ℚ} {direct : ℚ} {r : Result} (h : finish sq n fs direct = some r) :
    ∃ v l Q, fs = v :: l ∧ meanLoop 1 v l = some r.M ∧ squares r.M 0 fs = some Q ∧ r.error = rnd (sq (rnd (rnd (n - 1 : ℕ) / rnd n)) * sq Q) ∧ r.direct = direct ∧
      r.corrected = rnd (rnd (rnd n * rnd (direct - r.M)) + r.M) := by
  unfold finish at h
  cases fs with
  | nil => cases h
  | cons v l =>
    simp only at h
    cases e1 : meanLoop 1 v l with
    | none => rw [e1] at h; cases h
    | some M =>
      rw [e1] at h
      simp only at h
      cases e2 : squares M 0 (v :: l) with
      | none => rw [e2] at h; cases h
      | some Q =>
        rw [e2] at h
        simp only at h
        cases e3 : fin (sq (rnd (rnd (n - 1 : ℕ) / rnd n)) * sq Q) with
        | none => rw [e3] at h; cases h
        | some err =>
          rw [e3] at h
          simp only at h
          cases e4 : fin (direct - M) with
          | none => rw [e4] at h; cases h
          | some d =>
            rw [e4] at h
            simp only at h
            cases e5 : fin (rnd n * d) with
            | none => rw [e5] at h; cases h
            | some p =>
              rw [e5] at h
              simp only at h
              cases e6 : fin (p + M) with
              | none => rw [e6] at h; cases h
              | some c =>
                rw [e6] at h
                cases h
                refine ⟨v, l, Q, rfl, e1, e2, (fin_some e3).1, rfl, ?_⟩
                show c = _
                rw [(fin_some e6).1, (fin_some e5).1, (fin_some e4).1]

/-- the parts of a call -/
theorem jackknife_some {sq : ℚ → ℚ} {f : List ℚ → Option ℚ} {series : List (List ℚ)} {r : Result} (h : jackknife sq f series = some r) :
    ∃ (a : List ℚ) (sums fs : List ℚ) (direct : ℚ), series.head? = some a ∧ (∀ b ∈ series, b.length = a.length) ∧ series.map total = sums.map some ∧
      (List.range a.length).map (fun i => (row (sums.zip series) a.length i).bind f) = fs.map some ∧ (all (sums.map fun s => average s a.length)).bind f = some direct ∧
      finish sq a.length fs direct = some r := by
  unfold jackknife at h
  cases series with
  | nil => cases h
  | cons a as =>
    simp only at h
    split at h
    · cases h
    · rename_i hl
      cases e1 : all ((a :: as).map total) with
      | none => rw [e1] at h; cases h
      | some sums =>
        rw [e1] at h
        simp only at h
        cases e2 : all ((List.range a.length).map fun i => (row (sums.zip (a :: as)) a.length i).bind f) with
        | none => rw [e2] at h; cases h
        | some fs =>
          rw [e2] at h
          simp only at h
          cases e3 : (all (sums.map fun s => average s a.length)).bind f with
          | none => rw [e3] at h; cases h
          | some direct =>
            rw [e3] at h
            refine ⟨a, sums, fs, direct, rfl, ?_, all_some e1, all_some e2, e3, h⟩
            intro b hb
            by_contra hne
            exact hl (List.any_eq_true.2 ⟨b, hb, by simpa using hne⟩)

/-- **C200, between**: the jackknife estimate lies between any two doubles that enclose the values of the function on the resampled data, and the error is not negative -/
theorem C200_between (sq : ℚ → ℚ) (hs : Root sq) (f : List ℚ → Option ℚ) (series : List (List ℚ)) (r : Result) (h : jackknife sq f series = some r) (a b : ℚ) (ha : Rep a) (hb : Rep b)
    (ha1 : -2 ^ (1000 : ℤ) ≤ a) (hb1 : b ≤ 2 ^ (1000 : ℤ)) (hf : ∀ args v, f args = some v → Rep v ∧ a ≤ v ∧ v ≤ b) : a ≤ r.M ∧ r.M ≤ b ∧ 0 ≤ r.error := by
  obtain ⟨s, sums, fs, direct, _, _, _, h2, _, h4⟩ := jackknife_some h
  obtain ⟨v, l, Q, rfl, h5, h6, h7, _⟩ := finish_some h4
  have hmem : ∀ x ∈ v :: l, Rep x ∧ a ≤ x ∧ x ≤ b := by
    intro x hx
    have hx2 : some x ∈ (v :: l).map some := List.mem_map_of_mem hx
    rw [← h2] at hx2
    obtain ⟨i, _, hi⟩ := List.mem_map.1 hx2
    cases e : row (sums.zip series) s.length i with
    | none => rw [e] at hi; cases hi
    | some args => rw [e] at hi; exact hf args x hi
  obtain ⟨hv, v1, v2⟩ := hmem v (by simp)
  obtain ⟨m, hm, _, m1, m2⟩ := meanLoop_between (l := l) ⟨ha, hb, ha1, hb1, fun x hx => hmem x (by simp [hx])⟩ 1 v le_rfl hv v1 v2
  rw [h5] at hm
  cases hm
  refine ⟨m1, m2, ?_⟩
  rw [h7]
  exact rnd_nonneg (mul_nonneg (hs.nonneg _) (hs.nonneg _))

/-- the resampled data of equal data are equal -/
theorem row_const {ss : List (ℚ × List ℚ)} {n : ℕ} (h : ∀ p ∈ ss, ∃ c, p.2 = List.replicate n c) {i j : ℕ} (hi : i < n) (hj : j < n) : row ss n i = row ss n j := by
  unfold row
  congr 1
  refine List.map_congr_left fun p hp => ?_
  obtain ⟨c, hc⟩ := h p hp
  rw [hc, List.getElem?_replicate, List.getElem?_replicate, if_pos hi, if_pos hj]

/-- **C200, equal data**: if all data of every series are equal the error is exactly zero and the jackknife estimate is the value of the function on the resampled data, for every function -/
theorem C200_constant (sq : ℚ → ℚ) (hs : Root sq) (f : List ℚ → Option ℚ) (series : List (List ℚ)) (n : ℕ) (hc : ∀ l ∈ series, ∃ c, l = List.replicate n c) (r : Result)
    (h : jackknife sq f series = some r) (hf : ∀ args v, f args = some v → Rep v ∧ |v| ≤ 2 ^ (1000 : ℤ)) :
    r.error = 0 ∧ ∃ args, f args = some r.M := by
  obtain ⟨s, sums, fs, direct, h0, h1, _, h2, _, h4⟩ := jackknife_some h
  obtain ⟨v, l, Q, rfl, h5, h6, h7, _⟩ := finish_some h4
  have hsn : s.length = n := by
    obtain ⟨c, hc⟩ := hc s (List.mem_of_mem_head? h0)
    rw [hc, List.length_replicate]
  rw [hsn] at h2
  have hall : ∀ i, i < n → (row (sums.zip series) n i).bind f = some v := by
    intro i hi
    have hn : 0 < n := by omega
    have e0 : ((List.range n).map fun i => (row (sums.zip series) n i).bind f)[0]? = some (some v) := by
      rw [h2]
      rfl
    rw [List.getElem?_map, List.getElem?_range hn] at e0
    have e1 : (row (sums.zip series) n 0).bind f = some v := by simpa using e0
    rw [row_const (j := 0) ?_ hi hn]
    · exact e1
    · intro p hp
      obtain ⟨c, hc⟩ := hc p.2 (List.of_mem_zip hp).2
      exact ⟨c, hc⟩
  have hrep : (v :: l) = List.replicate (v :: l).length v := by
    refine List.eq_replicate_of_mem fun x hx => ?_
    have hx2 : some x ∈ (v :: l).map some := List.mem_map_of_mem hx
    rw [← h2] at hx2
    obtain ⟨i, hi, hi2⟩ := List.mem_map.1 hx2
    rw [hall i (List.mem_range.1 hi)] at hi2
    exact (Option.some.inj hi2).symm
  have hvf : ∃ args, f args = some v := by
    have hx2 : some v ∈ (v :: l).map some := by simp
    rw [← h2] at hx2
    obtain ⟨i, hi, hi2⟩ := List.mem_map.1 hx2
    cases e : row (sums.zip series) n i with
    | none => rw [e] at hi2; cases hi2
    | some args => rw [e] at hi2; exact ⟨args, hi2⟩
  obtain ⟨args, hargs⟩ := hvf
  obtain ⟨hv, hvb⟩ := hf args v hargs
  have hM : r.M = v := by
    obtain ⟨m, hm, _, m1, m2⟩ := meanLoop_between (l := l) (a := v) (b := v) ⟨hv, hv, (abs_le.1 hvb).1, (abs_le.1 hvb).2, fun x hx => by
      have : x ∈ List.replicate (v :: l).length v := by rw [← hrep]; simp [hx]
      rw [List.eq_of_mem_replicate this]
      exact ⟨hv, le_rfl, le_rfl⟩⟩ 1 v le_rfl hv le_rfl le_rfl
    rw [h5] at hm
    cases hm
    exact le_antisymm m2 m1
  refine ⟨?_, args, by rw [hM]; exact hargs⟩
  rw [hM, hrep, squares_const] at h6
  cases h6
  rw [h7, hs.zero, mul_zero, rnd_zero]

/-! ### The function that returns its argument -/

/-- an operation whose exact result is not larger than `C` times the size of the data -/
theorem op {B C x : ℚ} (h0 : (2 : ℚ) ^ (-900 : ℤ) ≤ B) (h1 : B ≤ 2 ^ (900 : ℤ)) (hx : |x| ≤ C * B) (hC : C ≤ 2 ^ (60 : ℤ)) :
    fin x = some (rnd x) ∧ |rnd x - x| ≤ (C + 1 / 1024) * (B / 9007199254740992) := by
  have hB : 0 < B := (two_zpow_pos _).trans_le h0
  constructor
  · refine fin_of_le (e := 960) ?_ (by norm_num) (by norm_num)
    calc |x| ≤ C * B := hx
      _ ≤ 2 ^ (60 : ℤ) * 2 ^ (900 : ℤ) := mul_le_mul hC h1 hB.le (two_zpow_pos _).le
      _ = 2 ^ (960 : ℤ) := by rw [← two_zpow_add]; norm_num
  · have h := rnd_err_abs x
    have hη : (2 : ℚ) ^ (-1074 : ℤ) ≤ B * (1 / 9223372036854775808) := by
      calc (2 : ℚ) ^ (-1074 : ℤ) ≤ 2 ^ (-963 : ℤ) := two_zpow_le (by norm_num)
        _ = 2 ^ (-900 : ℤ) * 2 ^ (-63 : ℤ) := by rw [← two_zpow_add]; norm_num
        _ = 2 ^ (-900 : ℤ) * (1 / 9223372036854775808) := by norm_num
        _ ≤ B * (1 / 9223372036854775808) := mul_le_mul_of_nonneg_right h0 (by norm_num)
    generalize (2 : ℚ) ^ (-1074 : ℤ) = e at *
    linarith

theorem sumLoop_err {B : ℚ} (h0 : (2 : ℚ) ^ (-900 : ℤ) ≤ B) (h1 : B ≤ 2 ^ (900 : ℤ)) : ∀ (l : List ℚ) (s S : ℚ) (k : ℕ), 1 ≤ k → k + l.length ≤ 2 ^ 20 → |S| ≤ k * B →
    |s - S| ≤ (k : ℚ) ^ 2 * (B / 9007199254740992) → (∀ x ∈ l, |x| ≤ B) →
    ∃ r, sumLoop s l = some r ∧ |r - (S + l.sum)| ≤ ((k + l.length : ℕ) : ℚ) ^ 2 * (B / 9007199254740992) ∧ |S + l.sum| ≤ ((k + l.length : ℕ) : ℚ) * B := by
  have hB : 0 < B := (two_zpow_pos _).trans_le h0
  intro l
  induction l with
  | nil =>
    intro s S k _ _ hS hs _
    exact ⟨s, rfl, by simpa using hs, by simpa using hS⟩
  | cons x l ih =>
    intro s S k hk hkl hS hs hb
    have hx := hb x (by simp)
    rw [List.length_cons] at hkl
    have hk1 : (1 : ℚ) ≤ k := by exact_mod_cast hk
    have hk2 : (k : ℚ) ≤ 1048576 := by exact_mod_cast (by omega : k ≤ 1048576)
    have hkk : (k : ℚ) ^ 2 ≤ 1048576 * k := by nlinarith
    have hkB : (k : ℚ) ^ 2 * B ≤ 1048576 * k * B := mul_le_mul_of_nonneg_right hkk hB.le
    have hkB2 : B ≤ k * B := le_mul_of_one_le_left hB.le hk1
    have hsx : |s + x| ≤ (k + 1 + k / 1000000) * B := by
      have t1 := abs_add_le (s - S) (S + x)
      have t2 := abs_add_le S x
      rw [show s - S + (S + x) = s + x by ring] at t1
      linarith
    obtain ⟨hf, he⟩ := op h0 h1 hsx (by norm_num; linarith)
    obtain ⟨r, hr, hre, hrb⟩ := ih (rnd (s + x)) (S + x) (k + 1) (by omega) (by omega) (by
      have t2 := abs_add_le S x
      push_cast
      linarith) (by
      have t1 := abs_add_le (rnd (s + x) - (s + x)) (s - S)
      rw [show rnd (s + x) - (s + x) + (s - S) = rnd (s + x) - (S + x) by ring] at t1
      push_cast
      have e1 : ((k : ℚ) + 1) ^ 2 = k ^ 2 + 2 * k + 1 := by ring
      rw [e1]
      linarith) (fun y hy => hb y (by simp [hy]))
    refine ⟨r, ?_, ?_, ?_⟩
    · unfold sumLoop
      rw [hf]
      exact hr
    · rw [List.length_cons, List.sum_cons, ← add_assoc, show k + (l.length + 1) = k + 1 + l.length by omega]
      exact hre
    · rw [List.length_cons, List.sum_cons, ← add_assoc, show k + (l.length + 1) = k + 1 + l.length by omega]
      exact hrb

theorem total_err {B : ℚ} (h0 : (2 : ℚ) ^ (-900 : ℤ) ≤ B) (h1 : B ≤ 2 ^ (900 : ℤ)) {l : List ℚ} (hl : 1 ≤ l.length) (hn : l.length ≤ 2 ^ 20) (hb : ∀ x ∈ l, |x| ≤ B) :
    ∃ s, total l = some s ∧ |s - l.sum| ≤ (l.length : ℚ) ^ 2 * (B / 9007199254740992) ∧ |l.sum| ≤ l.length * B := by
  have hB : 0 < B := (two_zpow_pos _).trans_le h0
  cases l with
  | nil => simp at hl
  | cons x l =>
    obtain ⟨r, hr, h2, h3⟩ := sumLoop_err h0 h1 l x x 1 le_rfl (by rw [List.length_cons] at hn; omega) (by simpa using hb x (by simp))
      (by rw [sub_self, abs_zero]; positivity) (fun y hy => hb y (by simp [hy]))
    refine ⟨r, hr, ?_, ?_⟩
    · rw [List.sum_cons, List.length_cons, add_comm l.length 1]
      exact h2
    · rw [List.sum_cons, List.length_cons, add_comm l.length 1]
      exact h3

theorem nat_rnd {n : ℕ} (h : n ≤ 2 ^ 20) : rnd (n : ℚ) = n := by
  have : Rep ((n : ℤ) : ℚ) := rep_int (by rw [abs_of_nonneg (by positivity)]; exact_mod_cast h.trans (by norm_num))
  exact_mod_cast rnd_rep (by exact_mod_cast this : Rep (n : ℚ))

/-- a resampled datum -/
theorem leave_err {B : ℚ} (h0 : (2 : ℚ) ^ (-900 : ℤ) ≤ B) (h1 : B ≤ 2 ^ (900 : ℤ)) {n : ℕ} (hn : 2 ≤ n) (hn1 : n ≤ 2 ^ 20) {s S x : ℚ} (hs : |s - S| ≤ (n : ℚ) ^ 2 * (B / 9007199254740992))
    (hS : |S| ≤ n * B) (hx : |x| ≤ B) : ∃ y, leave s x n = some y ∧ Rep y ∧ |y - (S - x) / (n - 1)| ≤ (4 * n + 5) * (B / 9007199254740992) ∧ |y| ≤ 4 * B := by
  have hB : 0 < B := (two_zpow_pos _).trans_le h0
  obtain ⟨k, rfl⟩ : ∃ k, n = k + 1 := ⟨n - 1, by omega⟩
  have hk1 : (1 : ℚ) ≤ k := by exact_mod_cast (by omega : 1 ≤ k)
  have hk2 : (k : ℚ) ≤ 1048576 := by exact_mod_cast (by omega : k ≤ 1048576)
  have hkk : (k : ℚ) ^ 2 ≤ 1048576 * k := by nlinarith
  have hkB : (k : ℚ) ^ 2 * B ≤ 1048576 * k * B := mul_le_mul_of_nonneg_right hkk hB.le
  have hkB2 : B ≤ k * B := le_mul_of_one_le_left hB.le hk1
  have hkpos : (0 : ℚ) < k := by linarith
  push_cast at hs hS ⊢
  have hsx : |s - x| ≤ (k + 2 + k / 1000000) * B := by
    have t1 := abs_add_le (s - S) (S - x)
    have t2 := abs_sub S x
    rw [show s - S + (S - x) = s - x by ring] at t1
    have e1 : ((k : ℚ) + 1) ^ 2 = k ^ 2 + 2 * k + 1 := by ring
    rw [e1] at hs
    linarith
  obtain ⟨hf, he⟩ := op h0 h1 hsx (by norm_num; linarith)
  have hd : |rnd (s - x) - (S - x)| ≤ (k ^ 2 + 3 * k + 1 + 2 + 1 / 500 + k / 1000000) * (B / 9007199254740992) := by
    have t1 := abs_add_le (rnd (s - x) - (s - x)) (s - S)
    rw [show rnd (s - x) - (s - x) + (s - S) = rnd (s - x) - (S - x) by ring] at t1
    have e1 : ((k : ℚ) + 1) ^ 2 = k ^ 2 + 2 * k + 1 := by ring
    rw [e1] at hs
    linarith
  have hSx : |S - x| ≤ (k + 2) * B := by
    have t2 := abs_sub S x
    linarith
  have hq : |rnd (s - x) / k - (S - x) / k| ≤ (4 * k + 4) * (B / 9007199254740992) := by
    rw [← sub_div, abs_div, abs_of_pos hkpos, div_le_iff₀ hkpos]
    refine hd.trans ?_
    have hkkB : (k : ℚ) * B ≤ k ^ 2 * B := mul_le_mul_of_nonneg_right (by nlinarith) hB.le
    nlinarith
  have hq2 : |(S - x) / k| ≤ 3 * B := by
    rw [abs_div, abs_of_pos hkpos, div_le_iff₀ hkpos]
    linarith
  have hkU : (4 * k + 4) * (B / 9007199254740992) ≤ 1 / 1000 * B := by
    have := mul_le_mul_of_nonneg_right hk2 hB.le
    linarith
  have hq3 : |rnd (s - x) / k| ≤ (3 + 1 / 1000) * B := by
    have t1 := abs_add_le (rnd (s - x) / k - (S - x) / k) ((S - x) / k)
    rw [sub_add_cancel] at t1
    linarith
  obtain ⟨hf2, he2⟩ := op h0 h1 hq3 (by norm_num)
  refine ⟨rnd (rnd (s - x) / k), ?_, rep_rnd _, ?_, ?_⟩
  · unfold leave
    rw [hf]
    simp only
    rw [if_neg (by omega), Nat.add_sub_cancel, nat_rnd (by omega)]
    exact hf2
  · rw [show (k : ℚ) + 1 - 1 = k by ring]
    have t1 := abs_sub_le (rnd (rnd (s - x) / k)) (rnd (s - x) / k) ((S - x) / k)
    linarith
  · have t1 := abs_add_le (rnd (rnd (s - x) / k) - rnd (s - x) / k) (rnd (s - x) / k)
    rw [sub_add_cancel] at t1
    linarith

theorem sum_err {E : ℚ} : ∀ (l : List ℚ) (g h : ℚ → ℚ), (∀ x ∈ l, |g x - h x| ≤ E) → |(l.map g).sum - (l.map h).sum| ≤ l.length * E := by
  intro l g h
  induction l with
  | nil => intro _; simp
  | cons x l ih =>
    intro he
    have h1 := he x (by simp)
    have h2 := ih fun y hy => he y (by simp [hy])
    have t := abs_add_le (g x - h x) ((l.map g).sum - (l.map h).sum)
    rw [List.map_cons, List.map_cons, List.sum_cons, List.sum_cons, List.length_cons]
    push_cast
    rw [show g x + (l.map g).sum - (h x + (l.map h).sum) = g x - h x + ((l.map g).sum - (l.map h).sum) by ring]
    linarith

theorem sum_leave (S d : ℚ) (l : List ℚ) : (l.map fun x => (S - x) / d).sum = (l.length * S - l.sum) / d := by
  induction l with
  | nil => simp
  | cons x l ih =>
    rw [List.map_cons, List.sum_cons, ih, List.length_cons, List.sum_cons]
    push_cast
    ring

/-- the resampled data in the order of the data -/
theorem range_map {α : Type} (l : List ℚ) (g : Option ℚ → α) : (List.range l.length).map (fun i => g l[i]?) = l.map fun x => g (some x) := by
  refine List.ext_getElem? fun i => ?_
  rw [List.getElem?_map, List.getElem?_map]
  by_cases hi : i < l.length
  · rw [List.getElem?_range hi, Option.map_some, List.getElem?_eq_getElem hi, Option.map_some]
  · rw [List.getElem?_eq_none (by simpa using hi), List.getElem?_eq_none (by omega)]
    rfl

/-- **C200, means**: for the function that returns its argument the direct and the jackknife estimate are the mean up to errors proportional to the number of data, and the corrected one up to an error
proportional to the square of their number -/
theorem C200_identity (sq : ℚ → ℚ) (e : ℤ) (he0 : -900 ≤ e) (he1 : e ≤ 898) (l : List ℚ) (hn : 2 ≤ l.length) (hn1 : l.length ≤ 2 ^ 20) (hb : ∀ x ∈ l, |x| ≤ 2 ^ e) (r : Result)
    (h : jackknife sq ident [l] = some r) :
    |r.direct - l.sum / l.length| ≤ (l.length + 2) * (2 ^ e * 2 ^ (-53 : ℤ)) ∧ |r.M - l.sum / l.length| ≤ (8 * l.length + 26) * (2 ^ e * 2 ^ (-53 : ℤ)) ∧
    |r.corrected - l.sum / l.length| ≤ 36 * (l.length : ℚ) ^ 2 * (2 ^ e * 2 ^ (-53 : ℤ)) := by
  have h0 : (2 : ℚ) ^ (-900 : ℤ) ≤ 2 ^ e := two_zpow_le he0
  have h1 : (2 : ℚ) ^ e ≤ 2 ^ (900 : ℤ) := two_zpow_le (by omega)
  have hB4 : (4 : ℚ) * 2 ^ e = 2 ^ (e + 2) := by
    rw [two_zpow_add]
    norm_num
    ring
  have hrep4 : Rep (4 * 2 ^ e) := by rw [hB4]; exact rep_zpow (by omega)
  have hB4b : (4 : ℚ) * 2 ^ e ≤ 2 ^ (1000 : ℤ) := by rw [hB4]; exact two_zpow_le (by omega)
  have hη : (2 : ℚ) ^ (-1074 : ℤ) ≤ 2 ^ e * (1 / 1267650600228229401496703205376) := by
    calc (2 : ℚ) ^ (-1074 : ℤ) ≤ 2 ^ (-1000 : ℤ) := two_zpow_le (by norm_num)
      _ = 2 ^ (-900 : ℤ) * 2 ^ (-100 : ℤ) := by rw [← two_zpow_add]; norm_num
      _ = 2 ^ (-900 : ℤ) * (1 / 1267650600228229401496703205376) := by norm_num
      _ ≤ 2 ^ e * (1 / 1267650600228229401496703205376) := mul_le_mul_of_nonneg_right h0 (by norm_num)
  rw [show (2 : ℚ) ^ (-53 : ℤ) = 1 / 9007199254740992 by norm_num]
  generalize (2 : ℚ) ^ e = B at *
  have hB : 0 < B := (two_zpow_pos _).trans_le h0
  obtain ⟨a, sums, fs, direct, ha, _, hsum, h2, h3, h4⟩ := jackknife_some h
  cases ha
  obtain ⟨s, hs, hse, hS⟩ := total_err h0 h1 (by omega) hn1 hb
  have hsums : sums = [s] := by
    cases sums with
    | nil => cases hsum
    | cons t ts =>
      cases ts with
      | nil =>
        simp only [List.map_cons, List.map_nil, List.cons.injEq, and_true] at hsum
        rw [hs] at hsum
        cases hsum
        rfl
      | cons u us => simp at hsum
  subst hsums
  obtain ⟨v, l', Q, rfl, h5, h6, h7, h8, h9⟩ := finish_some h4
  -- the resampled data
  have hle : ∀ x ∈ l, ∃ y, leave s x l.length = some y ∧ Rep y ∧ |y - (l.sum - x) / (l.length - 1)| ≤ (4 * l.length + 5) * (B / 9007199254740992) ∧ |y| ≤ 4 * B :=
    fun x hx => leave_err h0 h1 hn hn1 hse hS (hb x hx)
  let g : ℚ → ℚ := fun x => (leave s x l.length).getD 0
  have hg : ∀ x ∈ l, leave s x l.length = some (g x) := by
    intro x hx
    obtain ⟨y, hy, _⟩ := hle x hx
    simp only [g, hy, Option.getD_some]
  have hg2 : ∀ x ∈ l, Rep (g x) ∧ |g x - (l.sum - x) / (l.length - 1)| ≤ (4 * l.length + 5) * (B / 9007199254740992) ∧ |g x| ≤ 4 * B := by
    intro x hx
    obtain ⟨y, hy, k1, k2, k3⟩ := hle x hx
    simp only [g, hy, Option.getD_some]
    exact ⟨k1, k2, k3⟩
  have hfs : v :: l' = l.map g := by
    have e1 : ((List.range l.length).map fun i => (row ([s].zip [l]) l.length i).bind ident) = (l.map g).map some := by
      have e2 := range_map l (fun o : Option ℚ => (all [match o with
        | none => none
        | some x => leave s x l.length]).bind ident)
      refine Eq.trans ?_ (e2.trans ?_)
      · rfl
      · rw [List.map_map]
        refine List.map_congr_left fun x hx => ?_
        simp only [hg x hx, all, Option.map_some, Option.bind_some, ident, List.head?_cons, Function.comp]
    rw [h2] at e1
    exact List.map_injective_iff.2 (Option.some_injective _) e1
  -- the mean of the resampled data
  have hmean : mean (v :: l') = some r.M := by
    unfold mean
    rw [if_neg (by simp)]
    unfold meanLoop
    have hv : Rep v ∧ |v| ≤ 4 * B := by
      have : v ∈ l.map g := by rw [← hfs]; simp
      obtain ⟨x, hx, rfl⟩ := List.mem_map.1 this
      exact ⟨(hg2 x hx).1, (hg2 x hx).2.2⟩
    rw [update_first hv.1 (hv.2.trans hB4b)]
    exact h5
  have hlen : (v :: l').length = l.length := by rw [hfs, List.length_map]
  obtain ⟨m, hm, hme⟩ := C181_accuracy (4 * B) hrep4 hB4b (v :: l') (by simp) (by
    rw [hfs]
    intro y hy
    obtain ⟨x, hx, rfl⟩ := List.mem_map.1 hy
    exact ⟨(hg2 x hx).1, (hg2 x hx).2.2⟩) (by rw [hlen]; exact hn1.trans (by norm_num))
  rw [hmean] at hm
  cases hm
  rw [hlen] at hme
  have hse2 := sum_err l g (fun x => (l.sum - x) / (l.length - 1)) (fun x hx => (hg2 x hx).2.1)
  rw [sum_leave, ← hfs] at hse2
  -- numbers
  have hn2 : (2 : ℚ) ≤ l.length := by exact_mod_cast hn
  have hn3 : (l.length : ℚ) ≤ 1048576 := by exact_mod_cast hn1
  have hav : average s l.length = some direct := by
    simp only [List.map_cons, List.map_nil] at h3
    cases e1 : average s l.length with
    | none => rw [e1] at h3; cases h3
    | some z =>
      rw [e1] at h3
      simp only [all, Option.map_some, Option.bind_some, ident, List.head?_cons] at h3
      exact h3
  have hdir : direct = rnd (s / l.length) := by
    unfold average at hav
    rw [nat_rnd hn1] at hav
    exact (fin_some hav).1
  rw [nat_rnd hn1] at h9
  rw [h8]
  generalize hN : (l.length : ℚ) = N at *
  generalize l.sum = S at *
  generalize (v :: l').sum = T at *
  have hNpos : 0 < N := by linarith
  have hNB : N * B ≤ 1048576 * B := mul_le_mul_of_nonneg_right hn3 hB.le
  have hNB2 : 2 * B ≤ N * B := mul_le_mul_of_nonneg_right hn2 hB.le
  have hNN : N ^ 2 * B ≤ 1048576 * (N * B) := by nlinarith
  have hNN2 : 2 * (N * B) ≤ N ^ 2 * B := by
    have := mul_nonneg (by linarith : 0 ≤ N - 2) (by linarith : 0 ≤ N * B)
    linarith
  -- direct
  have hSN : |S / N| ≤ B := by
    rw [abs_div, abs_of_pos hNpos, div_le_iff₀ hNpos]
    linarith
  have hsN : |s / N - S / N| ≤ N * (B / 9007199254740992) := by
    rw [← sub_div, abs_div, abs_of_pos hNpos, div_le_iff₀ hNpos]
    linarith
  have hd : |direct - S / N| ≤ (N + 1 + 1 / 500) * (B / 9007199254740992) := by
    have hsz : |s / N| ≤ (1 + 1 / 1024) * B := by
      have t1 := abs_add_le (s / N - S / N) (S / N)
      rw [sub_add_cancel] at t1
      linarith
    obtain ⟨_, he2⟩ := op h0 h1 hsz (by norm_num)
    rw [hdir]
    have t1 := abs_sub_le (rnd (s / N)) (s / N) (S / N)
    linarith
  -- the jackknife estimate
  have hTN : |T / N - S / N| ≤ (4 * N + 5) * (B / 9007199254740992) := by
    have e1 : (N * S - S) / (N - 1) = S := by
      have : N - 1 ≠ 0 := by linarith
      field_simp
    rw [e1] at hse2
    rw [← sub_div, abs_div, abs_of_pos hNpos, div_le_iff₀ hNpos]
    linarith
  have hη2 : 3 * N * (2 : ℚ) ^ (-1074 : ℤ) ≤ B / 9007199254740992 := by
    have := mul_le_mul_of_nonneg_left hη (by linarith : 0 ≤ 3 * N)
    linarith
  have hM : |r.M - S / N| ≤ (8 * N + 26) * (B / 9007199254740992) := by
    have t1 := abs_sub_le r.M (T / N) (S / N)
    rw [show (2 : ℚ) ^ (-53 : ℤ) = 1 / 9007199254740992 by norm_num] at hme
    linarith
  refine ⟨by linarith, by linarith, ?_⟩
  -- the corrected estimate
  have hdM : |direct - r.M| ≤ (9 * N + 27 + 1 / 500) * (B / 9007199254740992) := by
    have t1 := abs_sub_le direct (S / N) r.M
    rw [abs_sub_comm (S / N)] at t1
    linarith
  have hr1 : |rnd (direct - r.M) - (direct - r.M)| ≤ 1 / 500 * (B / 9007199254740992) := by
    obtain ⟨_, he2⟩ := op (C := 1 / 2048) h0 h1 (x := direct - r.M) (by linarith) (by norm_num)
    linarith
  have hp : |N * rnd (direct - r.M)| ≤ (9 * N ^ 2 + 28 * N) * (B / 9007199254740992) := by
    have t1 := abs_add_le (rnd (direct - r.M) - (direct - r.M)) (direct - r.M)
    rw [sub_add_cancel] at t1
    rw [abs_mul, abs_of_pos hNpos]
    have := mul_le_mul_of_nonneg_left (t1.trans (add_le_add hr1 hdM)) hNpos.le
    nlinarith
  have hr2 : |rnd (N * rnd (direct - r.M)) - N * rnd (direct - r.M)| ≤ 1 / 300 * (B / 9007199254740992) := by
    obtain ⟨_, he2⟩ := op (C := 1 / 512) h0 h1 (x := N * rnd (direct - r.M)) (by linarith) (by norm_num)
    linarith
  have hsum3 : |rnd (N * rnd (direct - r.M)) + r.M| ≤ 2 * B := by
    have t1 := abs_add_le (rnd (N * rnd (direct - r.M))) r.M
    have t2 := abs_add_le (rnd (N * rnd (direct - r.M)) - N * rnd (direct - r.M)) (N * rnd (direct - r.M))
    have t3 := abs_add_le (r.M - S / N) (S / N)
    rw [sub_add_cancel] at t2 t3
    linarith
  obtain ⟨_, hr3⟩ := op h0 h1 hsum3 (by norm_num)
  rw [h9]
  have t1 := abs_sub_le (rnd (rnd (N * rnd (direct - r.M)) + r.M)) (rnd (N * rnd (direct - r.M)) + r.M) (S / N)
  have t2 := abs_add_le (rnd (N * rnd (direct - r.M))) (r.M - S / N)
  rw [show rnd (N * rnd (direct - r.M)) + (r.M - S / N) = rnd (N * rnd (direct - r.M)) + r.M - S / N by ring] at t2
  have t3 := abs_add_le (rnd (N * rnd (direct - r.M)) - N * rnd (direct - r.M)) (N * rnd (direct - r.M))
  rw [sub_add_cancel] at t3
  have hfin : (9 * N ^ 2 + 36 * N + 29) * B ≤ 36 * N ^ 2 * B := by linarith
  linarith

/-- data of the examples -/
def tenth : ℚ := rnd (1 / 10)

/-- **C200, witness**: thirteen times one tenth: the error is zero and the direct estimate is the datum, but the jackknife estimate is the double before it, and the correction for the bias multiplies the
difference by the number of data -/
theorem C200_bias_witness : jackknife (fun _ => 0) ident [List.replicate 13 tenth] = some ⟨tenth + 12 * 2 ^ (-56 : ℤ), 0, tenth - 2 ^ (-56 : ℤ), tenth⟩ := by decide +kernel

/-! ### Examples -/

/-- a square root for the examples -/
def unit (x : ℚ) : ℚ := if x = 0 then 0 else 1

example : Root unit := ⟨rfl, fun x => by unfold unit; split <;> norm_num⟩

/-- the means of pairs of three data -/
example : jackknife unit ident [[1, 2, 6]] = some ⟨3, 1, 3, 3⟩ := by decide +kernel

/-- a ratio of two series: the three estimates are different -/
example : (jackknife unit (fun a => match a with
    | [x, y] => if y = 0 then none else fin (x / y)
    | _ => none) [[1, 2, 6], [1, 1, 4]]).isSome = true ∧ jackknife unit ident [[1, 2, 6], [1, 1]] = none ∧ jackknife unit ident [[1]] = none := by decide +kernel

/-- equal data, a product of two series -/
example : jackknife unit (fun a => match a with
    | [x, y] => fin (x * y)
    | _ => none) [[2, 2, 2], [3, 3, 3]] = some ⟨6, 0, 6, 6⟩ := by decide +kernel

end Verif.JackknifeDouble
