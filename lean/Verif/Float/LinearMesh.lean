import Verif.Float.Relative
import Mathlib.Algebra.Order.Group.MinMax

/-!
# Linear meshes in double precision

The values, the nearest point and the interpolation of meshes of equidistant points (imaginary time, real time and real frequency) with the rounding of the machine.

Source: `/repo/c++/triqs/mesh/bases/linear.hpp` (47-55, 112-115, 136-139, 154-160, 221-228). The result `none` means that the arguments break `EXPECTS`, or that a number that
is infinite or not a number is converted to an integer. Data of `evaluate` are doubles; complex data are treated in the same way part by part. Signed zeros are not
distinguished.
-/

namespace Verif.LinearDouble

open Binary64

/-! ## Model -/

/-- `delta_x`, linear.hpp:51; `none` is infinity -/
def delta (a b : ℚ) (L : ℤ) : Option ℚ :=
  if L = 1 then some 0 else
    match fin (b - a) with
    | none => none
    | some d => fin (d / rnd ((L - 1 : ℤ) : ℚ))

/-- `delta_x_inv`, linear.hpp:52; `none` is infinity -/
def deltaInv (a b : ℚ) (L : ℤ) : Option ℚ :=
  match delta a b L with
  | none => some 0
  | some d => if d = 0 then none else fin (1 / d)

/-- the conversion of a double to `long`: toward zero, undefined outside of the range -/
def toLong (x : ℚ) : Option ℤ := if |x| < 2 ^ 63 then some (if 0 ≤ x then ⌊x⌋ else ⌈x⌉) else none

/-- `(x - xmin) * delta_x_inv`, linear.hpp:138 and 224; `none` if it is not finite -/
def position (a b : ℚ) (L : ℤ) (x : ℚ) : Option ℚ :=
  match fin (x - a), deltaInv a b L with
  | some y, some d => fin (y * d)
  | _, _ => none

/-- `to_index(closest_mesh_point_t)`, linear.hpp:136-139 -/
def toIndex (a b : ℚ) (L : ℤ) (x : ℚ) : Option ℤ :=
  if a ≤ x ∧ x ≤ b then
    match position a b L x with
    | none => none
    | some t =>
      match fin (t + 1 / 2) with
      | none => none
      | some s => toLong s
  else none

/-- `x * (1 - w) + y * w`, linear.hpp:158 and 227; `none` if it is not finite -/
def combine (x y w : ℚ) : Option ℚ := fin (rnd (x * rnd (1 - w)) + rnd (y * w))

/-- `to_value`, linear.hpp:154-160 -/
def toValue (a b : ℚ) (L i : ℤ) : Option ℚ :=
  if 0 ≤ i ∧ i < L then
    if L = 1 then some a else combine a b (rnd (rnd (i : ℚ) / rnd ((L - 1 : ℤ) : ℚ)))
  else none

/-- the point below `x` and the weight of the next one in `evaluate`, linear.hpp:221-226 -/
def bracket (a b : ℚ) (L : ℤ) (x : ℚ) : Option (ℤ × ℚ) :=
  if (a ≤ x ∧ x ≤ b) ∧ 1 < L then
    match position a b L (max x a) with
    | none => none
    | some t =>
      match toLong t with
      | none => none
      | some k => some (min k (L - 2), min (rnd (t - rnd ((min k (L - 2) : ℤ) : ℚ))) 1)
  else none

/-- `evaluate` of data that are doubles, linear.hpp:221-228 -/
def evaluate (a b : ℚ) (L : ℤ) (f : ℤ → ℚ) (x : ℚ) : Option ℚ :=
  match bracket a b L x with
  | none => none
  | some (i, w) => combine (f i) (f (i + 1)) w

/-! ## Specification -/

/-- the exact point `i` -/
def point (a b : ℚ) (L i : ℤ) : ℚ := a + i * ((b - a) / (L - 1))

/-- intervals that are neither extremely short nor extremely far away, and at most `2^45 + 1` points -/
structure Scale (a b : ℚ) (L : ℤ) : Prop where
  da : IsDouble a
  db : IsDouble b
  len : (2 : ℚ) ^ (-900 : ℤ) ≤ b - a
  la : |a| ≤ 2 ^ (1000 : ℤ)
  lb : |b| ≤ 2 ^ (1000 : ℤ)
  two : 2 ≤ L
  many : L - 1 ≤ 2 ^ 45

/-! ## Proofs -/

theorem big_lt {e : ℤ} (h : e < 1024) : (2 : ℚ) ^ e < 2 ^ 1024 := by
  have : (2 : ℚ) ^ (1024 : ℕ) = 2 ^ (1024 : ℤ) := (zpow_natCast 2 1024).symm
  rw [this]
  exact two_zpow_lt h

/-- bounded numbers are finite after rounding -/
theorem fin_of_le {x : ℚ} {e : ℤ} (h : |x| ≤ 2 ^ e) (h0 : -1074 ≤ e) (he : e < 1024) : fin x = some (rnd x) := by
  have hr : |rnd x| ≤ 2 ^ e := by
    rw [abs_le] at h ⊢
    exact ⟨le_rnd (rep_neg (rep_zpow h0)) h.1, rnd_le (rep_zpow h0) h.2⟩
  exact fin_eq ⟨rep_rnd x, lt_of_le_of_lt hr (big_lt he)⟩

theorem tiny_le : (2 : ℚ) ^ (-1074 : ℤ) ≤ 1 / 2 ^ 200 := by
  calc (2 : ℚ) ^ (-1074 : ℤ) ≤ 2 ^ (-200 : ℤ) := two_zpow_le (by norm_num)
    _ = 1 / 2 ^ 200 := by norm_num

theorem rep_count {n : ℤ} (h0 : 0 ≤ n) (h : n ≤ 2 ^ 45) : Rep (n : ℚ) := rep_int (by rw [abs_of_nonneg h0]; omega)

/-- step and inverse step -/
theorem deltaInv_spec {a b : ℚ} {L : ℤ} (h : Scale a b L) :
    ∃ d, deltaInv a b L = some d ∧ Rel 3 (((L - 1 : ℤ) : ℚ) / (b - a)) d ∧ 0 < d ∧ d ≤ 2 ^ (945 : ℤ) := by
  have hL := h.two
  have hn1 : (1 : ℚ) ≤ ((L - 1 : ℤ) : ℚ) := by exact_mod_cast (by omega : 1 ≤ L - 1)
  have hn45 : ((L - 1 : ℤ) : ℚ) ≤ 2 ^ (45 : ℤ) := by
    have : ((L - 1 : ℤ) : ℚ) ≤ ((2 ^ 45 : ℤ) : ℚ) := by exact_mod_cast h.many
    exact this.trans (by norm_num)
  have hnr : rnd ((L - 1 : ℤ) : ℚ) = ((L - 1 : ℤ) : ℚ) := rnd_rep (rep_count (by omega) h.many)
  have hlen0 : 0 < b - a := (two_zpow_pos _).trans_le h.len
  have hlen1 : b - a ≤ 2 ^ (1001 : ℤ) := by
    have h1 := (abs_le.1 h.la).1
    have h2 := (abs_le.1 h.lb).2
    have : (2 : ℚ) ^ (1001 : ℤ) = 2 ^ (1000 : ℤ) + 2 ^ (1000 : ℤ) := by rw [show (1001 : ℤ) = 1000 + 1 by norm_num, two_zpow_add]; ring
    rw [this]
    linarith
  generalize hnn : ((L - 1 : ℤ) : ℚ) = n at *
  have hn0 : 0 < n := by linarith
  -- the difference
  have hD : Rel 1 (b - a) (rnd (b - a)) := rel_rnd ((two_zpow_le (by norm_num)).trans h.len)
  have hDlo : (2 : ℚ) ^ (-900 : ℤ) ≤ rnd (b - a) := le_rnd (rep_zpow (by norm_num)) h.len
  have hDhi : rnd (b - a) ≤ 2 ^ (1001 : ℤ) := rnd_le (rep_zpow (by norm_num)) hlen1
  have hDfin : fin (b - a) = some (rnd (b - a)) := fin_of_le (e := 1001) (by rw [abs_of_pos hlen0]; exact hlen1) (by norm_num) (by norm_num)
  generalize rnd (b - a) = D at *
  have hD0 : 0 < D := (two_zpow_pos _).trans_le hDlo
  -- the step
  have hq0 : 0 < D / n := div_pos hD0 hn0
  have hqlo : (2 : ℚ) ^ (-945 : ℤ) ≤ D / n := by
    rw [le_div_iff₀ hn0]
    calc (2 : ℚ) ^ (-945 : ℤ) * n ≤ 2 ^ (-945 : ℤ) * 2 ^ (45 : ℤ) := mul_le_mul_of_nonneg_left hn45 (two_zpow_pos _).le
      _ = 2 ^ (-900 : ℤ) := by rw [← two_zpow_add]; norm_num
      _ ≤ D := hDlo
  have hqhi : D / n ≤ 2 ^ (1001 : ℤ) := (div_le_self hD0.le hn1).trans hDhi
  have hS : Rel 2 ((b - a) / n) (rnd (D / n)) := by
    have h1 := (hD.div (Rel.refl n) hlen0.le hn0).trans (rel_rnd (x := D / n) ((two_zpow_le (by norm_num)).trans hqlo))
    exact h1
  have hSlo : (2 : ℚ) ^ (-945 : ℤ) ≤ rnd (D / n) := le_rnd (rep_zpow (by norm_num)) hqlo
  have hShi : rnd (D / n) ≤ 2 ^ (1001 : ℤ) := rnd_le (rep_zpow (by norm_num)) hqhi
  have hSfin : fin (D / n) = some (rnd (D / n)) := fin_of_le (e := 1001) (by rw [abs_of_pos hq0]; exact hqhi) (by norm_num) (by norm_num)
  have hdelta : delta a b L = some (rnd (D / n)) := by
    unfold delta
    rw [if_neg (by omega), hDfin]
    simp only
    rw [hnn, hnr, hSfin]
  generalize rnd (D / n) = S at *
  have hS0 : 0 < S := (two_zpow_pos _).trans_le hSlo
  -- its inverse
  have hi0 : 0 < 1 / S := one_div_pos.2 hS0
  have hihi : 1 / S ≤ 2 ^ (945 : ℤ) := by
    rw [div_le_iff₀ hS0]
    calc (1 : ℚ) = 2 ^ (945 : ℤ) * 2 ^ (-945 : ℤ) := by rw [← two_zpow_add]; norm_num
      _ ≤ 2 ^ (945 : ℤ) * S := mul_le_mul_of_nonneg_left hSlo (two_zpow_pos _).le
  have hilo : (2 : ℚ) ^ (-1001 : ℤ) ≤ 1 / S := by
    rw [le_div_iff₀ hS0]
    calc (2 : ℚ) ^ (-1001 : ℤ) * S ≤ 2 ^ (-1001 : ℤ) * 2 ^ (1001 : ℤ) := mul_le_mul_of_nonneg_left hShi (two_zpow_pos _).le
      _ = 1 := by rw [← two_zpow_add]; norm_num
  refine ⟨rnd (1 / S), ?_, ?_, ?_, rnd_le (rep_zpow (by norm_num)) hihi⟩
  · unfold deltaInv
    rw [hdelta]
    simp only
    rw [if_neg hS0.ne']
    exact fin_of_le (e := 945) (by rw [abs_of_pos hi0]; exact hihi) (by norm_num) (by norm_num)
  · have h1 := (hS.inv (div_pos hlen0 hn0)).trans (rel_rnd (x := 1 / S) ((two_zpow_le (by norm_num)).trans hilo))
    rwa [one_div_div] at h1
  · exact lt_of_lt_of_le (two_zpow_pos _) (le_rnd (rep_zpow (by norm_num)) hilo)

/-- the position of a double of the interval has a relative error of at most ten units of rounding -/
theorem position_spec {a b : ℚ} {L : ℤ} (h : Scale a b L) {x : ℚ} (hx : IsDouble x) (h0 : a ≤ x) (h1 : x ≤ b) :
    ∃ t, position a b L x = some t ∧ 0 ≤ t ∧ |t - (x - a) / (b - a) * (L - 1)| ≤ (x - a) / (b - a) * (L - 1) * (10 / 9007199254740992) + 2 ^ (-1074 : ℤ) ∧
      0 ≤ (x - a) / (b - a) * (L - 1) ∧ (x - a) / (b - a) * (L - 1) ≤ L - 1 := by
  obtain ⟨d, hd, hrel, hd0, hdhi⟩ := deltaInv_spec h
  have hL := h.two
  have hlen0 : 0 < b - a := (two_zpow_pos _).trans_le h.len
  have hn0 : (0 : ℚ) ≤ ((L - 1 : ℤ) : ℚ) := by exact_mod_cast (by omega : 0 ≤ L - 1)
  have hn45 : ((L - 1 : ℤ) : ℚ) ≤ 2 ^ (45 : ℤ) := by
    have : ((L - 1 : ℤ) : ℚ) ≤ ((2 ^ 45 : ℤ) : ℚ) := by exact_mod_cast h.many
    exact this.trans (by norm_num)
  have hcast : (L : ℚ) - 1 = ((L - 1 : ℤ) : ℚ) := by push_cast; ring
  rw [hcast]
  generalize ((L - 1 : ℤ) : ℚ) = n at *
  have hxa : 0 ≤ x - a := by linarith
  have hy : Rel 1 (x - a) (rnd (x - a)) := rel_sub hx.1 h.da.1 h0
  have hyfin : fin (x - a) = some (rnd (x - a)) := by
    refine fin_of_le (e := 1001) ?_ (by norm_num) (by norm_num)
    rw [abs_of_nonneg hxa]
    have g1 := (abs_le.1 h.la).1
    have g2 := (abs_le.1 h.lb).2
    have : (2 : ℚ) ^ (1001 : ℤ) = 2 ^ (1000 : ℤ) + 2 ^ (1000 : ℤ) := by rw [show (1001 : ℤ) = 1000 + 1 by norm_num, two_zpow_add]; ring
    rw [this]
    linarith
  have hp0 : 0 ≤ (x - a) / (b - a) * n := mul_nonneg (div_nonneg hxa hlen0.le) hn0
  have hpn : (x - a) / (b - a) * n ≤ n := by
    have : (x - a) / (b - a) ≤ 1 := by rw [div_le_one hlen0]; linarith
    nlinarith
  have hprod : Rel 4 ((x - a) / (b - a) * n) (rnd (x - a) * d) := by
    have := hy.mul hrel hxa (div_nonneg hn0 hlen0.le)
    rwa [show (x - a) * (n / (b - a)) = (x - a) / (b - a) * n by ring] at this
  have herr := hprod.err (by norm_num) hp0
  have hP0 := hprod.nonneg hp0
  generalize (x - a) / (b - a) * n = p at *
  have hP2 : rnd (x - a) * d ≤ 2 ^ (46 : ℤ) := by
    rw [abs_le] at herr
    have : (2 : ℚ) ^ (46 : ℤ) = 2 * 2 ^ (45 : ℤ) := by norm_num
    rw [this]
    push_cast at herr
    linarith [herr.2]
  refine ⟨rnd (rnd (x - a) * d), ?_, rnd_nonneg hP0, ?_, hp0, hpn⟩
  · unfold position
    rw [hyfin, hd]
    simp only
    exact fin_of_le (e := 46) (by rw [abs_of_nonneg hP0]; exact hP2) (by norm_num) (by norm_num)
  · have h2 := rnd_err_abs (rnd (x - a) * d)
    rw [abs_of_nonneg hP0] at h2
    generalize rnd (x - a) * d = P at *
    push_cast at herr
    rw [abs_le] at herr h2 ⊢
    generalize (2 : ℚ) ^ (-1074 : ℤ) = e at *
    constructor
    · linarith [herr.1, herr.2, h2.1, h2.2]
    · linarith [herr.1, herr.2, h2.1, h2.2]

theorem toLong_some {s : ℚ} (h0 : 0 ≤ s) (h : s < 2 ^ 63) : toLong s = some ⌊s⌋ := by
  unfold toLong
  rw [if_pos (by rwa [abs_of_nonneg h0]), if_pos h0]

theorem many_cast {a b : ℚ} {L : ℤ} (h : Scale a b L) : (1 : ℚ) ≤ (L : ℚ) - 1 ∧ (L : ℚ) - 1 ≤ 35184372088832 := by
  have h1 := h.two
  have h2 := h.many
  have h3 : (2 : ℚ) ≤ L := by exact_mod_cast h1
  have h4 : (L : ℚ) ≤ 35184372088833 := by exact_mod_cast (by omega : L ≤ 35184372088833)
  constructor <;> linarith

/-- the number that is converted to the index is the exact position plus one half, up to `L 2^-49` -/
theorem toIndex_spec {a b : ℚ} {L : ℤ} (h : Scale a b L) {x : ℚ} (hx : IsDouble x) (h0 : a ≤ x) (h1 : x ≤ b) :
    ∃ s, toIndex a b L x = some ⌊s⌋ ∧ 0 ≤ s ∧ |s - ((x - a) / (b - a) * (L - 1) + 1 / 2)| ≤ L / 562949953421312 ∧
      0 ≤ (x - a) / (b - a) * (L - 1) ∧ (x - a) / (b - a) * (L - 1) ≤ L - 1 := by
  obtain ⟨t, ht, ht0, herr, hp0, hpn⟩ := position_spec h hx h0 h1
  obtain ⟨hn1, hn45⟩ := many_cast h
  have htiny := tiny_le
  generalize hpp : (x - a) / (b - a) * (L - 1) = p at *
  have he := rnd_err_abs (t + 1 / 2)
  have hpos : 0 ≤ t + 1 / 2 := by linarith
  rw [abs_of_nonneg hpos] at he
  have htp0 := two_zpow_pos (-1074)
  generalize (2 : ℚ) ^ (-1074 : ℤ) = e at *
  have he' : e ≤ 1 / 9007199254740992 := htiny.trans (by norm_num)
  have habs : |rnd (t + 1 / 2) - (p + 1 / 2)| ≤ L / 562949953421312 := by
    rw [abs_le] at herr he ⊢
    constructor <;> linarith [herr.1, herr.2, he.1, he.2]
  have ht46 : t + 1 / 2 ≤ 2 ^ (46 : ℤ) := by
    rw [abs_le] at herr
    have : (2 : ℚ) ^ (46 : ℤ) = 70368744177664 := by norm_num
    rw [this]
    linarith [herr.2]
  have hs0 : 0 ≤ rnd (t + 1 / 2) := rnd_nonneg hpos
  have hs46 : rnd (t + 1 / 2) ≤ 2 ^ (46 : ℤ) := rnd_le (rep_zpow (by norm_num)) ht46
  refine ⟨rnd (t + 1 / 2), ?_, hs0, habs, hp0, hpn⟩
  unfold toIndex
  rw [if_pos ⟨h0, h1⟩, ht]
  simp only
  rw [fin_of_le (e := 46) (by rw [abs_of_nonneg hpos]; exact ht46) (by norm_num) (by norm_num)]
  simp only
  refine toLong_some hs0 (lt_of_le_of_lt hs46 ?_)
  norm_num

/-- **C176, the nearest point** is a point of the mesh for every double of the interval, and it is nearest up to `L 2^-49` steps. -/
theorem C176_nearest (a b : ℚ) (L : ℤ) (h : Scale a b L) (x : ℚ) (hx : IsDouble x) (h0 : a ≤ x) (h1 : x ≤ b) :
    ∃ i, toIndex a b L x = some i ∧ 0 ≤ i ∧ i < L ∧ |x - point a b L i| ≤ (1 / 2 + L * 2 ^ (-49 : ℤ)) * ((b - a) / (L - 1)) := by
  obtain ⟨s, hs, hs0, herr, hp0, hpn⟩ := toIndex_spec h hx h0 h1
  obtain ⟨hn1, hn45⟩ := many_cast h
  have hlen0 : 0 < b - a := (two_zpow_pos _).trans_le h.len
  have hf := Int.floor_le s
  have hf' := Int.lt_floor_add_one s
  refine ⟨⌊s⌋, hs, Int.floor_nonneg.2 hs0, ?_, ?_⟩
  · rw [Int.floor_lt]
    rw [abs_le] at herr
    linarith [herr.2]
  · have hst : 0 < (b - a) / ((L : ℚ) - 1) := div_pos hlen0 (by linarith)
    have hx' : x - point a b L ⌊s⌋ = ((x - a) / (b - a) * (L - 1) - ⌊s⌋) * ((b - a) / (L - 1)) := by
      unfold point
      have : (L : ℚ) - 1 ≠ 0 := by linarith
      field_simp
      ring
    rw [hx', abs_mul, abs_of_pos hst]
    refine mul_le_mul_of_nonneg_right ?_ hst.le
    generalize (x - a) / (b - a) * ((L : ℚ) - 1) = p at *
    rw [show (2 : ℚ) ^ (-49 : ℤ) = 1 / 562949953421312 by norm_num]
    rw [abs_le] at herr ⊢
    constructor <;> linarith [herr.1, herr.2]

/-- weights in the unit interval: error of the linear combination -/
theorem combine_err {x y w : ℚ} {A : ℚ} (hxA : |x| ≤ A) (hyA : |y| ≤ A) (hA : A ≤ 2 ^ (1010 : ℤ)) (hw0 : 0 ≤ w) (hw1 : w ≤ 1) :
    ∃ v, combine x y w = some v ∧ IsDouble v ∧ |v - (x * (1 - w) + y * w)| ≤ A * (5 / 9007199254740992) + 4 * 2 ^ (-1074 : ℤ) := by
  have hA0 : 0 ≤ A := (abs_nonneg x).trans hxA
  have hu0 : 0 ≤ rnd (1 - w) := rnd_nonneg (by linarith)
  have hu1 : rnd (1 - w) ≤ 1 := rnd_le rep_one (by linarith)
  have e1 : |rnd (1 - w) - (1 - w)| ≤ 1 / 9007199254740992 := by
    by_cases h1 : (1 : ℚ) - w = 0
    · rw [h1, rnd_zero]; norm_num
    have := rnd_err_abs (1 - w)
    rw [abs_of_nonneg (by linarith : 0 ≤ 1 - w)] at this
    by_cases hbig : (2 : ℚ) ^ (-1022 : ℤ) ≤ 1 - w
    · have := rnd_rel (x := 1 - w) (by rwa [abs_of_nonneg (by linarith)])
      rw [abs_of_nonneg (by linarith : 0 ≤ 1 - w), show (2 : ℚ) ^ (-53 : ℤ) = 1 / 9007199254740992 by norm_num] at this
      linarith
    · rw [not_le] at hbig
      have h3 : (2 : ℚ) ^ (-1022 : ℤ) ≤ 1 / 2 ^ 200 := by
        calc (2 : ℚ) ^ (-1022 : ℤ) ≤ 2 ^ (-200 : ℤ) := two_zpow_le (by norm_num)
          _ = 1 / 2 ^ 200 := by norm_num
      have h4 := tiny_le
      have h5 : (1 : ℚ) / 2 ^ 200 ≤ 1 / 9007199254740992 / 4 := by norm_num
      generalize (2 : ℚ) ^ (-1022 : ℤ) = e' at *
      generalize (2 : ℚ) ^ (-1074 : ℤ) = e at *
      generalize (1 : ℚ) / 2 ^ 200 = e'' at *
      linarith
  have hxu : |x * rnd (1 - w)| ≤ A := by
    rw [abs_mul, abs_of_nonneg hu0]
    nlinarith [abs_nonneg x]
  have hyw : |y * w| ≤ A := by
    rw [abs_mul, abs_of_nonneg hw0]
    nlinarith [abs_nonneg y]
  have e2 := rnd_err_abs (x * rnd (1 - w))
  have e3 := rnd_err_abs (y * w)
  have exu : |x * rnd (1 - w) - x * (1 - w)| ≤ A * (1 / 9007199254740992) := by
    rw [← mul_sub, abs_mul]
    exact mul_le_mul hxA e1 (abs_nonneg _) hA0
  -- the exact combination is bounded by A
  have hS : |x * (1 - w) + y * w| ≤ A := by
    calc |x * (1 - w) + y * w| ≤ |x * (1 - w)| + |y * w| := abs_add_le _ _
      _ = |x| * (1 - w) + |y| * w := by rw [abs_mul, abs_mul, abs_of_nonneg hw0, abs_of_nonneg (by linarith : 0 ≤ 1 - w)]
      _ ≤ A * (1 - w) + A * w := add_le_add (mul_le_mul_of_nonneg_right hxA (by linarith)) (mul_le_mul_of_nonneg_right hyA hw0)
      _ = A := by ring
  have e4 := rnd_err_abs (rnd (x * rnd (1 - w)) + rnd (y * w))
  have htiny := tiny_le
  have htiny0 := two_zpow_pos (-1074)
  have m2 := mul_le_mul_of_nonneg_right hxu (by norm_num : (0 : ℚ) ≤ 1 / 9007199254740992)
  have m3 := mul_le_mul_of_nonneg_right hyw (by norm_num : (0 : ℚ) ≤ 1 / 9007199254740992)
  have e2' := e2.trans (add_le_add_left m2 _)
  have e3' := e3.trans (add_le_add_left m3 _)
  have hbig : |rnd (x * rnd (1 - w)) + rnd (y * w)| ≤ A * (1 + 3 / 9007199254740992) + 2 * 2 ^ (-1074 : ℤ) := by
    generalize (2 : ℚ) ^ (-1074 : ℤ) = e at *
    rw [abs_le] at e2' e3' exu hS ⊢
    constructor <;> linarith [e2'.1, e2'.2, e3'.1, e3'.2, exu.1, exu.2, hS.1, hS.2]
  have h1011 : |rnd (x * rnd (1 - w)) + rnd (y * w)| ≤ 2 ^ (1011 : ℤ) := by
    refine hbig.trans ?_
    have e5 : (2 : ℚ) ^ (1011 : ℤ) = 2 * 2 ^ (1010 : ℤ) := by rw [show (1011 : ℤ) = 1 + 1010 by norm_num, two_zpow_add]; norm_num
    have e6 : (1 : ℚ) ≤ 2 ^ (1010 : ℤ) := by
      have := two_zpow_le (a := 0) (b := 1010) (by norm_num)
      simpa using this
    have h5 : (1 : ℚ) / 2 ^ 200 ≤ 1 / 4 := by norm_num
    rw [e5]
    clear e5
    generalize (2 : ℚ) ^ (-1074 : ℤ) = e at *
    generalize (1 : ℚ) / 2 ^ 200 = e'' at *
    generalize (2 : ℚ) ^ (1010 : ℤ) = B at *
    linarith
  have hfin := fin_of_le h1011 (by norm_num) (by norm_num)
  refine ⟨_, hfin, (fin_some hfin).2, ?_⟩
  have hA5 : 0 ≤ A := hA0
  generalize rnd (rnd (x * rnd (1 - w)) + rnd (y * w)) = v at *
  have h5 : (1 : ℚ) / 2 ^ 200 ≤ 1 / 4 := by norm_num
  have hm : |rnd (x * rnd (1 - w)) + rnd (y * w)| * (1 / 9007199254740992) ≤ (A * (1 + 3 / 9007199254740992) + 2 * 2 ^ (-1074 : ℤ)) * (1 / 9007199254740992) :=
    mul_le_mul_of_nonneg_right hbig (by norm_num)
  have e4' := e4.trans (add_le_add_left hm _)
  generalize (2 : ℚ) ^ (-1074 : ℤ) = e at *
  rw [abs_le] at e2' e3' e4' exu ⊢
  constructor <;> linarith [e2'.1, e2'.2, e3'.1, e3'.2, e4'.1, e4'.2, exu.1, exu.2]

/-- the weight of a point -/
def weight (L i : ℤ) : ℚ := rnd (rnd (i : ℚ) / rnd ((L - 1 : ℤ) : ℚ))

theorem weight_bounds {L i : ℤ} (h0 : 0 ≤ i) (h1 : i < L) : 0 ≤ weight L i ∧ weight L i ≤ 1 := by
  have hi : (0 : ℚ) ≤ i := by exact_mod_cast h0
  have hle : (i : ℚ) ≤ ((L - 1 : ℤ) : ℚ) := by exact_mod_cast (by omega : i ≤ L - 1)
  have a1 : 0 ≤ rnd (i : ℚ) := rnd_nonneg hi
  have a2 : rnd (i : ℚ) ≤ rnd ((L - 1 : ℤ) : ℚ) := rnd_mono hle
  exact ⟨rnd_nonneg (div_nonneg a1 (a1.trans a2)), rnd_le rep_one (div_le_one_of_le₀ a2 (a1.trans a2))⟩

theorem weight_mono {L i j : ℤ} (h0 : 0 ≤ i) (hij : i ≤ j) (h1 : j < L) : weight L i ≤ weight L j := by
  have hi : (0 : ℚ) ≤ i := by exact_mod_cast h0
  have hle : (i : ℚ) ≤ j := by exact_mod_cast hij
  have hn : (0 : ℚ) ≤ ((L - 1 : ℤ) : ℚ) := by exact_mod_cast (by omega : 0 ≤ L - 1)
  exact rnd_mono (div_le_div_of_nonneg_right (rnd_mono hle) (rnd_nonneg hn))

theorem weight_zero (L : ℤ) : weight L 0 = 0 := by
  unfold weight
  rw [Int.cast_zero, rnd_zero, zero_div, rnd_zero]

theorem weight_last {L : ℤ} (h : 2 ≤ L) : weight L (L - 1) = 1 := by
  have h1 : (1 : ℚ) ≤ ((L - 1 : ℤ) : ℚ) := by exact_mod_cast (by omega : 1 ≤ L - 1)
  have h2 : 1 ≤ rnd ((L - 1 : ℤ) : ℚ) := le_rnd rep_one h1
  unfold weight
  rw [div_self (by linarith), rnd_rep rep_one]

theorem toValue_eq {a b : ℚ} {L i : ℤ} (hL : 2 ≤ L) (h0 : 0 ≤ i) (h1 : i < L) : toValue a b L i = combine a b (weight L i) := by
  unfold toValue weight
  rw [if_pos ⟨h0, h1⟩, if_neg (by omega)]

theorem combine_zero {x : ℚ} (y : ℚ) (hx : IsDouble x) : combine x y 0 = some x := by
  unfold combine
  rw [sub_zero, rnd_rep rep_one, mul_one, mul_zero, rnd_zero, add_zero, rnd_rep hx.1, fin_eq (by rw [rnd_rep hx.1]; exact hx), rnd_rep hx.1]

theorem combine_one (x : ℚ) {y : ℚ} (hy : IsDouble y) : combine x y 1 = some y := by
  unfold combine
  rw [sub_self, rnd_zero, mul_zero, rnd_zero, mul_one, zero_add, rnd_rep hy.1, fin_eq (by rw [rnd_rep hy.1]; exact hy), rnd_rep hy.1]

/-- **C176, the ends**: the first and the last point of the mesh are exactly the ends of the interval, for all doubles and any number of points. -/
theorem C176_ends (a b : ℚ) (L : ℤ) (ha : IsDouble a) (hb : IsDouble b) (hL : 2 ≤ L) :
    toValue a b L 0 = some a ∧ toValue a b L (L - 1) = some b := by
  rw [toValue_eq hL (le_refl _) (by omega), toValue_eq hL (by omega) (by omega), weight_zero, weight_last hL]
  exact ⟨combine_zero b ha, combine_one a hb⟩

/-- **C176, the order of the points**: if the interval contains zero, the points lie in it and do not decrease, for any number of points. -/
theorem C176_order (a b : ℚ) (L : ℤ) (ha : IsDouble a) (hb : IsDouble b) (ha0 : a ≤ 0) (hb0 : 0 ≤ b) (hL : 2 ≤ L) (i j : ℤ) (h0 : 0 ≤ i) (hij : i ≤ j) (hj : j < L) :
    ∃ v w, toValue a b L i = some v ∧ toValue a b L j = some w ∧ IsDouble v ∧ a ≤ v ∧ v ≤ w ∧ w ≤ b := by
  have key : ∀ u, 0 ≤ u → u ≤ 1 →
      combine a b u = some (rnd (rnd (a * rnd (1 - u)) + rnd (b * u))) ∧ a ≤ rnd (rnd (a * rnd (1 - u)) + rnd (b * u)) ∧ rnd (rnd (a * rnd (1 - u)) + rnd (b * u)) ≤ b := by
    intro u hu0 hu1
    have c0 : 0 ≤ rnd (1 - u) := rnd_nonneg (by linarith)
    have c1 : rnd (1 - u) ≤ 1 := rnd_le rep_one (by linarith)
    have p1 : a ≤ rnd (a * rnd (1 - u)) := le_rnd ha.1 (by nlinarith)
    have p2 : rnd (a * rnd (1 - u)) ≤ 0 := rnd_le rep_zero (by nlinarith)
    have q1 : rnd (b * u) ≤ b := rnd_le hb.1 (by nlinarith)
    have q2 : 0 ≤ rnd (b * u) := rnd_nonneg (mul_nonneg hb0 hu0)
    have l1 : a ≤ rnd (rnd (a * rnd (1 - u)) + rnd (b * u)) := le_rnd ha.1 (by linarith)
    have l2 : rnd (rnd (a * rnd (1 - u)) + rnd (b * u)) ≤ b := rnd_le hb.1 (by linarith)
    refine ⟨fin_eq ⟨rep_rnd _, ?_⟩, l1, l2⟩
    exact abs_lt.2 ⟨lt_of_lt_of_le (abs_lt.1 ha.2).1 l1, lt_of_le_of_lt l2 (abs_lt.1 hb.2).2⟩
  have hi := weight_bounds h0 (lt_of_le_of_lt hij hj)
  have hj' := weight_bounds (h0.trans hij) hj
  obtain ⟨e1, f1, g1⟩ := key _ hi.1 hi.2
  obtain ⟨e2, f2, g2⟩ := key _ hj'.1 hj'.2
  have hw := weight_mono h0 hij hj
  refine ⟨_, _, (toValue_eq hL h0 (lt_of_le_of_lt hij hj)).trans e1, (toValue_eq hL (h0.trans hij) hj).trans e2, (fin_some e1).2, f1, ?_, g2⟩
  refine rnd_mono (add_le_add (rnd_mono ?_) (rnd_mono (mul_le_mul_of_nonneg_left hw hb0)))
  have : rnd (1 - weight L j) ≤ rnd (1 - weight L i) := rnd_mono (by linarith)
  nlinarith

/-- **C176, an interval without zero**: the second point can be outside of the interval and below the first one. -/
theorem C176_outside : IsDouble (7 + 2 ^ (-50 : ℤ)) ∧ ∃ v, toValue 7 (7 + 2 ^ (-50 : ℤ)) 10 1 = some v ∧ v < 7 := by
  refine ⟨⟨⟨7881299347898369, -50, by norm_num, by norm_num, by norm_num⟩, ?_⟩, 7 - 2 ^ (-50 : ℤ), by decide +kernel, ?_⟩
  · rw [abs_of_pos (by norm_num)]
    calc (7 + 2 ^ (-50 : ℤ) : ℚ) ≤ 2 ^ (3 : ℤ) := by norm_num
      _ < 2 ^ 1024 := big_lt (by norm_num)
  · linarith [two_zpow_pos (-50)]

theorem Scale.max_le {a b : ℚ} {L : ℤ} (h : Scale a b L) : max |a| |b| ≤ 2 ^ (1010 : ℤ) :=
  (_root_.max_le h.la h.lb).trans (two_zpow_le (by norm_num))

theorem Scale.lt {a b : ℚ} {L : ℤ} (h : Scale a b L) : 0 < b - a := (two_zpow_pos _).trans_le h.len

theorem Scale.le_max {a b : ℚ} {L : ℤ} (h : Scale a b L) : b - a ≤ 2 * max |a| |b| := by
  have h1 := (abs_le.1 (_root_.le_max_left |a| |b|)).1
  have h2 := (abs_le.1 (_root_.le_max_right |a| |b|)).2
  linarith

/-- **C176, the accuracy of the points**: relative to the larger end. -/
theorem C176_accuracy (a b : ℚ) (L : ℤ) (h : Scale a b L) (i : ℤ) (h0 : 0 ≤ i) (h1 : i < L) :
    ∃ v, toValue a b L i = some v ∧ IsDouble v ∧ |v - point a b L i| ≤ max |a| |b| * 2 ^ (-50 : ℤ) := by
  obtain ⟨hn1, hn45⟩ := many_cast h
  have hw := weight_bounds h0 h1
  have hL := h.two
  have hmany := h.many
  obtain ⟨v, hv, hd, herr⟩ := combine_err (x := a) (y := b) (_root_.le_max_left |a| |b|) (_root_.le_max_right |a| |b|) h.max_le hw.1 hw.2
  refine ⟨v, (toValue_eq hL h0 h1).trans hv, hd, ?_⟩
  have hlm := h.le_max
  have hlt := h.lt
  -- the weight
  have hwe : |weight L i - i / (L - 1)| ≤ 1 / 9007199254740992 + 2 ^ (-1074 : ℤ) := by
    unfold weight
    rw [rnd_rep (rep_count h0 (by omega)), rnd_rep (rep_count (by omega) hmany)]
    have hc : ((L - 1 : ℤ) : ℚ) = (L : ℚ) - 1 := by push_cast; ring
    rw [hc]
    have hq0 : 0 ≤ (i : ℚ) / ((L : ℚ) - 1) := div_nonneg (by exact_mod_cast h0) (by linarith)
    have hq1 : (i : ℚ) / ((L : ℚ) - 1) ≤ 1 := by
      rw [div_le_one (by linarith)]
      have : (i : ℚ) ≤ ((L - 1 : ℤ) : ℚ) := by exact_mod_cast (by omega : i ≤ L - 1)
      rwa [hc] at this
    have := rnd_err_abs ((i : ℚ) / ((L : ℚ) - 1))
    rw [abs_of_nonneg hq0] at this
    refine this.trans (add_le_add_left ?_ _)
    nlinarith
  have hpt : a * (1 - weight L i) + b * weight L i - point a b L i = (b - a) * (weight L i - i / (L - 1)) := by
    unfold point
    have : (L : ℚ) - 1 ≠ 0 := by linarith
    field_simp
    ring
  have hA : (2 : ℚ) ^ (-901 : ℤ) ≤ max |a| |b| := by
    have h3 := h.len
    have : (2 : ℚ) ^ (-900 : ℤ) = 2 * 2 ^ (-901 : ℤ) := by rw [show (-900 : ℤ) = 1 + -901 by norm_num, two_zpow_add]; norm_num
    rw [this] at h3
    linarith
  have hsmall : (2 : ℚ) ^ (-1074 : ℤ) ≤ max |a| |b| * (1 / 2 ^ 100) := by
    calc (2 : ℚ) ^ (-1074 : ℤ) ≤ 2 ^ (-1001 : ℤ) := two_zpow_le (by norm_num)
      _ = 2 ^ (-901 : ℤ) * (1 / 2 ^ 100) := by
        rw [show (-1001 : ℤ) = -901 + -100 by norm_num, two_zpow_add]
        norm_num
      _ ≤ _ := mul_le_mul_of_nonneg_right hA (by norm_num)
  have htiny := tiny_le
  have htiny0 := two_zpow_pos (-1074)
  have hA0 : 0 < max |a| |b| := (two_zpow_pos _).trans_le hA
  generalize max |a| |b| = A at *
  have hpe : |a * (1 - weight L i) + b * weight L i - point a b L i| ≤ 2 * A * (1 / 9007199254740992 + 2 ^ (-1074 : ℤ)) := by
    rw [hpt, abs_mul, abs_of_pos hlt]
    exact mul_le_mul hlm hwe (abs_nonneg _) (by linarith)
  have hpe2 : 2 * A * (1 / 9007199254740992 + 2 ^ (-1074 : ℤ)) ≤ A * (2 / 9007199254740992 + 1 / 2 ^ 100) := by
    have h6 : (1 : ℚ) / 2 ^ 200 ≤ 1 / 2 ^ 100 / 2 := by norm_num
    have : (1 : ℚ) / 9007199254740992 + 2 ^ (-1074 : ℤ) ≤ 1 / 9007199254740992 + 1 / 2 ^ 100 / 2 := by linarith
    have := mul_le_mul_of_nonneg_left this (by linarith : 0 ≤ 2 * A)
    linarith
  rw [show (2 : ℚ) ^ (-50 : ℤ) = 8 / 9007199254740992 by norm_num]
  have htot := abs_sub_le v (a * (1 - weight L i) + b * weight L i) (point a b L i)
  have h7 : A * (1 / 2 ^ 100) ≤ A * (1 / 5 / 9007199254740992) := mul_le_mul_of_nonneg_left (by norm_num) hA0.le
  generalize (2 : ℚ) ^ (-1074 : ℤ) = e at *
  generalize (1 : ℚ) / 2 ^ 100 = e1 at *
  linarith

/-- points that are separated by more than the rounding errors -/
def Resolved (a b : ℚ) (L : ℤ) : Prop := ((L : ℚ) - 1) * max |a| |b| ≤ 2 ^ 45 * (b - a)

/-- an interval that contains zero is resolved -/
theorem resolved_of_zero {a b : ℚ} {L : ℤ} (h : Scale a b L) (ha : a ≤ 0) (hb : 0 ≤ b) : Resolved a b L := by
  obtain ⟨hn1, hn45⟩ := many_cast h
  unfold Resolved
  have hm : max |a| |b| ≤ b - a := by
    rw [abs_of_nonpos ha, abs_of_nonneg hb]
    exact _root_.max_le (by linarith) (by linarith)
  calc ((L : ℚ) - 1) * max |a| |b| ≤ 35184372088832 * (b - a) := mul_le_mul hn45 hm (le_trans (abs_nonneg a) (_root_.le_max_left _ _)) (by norm_num)
    _ = 2 ^ 45 * (b - a) := by norm_num

/-- the error in units of the step -/
theorem resolved_err {a b : ℚ} {L : ℤ} (h : Scale a b L) (hr : Resolved a b L) {v : ℚ} {i : ℤ} (he : |v - point a b L i| ≤ max |a| |b| * 2 ^ (-50 : ℤ)) :
    |(v - a) / (b - a) * (L - 1) - i| ≤ 1 / 32 := by
  obtain ⟨hn1, hn45⟩ := many_cast h
  have hlt := h.lt
  have hn0 : (L : ℚ) - 1 ≠ 0 := by linarith
  have : (v - a) / (b - a) * (L - 1) - i = (v - point a b L i) * (((L : ℚ) - 1) / (b - a)) := by
    unfold point
    field_simp
    ring
  rw [this, abs_mul, abs_of_pos (div_pos (by linarith) hlt)]
  calc |v - point a b L i| * (((L : ℚ) - 1) / (b - a)) ≤ (max |a| |b| * 2 ^ (-50 : ℤ)) * (((L : ℚ) - 1) / (b - a)) :=
        mul_le_mul_of_nonneg_right he (div_pos (by linarith) hlt).le
    _ = (((L : ℚ) - 1) * max |a| |b|) * 2 ^ (-50 : ℤ) / (b - a) := by ring
    _ ≤ (2 ^ 45 * (b - a)) * 2 ^ (-50 : ℤ) / (b - a) := by
        refine div_le_div_of_nonneg_right (mul_le_mul_of_nonneg_right hr (two_zpow_pos _).le) hlt.le
    _ = 1 / 32 := by
        rw [show (2 : ℚ) ^ (-50 : ℤ) = 1 / 1125899906842624 by norm_num]
        field_simp
        norm_num

/-- **C176, different points have different values**, in the order of the indices. -/
theorem C176_strict (a b : ℚ) (L : ℤ) (h : Scale a b L) (hr : Resolved a b L) (i j : ℤ) (h0 : 0 ≤ i) (hij : i < j) (hj : j < L) (v w : ℚ)
    (hv : toValue a b L i = some v) (hw : toValue a b L j = some w) : v < w := by
  obtain ⟨v', e1, _, g1⟩ := C176_accuracy a b L h i h0 (by omega)
  obtain ⟨w', e2, _, g2⟩ := C176_accuracy a b L h j (by omega) hj
  rw [hv] at e1; rw [hw] at e2
  cases e1; cases e2
  have k1 := (abs_le.1 (resolved_err h hr g1)).2
  have k2 := (abs_le.1 (resolved_err h hr g2)).1
  obtain ⟨hn1, hn45⟩ := many_cast h
  have hlt := h.lt
  have hij' : (i : ℚ) + 1 ≤ j := by exact_mod_cast hij
  by_contra hc
  rw [not_lt] at hc
  have : (w - a) / (b - a) * ((L : ℚ) - 1) ≤ (v - a) / (b - a) * (L - 1) :=
    mul_le_mul_of_nonneg_right (div_le_div_of_nonneg_right (by linarith) hlt.le) (by linarith)
  linarith

/-- **C176, round trip**: the nearest point of the value of a point is the point, as long as that value is in the interval. -/
theorem C176_round_trip (a b : ℚ) (L : ℤ) (h : Scale a b L) (hr : Resolved a b L) (i : ℤ) (h0 : 0 ≤ i) (h1 : i < L) (v : ℚ)
    (hv : toValue a b L i = some v) (hva : a ≤ v) (hvb : v ≤ b) : toIndex a b L v = some i := by
  obtain ⟨v', e1, hd, g1⟩ := C176_accuracy a b L h i h0 h1
  rw [hv] at e1
  cases e1
  obtain ⟨s, hs, hs0, herr, _, _⟩ := toIndex_spec h hd hva hvb
  obtain ⟨hn1, hn45⟩ := many_cast h
  have k := resolved_err h hr g1
  rw [hs]
  congr 1
  rw [Int.floor_eq_iff]
  generalize (v - a) / (b - a) * ((L : ℚ) - 1) = p at *
  rw [abs_le] at herr k
  constructor <;> linarith [herr.1, herr.2, k.1, k.2]

/-- **C176, round trip of an interval that contains zero**, such as imaginary times and symmetric windows: for every point. -/
theorem C176_round_trip_zero (a b : ℚ) (L : ℤ) (h : Scale a b L) (ha : a ≤ 0) (hb : 0 ≤ b) (i : ℤ) (h0 : 0 ≤ i) (h1 : i < L) :
    ∃ v, toValue a b L i = some v ∧ toIndex a b L v = some i := by
  obtain ⟨v, w, hv, hw, _, k1, k2, k3⟩ := C176_order a b L h.da h.db ha hb h.two i i h0 (le_refl _) h1
  exact ⟨v, hv, C176_round_trip a b L h (resolved_of_zero h ha hb) i h0 h1 v hv k1 (k2.trans k3)⟩

/-- **C176, the interpolation** never leaves the mesh, its weights are in the unit interval, and its position is right up to `L 2^-49` steps. -/
theorem C176_bracket (a b : ℚ) (L : ℤ) (h : Scale a b L) (x : ℚ) (hx : IsDouble x) (h0 : a ≤ x) (h1 : x ≤ b) :
    ∃ i w, bracket a b L x = some (i, w) ∧ 0 ≤ i ∧ i + 1 < L ∧ 0 ≤ w ∧ w ≤ 1 ∧
      |i + w - (x - a) / (b - a) * (L - 1)| ≤ L * 2 ^ (-49 : ℤ) ∧ (x = a → i = 0 ∧ w = 0) := by
  obtain ⟨t, ht, ht0, herr, hp0, hpn⟩ := position_spec h hx h0 h1
  obtain ⟨hn1, hn45⟩ := many_cast h
  have hL := h.two
  have hmany := h.many
  have htiny : (2 : ℚ) ^ (-1074 : ℤ) ≤ 1 / 9007199254740992 := tiny_le.trans (by norm_num)
  have htiny0 := two_zpow_pos (-1074)
  have hzero : x = a → t = 0 := by
    intro hxa
    subst hxa
    obtain ⟨d, hd, _⟩ := deltaInv_spec h
    unfold position at ht
    have hf0 : fin 0 = some 0 := by
      have := fin_of_le (x := 0) (e := 0) (by norm_num) (by norm_num) (by norm_num)
      rwa [rnd_zero] at this
    rw [sub_self, hf0, hd] at ht
    simp only [zero_mul] at ht
    rw [hf0] at ht
    cases ht
    rfl
  have herr' := rnd_err_abs (t - ((min ⌊t⌋ (L - 2) : ℤ) : ℚ))
  generalize (2 : ℚ) ^ (-1074 : ℤ) = e at *
  have ht46 : t < 2 ^ 63 := by
    rw [abs_le] at herr
    linarith [herr.2]
  have hfl := Int.floor_le t
  have hfu := Int.lt_floor_add_one t
  have hf0 : 0 ≤ ⌊t⌋ := Int.floor_nonneg.2 ht0
  have hmin0 : 0 ≤ min ⌊t⌋ (L - 2) := le_min hf0 (by omega)
  have hminL : min ⌊t⌋ (L - 2) ≤ L - 2 := min_le_right _ _
  have hminq : ((min ⌊t⌋ (L - 2) : ℤ) : ℚ) ≤ t := le_trans (by exact_mod_cast min_le_left _ _) hfl
  have hrm : rnd ((min ⌊t⌋ (L - 2) : ℤ) : ℚ) = ((min ⌊t⌋ (L - 2) : ℤ) : ℚ) := rnd_rep (rep_count hmin0 (by omega))
  refine ⟨min ⌊t⌋ (L - 2), min (rnd (t - ((min ⌊t⌋ (L - 2) : ℤ) : ℚ))) 1, ?_, hmin0, by omega, ?_, min_le_right _ _, ?_, ?_⟩
  · unfold bracket
    rw [if_pos ⟨⟨h0, h1⟩, by omega⟩, max_eq_left h0, ht]
    simp only
    rw [toLong_some ht0 ht46]
    simp only
    rw [hrm]
  · exact le_min (rnd_nonneg (by linarith)) (by norm_num)
  · rw [show (2 : ℚ) ^ (-49 : ℤ) = 16 / 9007199254740992 by norm_num]
    by_cases hc : ⌊t⌋ ≤ L - 2
    · rw [min_eq_left hc] at herr' ⊢
      have hu : rnd (t - (⌊t⌋ : ℚ)) ≤ 1 := rnd_le rep_one (by linarith)
      rw [min_eq_left hu]
      rw [abs_of_nonneg (by linarith : 0 ≤ t - (⌊t⌋ : ℚ))] at herr'
      rw [abs_le] at herr herr' ⊢
      constructor <;> linarith [herr.1, herr.2, herr'.1, herr'.2]
    · have hc' : L - 1 ≤ ⌊t⌋ := by omega
      have hcq : (L : ℚ) - 1 ≤ t := by
        have : ((L - 1 : ℤ) : ℚ) ≤ (⌊t⌋ : ℚ) := by exact_mod_cast hc'
        push_cast at this
        linarith
      rw [min_eq_right (by omega : L - 2 ≤ ⌊t⌋)]
      push_cast
      have hu : 1 ≤ rnd (t - ((L : ℚ) - 2)) := le_rnd rep_one (by linarith)
      rw [min_eq_right hu]
      rw [abs_le] at herr ⊢
      constructor <;> linarith [herr.1, herr.2]
  · intro hxa
    have := hzero hxa
    subst this
    have : min ⌊(0 : ℚ)⌋ (L - 2) = 0 := by
      rw [Int.floor_zero]
      exact min_eq_left (by omega)
    rw [this]
    refine ⟨rfl, ?_⟩
    rw [Int.cast_zero, sub_zero, rnd_zero]
    norm_num

/-- **C176, interpolated data**: bounded data give a finite number, which is the linear interpolation of the two neighbouring points up to rounding; at the lower end it
is exactly the first one. -/
theorem C176_evaluate (a b : ℚ) (L : ℤ) (h : Scale a b L) (f : ℤ → ℚ) (A : ℚ) (hA : A ≤ 2 ^ (1010 : ℤ)) (hf : ∀ i, 0 ≤ i → i < L → IsDouble (f i) ∧ |f i| ≤ A)
    (x : ℚ) (hx : IsDouble x) (h0 : a ≤ x) (h1 : x ≤ b) :
    ∃ y i w, evaluate a b L f x = some y ∧ IsDouble y ∧ 0 ≤ i ∧ i + 1 < L ∧ 0 ≤ w ∧ w ≤ 1 ∧ |i + w - (x - a) / (b - a) * (L - 1)| ≤ L * 2 ^ (-49 : ℤ) ∧
      |y - (f i * (1 - w) + f (i + 1) * w)| ≤ A * 2 ^ (-50 : ℤ) + 2 ^ (-1072 : ℤ) ∧ (x = a → y = f 0) := by
  obtain ⟨i, w, hb, hi0, hi1, hw0, hw1, hp, hz⟩ := C176_bracket a b L h x hx h0 h1
  obtain ⟨di, ai⟩ := hf i hi0 (by omega)
  obtain ⟨dj, aj⟩ := hf (i + 1) (by omega) hi1
  obtain ⟨y, hy, hd, he⟩ := combine_err ai aj hA hw0 hw1
  have hev : evaluate a b L f x = some y := by
    unfold evaluate
    rw [hb]
    exact hy
  refine ⟨y, i, w, hev, hd, hi0, hi1, hw0, hw1, hp, he.trans ?_, ?_⟩
  · have hA0 : 0 ≤ A := (abs_nonneg _).trans ai
    have e1 : (4 : ℚ) * 2 ^ (-1074 : ℤ) = 2 ^ (-1072 : ℤ) := by rw [show (-1072 : ℤ) = 2 + -1074 by norm_num, two_zpow_add]; norm_num
    rw [e1, show (2 : ℚ) ^ (-50 : ℤ) = 8 / 9007199254740992 by norm_num]
    refine add_le_add_left (mul_le_mul_of_nonneg_left (by norm_num) hA0) _
  · intro hxa
    obtain ⟨z1, z2⟩ := hz hxa
    subst z1; subst z2
    rw [combine_zero _ di] at hy
    cases hy
    rfl

/-- **C176, a mesh of one point** has no nearest point: `0 * infinity` is converted to an integer. -/
theorem C176_single (a b x : ℚ) : toIndex a b 1 x = none := by
  unfold toIndex position deltaInv delta
  simp only [if_true]
  split
  · cases fin (x - a) <;> rfl
  · rfl

/-! ### Examples -/

/-- imaginary times from zero to ten -/
theorem exScale : Scale 0 10 1001 where
  da := ⟨rep_zero, by rw [abs_zero]; positivity⟩
  db := ⟨by exact_mod_cast rep_int (n := 10) (by norm_num), by
    rw [abs_of_pos (by norm_num)]
    calc (10 : ℚ) ≤ 2 ^ (4 : ℤ) := by norm_num
      _ < 2 ^ 1024 := big_lt (by norm_num)⟩
  len := by
    calc (2 : ℚ) ^ (-900 : ℤ) ≤ 2 ^ (0 : ℤ) := two_zpow_le (by norm_num)
      _ ≤ 10 - 0 := by norm_num
  la := by rw [abs_zero]; exact (two_zpow_pos _).le
  lb := by
    rw [abs_of_pos (by norm_num)]
    calc (10 : ℚ) ≤ 2 ^ (4 : ℤ) := by norm_num
      _ ≤ 2 ^ (1000 : ℤ) := two_zpow_le (by norm_num)
  two := by norm_num
  many := by norm_num

/-- the point 7 is not exactly 0.07 but the double next to it, and it is found again -/
example : toValue 0 10 1001 7 = some (rnd (7 / 100)) ∧ rnd (7 / 100) ≠ 7 / 100 ∧ toIndex 0 10 1001 (rnd (7 / 100)) = some 7 := by decide +kernel

/-- interpolation of the squares half way between two points -/
example : evaluate 0 10 11 (fun i : ℤ => (i : ℚ) ^ 2) (5 / 2) = some (13 / 2) := by decide +kernel

example : ∃ v, toValue 0 10 1001 999 = some v ∧ toIndex 0 10 1001 v = some 999 :=
  C176_round_trip_zero 0 10 1001 exScale (by norm_num) (by norm_num) 999 (by norm_num) (by norm_num)

end Verif.LinearDouble
