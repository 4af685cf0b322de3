import Verif.Float.Legendre
import Verif.Float.Jackknife
import Mathlib.Analysis.Real.Sqrt

/-!
# Legendre functions in imaginary time in double precision

C58 and C111 are about exact arithmetic and C198 about the polynomials. Here sums over Legendre coefficients are computed with the rounding of the machine: the evaluation at a time, the transformation to a mesh of times, and the density.

Source: `/repo/c++/triqs/mesh/legendre.hpp` (169-174), `/repo/c++/triqs/mesh/utils.hpp` (88-94), `/repo/c++/triqs/gfs/transform/legendre_matsubara.hpp` (62-68), `/repo/c++/triqs/gfs/functions/density.cpp` (197-207).

The data are real, or the real or imaginary parts of one element of complex data: all other factors are real, so the operations act on the parts. `std::sqrt` is a table of doubles; that they are roots up to rounding is a hypothesis of the theorems,
which holds for the IEEE operation. `none` means that a number is not finite.
-/

namespace Verif.LegendreSum

open Binary64 LinearDouble JackknifeDouble
open LegendreDouble (call argument)
open Legendre (P)

/-! ## Model -/

/-- a term of `evaluate`, mesh/legendre.hpp:173: the operations from left to right; `s` is `std::sqrt(2 * l + 1)` and `c` the value of the polynomial -/
def term (beta f s c : ℚ) : Option ℚ := (fin (f * s)).bind fun a => (fin (a * c)).bind fun b => fin (b / beta)

/-- a term of `legendre_matsubara_direct`, legendre_matsubara.hpp:67 -/
def termDirect (beta f s c : ℚ) : Option ℚ := (fin (s / beta)).bind fun a => (fin (a * f)).bind fun b => fin (b * c)

/-- the loops add terms one after the other -/
def addTerms (z : ℚ) : List (Option ℚ) → Option ℚ
  | [] => some z
  | o :: l => o.bind fun t => (fin (z + t)).bind fun z' => addTerms z' l

/-- `sum_to_regular`, mesh/utils.hpp:88-94; `none` for no terms, which `EXPECTS` excludes (mesh/legendre.hpp:170) -/
def sumTerms : List (Option ℚ) → Option ℚ
  | [] => none
  | o :: l => o.bind fun t => addTerms t l

/-- `evaluate(m, f, tau)` for a mesh of size `n`, mesh/legendre.hpp:169-174 -/
def evaluate (s : ℕ → ℚ) (beta tau : ℚ) (n : ℕ) (f : ℕ → ℚ) : Option ℚ :=
  sumTerms ((List.range n).map fun l => term beta (f l) (s l) (call (argument beta tau) l))

/-- one time of `legendre_matsubara_direct`, legendre_matsubara.hpp:62-68 -/
def direct (s : ℕ → ℚ) (beta tau : ℚ) (n : ℕ) (f : ℕ → ℚ) : Option ℚ :=
  addTerms 0 ((List.range n).map fun l => termDirect beta (f l) (s l) (call (argument beta tau) l))

/-- an element of `density`, density.cpp:197-207, before the transposition -/
def density (s : ℕ → ℚ) (beta : ℚ) (n : ℕ) (f : ℕ → ℚ) : Option ℚ :=
  (addTerms 0 ((List.range n).map fun l => (fin (s l * f l)).map fun t => -t)).bind fun r => fin (r / beta)

/-! ## Specification -/

/-- the table of roots has a relative error of at most one rounding -/
def Roots (s : ℕ → ℚ) (n : ℕ) : Prop := ∀ l < n, |(s l : ℝ) - √(2 * l + 1)| ≤ √(2 * l + 1) * 2 ^ (-53 : ℤ)

/-- the function with Legendre coefficients `f`, from the polynomials of Rodrigues -/
noncomputable def G (beta tau : ℚ) (n : ℕ) (f : ℕ → ℚ) : ℝ :=
  ∑ l ∈ Finset.range n, f l * √(2 * l + 1) * ((P ℚ l).eval (2 * tau / beta - 1) : ℚ) / beta

/-! ## Proofs -/

theorem op {x k W : ℚ} (hW0 : 2 ^ (-850 : ℤ) ≤ W) (hW1 : W ≤ 2 ^ (850 : ℤ)) (hk : 1 ≤ k) (hk4 : k ≤ 4) (h : |x| ≤ k * W) :
    fin x = some (rnd x) ∧ |rnd x - x| ≤ k * W * (9 / 8 * (1 / 9007199254740992)) := by
  have hW : 0 < W := (two_zpow_pos _).trans_le hW0
  constructor
  · refine fin_of_le (e := 852) (h.trans ?_) (by norm_num) (by norm_num)
    rw [show (852 : ℤ) = 2 + 850 by norm_num, two_zpow_add]
    exact mul_le_mul (hk4.trans (by norm_num)) hW1 hW.le (by norm_num)
  · refine (rnd_err_abs x).trans ?_
    have h1 : (2 : ℚ) ^ (-1074 : ℤ) ≤ W * (1 / 8 * (1 / 9007199254740992)) := by
      have h2 : (2 : ℚ) ^ (-850 : ℤ) * 2 ^ (-100 : ℤ) ≤ W * (1 / 8 * (1 / 9007199254740992)) := mul_le_mul hW0 (by norm_num) (two_zpow_pos _).le hW.le
      rw [← two_zpow_add] at h2
      exact (two_zpow_le (by norm_num)).trans h2
    have h3 : |x| * (1 / 9007199254740992) ≤ k * W * (1 / 9007199254740992) := mul_le_mul_of_nonneg_right h (by norm_num)
    have h4 : W ≤ k * W := le_mul_of_one_le_left hW.le hk
    have h5 : W * (1 / 8 * (1 / 9007199254740992)) ≤ k * W * (1 / 8 * (1 / 9007199254740992)) := mul_le_mul_of_nonneg_right h4 (by norm_num)
    linarith

/-- the sizes of the numbers -/
structure Sizes (beta B S : ℚ) : Prop where
  beta0 : 2 ^ (-100 : ℤ) ≤ beta
  beta1 : beta ≤ 2 ^ (100 : ℤ)
  B0 : 2 ^ (-700 : ℤ) ≤ B
  B1 : B ≤ 2 ^ (700 : ℤ)
  S0 : 1 ≤ S
  S1 : S ≤ 2 ^ (12 : ℤ)

theorem div_beta {beta x : ℚ} {e d : ℤ} (h0 : 2 ^ (-100 : ℤ) ≤ beta) (h1 : beta ≤ 2 ^ (100 : ℤ)) (hx0 : 2 ^ e ≤ x) (hx1 : x ≤ 2 ^ d) :
    2 ^ (e - 100) ≤ x / beta ∧ x / beta ≤ 2 ^ (d + 100) := by
  have hb : 0 < beta := (two_zpow_pos _).trans_le h0
  rw [le_div_iff₀ hb, div_le_iff₀ hb]
  constructor
  · refine le_trans ?_ hx0
    refine (mul_le_mul_of_nonneg_left h1 (two_zpow_pos _).le).trans (le_of_eq ?_)
    rw [← two_zpow_add, sub_add_cancel]
  · refine hx1.trans ?_
    refine le_trans (le_of_eq ?_) (mul_le_mul_of_nonneg_left h0 (two_zpow_pos _).le)
    rw [← two_zpow_add, add_neg_cancel_right]

theorem Sizes.bs {beta B S : ℚ} (h : Sizes beta B S) : 2 ^ (-700 : ℤ) ≤ B * S ∧ B * S ≤ 2 ^ (712 : ℤ) := by
  have hB : 0 < B := (two_zpow_pos _).trans_le h.B0
  constructor
  · exact h.B0.trans (le_mul_of_one_le_right hB.le h.S0)
  · rw [show (712 : ℤ) = 700 + 12 by norm_num, two_zpow_add]
    exact mul_le_mul h.B1 h.S1 (by linarith [h.S0]) (two_zpow_pos _).le

theorem Sizes.pos {beta B S : ℚ} (h : Sizes beta B S) : 0 < beta := (two_zpow_pos _).trans_le h.beta0

theorem mul_abs_le {x y X Y : ℚ} (hx : |x| ≤ X) (hy : |y| ≤ Y) : |x * y| ≤ X * Y := by
  rw [abs_mul]
  exact mul_le_mul hx hy (abs_nonneg _) ((abs_nonneg _).trans hx)

theorem abs_of_err {x y X d : ℚ} (h : |y - x| ≤ d) (hx : |x| ≤ X) : |y| ≤ X + d := by
  have := abs_add_le (y - x) x
  rw [sub_add_cancel] at this
  linarith

theorem term_err {beta B S f s c p E : ℚ} (h : Sizes beta B S) (hf : |f| ≤ B) (hs : |s| ≤ S) (hc : |c| ≤ 2) (hp : |c - p| ≤ E) :
    ∃ t, term beta f s c = some t ∧ |t - f * s * p / beta| ≤ B * S / beta * (E + 8 * (1 / 9007199254740992)) := by
  have hb := h.pos
  obtain ⟨w0, w1⟩ := h.bs
  obtain ⟨v0, v1⟩ := div_beta h.beta0 h.beta1 w0 w1
  have w0' : (2 : ℚ) ^ (-850 : ℤ) ≤ B * S := (two_zpow_le (by norm_num)).trans w0
  have w1' : B * S ≤ 2 ^ (850 : ℤ) := w1.trans (two_zpow_le (by norm_num))
  have v0' : (2 : ℚ) ^ (-850 : ℤ) ≤ B * S / beta := (two_zpow_le (by norm_num)).trans v0
  have v1' : B * S / beta ≤ 2 ^ (850 : ℤ) := v1.trans (two_zpow_le (by norm_num))
  have hfs : |f * s| ≤ B * S := mul_abs_le hf hs
  obtain ⟨f1, e1⟩ := op w0' w1' (le_refl 1) (by norm_num) (by rw [one_mul]; exact hfs)
  have hW : 0 < B * S := (two_zpow_pos _).trans_le w0
  have ha : |rnd (f * s)| ≤ B * S * (9 / 8) := (abs_of_err e1 hfs).trans (by
    generalize B * S = W at *
    linarith)
  have hac : |rnd (f * s) * c| ≤ 9 / 4 * (B * S) := (mul_abs_le ha hc).trans (le_of_eq (by ring))
  obtain ⟨f2, e2⟩ := op w0' w1' (by norm_num : (1 : ℚ) ≤ 9 / 4) (by norm_num) hac
  have hbb : |rnd (rnd (f * s) * c)| ≤ 5 / 2 * (B * S) := (abs_of_err e2 hac).trans (by
    generalize B * S = W at *
    linarith)
  have hbd : |rnd (rnd (f * s) * c) / beta| ≤ 5 / 2 * (B * S / beta) := by
    rw [abs_div, abs_of_pos hb, ← mul_div_assoc]
    exact div_le_div_of_nonneg_right hbb hb.le
  obtain ⟨f3, e3⟩ := op v0' v1' (by norm_num : (1 : ℚ) ≤ 5 / 2) (by norm_num) hbd
  refine ⟨rnd (rnd (rnd (f * s) * c) / beta), ?_, ?_⟩
  · unfold term
    rw [f1, Option.bind_some, f2, Option.bind_some, f3]
  · have m1 : |(rnd (f * s) - f * s) * c| ≤ 1 * (B * S) * (9 / 8 * (1 / 9007199254740992)) * 2 := mul_abs_le e1 hc
    have m2 : |f * s * (c - p)| ≤ B * S * E := mul_abs_le hfs hp
    have m3 : |rnd (rnd (f * s) * c) - f * s * p| ≤ B * S * (E + 81 / 32 * (1 / 9007199254740992) + 9 / 4 * (1 / 9007199254740992)) := by
      have e : rnd (rnd (f * s) * c) - f * s * p = (rnd (rnd (f * s) * c) - rnd (f * s) * c) + ((rnd (f * s) - f * s) * c + f * s * (c - p)) := by ring
      rw [e]
      refine (abs_add_le _ _).trans ?_
      refine (add_le_add_right (abs_add_le _ _) _).trans ?_
      generalize B * S = W at *
      linarith
    have m4 : |(rnd (rnd (f * s) * c) - f * s * p) / beta| ≤ B * S / beta * (E + 81 / 32 * (1 / 9007199254740992) + 9 / 4 * (1 / 9007199254740992)) := by
      rw [abs_div, abs_of_pos hb, div_mul_eq_mul_div]
      exact div_le_div_of_nonneg_right m3 hb.le
    have e : rnd (rnd (rnd (f * s) * c) / beta) - f * s * p / beta = (rnd (rnd (rnd (f * s) * c) / beta) - rnd (rnd (f * s) * c) / beta) + (rnd (rnd (f * s) * c) - f * s * p) / beta := by ring
    rw [e]
    refine (abs_add_le _ _).trans ?_
    have hV : 0 < B * S / beta := div_pos hW hb
    generalize B * S / beta = V at *
    linarith

theorem termDirect_err {beta B S f s c p E : ℚ} (h : Sizes beta B S) (hf : |f| ≤ B) (hs : |s| ≤ S) (hc : |c| ≤ 2) (hp : |c - p| ≤ E) :
    ∃ t, termDirect beta f s c = some t ∧ |t - f * s * p / beta| ≤ B * S / beta * (E + 8 * (1 / 9007199254740992)) := by
  have hb := h.pos
  obtain ⟨w0, w1⟩ := h.bs
  obtain ⟨v0, v1⟩ := div_beta h.beta0 h.beta1 w0 w1
  obtain ⟨u0, u1⟩ := div_beta h.beta0 h.beta1 (show (2 : ℚ) ^ (0 : ℤ) ≤ S by rw [zpow_zero]; exact h.S0) h.S1
  have v0' : (2 : ℚ) ^ (-850 : ℤ) ≤ B * S / beta := (two_zpow_le (by norm_num)).trans v0
  have v1' : B * S / beta ≤ 2 ^ (850 : ℤ) := v1.trans (two_zpow_le (by norm_num))
  have hsb : |s / beta| ≤ S / beta := by
    rw [abs_div, abs_of_pos hb]
    exact div_le_div_of_nonneg_right hs hb.le
  obtain ⟨f1, e1⟩ := op ((two_zpow_le (by norm_num)).trans u0) (u1.trans (two_zpow_le (by norm_num))) (le_refl 1) (by norm_num) (by rw [one_mul]; exact hsb)
  have hU : 0 < S / beta := div_pos (by linarith [h.S0]) hb
  have hV : 0 < B * S / beta := (two_zpow_pos _).trans_le v0
  have hSV : S / beta * B = B * S / beta := by ring
  have ha : |rnd (s / beta)| ≤ S / beta * (9 / 8) := (abs_of_err e1 hsb).trans (by
    generalize S / beta = W at *
    linarith)
  have haf : |rnd (s / beta) * f| ≤ 9 / 8 * (B * S / beta) := (mul_abs_le ha hf).trans (le_of_eq (by ring))
  obtain ⟨f2, e2⟩ := op v0' v1' (by norm_num : (1 : ℚ) ≤ 9 / 8) (by norm_num) haf
  have hbb : |rnd (rnd (s / beta) * f)| ≤ 5 / 4 * (B * S / beta) := (abs_of_err e2 haf).trans (by
    generalize B * S / beta = W at *
    linarith)
  have hbc : |rnd (rnd (s / beta) * f) * c| ≤ 5 / 2 * (B * S / beta) := (mul_abs_le hbb hc).trans (le_of_eq (by ring))
  obtain ⟨f3, e3⟩ := op v0' v1' (by norm_num : (1 : ℚ) ≤ 5 / 2) (by norm_num) hbc
  refine ⟨rnd (rnd (rnd (s / beta) * f) * c), ?_, ?_⟩
  · unfold termDirect
    rw [f1, Option.bind_some, f2, Option.bind_some, f3]
  · have m0 : |(rnd (s / beta) - s / beta) * f| ≤ 9 / 8 * (1 / 9007199254740992) * (B * S / beta) := (mul_abs_le e1 hf).trans (le_of_eq (by rw [← hSV]; ring))
    have m1 : |rnd (rnd (s / beta) * f) - f * s / beta| ≤ B * S / beta * (153 / 64 * (1 / 9007199254740992)) := by
      have e : rnd (rnd (s / beta) * f) - f * s / beta = (rnd (rnd (s / beta) * f) - rnd (s / beta) * f) + (rnd (s / beta) - s / beta) * f := by ring
      rw [e]
      refine (abs_add_le _ _).trans ?_
      generalize B * S / beta = V at *
      linarith
    have hfs : |f * s / beta| ≤ B * S / beta := by
      rw [abs_div, abs_of_pos hb]
      exact div_le_div_of_nonneg_right (mul_abs_le hf hs) hb.le
    have m2 : |(rnd (rnd (s / beta) * f) - f * s / beta) * c| ≤ B * S / beta * (153 / 64 * (1 / 9007199254740992)) * 2 := mul_abs_le m1 hc
    have m3 : |f * s / beta * (c - p)| ≤ B * S / beta * E := mul_abs_le hfs hp
    have e : rnd (rnd (rnd (s / beta) * f) * c) - f * s * p / beta = (rnd (rnd (rnd (s / beta) * f) * c) - rnd (rnd (s / beta) * f) * c) + ((rnd (rnd (s / beta) * f) - f * s / beta) * c + f * s / beta * (c - p)) := by ring
    rw [e]
    refine (abs_add_le _ _).trans ?_
    refine (add_le_add_right (abs_add_le _ _) _).trans ?_
    generalize B * S / beta = V at *
    linarith

theorem addTerms_some (l : List ℚ) (z : ℚ) : addTerms z (l.map some) = sumLoop z l := by
  induction l generalizing z with
  | nil => rfl
  | cons x l ih =>
    conv_rhs => unfold sumLoop
    rw [List.map_cons, addTerms, Option.bind_some]
    generalize fin (z + x) = o
    cases o with
    | none => rfl
    | some y => exact ih y

theorem sumTerms_some (l : List ℚ) : sumTerms (l.map some) = total l := by
  cases l with
  | nil => rfl
  | cons x l => exact addTerms_some l x

theorem list_close {α : Type} {E : ℚ} (l : List α) (g h : α → ℚ) (hE : ∀ x ∈ l, |g x - h x| ≤ E) : |(l.map g).sum - (l.map h).sum| ≤ l.length * E := by
  induction l with
  | nil => simp
  | cons x l ih =>
    have h1 := ih fun y hy => hE y (by simp [hy])
    have h2 := hE x (by simp)
    rw [List.map_cons, List.sum_cons, List.map_cons, List.sum_cons, List.length_cons]
    push_cast
    rw [show g x + (l.map g).sum - (h x + (l.map h).sum) = (g x - h x) + ((l.map g).sum - (l.map h).sum) by ring]
    refine (abs_add_le _ _).trans ?_
    linarith

/-- sums of terms that are close to other numbers -/
theorem sums {V : ℚ} (hV0 : 2 ^ (-850 : ℤ) ≤ V) (hV1 : V ≤ 2 ^ (850 : ℤ)) {n : ℕ} (hn : n < 2 ^ 20) {T : ℕ → Option ℚ} {v : ℕ → ℚ} {E : ℚ} (hE : E ≤ V)
    (h : ∀ l < n, |v l| ≤ V ∧ ∃ t, T l = some t ∧ |t - v l| ≤ E) :
    (∃ r, addTerms 0 ((List.range n).map T) = some r ∧ |r - ((List.range n).map v).sum| ≤ ((n : ℚ) + 1) ^ 2 * (2 * V / 9007199254740992) + n * E) ∧
    (1 ≤ n → ∃ r, sumTerms ((List.range n).map T) = some r ∧ |r - ((List.range n).map v).sum| ≤ (n : ℚ) ^ 2 * (2 * V / 9007199254740992) + n * E) := by
  have hV : 0 < V := (two_zpow_pos _).trans_le hV0
  have hA0 : (2 : ℚ) ^ (-900 : ℤ) ≤ 2 * V := (two_zpow_le (by norm_num)).trans (hV0.trans (by linarith))
  have hA1 : 2 * V ≤ 2 ^ (900 : ℤ) := by
    refine le_trans ?_ (two_zpow_le (by norm_num : (851 : ℤ) ≤ 900))
    rw [show (851 : ℤ) = 1 + 850 by norm_num, zpow_add₀ (by norm_num), zpow_one]
    exact mul_le_mul_of_nonneg_left hV1 (by norm_num)
  choose! t ht using fun l hl => (h l hl).2
  have hmap : (List.range n).map T = ((List.range n).map t).map some := by
    rw [List.map_map]
    exact List.map_congr_left fun l hl => (ht l (List.mem_range.1 hl)).1
  have hsize : ∀ x ∈ (List.range n).map t, |x| ≤ 2 * V := by
    intro x hx
    obtain ⟨l, hl, rfl⟩ := List.mem_map.1 hx
    have hl := List.mem_range.1 hl
    have := abs_of_err (ht l hl).2 (h l hl).1
    linarith
  have hclose : |((List.range n).map t).sum - ((List.range n).map v).sum| ≤ n * E := by
    have := list_close (List.range n) t v (fun l hl => (ht l (List.mem_range.1 hl)).2)
    rwa [List.length_range] at this
  rw [hmap]
  constructor
  · rw [addTerms_some]
    obtain ⟨r, h1, h2, -⟩ := sumLoop_err hA0 hA1 ((List.range n).map t) 0 0 1 (le_refl _) (by rw [List.length_map, List.length_range]; omega) (by rw [abs_zero, Nat.cast_one]; linarith) (by rw [sub_zero, abs_zero]; positivity) hsize
    refine ⟨r, h1, ?_⟩
    rw [zero_add, List.length_map, List.length_range] at h2
    push_cast at h2
    rw [show r - ((List.range n).map v).sum = (r - ((List.range n).map t).sum) + (((List.range n).map t).sum - ((List.range n).map v).sum) by ring, add_comm (n : ℚ) 1]
    exact (abs_add_le _ _).trans (add_le_add h2 hclose)
  · intro hn1
    rw [sumTerms_some]
    have hlen : ((List.range n).map t).length = n := by rw [List.length_map, List.length_range]
    generalize (List.range n).map t = ts at hsize hclose hlen ⊢
    cases ts with
    | nil =>
      rw [List.length_nil] at hlen
      omega
    | cons x ts =>
      rw [List.length_cons] at hlen
      obtain ⟨r, h1, h2, -⟩ := sumLoop_err hA0 hA1 ts x x 1 (le_refl _) (by omega) (by rw [Nat.cast_one, one_mul]; exact hsize x (by simp)) (by rw [sub_self, abs_zero]; positivity) (fun y hy => hsize y (by simp [hy]))
      refine ⟨r, h1, ?_⟩
      rw [show 1 + ts.length = n by omega, ← List.sum_cons] at h2
      rw [show r - ((List.range n).map v).sum = (r - (x :: ts).sum) + ((x :: ts).sum - ((List.range n).map v).sum) by ring]
      exact (abs_add_le _ _).trans (add_le_add h2 hclose)

/-- the size of the roots -/
theorem roots_le {s : ℕ → ℚ} {n : ℕ} {S : ℚ} (hr : Roots s n) (hn : n < 2 ^ 20) (hS0 : 0 ≤ S) (hS : 2 * (n : ℚ) ≤ S ^ 2) : ∀ l < n, |s l| ≤ S ∧ √(2 * l + 1) ≤ S := by
  intro l hl
  have hln : (l : ℝ) + 1 ≤ n := by exact_mod_cast hl
  have hl0 : (0 : ℝ) ≤ l := Nat.cast_nonneg l
  have hn2 : (n : ℝ) ≤ 1048576 := by exact_mod_cast hn.le
  have hSr : 2 * (n : ℝ) ≤ (S : ℝ) ^ 2 := by exact_mod_cast hS
  have hSr0 : (0 : ℝ) ≤ S := by exact_mod_cast hS0
  have hq0 : 0 ≤ √(2 * (l : ℝ) + 1) := Real.sqrt_nonneg _
  have hq2 : √(2 * (l : ℝ) + 1) ^ 2 = 2 * l + 1 := Real.sq_sqrt (by linarith)
  have h1 : √(2 * (l : ℝ) + 1) * (1 + 1 / 9007199254740992) ≤ S := by
    refine abs_le_of_sq_le_sq' ?_ hSr0 |>.2
    rw [mul_pow, hq2]
    refine le_trans ?_ hSr
    have : (1 + 1 / 9007199254740992 : ℝ) ^ 2 ≤ 1 + 1 / 4194304 := by norm_num
    have h3 : (2 * (l : ℝ) + 1) * (1 + 1 / 9007199254740992) ^ 2 ≤ (2 * l + 1) * (1 + 1 / 4194304) := mul_le_mul_of_nonneg_left this (by linarith)
    linarith
  have h2 := hr l hl
  rw [show (2 : ℝ) ^ (-53 : ℤ) = 1 / 9007199254740992 by norm_num] at h2
  constructor
  · have h3 : |(s l : ℝ)| ≤ S := by
      have h4 := abs_add_le ((s l : ℝ) - √(2 * l + 1)) (√(2 * l + 1))
      rw [sub_add_cancel, abs_of_nonneg hq0] at h4
      linarith
    exact_mod_cast h3
  · linarith

theorem list_sum (n : ℕ) (v : ℕ → ℚ) : ((((List.range n).map v).sum : ℚ) : ℝ) = ∑ l ∈ Finset.range n, (v l : ℝ) := by
  induction n with
  | zero => simp
  | succ n ih => rw [List.range_succ, List.map_append, List.sum_append, Finset.sum_range_succ, ← ih]; simp

/-- the error of the table of roots -/
theorem roots_close {s : ℕ → ℚ} {n : ℕ} {S B beta : ℚ} {f p : ℕ → ℚ} (hr : Roots s n) (hn : n < 2 ^ 20) (hb : 0 < beta) (hS0 : 0 ≤ S) (hS : 2 * (n : ℚ) ≤ S ^ 2) (hf : ∀ l < n, |f l| ≤ B) (hp : ∀ l < n, |p l| ≤ 1) :
    |((((List.range n).map fun l => f l * s l * p l / beta).sum : ℚ) : ℝ) - ∑ l ∈ Finset.range n, f l * √(2 * l + 1) * (p l : ℚ) / beta| ≤ n * (B * S / beta) * 2 ^ (-53 : ℤ) := by
  rw [list_sum, ← Finset.sum_sub_distrib]
  refine (Finset.abs_sum_le_sum_abs _ _).trans ?_
  have hbr : (0 : ℝ) < beta := by exact_mod_cast hb
  have : ∀ l ∈ Finset.range n, |((f l * s l * p l / beta : ℚ) : ℝ) - f l * √(2 * l + 1) * (p l : ℚ) / beta| ≤ B * S / beta * 2 ^ (-53 : ℤ) := by
    intro l hl
    have hl := Finset.mem_range.1 hl
    have h1 : |(f l : ℝ)| ≤ B := by exact_mod_cast hf l hl
    have h2 : |(p l : ℝ)| ≤ 1 := by exact_mod_cast hp l hl
    have h3 := hr l hl
    have h4 := (roots_le hr hn hS0 hS l hl).2
    have hB : (0 : ℝ) ≤ B := (abs_nonneg _).trans h1
    push_cast
    rw [show (f l : ℝ) * s l * p l / beta - f l * √(2 * l + 1) * p l / beta = f l * (s l - √(2 * l + 1)) * p l / beta by ring, abs_div, abs_of_pos hbr, abs_mul, abs_mul, div_mul_eq_mul_div]
    refine div_le_div_of_nonneg_right ?_ hbr.le
    have h5 : |(s l : ℝ) - √(2 * l + 1)| ≤ S * 2 ^ (-53 : ℤ) := h3.trans (mul_le_mul_of_nonneg_right h4 (by positivity))
    calc |(f l : ℝ)| * |(s l : ℝ) - √(2 * l + 1)| * |(p l : ℝ)| ≤ B * (S * 2 ^ (-53 : ℤ)) * 1 := by
          refine mul_le_mul (mul_le_mul h1 h5 (abs_nonneg _) hB) h2 (abs_nonneg _) ?_
          exact mul_nonneg hB ((abs_nonneg _).trans h5)
      _ = _ := by ring
  refine (Finset.sum_le_sum this).trans (le_of_eq ?_)
  rw [Finset.sum_const, Finset.card_range, nsmul_eq_mul]
  ring

/-- the polynomials -/
theorem poly {beta tau : ℚ} (hb : 0 < beta) (h0 : 0 ≤ tau) (h1 : tau ≤ beta) (hr : Rep tau) (hrb : Rep beta) {n l : ℕ} (hn : n < 2 ^ 20) (hl : l < n) :
    |call (argument beta tau) l| ≤ 2 ∧ |(P ℚ l).eval (2 * tau / beta - 1)| ≤ 1 ∧ |call (argument beta tau) l - (P ℚ l).eval (2 * tau / beta - 1)| ≤ (16 * (n : ℚ) ^ 2 - 16) / 9007199254740992 := by
  have hln : (l : ℚ) + 1 ≤ n := by exact_mod_cast hl
  have hl0 : (0 : ℚ) ≤ l := Nat.cast_nonneg l
  have ha := (LegendreDouble.C198_argument hb h0 h1 hr hrb).1
  have hx : |2 * tau / beta - 1| ≤ 1 := by
    have hq0 : 0 ≤ 2 * tau / beta := by positivity
    have hq2 : 2 * tau / beta ≤ 2 := by rw [div_le_iff₀ hb]; linarith
    rw [abs_le]
    constructor <;> linarith
  refine ⟨LegendreDouble.C198_bounded ha (by omega), (LegendreDouble.P_form _ hx l).1, (LegendreDouble.C198_basis hb h0 h1 hr hrb (by omega)).trans ?_⟩
  refine div_le_div_of_nonneg_right ?_ (by norm_num)
  nlinarith

theorem small_n {n : ℕ} (hn : n < 2 ^ 20) : (16 * (n : ℚ) ^ 2 - 16) / 9007199254740992 + 8 * (1 / 9007199254740992) ≤ 1 := by
  have h1 : (n : ℚ) ≤ 1048576 := by exact_mod_cast hn.le
  have h0 : (0 : ℚ) ≤ n := Nat.cast_nonneg n
  have h2 : (n : ℚ) ^ 2 ≤ 1048576 ^ 2 := pow_le_pow_left₀ h0 h1 2
  linarith

/-- **C208.** The evaluation of a Legendre function at a time and its transformation to a mesh of times give the function with these coefficients up to a small error: `20 n^3` roundings of the largest term for `n` coefficients. -/
theorem C208_time {s : ℕ → ℚ} {beta tau B S : ℚ} {n : ℕ} {f : ℕ → ℚ} (h : Sizes beta B S) (h0 : 0 ≤ tau) (h1 : tau ≤ beta) (hr : Rep tau) (hrb : Rep beta) (hs : Roots s n) (hn1 : 1 ≤ n) (hn : n < 2 ^ 20) (hS : 2 * (n : ℚ) ≤ S ^ 2) (hf : ∀ l < n, |f l| ≤ B) :
    (∃ r, evaluate s beta tau n f = some r ∧ |(r : ℝ) - G beta tau n f| ≤ 20 * n ^ 3 * (B * S / beta) * 2 ^ (-53 : ℤ)) ∧
    (∃ r, direct s beta tau n f = some r ∧ |(r : ℝ) - G beta tau n f| ≤ 20 * n ^ 3 * (B * S / beta) * 2 ^ (-53 : ℤ)) := by
  have hb := h.pos
  have hS0 : 0 ≤ S := by linarith [h.S0]
  obtain ⟨w0, w1⟩ := h.bs
  obtain ⟨v0, v1⟩ := div_beta h.beta0 h.beta1 w0 w1
  have v0' : (2 : ℚ) ^ (-850 : ℤ) ≤ B * S / beta := (two_zpow_le (by norm_num)).trans v0
  have v1' : B * S / beta ≤ 2 ^ (850 : ℤ) := v1.trans (two_zpow_le (by norm_num))
  have hV : 0 < B * S / beta := (two_zpow_pos _).trans_le v0
  have hE : B * S / beta * ((16 * (n : ℚ) ^ 2 - 16) / 9007199254740992 + 8 * (1 / 9007199254740992)) ≤ B * S / beta := mul_le_of_le_one_right hV.le (small_n hn)
  have hsize : ∀ l < n, |f l * s l * (P ℚ l).eval (2 * tau / beta - 1) / beta| ≤ B * S / beta := by
    intro l hl
    rw [abs_div, abs_of_pos hb]
    refine div_le_div_of_nonneg_right ?_ hb.le
    have := mul_abs_le (mul_abs_le (hf l hl) (roots_le hs hn hS0 hS l hl).1) (poly hb h0 h1 hr hrb hn hl).2.1
    rwa [mul_one] at this
  have hroots := roots_close (p := fun l => (P ℚ l).eval (2 * tau / beta - 1)) hs hn hb hS0 hS hf (fun l hl => (poly hb h0 h1 hr hrb hn hl).2.1)
  have hnq : (1 : ℝ) ≤ n := by exact_mod_cast hn1
  have fin' : ∀ r : ℚ, |r - ((List.range n).map fun l => f l * s l * (P ℚ l).eval (2 * tau / beta - 1) / beta).sum| ≤ ((n : ℚ) + 1) ^ 2 * (2 * (B * S / beta) / 9007199254740992) + n * (B * S / beta * ((16 * (n : ℚ) ^ 2 - 16) / 9007199254740992 + 8 * (1 / 9007199254740992))) →
      |(r : ℝ) - G beta tau n f| ≤ 20 * n ^ 3 * (B * S / beta) * 2 ^ (-53 : ℤ) := by
    intro r hr'
    generalize ((List.range n).map fun l => f l * s l * (P ℚ l).eval (2 * tau / beta - 1) / beta).sum = M at hr' hroots
    have h2 := (Rat.cast_le (K := ℝ)).2 hr'
    push_cast at h2
    have h3 := abs_add_le ((r : ℝ) - M) ((M : ℝ) - G beta tau n f)
    rw [sub_add_sub_cancel] at h3
    refine h3.trans ((add_le_add h2 hroots).trans ?_)
    have hVr : (0 : ℝ) < (B : ℝ) * S / beta := by exact_mod_cast hV
    rw [show (2 : ℝ) ^ (-53 : ℤ) = 1 / 9007199254740992 by norm_num]
    generalize (B : ℝ) * S / beta = V at *
    have key : ((n : ℝ) + 1) ^ 2 * 2 + n * (16 * n ^ 2 - 16 + 8) + n ≤ 20 * n ^ 3 := by nlinarith [mul_nonneg (sub_nonneg.2 hnq) (sub_nonneg.2 hnq), mul_nonneg (mul_nonneg (sub_nonneg.2 hnq) (sub_nonneg.2 hnq)) (by linarith : (0 : ℝ) ≤ n)]
    have := mul_le_mul_of_nonneg_right key (by positivity : 0 ≤ V * (1 / 9007199254740992))
    linarith
  constructor
  · obtain ⟨r, e1, e2⟩ := (sums v0' v1' hn hE (T := fun l => term beta (f l) (s l) (call (argument beta tau) l)) (v := fun l => f l * s l * (P ℚ l).eval (2 * tau / beta - 1) / beta)
      (fun l hl => ⟨hsize l hl, term_err h (hf l hl) (roots_le hs hn hS0 hS l hl).1 (poly hb h0 h1 hr hrb hn hl).1 (poly hb h0 h1 hr hrb hn hl).2.2⟩)).2 hn1
    refine ⟨r, e1, fin' r (e2.trans (add_le_add_left ?_ _))⟩
    refine mul_le_mul_of_nonneg_right ?_ (by positivity)
    have : (0 : ℚ) ≤ n := Nat.cast_nonneg n
    nlinarith
  · obtain ⟨r, e1, e2⟩ := (sums v0' v1' hn hE (T := fun l => termDirect beta (f l) (s l) (call (argument beta tau) l)) (v := fun l => f l * s l * (P ℚ l).eval (2 * tau / beta - 1) / beta)
      (fun l hl => ⟨hsize l hl, termDirect_err h (hf l hl) (roots_le hs hn hS0 hS l hl).1 (poly hb h0 h1 hr hrb hn hl).1 (poly hb h0 h1 hr hrb hn hl).2.2⟩)).1
    exact ⟨r, e1, fin' r e2⟩

theorem abs_sub_le_abs_add (x y z : ℝ) : |x - y + z| ≤ |x| + |y - z| := by
  rw [show x - y + z = x + -(y - z) by ring, ← abs_neg (y - z)]
  exact abs_add_le _ _

theorem P_at_one (n : ℕ) : (P ℚ n).eval 1 = 1 := by
  induction n with
  | zero => simp [Legendre.P_zero]
  | succ n ih =>
    have h := (LegendreDouble.P_form 1 (by norm_num) n).2.2
    rw [ih] at h
    have h0 : (1 * (P ℚ (n + 1)).eval 1 - 1) ^ 2 = 0 := le_antisymm (by linarith) (sq_nonneg _)
    have := pow_eq_zero_iff (two_ne_zero) |>.1 h0
    linarith

/-- **C208.** The density of a Legendre function is minus its value at the time `beta`, up to `13 n^2` roundings of the largest term. -/
theorem C208_density {s : ℕ → ℚ} {beta B S : ℚ} {n : ℕ} {f : ℕ → ℚ} (h : Sizes beta B S) (hs : Roots s n) (hn1 : 1 ≤ n) (hn : n < 2 ^ 20) (hS : 2 * (n : ℚ) ≤ S ^ 2) (hf : ∀ l < n, |f l| ≤ B) :
    ∃ r, density s beta n f = some r ∧ |(r : ℝ) + G beta beta n f| ≤ 13 * n ^ 2 * (B * S / beta) * 2 ^ (-53 : ℤ) := by
  have hb := h.pos
  have hS0 : 0 ≤ S := by linarith [h.S0]
  obtain ⟨w0, w1⟩ := h.bs
  have w0' : (2 : ℚ) ^ (-850 : ℤ) ≤ B * S := (two_zpow_le (by norm_num)).trans w0
  have w1' : B * S ≤ 2 ^ (850 : ℤ) := w1.trans (two_zpow_le (by norm_num))
  have hW : 0 < B * S := (two_zpow_pos _).trans_le w0
  have hnq : (1 : ℚ) ≤ n := by exact_mod_cast hn1
  have hn2 : (n : ℚ) ≤ 1048576 := by exact_mod_cast hn.le
  have hsf : ∀ l < n, |s l * f l| ≤ B * S := fun l hl => by
    rw [mul_comm]
    exact mul_abs_le (hf l hl) (roots_le hs hn hS0 hS l hl).1
  obtain ⟨r, e1, e2⟩ := (sums w0' w1' hn (E := B * S * (9 / 8 * (1 / 9007199254740992))) (mul_le_of_le_one_right hW.le (by norm_num)) (T := fun l => (fin (s l * f l)).map fun t => -t) (v := fun l => -(s l * f l)) (fun l hl => by
    obtain ⟨f1, g1⟩ := op w0' w1' (le_refl 1) (by norm_num) (by rw [one_mul]; exact hsf l hl)
    refine ⟨by rw [abs_neg]; exact hsf l hl, -rnd (s l * f l), by rw [f1]; rfl, ?_⟩
    rw [← neg_sub', abs_neg]
    rw [one_mul] at g1
    exact g1)).1
  have hsum : |((List.range n).map fun l => -(s l * f l)).sum| ≤ n * (B * S) := by
    have := list_close (E := B * S) (List.range n) (fun l => -(s l * f l)) (fun _ => 0) (fun l hl => by
      rw [sub_zero, abs_neg]
      exact hsf l (List.mem_range.1 hl))
    simpa using this
  have hV : 0 < B * S / beta := div_pos hW hb
  have hrb : |r| ≤ 2 * (n * (B * S)) := by
    refine (abs_of_err e2 hsum).trans ?_
    have key : ((n : ℚ) + 1) ^ 2 * 2 / 9007199254740992 + n * (9 / 8 * (1 / 9007199254740992)) ≤ n := by
      have : ((n : ℚ) + 1) ^ 2 ≤ 4 * (n * 1048576) := by nlinarith
      linarith
    have := mul_le_mul_of_nonneg_right key hW.le
    linarith
  have hrb' : |r / beta| ≤ 2 * (n * (B * S / beta)) := by
    rw [abs_div, abs_of_pos hb, div_le_iff₀ hb]
    refine hrb.trans (le_of_eq ?_)
    field_simp
  obtain ⟨v0, v1⟩ := div_beta h.beta0 h.beta1 w0 w1
  have n0 : (2 : ℚ) ^ (-850 : ℤ) ≤ n * (B * S / beta) := ((two_zpow_le (by norm_num)).trans v0).trans (le_mul_of_one_le_left hV.le hnq)
  have n1 : n * (B * S / beta) ≤ 2 ^ (850 : ℤ) := by
    refine (mul_le_mul (hn2.trans (by norm_num : (1048576 : ℚ) ≤ 2 ^ (20 : ℤ))) v1 hV.le (by norm_num)).trans ?_
    rw [← two_zpow_add]
    exact two_zpow_le (by norm_num)
  obtain ⟨f3, g3⟩ := op n0 n1 (by norm_num : (1 : ℚ) ≤ 2) (by norm_num) hrb'
  refine ⟨rnd (r / beta), ?_, ?_⟩
  · unfold density
    rw [e1, Option.bind_some, f3]
  · have hroots := roots_close (p := fun l => (P ℚ l).eval (2 * beta / beta - 1)) hs hn hb hS0 hS hf (fun l _ => by
      rw [mul_div_assoc, div_self hb.ne', show (2 : ℚ) * 1 - 1 = 1 by norm_num, P_at_one, abs_one])
    have hM : ((List.range n).map fun l => f l * s l * (P ℚ l).eval (2 * beta / beta - 1) / beta).sum = -(((List.range n).map fun l => -(s l * f l)).sum / beta) := by
      rw [mul_div_assoc, div_self hb.ne', show (2 : ℚ) * 1 - 1 = 1 by norm_num]
      generalize List.range n = L
      induction L with
      | nil => simp
      | cons x L ih =>
        rw [List.map_cons, List.sum_cons, List.map_cons, List.sum_cons, ih, P_at_one]
        ring
    rw [hM] at hroots
    generalize ((List.range n).map fun l => -(s l * f l)).sum = M at e2 hroots
    have e3 : |r / beta - M / beta| ≤ (((n : ℚ) + 1) ^ 2 * 2 / 9007199254740992 + n * (9 / 8 * (1 / 9007199254740992))) * (B * S / beta) := by
      rw [← sub_div, abs_div, abs_of_pos hb, div_le_iff₀ hb]
      refine e2.trans (le_of_eq ?_)
      field_simp
    have e4 : |rnd (r / beta) - M / beta| ≤ 12 * (n : ℚ) ^ 2 * (B * S / beta) * (1 / 9007199254740992) := by
      have h5 := abs_add_le (rnd (r / beta) - r / beta) (r / beta - M / beta)
      rw [sub_add_sub_cancel] at h5
      refine (h5.trans (add_le_add g3 e3)).trans ?_
      have key : 2 * n * (9 / 8) + (((n : ℚ) + 1) ^ 2 * 2 + n * (9 / 8)) ≤ 12 * (n : ℚ) ^ 2 := by nlinarith
      have := mul_le_mul_of_nonneg_right key (mul_nonneg hV.le (by norm_num : (0 : ℚ) ≤ 1 / 9007199254740992))
      generalize B * S / beta = V at *
      linarith
    have e5 := (Rat.cast_le (K := ℝ)).2 e4
    push_cast at e5 hroots
    have h6 := abs_sub_le_abs_add ((rnd (r / beta) : ℝ) - (M : ℝ) / beta) (-((M : ℝ) / beta)) (G beta beta n f)
    rw [sub_neg_eq_add, sub_add_cancel] at h6
    refine h6.trans ?_
    have hnr : (1 : ℝ) ≤ n := by exact_mod_cast hn1
    have hVr : (0 : ℝ) < (B : ℝ) * S / beta := by exact_mod_cast hV
    have hroots' : |-((M : ℝ) / beta) - G beta beta n f| ≤ n * ((B : ℝ) * S / beta) * 2 ^ (-53 : ℤ) := hroots
    rw [show (2 : ℝ) ^ (-53 : ℤ) = 1 / 9007199254740992 by norm_num] at hroots' ⊢
    generalize (B : ℝ) * S / beta = V at *
    have key : 12 * (n : ℝ) ^ 2 + n ≤ 13 * (n : ℝ) ^ 2 := by nlinarith
    have := mul_le_mul_of_nonneg_right key (mul_nonneg hVr.le (by norm_num : (0 : ℝ) ≤ 1 / 9007199254740992))
    linarith

/-! ### Examples -/

/-- The roots `std::sqrt(1)` and `std::sqrt(3)` as the processor gives them. -/
def roots2 (l : ℕ) : ℚ := if l = 0 then 1 else 3900231685776981 / 2251799813685248

theorem roots2_ok : Roots roots2 2 := by
  intro l hl
  have h3 : (3900231685776980.75 / 2251799813685248 : ℝ) ≤ √3 := Real.le_sqrt_of_sq_le (by norm_num)
  have h4 : √3 ≤ (3900231685776981.25 / 2251799813685248 : ℝ) := Real.sqrt_le_iff.2 ⟨by norm_num, by norm_num⟩
  interval_cases l
  · norm_num [roots2]
  · norm_num [roots2]
    rw [abs_le]
    constructor <;> linarith

/-- Two coefficients, half way between the middle and the end of the interval. -/
def coef2 (l : ℕ) : ℚ := if l = 0 then -1 else 1 / 3

example : evaluate roots2 10 (15 / 2) 2 coef2 = some (-5125635838045071 / 72057594037927936) ∧ direct roots2 10 (15 / 2) 2 coef2 = some (-5125635838045071 / 72057594037927936) ∧
    density roots2 10 2 coef2 = some (3045512272297347 / 72057594037927936) := by
  decide +kernel

example : (∃ r, evaluate roots2 10 (15 / 2) 2 coef2 = some r ∧ |(r : ℝ) - G 10 (15 / 2) 2 coef2| ≤ 20 * (2 : ℕ) ^ 3 * ((1 : ℚ) * (2 : ℚ) / (10 : ℚ)) * 2 ^ (-53 : ℤ)) ∧
    ∃ r, density roots2 10 2 coef2 = some r ∧ |(r : ℝ) + G 10 10 2 coef2| ≤ 13 * (2 : ℕ) ^ 2 * ((1 : ℚ) * (2 : ℚ) / (10 : ℚ)) * 2 ^ (-53 : ℤ) := by
  have h : Sizes 10 1 2 := ⟨by norm_num, by norm_num, zpow_le_one_of_nonpos₀ (by norm_num) (by norm_num), one_le_zpow₀ (by norm_num) (by norm_num), by norm_num, by norm_num⟩
  have hf : ∀ l < 2, |coef2 l| ≤ 1 := by decide +kernel
  have r1 : Rep (15 / 2) := ⟨15, -1, by norm_num, by norm_num, by norm_num⟩
  have r2 : Rep 10 := ⟨10, 0, by norm_num, by norm_num, by norm_num⟩
  exact ⟨(C208_time h (by norm_num) (by norm_num) r1 r2 roots2_ok (by norm_num) (by norm_num) (by norm_num) hf).1,
    C208_density h roots2_ok (by norm_num) (by norm_num) (by norm_num) hf⟩

end Verif.LegendreSum
