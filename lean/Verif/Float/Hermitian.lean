import Verif.Float.Relative
import Mathlib.Tactic.Ring

/-!
# Symmetrised Green functions in double precision

`make_hermitian`, `make_real_in_tau`, `is_gf_hermitian` and `is_gf_real_in_tau` of `/repo/c++/triqs/gfs/functions/imfreq.hpp` (81-244) with the rounding of the machine,
infinities and NaN; in exact arithmetic this is C56.

* C194: what the two functions return and what the two tests accept.

Simplifications: zeros with a sign and NaN with different bits are not distinguished; targets are square, so that all elements exist (C56); `abs` of a complex number is any
function with the properties `Hypot`; `max_element` belongs to the array library and folds `std::max` over the elements, beginning with the first.
-/

namespace Verif.HermitianDouble
open Verif.Binary64

/-! ## Model -/

/-- a double -/
inductive D where
  | nan
  | inf (negative : Bool)
  | num (q : ℚ)
deriving DecidableEq

namespace D

/-- the rounded value of a result -/
def of (x : ℚ) : D := if |rnd x| < 2 ^ 1024 then num (rnd x) else inf (decide (x < 0))

def neg : D → D
  | nan => nan
  | inf s => inf (!s)
  | num q => num (-q)

def add : D → D → D
  | nan, _ => nan
  | _, nan => nan
  | inf s, inf t => if s = t then inf s else nan
  | inf s, num _ => inf s
  | num _, inf s => inf s
  | num p, num q => of (p + q)

def sub (x y : D) : D := add x (neg y)

/-- the product with `0.5` -/
def half : D → D
  | nan => nan
  | inf s => inf s
  | num q => of (1 / 2 * q)

/-- `x < y` -/
def lt : D → D → Bool
  | num p, num q => decide (p < q)
  | inf s, inf t => s && !t
  | inf s, num _ => s
  | num _, inf s => !s
  | _, _ => false

/-- `std::max` -/
def max (x y : D) : D := if lt x y then y else x

end D

/-- a complex number -/
structure Z where
  re : D
  im : D
deriving DecidableEq

def Z.conj (z : Z) : Z := ⟨z.re, z.im.neg⟩

def Z.sub (z w : Z) : Z := ⟨z.re.sub w.re, z.im.sub w.im⟩

/-- `0.5 * (z + w)` -/
def Z.mean (z w : Z) : Z := ⟨(z.re.add w.re).half, (z.im.add w.im).half⟩

/-- values at the points of a mesh (their index) and the elements of the target -/
abbrev Data := ℤ → List ℕ → Z

inductive Stat where
  | boson
  | fermion
deriving DecidableEq

/-- the index of `-w`, `/repo/c++/triqs/mesh/domains/matsubara.hpp`: 68 -/
def opposite : Stat → ℤ → ℤ
  | .boson, n => -n
  | .fermion, n => -(n + 1)

/-- the element `j, i` of `i, j`, the element `k, l, i, j` of `i, j, k, l`, or the number itself -/
def adjoint : List ℕ → List ℕ
  | [i, j] => [j, i]
  | [i, j, k, l] => [k, l, i, j]
  | c => c

/-- the loops, imfreq.hpp:190-197, 202-209 and 239 -/
def symmetrise (r : ℤ → ℤ) (al : List ℕ → List ℕ) (g : Data) : Data := fun n c => (g n c).mean (g (r n) (al c)).conj

/-- `make_hermitian` in frequency, imfreq.hpp:187-198 -/
def makeHermitian (positiveOnly : Bool) (s : Stat) (g : Data) : Data := if positiveOnly then g else symmetrise (opposite s) adjoint g

/-- `make_hermitian` in time, imfreq.hpp:200-211 -/
def makeHermitianTau (g : Data) : Data := symmetrise id adjoint g

/-- `make_real_in_tau`, imfreq.hpp:237-240 -/
def makeRealInTau (positiveOnly : Bool) (s : Stat) (g : Data) : Data := if positiveOnly then g else symmetrise (opposite s) id g

/-- the difference that is tested, imfreq.hpp:98, 100, 103, 110, 113, 116, 148 and 150; `h` is `abs` -/
def defect (h : Z → D) (r : ℤ → ℤ) (al : List ℕ → List ℕ) (g : Data) (n : ℤ) (c : List ℕ) : D := h ((g (r n) (al c)).conj.sub (g n c))

/-- one comparison for every element, imfreq.hpp:97-98, 101-103, 108-118 and 147-148 -/
def testEach (h : Z → D) (r : ℤ → ℤ) (al : List ℕ → List ℕ) (points : List ℤ) (elements : List (List ℕ)) (g : Data) (tol : D) : Bool :=
  points.all fun n => elements.all fun c => !(tol.lt (defect h r al g n c))

/-- one comparison for every point, imfreq.hpp:99-100 and 149-150 -/
def testMax (h : Z → D) (r : ℤ → ℤ) (al : List ℕ → List ℕ) (points : List ℤ) (elements : List (List ℕ)) (g : Data) (tol : D) : Bool :=
  points.all fun n =>
    match elements.map (defect h r al g n) with
    | [] => true
    | d :: l => !(tol.lt (l.foldl D.max d))

/-- `is_gf_hermitian` in frequency, imfreq.hpp:93-106 -/
def isHermitian (h : Z → D) (positiveOnly : Bool) (s : Stat) (points : List ℤ) (rank : ℕ) (elements : List (List ℕ)) (g : Data) (tol : D) : Bool :=
  positiveOnly || (if rank = 2 then testMax h (opposite s) adjoint points elements g tol else testEach h (opposite s) adjoint points elements g tol)

/-- `is_gf_hermitian` in time, imfreq.hpp:107-120 -/
def isHermitianTau (h : Z → D) (points : List ℤ) (elements : List (List ℕ)) (g : Data) (tol : D) : Bool :=
  testEach h id adjoint points elements g tol

/-- `is_gf_real_in_tau`, imfreq.hpp:145-153 -/
def isRealInTau (h : Z → D) (positiveOnly : Bool) (s : Stat) (points : List ℤ) (rank : ℕ) (elements : List (List ℕ)) (g : Data) (tol : D) : Bool :=
  positiveOnly || (if rank = 0 then testEach h (opposite s) id points elements g tol else testMax h (opposite s) id points elements g tol)

/-! ## Specification -/

/-- `std::abs` of a complex number -/
structure Hypot (h : Z → D) : Prop where
  zero : h ⟨.num 0, .num 0⟩ = .num 0
  nan_re : ∀ y, (∀ s, y ≠ .inf s) → h ⟨.nan, y⟩ = .nan
  nan_im : ∀ x, (∀ s, x ≠ .inf s) → h ⟨x, .nan⟩ = .nan
  big : ∀ p q, (∃ a, h ⟨.num p, .num q⟩ = .num a ∧ |p| ≤ a ∧ |q| ≤ a) ∨ h ⟨.num p, .num q⟩ = .inf false
  inf_re : ∀ s y, h ⟨.inf s, y⟩ = .inf false
  inf_im : ∀ s x, h ⟨x, .inf s⟩ = .inf false

/-- the function has the symmetry, bit by bit -/
def Symmetric (r : ℤ → ℤ) (al : List ℕ → List ℕ) (g : Data) : Prop := ∀ n c, g (r n) (al c) = (g n c).conj

/-- a finite number that is not too large -/
def D.Small (x : D) : Prop := ∃ q, x = .num q ∧ Rep q ∧ |q| ≤ 2 ^ (1022 : ℤ)

def Small (g : Data) : Prop := ∀ n c, (g n c).re.Small ∧ (g n c).im.Small

/-- no NaN and no infinity -/
def D.Finite (x : D) : Prop := ∃ q, x = .num q ∧ IsDouble q

def Finite (g : Data) : Prop := ∀ n c, (g n c).re.Finite ∧ (g n c).im.Finite

/-! ## Proofs -/

theorem opposite_opposite (s : Stat) (n : ℤ) : opposite s (opposite s n) = n := by cases s <;> simp only [opposite] <;> omega

theorem adjoint_adjoint (c : List ℕ) : adjoint (adjoint c) = c := by
  match c with
  | [] | [_] | [_, _] | [_, _, _] | [_, _, _, _] | _ :: _ :: _ :: _ :: _ :: _ => rfl

namespace D

theorem of_neg (x : ℚ) : of (-x) = (of x).neg := by
  unfold of
  rw [rnd_neg, abs_neg]
  by_cases h : |rnd x| < 2 ^ 1024
  · rw [if_pos h, if_pos h]; rfl
  · rw [if_neg h, if_neg h]
    have hx : x ≠ 0 := by
      rintro rfl
      rw [rnd_zero, abs_zero] at h
      exact h (by positivity)
    unfold neg
    congr 1
    rcases lt_or_gt_of_ne hx with h1 | h1
    · simp [h1, h1.le]
    · simp [h1, h1.le]

theorem neg_neg (x : D) : x.neg.neg = x := by cases x <;> simp [neg]

theorem add_comm (x y : D) : x.add y = y.add x := by
  cases x <;> cases y <;> simp only [add]
  · rename_i s t
    by_cases h : s = t
    · simp [h]
    · simp [h, Ne.symm h]
  · rw [_root_.add_comm]

theorem add_neg (x y : D) : (x.neg).add y.neg = (x.add y).neg := by
  cases x <;> cases y <;> simp only [add, neg]
  · rename_i s t
    by_cases h : s = t
    · simp [h]
    · simp [h]
  · rename_i p q
    show of (-p + -q) = (of (p + q)).neg
    rw [← of_neg]
    congr 1
    ring

theorem half_neg (x : D) : x.neg.half = x.half.neg := by
  cases x <;> simp only [half, neg]
  rename_i q
  show of (1 / 2 * -q) = (of (1 / 2 * q)).neg
  rw [← of_neg]
  congr 1
  ring

theorem of_eq {x : ℚ} (h : IsDouble x) : of x = num x := by
  unfold of
  rw [rnd_rep h.1, if_pos h.2]

end D

theorem mean_conj (z w : Z) : (w.mean z.conj) = (z.mean w.conj).conj := by
  unfold Z.mean Z.conj
  simp only [Z.mk.injEq]
  refine ⟨by rw [D.add_comm], ?_⟩
  rw [← D.half_neg, ← D.add_neg, D.neg_neg, D.add_comm]

theorem conj_conj (z : Z) : z.conj.conj = z := by
  unfold Z.conj
  rw [D.neg_neg]

/-- the general form of the next theorem -/
theorem symmetrise_symmetric (r : ℤ → ℤ) (al : List ℕ → List ℕ) (hr : ∀ n, r (r n) = n) (ha : ∀ c, al (al c) = c) (g : Data) :
    Symmetric r al (symmetrise r al g) := by
  intro n c
  unfold symmetrise
  rw [hr, ha, mean_conj]

/-- **C194, symmetry.**  The results have the symmetry to the last bit, for all data. -/
theorem C194_symmetric (s : Stat) (g : Data) : Symmetric (opposite s) adjoint (makeHermitian false s g) ∧ Symmetric id adjoint (makeHermitianTau g) ∧
    Symmetric (opposite s) id (makeRealInTau false s g) :=
  ⟨symmetrise_symmetric _ _ (opposite_opposite s) adjoint_adjoint g, symmetrise_symmetric _ _ (fun _ => rfl) adjoint_adjoint g,
    symmetrise_symmetric _ _ (opposite_opposite s) (fun _ => rfl) g⟩

/-- twice the index of a frequency plus this is the frequency in units of pi / beta -/
def Stat.zeta : Stat → ℤ
  | .boson => 0
  | .fermion => 1

/-- **C194, symmetry.**  The same for the elements of numbers, matrices and tensors with four indices: at two opposite frequencies the element `i, j` is the conjugate of `j, i`, and `i, j, k, l` that of `k, l, i, j`. -/
theorem C194_elements (s : Stat) (g : Data) (m n : ℤ) (h : 2 * m + s.zeta = -(2 * n + s.zeta)) (i j k l : ℕ) :
    makeHermitian false s g m [] = (makeHermitian false s g n []).conj ∧ makeHermitian false s g m [j, i] = (makeHermitian false s g n [i, j]).conj ∧
      makeHermitian false s g m [k, l, i, j] = (makeHermitian false s g n [i, j, k, l]).conj ∧ makeHermitianTau g n [] = (makeHermitianTau g n []).conj ∧
      makeHermitianTau g n [j, i] = (makeHermitianTau g n [i, j]).conj ∧ makeHermitianTau g n [k, l, i, j] = (makeHermitianTau g n [i, j, k, l]).conj ∧
      ∀ c, makeRealInTau false s g m c = (makeRealInTau false s g n c).conj := by
  have hm : m = opposite s n := by cases s <;> simp only [Stat.zeta] at h <;> simp only [opposite] <;> omega
  subst hm
  obtain ⟨h1, h2, h3⟩ := C194_symmetric s g
  exact ⟨h1 n [], h1 n [i, j], h1 n [i, j, k, l], h2 n [], h2 n [i, j], h2 n [i, j, k, l], fun c => h3 n c⟩

theorem big_lt' {e : ℤ} (h : e < 1024) : (2 : ℚ) ^ e < 2 ^ 1024 := by
  have : (2 : ℚ) ^ (1024 : ℕ) = 2 ^ (1024 : ℤ) := (zpow_natCast 2 1024).symm
  rw [this]
  exact two_zpow_lt h

theorem rep_double {q : ℚ} (h : Rep q) : Rep (2 * q) := by
  obtain ⟨m, e, he, hm, rfl⟩ := h
  refine ⟨m, e + 1, by omega, hm, ?_⟩
  rw [two_zpow_add]
  ring

theorem two_pow_1023 : (2 : ℚ) * 2 ^ (1022 : ℤ) = 2 ^ (1023 : ℤ) := by
  rw [show (1023 : ℤ) = 1022 + 1 by norm_num, two_zpow_add]
  ring

/-- half of the sum of two numbers that are not too large -/
theorem half_add {p q : ℚ} (hp : Rep p) (hq : Rep q) (hp1 : |p| ≤ 2 ^ (1022 : ℤ)) (hq1 : |q| ≤ 2 ^ (1022 : ℤ)) :
    ((D.num p).add (.num q)).half = .num (rnd (1 / 2 * rnd (p + q))) ∧ min p q ≤ rnd (1 / 2 * rnd (p + q)) ∧ rnd (1 / 2 * rnd (p + q)) ≤ max p q := by
  have hlo : 2 * min p q ≤ rnd (p + q) := by
    have hm : Rep (2 * min p q) := by
      rcases min_choice p q with h | h <;> rw [h]
      · exact rep_double hp
      · exact rep_double hq
    exact le_rnd hm (by linarith [min_le_left p q, min_le_right p q])
  have hhi : rnd (p + q) ≤ 2 * max p q := by
    have hm : Rep (2 * max p q) := by
      rcases max_choice p q with h | h <;> rw [h]
      · exact rep_double hp
      · exact rep_double hq
    exact rnd_le hm (by linarith [le_max_left p q, le_max_right p q])
  have h1 : min p q ≤ rnd (1 / 2 * rnd (p + q)) := by
    refine le_rnd ?_ (by linarith)
    rcases min_choice p q with h | h <;> rw [h]
    · exact hp
    · exact hq
  have h2 : rnd (1 / 2 * rnd (p + q)) ≤ max p q := by
    refine rnd_le ?_ (by linarith)
    rcases max_choice p q with h | h <;> rw [h]
    · exact hp
    · exact hq
  refine ⟨?_, h1, h2⟩
  rw [abs_le] at hp1 hq1
  have t := two_pow_1023
  have b1 : -(2 : ℚ) ^ (1022 : ℤ) ≤ min p q := le_min hp1.1 hq1.1
  have b2 : max p q ≤ 2 ^ (1022 : ℤ) := max_le hp1.2 hq1.2
  have f1 : |rnd (p + q)| < 2 ^ 1024 := by
    refine lt_of_le_of_lt (abs_le.2 ?_) (big_lt' (e := 1023) (by norm_num))
    generalize (2 : ℚ) ^ (1022 : ℤ) = A at *
    generalize (2 : ℚ) ^ (1023 : ℤ) = B at *
    constructor <;> linarith
  have f2 : |rnd (1 / 2 * rnd (p + q))| < 2 ^ 1024 := by
    exact lt_of_le_of_lt (abs_le.2 ⟨b1.trans h1, h2.trans b2⟩) (big_lt' (e := 1022) (by norm_num))
  unfold D.add
  simp only
  unfold D.of
  rw [if_pos f1]
  unfold D.half D.of
  simp only
  rw [if_pos f2]

theorem half_self {p : ℚ} (hp : Rep p) (hp1 : |p| ≤ 2 ^ (1022 : ℤ)) : ((D.num p).add (.num p)).half = .num p := by
  obtain ⟨h1, h2, h3⟩ := half_add hp hp hp1 hp1
  rw [min_self] at h2
  rw [max_self] at h3
  rw [h1, le_antisymm h3 h2]

theorem small_neg {x : D} (h : x.Small) : x.neg.Small := by
  obtain ⟨q, rfl, h1, h2⟩ := h
  exact ⟨-q, rfl, rep_neg h1, by rwa [abs_neg]⟩

theorem small_mean {x y : D} (hx : x.Small) (hy : y.Small) : (x.add y).half.Small := by
  obtain ⟨p, rfl, p1, p2⟩ := hx
  obtain ⟨q, rfl, q1, q2⟩ := hy
  obtain ⟨h1, h2, h3⟩ := half_add p1 q1 p2 q2
  refine ⟨_, h1, rep_rnd _, ?_⟩
  rw [abs_le] at p2 q2 ⊢
  exact ⟨(le_min p2.1 q2.1).trans h2, h3.trans (max_le p2.2 q2.2)⟩

/-- **C194, symmetric functions** are not changed, bit by bit. -/
theorem C194_fixed (r : ℤ → ℤ) (al : List ℕ → List ℕ) (g : Data) (hs : Small g) (h : Symmetric r al g) : symmetrise r al g = g := by
  funext n c
  unfold symmetrise
  rw [h n c, conj_conj]
  obtain ⟨⟨p, hp, p1, p2⟩, ⟨q, hq, q1, q2⟩⟩ := hs n c
  unfold Z.mean
  have e : g n c = ⟨.num p, .num q⟩ := by rw [← hp, ← hq]
  rw [e]
  simp only
  rw [half_self p1 p2, half_self q1 q2]

/-- **C194, twice** is once. -/
theorem C194_twice (s : Stat) (pos : Bool) (g : Data) (hs : Small g) : makeHermitian pos s (makeHermitian pos s g) = makeHermitian pos s g ∧
    makeHermitianTau (makeHermitianTau g) = makeHermitianTau g ∧ makeRealInTau pos s (makeRealInTau pos s g) = makeRealInTau pos s g := by
  have key : ∀ (r : ℤ → ℤ) (al : List ℕ → List ℕ), (∀ n, r (r n) = n) → (∀ c, al (al c) = c) → symmetrise r al (symmetrise r al g) = symmetrise r al g := by
    intro r al hr ha
    refine C194_fixed r al _ (fun n c => ?_) (symmetrise_symmetric r al hr ha g)
    exact ⟨small_mean (hs n c).1 (hs (r n) (al c)).1, small_mean (hs n c).2 (small_neg (hs (r n) (al c)).2)⟩
  refine ⟨?_, key _ _ (fun _ => rfl) adjoint_adjoint, ?_⟩
  · unfold makeHermitian
    cases pos
    · exact key _ _ (opposite_opposite s) adjoint_adjoint
    · rfl
  · unfold makeRealInTau
    cases pos
    · exact key _ _ (opposite_opposite s) fun _ => rfl
    · rfl

/-- **C194, between.**  Each part of the result lies between the two numbers of which it is the mean. -/
theorem C194_between (r : ℤ → ℤ) (al : List ℕ → List ℕ) (g : Data) (n : ℤ) (c : List ℕ) (a b a' b' : ℚ) (hg : g n c = ⟨.num a, .num b⟩)
    (hg' : g (r n) (al c) = ⟨.num a', .num b'⟩) (hs : Small g) :
    ∃ x y, symmetrise r al g n c = ⟨.num x, .num y⟩ ∧ min a a' ≤ x ∧ x ≤ max a a' ∧ min b (-b') ≤ y ∧ y ≤ max b (-b') ∧
      |x - (a + a') / 2| ≤ (|a| + |a'|) / 4503599627370496 + 2 * 2 ^ (-1074 : ℤ) ∧ |y - (b - b') / 2| ≤ (|b| + |b'|) / 4503599627370496 + 2 * 2 ^ (-1074 : ℤ) := by
  have err : ∀ p q : ℚ, |rnd (1 / 2 * rnd (p + q)) - (p + q) / 2| ≤ (|p| + |q|) / 4503599627370496 + 2 * 2 ^ (-1074 : ℤ) := by
    intro p q
    have e1 := rnd_err_abs (p + q)
    have e2 := rnd_err_abs (1 / 2 * rnd (p + q))
    have e3 := abs_add_le p q
    have e4 : |1 / 2 * rnd (p + q)| ≤ 1 / 2 * (|p + q| + |rnd (p + q) - (p + q)|) := by
      rw [abs_mul, abs_of_pos (by norm_num : (0 : ℚ) < 1 / 2)]
      have : rnd (p + q) = (p + q) + (rnd (p + q) - (p + q)) := by ring
      have h := abs_add_le (p + q) (rnd (p + q) - (p + q))
      rw [← this] at h
      linarith
    have e5 : |rnd (1 / 2 * rnd (p + q)) - (p + q) / 2| ≤ |rnd (1 / 2 * rnd (p + q)) - 1 / 2 * rnd (p + q)| + 1 / 2 * |rnd (p + q) - (p + q)| := by
      have : rnd (1 / 2 * rnd (p + q)) - (p + q) / 2 = (rnd (1 / 2 * rnd (p + q)) - 1 / 2 * rnd (p + q)) + 1 / 2 * (rnd (p + q) - (p + q)) := by ring
      rw [this]
      refine (abs_add_le _ _).trans (le_of_eq ?_)
      rw [abs_mul (1 / 2 : ℚ), abs_of_pos (by norm_num : (0 : ℚ) < 1 / 2)]
    have hη : (0 : ℚ) < 2 ^ (-1074 : ℤ) := two_zpow_pos _
    have n1 := abs_nonneg (p + q)
    have n2 := abs_nonneg p
    have n3 := abs_nonneg q
    generalize (2 : ℚ) ^ (-1074 : ℤ) = η at *
    generalize |rnd (1 / 2 * rnd (p + q)) - (p + q) / 2| = t at *
    generalize |rnd (1 / 2 * rnd (p + q)) - 1 / 2 * rnd (p + q)| = u at *
    generalize |rnd (p + q) - (p + q)| = v at *
    generalize |1 / 2 * rnd (p + q)| = w at *
    generalize |p + q| = k at *
    generalize |p| = i at *
    generalize |q| = j at *
    linarith
  obtain ⟨⟨p, hp, p1, p2⟩, ⟨q, hq, q1, q2⟩⟩ := hs n c
  obtain ⟨⟨p', hp', p1', p2'⟩, ⟨q', hq', q1', q2'⟩⟩ := hs (r n) (al c)
  rw [hg] at hp hq
  rw [hg'] at hp' hq'
  obtain rfl : a = p := D.num.inj hp
  obtain rfl : b = q := D.num.inj hq
  obtain rfl : a' = p' := D.num.inj hp'
  obtain rfl : b' = q' := D.num.inj hq'
  obtain ⟨h1, h2, h3⟩ := half_add p1 p1' p2 p2'
  obtain ⟨k1, k2, k3⟩ := half_add q1 (rep_neg q1') q2 ((abs_neg b').trans_le q2')
  refine ⟨_, _, ?_, h2, h3, k2, k3, err _ _, ?_⟩
  · unfold symmetrise Z.mean Z.conj
    rw [hg, hg']
    simp only
    rw [h1]
    simp only [D.neg]
    rw [k1]
  · have := err b (-b')
    rw [abs_neg, ← sub_eq_add_neg] at this
    rw [← sub_eq_add_neg]
    exact this

/-- zero or NaN -/
def Nothing (x : D) : Prop := x = .num 0 ∨ x = .nan

theorem sub_self_nothing (x : D) : Nothing (x.sub x) := by
  unfold D.sub
  cases x with
  | nan => right; rfl
  | inf s => right; cases s <;> rfl
  | num q =>
    left
    show D.of (q + -q) = _
    rw [add_neg_cancel, D.of_eq (isDouble_small rep_zero (by norm_num))]

theorem defect_nothing {h : Z → D} (hh : Hypot h) {r : ℤ → ℤ} {al : List ℕ → List ℕ} {g : Data} (hs : Symmetric r al g) (n : ℤ) (c : List ℕ) :
    Nothing (defect h r al g n c) := by
  unfold defect
  rw [hs n c, conj_conj]
  unfold Z.sub
  rcases sub_self_nothing (g n c).re with e1 | e1 <;> rcases sub_self_nothing (g n c).im with e2 | e2 <;> rw [e1, e2]
  · left; exact hh.zero
  · right; exact hh.nan_im _ (by simp)
  · right; exact hh.nan_re _ (by simp)
  · right; exact hh.nan_re _ (by simp)

theorem lt_nothing {x : D} (h : Nothing x) (tol : ℚ) (ht : 0 ≤ tol) : (D.num tol).lt x = false := by
  rcases h with rfl | rfl
  · simp [D.lt, ht]
  · rfl

theorem max_nothing {x y : D} (hx : Nothing x) (hy : Nothing y) : Nothing (x.max y) := by
  unfold D.max
  split
  · exact hy
  · exact hx

theorem foldl_nothing (l : List D) : ∀ x, Nothing x → (∀ y ∈ l, Nothing y) → Nothing (l.foldl D.max x) := by
  induction l with
  | nil => intro x hx _; exact hx
  | cons y l ih =>
    intro x hx h
    exact ih _ (max_nothing hx (h y (List.mem_cons.2 (Or.inl rfl)))) fun z hz => h z (List.mem_cons.2 (Or.inr hz))

theorem tests_accept {h : Z → D} (hh : Hypot h) {r : ℤ → ℤ} {al : List ℕ → List ℕ} {g : Data} (hs : Symmetric r al g) (points : List ℤ)
    (elements : List (List ℕ)) (tol : ℚ) (ht : 0 ≤ tol) : testEach h r al points elements g (.num tol) = true ∧ testMax h r al points elements g (.num tol) = true := by
  constructor
  · unfold testEach
    rw [List.all_eq_true]
    intro n _
    rw [List.all_eq_true]
    intro c _
    rw [lt_nothing (defect_nothing hh hs n c) tol ht]
    rfl
  · unfold testMax
    rw [List.all_eq_true]
    intro n _
    have hall : ∀ d ∈ elements.map (defect h r al g n), Nothing d := by
      intro d hd
      obtain ⟨c, -, rfl⟩ := List.mem_map.1 hd
      exact defect_nothing hh hs n c
    split
    · rfl
    · rename_i d l e
      rw [e] at hall
      rw [lt_nothing (foldl_nothing l d (hall d (List.mem_cons.2 (Or.inl rfl))) fun y hy => hall y (List.mem_cons.2 (Or.inr hy))) tol ht]
      rfl

/-- **C194, the tests accept** the results of the functions, for all data and all tolerances, also zero. -/
theorem C194_accepted (h : Z → D) (hh : Hypot h) (s : Stat) (pos : Bool) (points : List ℤ) (rank : ℕ) (elements : List (List ℕ)) (g : Data) (tol : ℚ) (ht : 0 ≤ tol) :
    isHermitian h pos s points rank elements (makeHermitian pos s g) (.num tol) = true ∧
    isHermitianTau h points elements (makeHermitianTau g) (.num tol) = true ∧
    isRealInTau h pos s points rank elements (makeRealInTau pos s g) (.num tol) = true := by
  obtain ⟨s1, s2, s3⟩ := C194_symmetric s g
  refine ⟨?_, (tests_accept hh s2 points elements tol ht).1, ?_⟩
  · unfold isHermitian
    cases pos
    · rw [Bool.false_or]
      split
      · exact (tests_accept hh s1 points elements tol ht).2
      · exact (tests_accept hh s1 points elements tol ht).1
    · rfl
  · unfold isRealInTau
    cases pos
    · rw [Bool.false_or]
      split
      · exact (tests_accept hh s3 points elements tol ht).1
      · exact (tests_accept hh s3 points elements tol ht).2
    · rfl

/-- what the comparison of one element says -/
theorem defect_le {h : Z → D} (hh : Hypot h) {r : ℤ → ℤ} {al : List ℕ → List ℕ} {g : Data} (hf : Finite g) (n : ℤ) (c : List ℕ) (tol : ℚ)
    (hl : (D.num tol).lt (defect h r al g n c) = false) :
    ∃ a b a' b', g n c = ⟨.num a, .num b⟩ ∧ g (r n) (al c) = ⟨.num a', .num b'⟩ ∧ |rnd (a' - a)| ≤ tol ∧ |rnd (b' + b)| ≤ tol := by
  obtain ⟨⟨a, ha, -⟩, ⟨b, hb, -⟩⟩ := hf n c
  obtain ⟨⟨a', ha', -⟩, ⟨b', hb', -⟩⟩ := hf (r n) (al c)
  refine ⟨a, b, a', b', by rw [← ha, ← hb], by rw [← ha', ← hb'], ?_⟩
  unfold defect Z.conj Z.sub D.sub at hl
  simp only [ha, hb, ha', hb', D.neg, D.add] at hl
  rw [show -b' + -b = -(b' + b) by ring, D.of_neg, show a' + -a = a' - a by ring] at hl
  unfold D.of at hl
  by_cases f1 : |rnd (a' - a)| < 2 ^ 1024
  · rw [if_pos f1] at hl
    by_cases f2 : |rnd (b' + b)| < 2 ^ 1024
    · rw [if_pos f2] at hl
      simp only [D.neg] at hl
      rcases hh.big (rnd (a' - a)) (-rnd (b' + b)) with ⟨x, e, x1, x2⟩ | e
      · rw [e] at hl
        simp only [D.lt, decide_eq_false_iff_not, not_lt] at hl
        rw [abs_neg] at x2
        exact ⟨x1.trans hl, x2.trans hl⟩
      · rw [e] at hl
        simp [D.lt] at hl
    · rw [if_neg f2] at hl
      simp only [D.neg] at hl
      rw [hh.inf_im] at hl
      simp [D.lt] at hl
  · rw [if_neg f1, hh.inf_re] at hl
    simp [D.lt] at hl

theorem close_of_rnd {x y tol : ℚ} (hx : Rep x) (hy : Rep y) (h : |rnd (x - y)| ≤ tol) : |x - y| ≤ tol * (1 + 2 / 9007199254740992) := by
  have h0 : 0 ≤ tol := (abs_nonneg _).trans h
  have key : ∀ u v : ℚ, Rep u → Rep v → v ≤ u → |rnd (u - v)| ≤ tol → u - v ≤ tol * (1 + 2 / 9007199254740992) := by
    intro u v hu hv huv hr
    have := (rel_sub hu hv huv).1
    rw [abs_of_nonneg (rnd_nonneg (by linarith))] at hr
    unfold c53 at this
    rw [pow_one] at this
    linarith
  rcases le_total y x with hyx | hxy
  · rw [abs_of_nonneg (by linarith)]
    exact key x y hx hy hyx h
  · rw [abs_of_nonpos (by linarith), neg_sub]
    refine key y x hy hx hxy ?_
    rwa [show y - x = -(x - y) by ring, rnd_neg, abs_neg]

/-- **C194, what the comparison of every element accepts**: functions without infinities and NaN whose parts agree up to the tolerance; with tolerance zero bit by bit. -/
theorem C194_each (h : Z → D) (hh : Hypot h) (r : ℤ → ℤ) (al : List ℕ → List ℕ) (points : List ℤ) (elements : List (List ℕ)) (g : Data) (hf : Finite g) (tol : ℚ)
    (ht : testEach h r al points elements g (.num tol) = true) (n : ℤ) (hn : n ∈ points) (c : List ℕ) (hc : c ∈ elements) :
    ∃ a b a' b', g n c = ⟨.num a, .num b⟩ ∧ g (r n) (al c) = ⟨.num a', .num b'⟩ ∧ |a' - a| ≤ tol * (1 + 2 / 9007199254740992) ∧
      |b' + b| ≤ tol * (1 + 2 / 9007199254740992) := by
  unfold testEach at ht
  rw [List.all_eq_true] at ht
  have h1 := ht n hn
  rw [List.all_eq_true] at h1
  have h2 : (D.num tol).lt (defect h r al g n c) = false := by simpa using h1 c hc
  obtain ⟨a, b, a', b', e1, e2, l1, l2⟩ := defect_le hh hf n c tol h2
  refine ⟨a, b, a', b', e1, e2, ?_, ?_⟩
  all_goals
    obtain ⟨⟨p, hp, p1⟩, ⟨q, hq, q1⟩⟩ := hf n c
    obtain ⟨⟨p', hp', p1'⟩, ⟨q', hq', q1'⟩⟩ := hf (r n) (al c)
    rw [e1] at hp hq
    rw [e2] at hp' hq'
    obtain rfl : a = p := D.num.inj hp
    obtain rfl : b = q := D.num.inj hq
    obtain rfl : a' = p' := D.num.inj hp'
    obtain rfl : b' = q' := D.num.inj hq'
  · exact close_of_rnd p1'.1 p1.1 l1
  · have := close_of_rnd (x := b') (y := -b) (tol := tol) q1'.1 (rep_neg q1.1) (by rwa [sub_neg_eq_add])
    rwa [sub_neg_eq_add] at this

theorem lt_trans_num {tol : ℚ} {x y : D} (h1 : (D.num tol).lt x = true) (h2 : x.lt y = true) : (D.num tol).lt y = true := by
  cases x with
  | nan => simp [D.lt] at h1
  | inf s =>
    cases s
    · cases y with
      | nan => simp [D.lt] at h2
      | inf t => simp [D.lt] at h2
      | num q => simp [D.lt] at h2
    · simp [D.lt] at h1
  | num p =>
    cases y with
    | nan => simp [D.lt] at h2
    | inf t => simpa [D.lt] using h2
    | num q =>
      simp only [D.lt, decide_eq_true_eq] at h1 h2 ⊢
      exact h1.trans h2

/-- not NaN -/
def Ordered (x : D) : Prop := x ≠ .nan

theorem lt_of_not {tol : ℚ} {x y : D} (hx : Ordered x) (hy : Ordered y) (h1 : (D.num tol).lt y = true) (h2 : x.lt y = false) : (D.num tol).lt x = true := by
  cases x with
  | nan => exact absurd rfl hx
  | inf s =>
    cases s
    · rfl
    · cases y with
      | nan => exact absurd rfl hy
      | inf t => cases t <;> simp [D.lt] at h1 h2
      | num q => simp [D.lt] at h2
  | num p =>
    cases y with
    | nan => exact absurd rfl hy
    | inf t => cases t <;> simp [D.lt] at h1 h2
    | num q =>
      simp only [D.lt, decide_eq_true_eq, decide_eq_false_iff_not, not_lt] at h1 h2 ⊢
      exact h1.trans_le h2

theorem foldl_max_lt (tol : ℚ) (l : List D) : ∀ x, Ordered x → (∀ y ∈ l, Ordered y) → (D.num tol).lt (l.foldl D.max x) = false →
    (D.num tol).lt x = false ∧ ∀ y ∈ l, (D.num tol).lt y = false := by
  induction l with
  | nil => intro x _ _ h; exact ⟨h, by simp⟩
  | cons y l ih =>
    intro x hx hl h
    have hy := hl y (List.mem_cons.2 (Or.inl rfl))
    have hm : Ordered (x.max y) := by unfold D.max; split <;> assumption
    obtain ⟨h1, h2⟩ := ih _ hm (fun z hz => hl z (List.mem_cons.2 (Or.inr hz))) h
    have hxy : (D.num tol).lt x = false ∧ (D.num tol).lt y = false := by
      unfold D.max at h1
      by_cases e : x.lt y = true
      · rw [if_pos e] at h1
        refine ⟨?_, h1⟩
        by_contra hc
        rw [Bool.not_eq_false] at hc
        rw [lt_trans_num hc e] at h1
        exact absurd h1 (by simp)
      · rw [if_neg e] at h1
        refine ⟨h1, ?_⟩
        by_contra hc
        rw [Bool.not_eq_false] at hc
        rw [lt_of_not hx hy hc (by simpa using e)] at h1
        exact absurd h1 (by simp)
    refine ⟨hxy.1, fun z hz => ?_⟩
    rcases List.mem_cons.1 hz with rfl | hz
    · exact hxy.2
    · exact h2 z hz

/-- **C194, what the comparison of the largest element accepts**: without infinities and NaN in the data the same. -/
theorem C194_largest (h : Z → D) (hh : Hypot h) (r : ℤ → ℤ) (al : List ℕ → List ℕ) (points : List ℤ) (elements : List (List ℕ)) (g : Data) (hf : Finite g) (tol : ℚ)
    (ht : testMax h r al points elements g (.num tol) = true) : testEach h r al points elements g (.num tol) = true := by
  unfold testMax at ht
  unfold testEach
  rw [List.all_eq_true] at ht ⊢
  intro n hn
  rw [List.all_eq_true]
  have h1 := ht n hn
  have hord : ∀ d ∈ elements.map (defect h r al g n), Ordered d := by
    intro d hd
    obtain ⟨c, -, rfl⟩ := List.mem_map.1 hd
    obtain ⟨⟨a, ha, -⟩, ⟨b, hb, -⟩⟩ := hf n c
    obtain ⟨⟨a', ha', -⟩, ⟨b', hb', -⟩⟩ := hf (r n) (al c)
    unfold defect Z.conj Z.sub D.sub Ordered
    simp only [ha, hb, ha', hb', D.neg, D.add]
    unfold D.of
    split
    · split
      · rcases hh.big (rnd (a' + -a)) (rnd (-b' + -b)) with ⟨x, e, -, -⟩ | e <;> rw [e] <;> simp
      · rw [hh.inf_im]; simp
    · rw [hh.inf_re]; simp
  intro c hc
  have hm : defect h r al g n c ∈ elements.map (defect h r al g n) := List.mem_map.2 ⟨c, hc, rfl⟩
  rw [Bool.not_eq_true']
  split at h1
  · rename_i e
    rw [e] at hm
    exact absurd hm List.not_mem_nil
  · rename_i d l e
    rw [e] at hm hord
    rw [Bool.not_eq_true'] at h1
    obtain ⟨k1, k2⟩ := foldl_max_lt tol l d (hord d (List.mem_cons.2 (Or.inl rfl))) (fun y hy => hord y (List.mem_cons.2 (Or.inr hy))) h1
    rcases List.mem_cons.1 hm with e2 | e2
    · rw [e2]; exact k1
    · exact k2 _ e2

/-- **C194, NaN.**  If the first element is NaN (and its imaginary part not infinite) the comparison of the largest element accepts the point, whatever the other elements are. -/
theorem C194_nan (h : Z → D) (hh : Hypot h) (s : Stat) (pos : Bool) (n : ℤ) (c : List ℕ) (elements : List (List ℕ)) (g : Data) (tol : ℚ)
    (hn : (g n c).re = .nan) (hi : ∀ t, (g (opposite s n) (adjoint c)).im.neg.sub (g n c).im ≠ .inf t) :
    isHermitian h pos s [n] 2 (c :: elements) g (.num tol) = true := by
  have hd : defect h (opposite s) adjoint g n c = .nan := by
    unfold defect Z.conj Z.sub
    have : D.sub (g (opposite s n) (adjoint c)).re (g n c).re = .nan := by
      rw [hn]
      unfold D.sub
      cases (g (opposite s n) (adjoint c)).re <;> rfl
    simp only [this]
    exact hh.nan_re _ hi
  have hmax : ∀ l : List D, l.foldl D.max .nan = .nan := by
    intro l
    induction l with
    | nil => rfl
    | cons y l ih =>
      have : D.max .nan y = .nan := by unfold D.max; cases y <;> rfl
      rw [List.foldl_cons, this, ih]
  unfold isHermitian
  cases pos
  · rw [Bool.false_or, if_pos rfl]
    unfold testMax
    simp only [List.map_cons, hd, List.all_cons, List.all_nil, Bool.and_true, hmax]
    rfl
  · rfl

/-- **C194, overflow.**  A symmetric function with large values is not returned but becomes infinite. -/
theorem C194_overflow : ∃ g : Data, Finite g ∧ Symmetric (opposite .fermion) adjoint g ∧ ∀ n c, (makeHermitian false .fermion g n c).re = .inf false := by
  have hb : IsDouble (2 ^ (1023 : ℤ)) := ⟨rep_zpow (by norm_num), by rw [abs_of_pos (two_zpow_pos _)]; exact big_lt' (by norm_num)⟩
  refine ⟨fun _ _ => ⟨.num (2 ^ (1023 : ℤ)), .num 0⟩, fun _ _ => ⟨⟨_, rfl, hb⟩, ⟨0, rfl, isDouble_small rep_zero (by norm_num)⟩⟩, fun _ _ => ?_, fun _ _ => ?_⟩
  · simp [Z.conj, D.neg]
  · have e : (2 : ℚ) ^ (1023 : ℤ) + 2 ^ (1023 : ℤ) = 2 ^ (1024 : ℤ) := by rw [show (1024 : ℤ) = 1023 + 1 by norm_num, two_zpow_add]; ring
    have : D.of ((2 : ℚ) ^ (1023 : ℤ) + 2 ^ (1023 : ℤ)) = .inf false := by
      unfold D.of
      rw [e, rnd_rep (rep_zpow (by norm_num)), if_neg, decide_eq_false (not_lt.2 (two_zpow_pos _).le)]
      rw [abs_of_pos (two_zpow_pos _), not_lt]
      exact le_of_eq (zpow_natCast 2 1024).symm
    show ((D.num _).add (.num _)).half = _
    unfold D.add
    simp only
    rw [this]
    rfl

/-! ### Examples -/

/-- a function with the properties of `abs` exists -/
def exAbs : Z → D
  | ⟨.inf _, _⟩ => .inf false
  | ⟨_, .inf _⟩ => .inf false
  | ⟨.num p, .num q⟩ => .num (|p| + |q|)
  | _ => .nan

theorem exHypot : Hypot exAbs where
  zero := by simp [exAbs]
  nan_re := by
    intro y h
    cases y with
    | inf s => exact absurd rfl (h s)
    | _ => rfl
  nan_im := by
    intro x h
    cases x with
    | inf s => exact absurd rfl (h s)
    | _ => rfl
  big := fun p q => Or.inl ⟨_, rfl, by linarith [abs_nonneg q], by linarith [abs_nonneg p]⟩
  inf_re := fun _ _ => rfl
  inf_im := by
    intro s x
    cases x <;> rfl

def exG : Data := fun n c => if n = 0 ∧ c = [0, 1] then ⟨.num 1, .num 2⟩ else if n = -1 ∧ c = [1, 0] then ⟨.num 3, .num 4⟩ else ⟨.num 0, .num 0⟩

example : makeHermitian false .fermion exG 0 [0, 1] = ⟨.num 2, .num (-1)⟩ ∧ makeHermitian false .fermion exG (-1) [1, 0] = ⟨.num 2, .num 1⟩ := by decide +kernel

/-- not symmetric, and refused -/
example : isHermitian exAbs false .fermion [0] 2 [[0, 0], [0, 1]] exG (.num 1) = false := by decide +kernel

/-- a NaN before the other elements hides them -/
def exN : Data := fun n c => if n = 0 ∧ c = [0, 0] then ⟨.nan, .num 0⟩ else exG n c

example : isHermitian exAbs false .fermion [0] 2 [[0, 0], [0, 1]] exN (.num 1) = true := by decide +kernel

/-- a NaN after them does not -/
example : isHermitian exAbs false .fermion [0] 2 [[0, 1], [0, 0]] exN (.num 1) = false := by decide +kernel

end Verif.HermitianDouble
