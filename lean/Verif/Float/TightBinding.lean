import Verif.Float.Jackknife
import Verif.Float.NodeSum
import Mathlib.Algebra.Order.BigOperators.Group.List

/-!
# Tight-binding Hamiltonians in double precision

C62 is about exact arithmetic. Here `fourier` is modelled with the rounding of the machine.

Source: `/repo/c++/triqs/lattice/tight_binding.hpp` (90-107), for one momentum, one matrix element and its real and imaginary part. The branch for lists of momenta (97-102), which rounds in another order, is left
out. Sine and cosine of the C library are arbitrary functions that are odd and even, bounded by one, with doubles as values; the number two pi is an arbitrary double. The
exponential of a number with real part zero is its cosine and sine. `none` means that a number is not finite, or that there are no hoppings.
-/

namespace Verif.TightBindingDouble

open Binary64 LinearDouble JackknifeDouble NodeSum

/-! ## Model -/

/-- a displacement with its matrix, real and imaginary parts -/
structure Hop where
  R : List ℤ
  re : ℕ → ℕ → ℚ
  im : ℕ → ℕ → ℚ

/-- the C library and the constant `2 * M_PI` -/
structure Lib where
  cs : ℚ → ℚ
  sn : ℚ → ℚ
  tp : ℚ

/-- the additions of `dot_generic` -/
def dotLoop : ℚ → List (ℚ × ℤ) → Option ℚ
  | s, [] => some s
  | s, (k, R) :: l => (fin (k * rnd R)).bind fun p => (fin (s + p)).bind fun s' => dotLoop s' l

/-- `dot_generic(k_ndim, displ_vec_[j])`, tight_binding.hpp:96 -/
def dot (k : List ℚ) (R : List ℤ) : Option ℚ := dotLoop 0 (k.zip R)

/-- the imaginary part of the argument of the exponential, tight_binding.hpp:96 -/
def angle (L : Lib) (k : List ℚ) (R : List ℤ) : Option ℚ := match dot k R with
  | none => none
  | some d => fin (L.tp * d)

/-- real part of a product of complex numbers -/
def mulRe (c s a b : ℚ) : Option ℚ := match fin (c * a), fin (s * b) with
  | some x, some y => fin (x - y)
  | _, _ => none

/-- imaginary part of a product of complex numbers -/
def mulIm (c s a b : ℚ) : Option ℚ := match fin (c * b), fin (s * a) with
  | some x, some y => fin (x + y)
  | _, _ => none

/-- `vals(j)`, tight_binding.hpp:94-96 -/
def termRe (L : Lib) (k : List ℚ) (a b : ℕ) (h : Hop) : Option ℚ := match angle L k h.R with
  | none => none
  | some t => mulRe (L.cs t) (L.sn t) (h.re a b) (h.im a b)

/-- `vals(j)`, tight_binding.hpp:94-96 -/
def termIm (L : Lib) (k : List ℚ) (a b : ℕ) (h : Hop) : Option ℚ := match angle L k h.R with
  | none => none
  | some t => mulIm (L.cs t) (L.sn t) (h.re a b) (h.im a b)

/-- real part of an element of `fourier(k)`, tight_binding.hpp:104-106: the first term, to which the others are added -/
def fourierRe (L : Lib) (hs : List Hop) (k : List ℚ) (a b : ℕ) : Option ℚ := (all (hs.map (termRe L k a b))).bind JackknifeDouble.total

/-- imaginary part of an element of `fourier(k)`, tight_binding.hpp:104-106 -/
def fourierIm (L : Lib) (hs : List Hop) (k : List ℚ) (a b : ℕ) : Option ℚ := (all (hs.map (termIm L k a b))).bind JackknifeDouble.total

/-! ## Specification -/

/-- what is used of the C library -/
structure Lib.Good (L : Lib) : Prop where
  even : ∀ x, L.cs (-x) = L.cs x
  odd : ∀ x, L.sn (-x) = -L.sn x
  csRep : ∀ x, Rep (L.cs x)
  snRep : ∀ x, Rep (L.sn x)
  csOne : ∀ x, |L.cs x| ≤ 1
  snOne : ∀ x, |L.sn x| ≤ 1

/-- the hopping in the opposite direction -/
def Hop.dagger (h : Hop) : Hop := ⟨h.R.map fun x => -x, fun a b => h.re b a, fun a b => -h.im b a⟩

/-- the list of hoppings contains for each one that in the opposite direction, in any order -/
def Paired (hs : List Hop) : Prop := (hs.map Hop.dagger).Perm hs

/-- the matrix elements are doubles -/
def Doubles (hs : List Hop) : Prop := ∀ h ∈ hs, ∀ a b, Rep (h.re a b) ∧ Rep (h.im a b)

/-- size of the hoppings between two orbitals -/
def strength (hs : List Hop) (a b : ℕ) : ℚ := (hs.map fun h => |h.re a b| + |h.im a b|).sum

/-- the angle that a displacement gets, for the statements -/
def theta (L : Lib) (k : List ℚ) (h : Hop) : ℚ := (angle L k h.R).getD 0

/-- exact value of the scalar product, and of the moduli of its terms -/
def exactDot (k : List ℚ) (R : List ℤ) : ℚ := ((k.zip R).map fun p => p.1 * (p.2 : ℚ)).sum
def exactAbs (k : List ℚ) (R : List ℤ) : ℚ := ((k.zip R).map fun p => |p.1 * (p.2 : ℚ)|).sum

/-! ## Proofs -/

theorem fin_neg (x : ℚ) : fin (-x) = (fin x).map fun y => -y := by
  unfold fin
  rw [rnd_neg, abs_neg]
  split <;> rfl

theorem dotLoop_cons (s k : ℚ) (R : ℤ) (l : List (ℚ × ℤ)) : dotLoop s ((k, R) :: l) = (fin (k * rnd R)).bind fun p => (fin (s + p)).bind fun s' => dotLoop s' l := by
  conv_lhs => unfold dotLoop

/-- the sum with all products of the opposite sign -/
theorem dotLoop_map (f : ℚ × ℤ → ℚ × ℤ) (hf : ∀ p, (f p).1 * rnd ((f p).2 : ℚ) = -(p.1 * rnd (p.2 : ℚ))) (s : ℚ) (l : List (ℚ × ℤ)) : dotLoop (-s) (l.map f) = (dotLoop s l).map fun y => -y := by
  induction l generalizing s with
  | nil => rfl
  | cons p l ih =>
    have h := hf p
    rw [List.map_cons, show f p = ((f p).1, (f p).2) from rfl, dotLoop_cons, h, fin_neg, show p = (p.1, p.2) from rfl, dotLoop_cons]
    cases fin (p.1 * rnd p.2) with
    | none => rfl
    | some q =>
      simp only [Option.map_some, Option.bind_some]
      rw [show -s + -q = -(s + q) by ring, fin_neg]
      cases fin (s + q) with
      | none => rfl
      | some t =>
        simp only [Option.map_some, Option.bind_some]
        exact ih t

theorem dot_neg (k : List ℚ) (R : List ℤ) : dot k (R.map fun x => -x) = (dot k R).map fun y => -y := by
  unfold dot
  have := dotLoop_map (fun p => (p.1, -p.2)) (fun p => by push_cast; rw [rnd_neg]; ring) 0 (k.zip R)
  rw [neg_zero] at this
  rw [← this, List.zip_map_right]
  rfl

theorem dot_neg' (k : List ℚ) (R : List ℤ) : dot (k.map fun x => -x) R = (dot k R).map fun y => -y := by
  unfold dot
  have := dotLoop_map (fun p => (-p.1, p.2)) (fun p => by ring) 0 (k.zip R)
  rw [neg_zero] at this
  rw [← this, List.zip_map_left]
  rfl

theorem angle_of_neg {L : Lib} {k k' : List ℚ} {R R' : List ℤ} (h : dot k' R' = (dot k R).map fun y => -y) : angle L k' R' = (angle L k R).map fun y => -y := by
  unfold angle
  rw [h]
  cases dot k R with
  | none => rfl
  | some d =>
    simp only [Option.map_some]
    rw [mul_neg, fin_neg]

theorem mulRe_conj (c s a b : ℚ) : mulRe c (-s) a (-b) = mulRe c s a b := by
  unfold mulRe
  rw [neg_mul_neg]

theorem mulIm_conj (c s a b : ℚ) : mulIm c (-s) a (-b) = (mulIm c s a b).map fun y => -y := by
  unfold mulIm
  rw [mul_neg, neg_mul, fin_neg, fin_neg]
  cases fin (c * b) with
  | none => rfl
  | some x =>
    cases fin (s * a) with
    | none => rfl
    | some y =>
      simp only [Option.map_some]
      rw [show -x + -y = -(x + y) by ring, fin_neg]

/-- the terms of opposite displacements are conjugates to the last bit -/
theorem termRe_dagger {L : Lib} (hL : L.Good) (k : List ℚ) (a b : ℕ) (h : Hop) : termRe L k a b h.dagger = termRe L k b a h := by
  unfold termRe
  rw [show h.dagger.R = h.R.map fun x => -x from rfl, angle_of_neg (dot_neg k h.R)]
  cases angle L k h.R with
  | none => rfl
  | some t =>
    simp only [Option.map_some]
    rw [hL.even, hL.odd]
    exact mulRe_conj _ _ _ _

theorem termIm_dagger {L : Lib} (hL : L.Good) (k : List ℚ) (a b : ℕ) (h : Hop) : termIm L k a b h.dagger = (termIm L k b a h).map fun y => -y := by
  unfold termIm
  rw [show h.dagger.R = h.R.map fun x => -x from rfl, angle_of_neg (dot_neg k h.R)]
  cases angle L k h.R with
  | none => rfl
  | some t =>
    simp only [Option.map_some]
    rw [hL.even, hL.odd]
    exact mulIm_conj _ _ _ _

/-- rounding of a sum that succeeds -/
theorem sumLoop_rel : ∀ {l : List ℚ} {s r S A : ℚ} {k : ℕ}, Rep s → (∀ x ∈ l, Rep x) → |s - S| ≤ (g ^ k - 1) * A → |S| ≤ A → sumLoop s l = some r →
    |r - (S + l.sum)| ≤ (g ^ (k + l.length) - 1) * (A + (l.map abs).sum) := by
  intro l
  induction l with
  | nil =>
    intro s r S A k _ _ h _ hr
    cases hr
    simpa using h
  | cons x l ih =>
    intro s r S A k hs hx h hS hr
    unfold sumLoop at hr
    cases e : fin (s + x) with
    | none => rw [e] at hr; cases hr
    | some t =>
      rw [e] at hr
      have ht := (fin_some e).1
      have hxr := hx x (by simp)
      have h5 := add_err hs hxr
      have hA0 : 0 ≤ A := (abs_nonneg _).trans hS
      have hg1 := g_pow_one k
      have h1 : |s + x - (S + x)| ≤ (g ^ k - 1) * (A + |x|) := by
        rw [show s + x - (S + x) = s - S by ring]
        have := mul_nonneg (by linarith : 0 ≤ g ^ k - 1) (abs_nonneg x)
        linarith
      have h2 : |S + x| ≤ A + |x| := (abs_add_le S x).trans (add_le_add hS le_rfl)
      have h3 : |s + x| ≤ g ^ k * (A + |x|) := by
        have := abs_add_le (s + x - (S + x)) (S + x)
        rw [sub_add_cancel] at this
        linarith
      have h4 : |t - (S + x)| ≤ (g ^ (k + 1) - 1) * (A + |x|) := by
        have h6 := abs_sub_le (rnd (s + x)) (s + x) (S + x)
        have h7 := mul_le_mul_of_nonneg_right h3 (by norm_num : (0 : ℚ) ≤ 1 / 9007199254740992)
        have h8 : (g ^ (k + 1) - 1) * (A + |x|) = g ^ k * (A + |x|) * (1 / 9007199254740992) + (g ^ k - 1) * (A + |x|) := by
          rw [pow_succ]
          conv_lhs => rw [show g ^ k * g = g ^ k * (1 + 1 / 9007199254740992) from rfl]
          ring
        rw [h8, ht]
        linarith
      have := ih (k := k + 1) (by rw [ht]; exact rep_rnd _) (fun y hy => hx y (by simp [hy])) h4 h2 hr
      rw [List.sum_cons, List.map_cons, List.sum_cons, List.length_cons, show k + (l.length + 1) = k + 1 + l.length by omega, ← add_assoc, ← add_assoc]
      exact this

theorem total_rel {l : List ℚ} {r : ℚ} (hx : ∀ x ∈ l, Rep x) (h : JackknifeDouble.total l = some r) : |r - l.sum| ≤ (g ^ l.length - 1) * (l.map abs).sum := by
  cases l with
  | nil => cases h
  | cons x l =>
    have := sumLoop_rel (k := 0) (S := x) (A := |x|) (hx x (by simp)) (fun y hy => hx y (by simp [hy])) (by simp) le_rfl h
    rw [List.sum_cons, List.map_cons, List.sum_cons, List.length_cons]
    rw [zero_add] at this
    have hA : 0 ≤ |x| + (l.map abs).sum := add_nonneg (abs_nonneg _) (List.sum_nonneg (by
      intro y hy
      obtain ⟨z, _, rfl⟩ := List.mem_map.1 hy
      exact abs_nonneg _))
    refine this.trans (mul_le_mul_of_nonneg_right ?_ hA)
    have := g_pow_mono (show l.length ≤ l.length + 1 by omega)
    linarith

theorem mulRe_some {c s a b r : ℚ} (hc : |c| ≤ 1) (hs : |s| ≤ 1) (ha : Rep a) (hb : Rep b) (h : mulRe c s a b = some r) : Rep r ∧ |r| ≤ (1 + 1 / 9007199254740992) * (|a| + |b|) := by
  unfold mulRe at h
  cases e1 : fin (c * a) with
  | none => rw [e1] at h; cases h
  | some x =>
    cases e2 : fin (s * b) with
    | none => rw [e1, e2] at h; cases h
    | some y =>
      rw [e1, e2] at h
      have hx := (fin_some e1).1
      have hy := (fin_some e2).1
      have hr := (fin_some h).1
      have key : ∀ {u v : ℚ}, |u| ≤ 1 → Rep v → |rnd (u * v)| ≤ |v| := by
        intro u v hu hv
        have : |u * v| ≤ |v| := by
          rw [abs_mul]
          exact mul_le_of_le_one_left (abs_nonneg _) hu
        have hrv : Rep |v| := by
          rcases abs_choice v with h | h <;> rw [h]
          · exact hv
          · exact rep_neg hv
        rw [abs_le] at this ⊢
        exact ⟨le_rnd (rep_neg hrv) this.1, rnd_le hrv this.2⟩
      have kx := key hc ha
      have ky := key hs hb
      rw [← hx] at kx
      rw [← hy] at ky
      refine ⟨by rw [hr]; exact rep_rnd _, ?_⟩
      have he := add_err (x := x) (y := -y) (by rw [hx]; exact rep_rnd _) (rep_neg (by rw [hy]; exact rep_rnd _))
      rw [← sub_eq_add_neg, ← hr] at he
      have t1 := abs_sub x y
      have t2 := abs_add_le (r - (x - y)) (x - y)
      rw [sub_add_cancel] at t2
      linarith

theorem mulIm_some {c s a b r : ℚ} (hc : |c| ≤ 1) (hs : |s| ≤ 1) (ha : Rep a) (hb : Rep b) (h : mulIm c s a b = some r) : Rep r ∧ |r| ≤ (1 + 1 / 9007199254740992) * (|a| + |b|) := by
  have h' : mulRe c (-s) b a = some r := by
    unfold mulIm at h
    unfold mulRe
    rw [neg_mul, fin_neg]
    cases e1 : fin (c * b) with
    | none => rw [e1] at h; cases h
    | some x =>
      cases e2 : fin (s * a) with
      | none => rw [e1, e2] at h; cases h
      | some y =>
        rw [e1, e2] at h
        simp only [Option.map_some]
        rw [sub_neg_eq_add]
        exact h
  have := mulRe_some hc (by rwa [abs_neg]) hb ha h'
  rwa [add_comm |b|] at this

theorem termRe_some {L : Lib} (hL : L.Good) {k : List ℚ} {a b : ℕ} {h : Hop} (hr : Rep (h.re a b)) (hi : Rep (h.im a b)) {r : ℚ} (e : termRe L k a b h = some r) :
    Rep r ∧ |r| ≤ (1 + 1 / 9007199254740992) * (|h.re a b| + |h.im a b|) := by
  unfold termRe at e
  cases e1 : angle L k h.R with
  | none => rw [e1] at e; cases e
  | some t => rw [e1] at e; exact mulRe_some (hL.csOne _) (hL.snOne _) hr hi e

theorem termIm_some {L : Lib} (hL : L.Good) {k : List ℚ} {a b : ℕ} {h : Hop} (hr : Rep (h.re a b)) (hi : Rep (h.im a b)) {r : ℚ} (e : termIm L k a b h = some r) :
    Rep r ∧ |r| ≤ (1 + 1 / 9007199254740992) * (|h.re a b| + |h.im a b|) := by
  unfold termIm at e
  cases e1 : angle L k h.R with
  | none => rw [e1] at e; cases e
  | some t => rw [e1] at e; exact mulIm_some (hL.csOne _) (hL.snOne _) hr hi e

/-- a sum of terms: the result is the exact sum of the terms up to rounding -/
theorem sum_terms {hs : List Hop} {T : Hop → Option ℚ} {a b : ℕ} (hT : ∀ h ∈ hs, ∀ r, T h = some r → Rep r ∧ |r| ≤ (1 + 1 / 9007199254740992) * (|h.re a b| + |h.im a b|)) (hn : hs.length ≤ 2 ^ 50)
    {x : ℚ} (h : (all (hs.map T)).bind JackknifeDouble.total = some x) :
    ∃ r : List ℚ, hs.map T = r.map some ∧ |x - r.sum| ≤ 5 / 2 * hs.length * 2 ^ (-53 : ℤ) * strength hs a b := by
  cases e : all (hs.map T) with
  | none => rw [e] at h; cases h
  | some r =>
    rw [e] at h
    have hr := all_some e
    refine ⟨r, hr, ?_⟩
    have hlen : r.length = hs.length := by
      have := congrArg List.length hr
      simpa using this.symm
    have hmem : ∀ y ∈ r, Rep y := by
      intro y hy
      have : some y ∈ hs.map T := by rw [hr]; exact List.mem_map_of_mem hy
      obtain ⟨h, hh, he⟩ := List.mem_map.1 this
      exact (hT h hh y he).1
    have hsum : ∀ (hs : List Hop) (r : List ℚ), (∀ h ∈ hs, ∀ r, T h = some r → Rep r ∧ |r| ≤ (1 + 1 / 9007199254740992) * (|h.re a b| + |h.im a b|)) → hs.map T = r.map some →
        (r.map abs).sum ≤ (1 + 1 / 9007199254740992) * strength hs a b := by
      intro hs
      induction hs with
      | nil =>
        intro r _ hr
        cases r with
        | nil => simp [strength]
        | cons y r => cases hr
      | cons h hs ih =>
        intro r hT hr
        cases r with
        | nil => cases hr
        | cons y r =>
          simp only [List.map_cons, List.cons.injEq] at hr
          have h1 := ih r (fun h hh => hT h (by simp [hh])) hr.2
          have h2 := (hT h (by simp) y hr.1).2
          unfold strength at h1 ⊢
          rw [List.map_cons, List.sum_cons, List.map_cons, List.sum_cons]
          linarith
    have hA := hsum hs r hT hr
    have hS0 : 0 ≤ strength hs a b := List.sum_nonneg (by
      intro y hy
      obtain ⟨z, _, rfl⟩ := List.mem_map.1 hy
      positivity)
    have h1 := total_rel hmem h
    rw [hlen] at h1
    have hg := g_pow (k := hs.length) (by omega)
    have hg1 := g_pow_one hs.length
    have hn0 : (0 : ℚ) ≤ hs.length := by positivity
    rw [show (2 : ℚ) ^ (-53 : ℤ) = 1 / 9007199254740992 by norm_num]
    refine h1.trans ((mul_le_mul_of_nonneg_left hA (by linarith)).trans ?_)
    rw [← mul_assoc]
    refine mul_le_mul_of_nonneg_right ?_ hS0
    linarith

theorem perm_values {hs : List Hop} (hp : Paired hs) {T T' : Hop → Option ℚ} {s : ℚ} (hT : ∀ h, T h.dagger = (T' h).map fun y => s * y) {r r' : List ℚ} (h : hs.map T = r.map some)
    (h' : hs.map T' = r'.map some) : r.sum = s * r'.sum := by
  have h1 : ((hs.map Hop.dagger).map T).Perm (hs.map T) := hp.map T
  have h2 : (hs.map Hop.dagger).map T = (r'.map fun y => s * y).map some := by
    rw [List.map_map]
    have : hs.map (T ∘ Hop.dagger) = (hs.map T').map (Option.map fun y => s * y) := by
      rw [List.map_map]
      exact List.map_congr_left fun h _ => hT h
    rw [this, h', List.map_map, List.map_map]
    rfl
  rw [h2, h] at h1
  have h3 : ((r'.map fun y => s * y).map some |>.map fun o : Option ℚ => o.getD 0).Perm ((r.map some).map fun o : Option ℚ => o.getD 0) := h1.map _
  simp only [List.map_map] at h3
  have h4 := h3.sum_eq
  simp only [Function.comp_def, Option.getD_some] at h4
  rw [List.map_id' r] at h4
  rw [← h4]
  clear h3 h4 h1 h2 h h'
  induction r' with
  | nil => simp
  | cons y l ih => rw [List.map_cons, List.sum_cons, ih, List.sum_cons, mul_add]

/-- **C202**: the matrices are hermitian up to rounding: the terms of opposite displacements are conjugate to the last bit, but they are added in another order -/
theorem C202_hermitian (L : Lib) (hL : L.Good) (hs : List Hop) (hp : Paired hs) (hd : Doubles hs) (hn : hs.length ≤ 2 ^ 50) (k : List ℚ) (a b : ℕ) (x y x' y' : ℚ) (h1 : fourierRe L hs k a b = some x)
    (h2 : fourierIm L hs k a b = some y) (h3 : fourierRe L hs k b a = some x') (h4 : fourierIm L hs k b a = some y') :
    |x - x'| ≤ 5 * hs.length * 2 ^ (-53 : ℤ) * strength hs a b ∧ |y + y'| ≤ 5 * hs.length * 2 ^ (-53 : ℤ) * strength hs a b := by
  have hst : strength hs b a = strength hs a b := by
    unfold strength
    have : (((hs.map Hop.dagger).map fun h => |h.re a b| + |h.im a b|)).Perm (hs.map fun h => |h.re a b| + |h.im a b|) := hp.map _
    rw [← this.sum_eq, List.map_map]
    congr 1
    refine List.map_congr_left fun h _ => ?_
    show _ = |h.re b a| + |-h.im b a|
    rw [abs_neg]
  obtain ⟨r1, e1, b1⟩ := sum_terms (a := a) (b := b) (fun h hh r hr => termRe_some hL (hd h hh a b).1 (hd h hh a b).2 hr) hn h1
  obtain ⟨r2, e2, b2⟩ := sum_terms (a := a) (b := b) (fun h hh r hr => termIm_some hL (hd h hh a b).1 (hd h hh a b).2 hr) hn h2
  obtain ⟨r3, e3, b3⟩ := sum_terms (a := b) (b := a) (fun h hh r hr => termRe_some hL (hd h hh b a).1 (hd h hh b a).2 hr) hn h3
  obtain ⟨r4, e4, b4⟩ := sum_terms (a := b) (b := a) (fun h hh r hr => termIm_some hL (hd h hh b a).1 (hd h hh b a).2 hr) hn h4
  rw [hst] at b3 b4
  have s1 := perm_values (s := 1) hp (T := termRe L k a b) (T' := termRe L k b a) (fun h => by rw [termRe_dagger hL]; simp) e1 e3
  have s2 := perm_values (s := -1) hp (T := termIm L k a b) (T' := termIm L k b a) (fun h => by rw [termIm_dagger hL]; simp) e2 e4
  have hE : 5 * (hs.length : ℚ) * 2 ^ (-53 : ℤ) * strength hs a b = 5 / 2 * hs.length * 2 ^ (-53 : ℤ) * strength hs a b + 5 / 2 * hs.length * 2 ^ (-53 : ℤ) * strength hs a b := by ring
  constructor
  · have t := abs_sub_le x r1.sum x'
    rw [s1, one_mul] at t b1
    rw [abs_sub_comm r3.sum] at t
    rw [hE]
    linarith
  · have t := abs_add_le (y - r2.sum) (y' - r4.sum)
    rw [s2] at t b2
    rw [show y - -1 * r4.sum + (y' - r4.sum) = y + y' by ring] at t
    rw [hE]
    linarith

/-- **C202**: diagonal elements are real up to rounding -/
theorem C202_diagonal (L : Lib) (hL : L.Good) (hs : List Hop) (hp : Paired hs) (hd : Doubles hs) (hn : hs.length ≤ 2 ^ 50) (k : List ℚ) (a : ℕ) (y : ℚ) (h : fourierIm L hs k a a = some y) :
    |y| ≤ 5 / 2 * hs.length * 2 ^ (-53 : ℤ) * strength hs a a := by
  obtain ⟨r, e, b⟩ := sum_terms (a := a) (b := a) (fun h hh r hr => termIm_some hL (hd h hh a a).1 (hd h hh a a).2 hr) hn h
  have s := perm_values (s := -1) hp (T := termIm L k a a) (T' := termIm L k a a) (fun h => by rw [termIm_dagger hL]; simp) e e
  rw [show r.sum = 0 by linarith, sub_zero] at b
  exact b

/-- a double times an integer has a relative error even if it is subnormal -/
theorem mul_int_err {k : ℚ} (hk : Rep k) (R : ℤ) : |rnd (k * R) - k * R| ≤ |k * R| * (1 / 9007199254740992) := by
  rcases le_or_gt ((2 : ℚ) ^ (-1022 : ℤ)) |k * R| with h | h
  · have := rnd_rel h
    rwa [show (2 : ℚ) ^ (-53 : ℤ) = 1 / 9007199254740992 by norm_num] at this
  · obtain ⟨n, e, he, hn, rfl⟩ := hk
    have hr : Rep ((n : ℚ) * 2 ^ e * R) := by
      obtain ⟨m, hm⟩ := Int.eq_ofNat_of_zero_le (show 0 ≤ e + 1074 by omega)
      have hx : (n : ℚ) * 2 ^ e * R = ((n * 2 ^ m * R : ℤ) : ℚ) * 2 ^ (-1074 : ℤ) := by
        push_cast
        rw [show e = (m : ℤ) + (-1074) by omega, zpow_add₀ (by norm_num), zpow_natCast]
        ring
      rw [hx] at h ⊢
      refine ⟨n * 2 ^ m * R, -1074, le_rfl, ?_, rfl⟩
      rw [abs_mul, abs_of_pos (two_zpow_pos _), show (-1022 : ℤ) = 52 + -1074 by norm_num, zpow_add₀ (by norm_num)] at h
      have h2 := lt_of_mul_lt_mul_right h (two_zpow_pos _).le
      have h3 : |((n * 2 ^ m * R : ℤ) : ℚ)| ≤ 2 ^ (53 : ℕ) := h2.le.trans (by norm_num)
      exact_mod_cast h3
    rw [rnd_rep hr, sub_self, abs_zero]
    positivity

theorem dotLoop_err : ∀ {l : List (ℚ × ℤ)} {s r S A : ℚ} {j : ℕ}, 1 ≤ j → Rep s → (∀ p ∈ l, Rep p.1 ∧ |p.2| ≤ 2 ^ 53) → |s - S| ≤ (g ^ j - 1) * A → |S| ≤ A → dotLoop s l = some r →
    |r - (S + (l.map fun p => p.1 * (p.2 : ℚ)).sum)| ≤ (g ^ (j + l.length) - 1) * (A + (l.map fun p => |p.1 * (p.2 : ℚ)|).sum) := by
  intro l
  induction l with
  | nil =>
    intro s r S A j _ _ _ h _ hr
    cases hr
    simpa using h
  | cons q l ih =>
    intro s r S A j hj hs hl h hS hr
    obtain ⟨k, R⟩ := q
    obtain ⟨hk, hR⟩ := hl (k, R) (by simp)
    simp only at hk hR
    rw [dotLoop_cons, rnd_rep (rep_int hR)] at hr
    cases e1 : fin (k * R) with
    | none => rw [e1] at hr; cases hr
    | some p =>
      rw [e1, Option.bind_some] at hr
      cases e2 : fin (s + p) with
      | none => rw [e2] at hr; cases hr
      | some t =>
        rw [e2, Option.bind_some] at hr
        have hp := (fin_some e1).1
        have ht := (fin_some e2).1
        have hpe := mul_int_err hk R
        rw [← hp] at hpe
        have hpr : Rep p := by rw [hp]; exact rep_rnd _
        have hA0 : 0 ≤ A := (abs_nonneg _).trans hS
        have hg := g_pow_mono hj
        rw [pow_one] at hg
        have hg' : (1 : ℚ) / 9007199254740992 ≤ g ^ j - 1 := by
          have : g = 1 + 1 / 9007199254740992 := rfl
          linarith
        have h1 : |s + p - (S + k * R)| ≤ (g ^ j - 1) * (A + |k * R|) := by
          have a1 := abs_add_le (s - S) (p - k * R)
          rw [show s - S + (p - k * R) = s + p - (S + k * R) by ring] at a1
          have a2 := mul_le_mul_of_nonneg_left hg' (abs_nonneg (k * R))
          linarith
        have h2 : |S + k * R| ≤ A + |k * R| := (abs_add_le S _).trans (add_le_add hS le_rfl)
        have h3 : |s + p| ≤ g ^ j * (A + |k * R|) := by
          have := abs_add_le (s + p - (S + k * R)) (S + k * R)
          rw [sub_add_cancel] at this
          linarith
        have h4 : |t - (S + k * R)| ≤ (g ^ (j + 1) - 1) * (A + |k * R|) := by
          have h5 := add_err hs hpr
          rw [← ht] at h5
          have h6 := abs_sub_le t (s + p) (S + k * R)
          have h7 := mul_le_mul_of_nonneg_right h3 (by norm_num : (0 : ℚ) ≤ 1 / 9007199254740992)
          have h8 : (g ^ (j + 1) - 1) * (A + |k * R|) = g ^ j * (A + |k * R|) * (1 / 9007199254740992) + (g ^ j - 1) * (A + |k * R|) := by
            rw [pow_succ]
            conv_lhs => rw [show g ^ j * g = g ^ j * (1 + 1 / 9007199254740992) from rfl]
            ring
          rw [h8]
          linarith
        have := ih (j := j + 1) (by omega) (by rw [ht]; exact rep_rnd _) (fun y hy => hl y (by simp [hy])) h4 h2 hr
        rw [List.map_cons, List.sum_cons, List.map_cons, List.sum_cons, List.length_cons, show j + (l.length + 1) = j + 1 + l.length by omega, ← add_assoc, ← add_assoc]
        exact this

/-- **C202**: the angles are two pi times the scalar product of momentum and displacement up to rounding -/
theorem C202_angle (L : Lib) (k : List ℚ) (R : List ℤ) (hk : ∀ x ∈ k, Rep x) (hR : ∀ x ∈ R, |x| ≤ 2 ^ 53) (hn : R.length ≤ 2 ^ 50) (t : ℚ) (h : angle L k R = some t) :
    |t - L.tp * exactDot k R| ≤ (2 * R.length + 4) * 2 ^ (-53 : ℤ) * (|L.tp| * exactAbs k R) + 2 ^ (-1074 : ℤ) := by
  unfold angle at h
  cases e : dot k R with
  | none => rw [e] at h; cases h
  | some d =>
    rw [e] at h
    have ht := (fin_some h).1
    have hd := dotLoop_err (j := 1) (S := 0) (A := 0) le_rfl rep_zero (fun p hp => by
      obtain ⟨a, b⟩ := p
      exact ⟨hk a (List.of_mem_zip hp).1, hR b (List.of_mem_zip hp).2⟩) (by simp) (by simp) e
    rw [zero_add, zero_add] at hd
    change |d - exactDot k R| ≤ _ * exactAbs k R at hd
    have hA : |exactDot k R| ≤ exactAbs k R := by
      unfold exactDot exactAbs
      generalize k.zip R = l
      induction l with
      | nil => simp
      | cons p l ih =>
        rw [List.map_cons, List.sum_cons, List.map_cons, List.sum_cons]
        exact (abs_add_le _ _).trans (add_le_add le_rfl ih)
    have hA0 : 0 ≤ exactAbs k R := (abs_nonneg _).trans hA
    have hlen : (k.zip R).length ≤ R.length := by rw [List.length_zip]; exact min_le_right _ _
    have hg : g ^ (1 + (k.zip R).length) ≤ 1 + 2 * (R.length + 1) / 9007199254740992 := by
      refine (g_pow_mono (show 1 + (k.zip R).length ≤ R.length + 1 by omega)).trans ((g_pow (by omega)).trans (le_of_eq ?_))
      push_cast
      ring
    have h1 : |d - exactDot k R| ≤ 2 * (R.length + 1) / 9007199254740992 * exactAbs k R := hd.trans (mul_le_mul_of_nonneg_right (by linarith) hA0)
    have hsmall : (2 * ((R.length : ℚ) + 1)) / 9007199254740992 ≤ 1 := by
      have : (R.length : ℚ) ≤ 1125899906842624 := by exact_mod_cast hn
      rw [div_le_one (by norm_num)]
      linarith
    have h2 : |d| ≤ 2 * exactAbs k R := by
      have := abs_add_le (d - exactDot k R) (exactDot k R)
      rw [sub_add_cancel] at this
      have := mul_le_mul_of_nonneg_right hsmall hA0
      linarith
    have h3 := rnd_err_abs (L.tp * d)
    rw [← ht, abs_mul] at h3
    have h4 := abs_sub_le t (L.tp * d) (L.tp * exactDot k R)
    rw [← mul_sub, abs_mul] at h4
    have h5 := mul_le_mul_of_nonneg_left h1 (abs_nonneg L.tp)
    have h6 := mul_le_mul_of_nonneg_left h2 (abs_nonneg L.tp)
    rw [show (2 : ℚ) ^ (-53 : ℤ) = 1 / 9007199254740992 by norm_num]
    generalize (2 : ℚ) ^ (-1074 : ℤ) = η at *
    have h7 : (2 * (R.length : ℚ) + 4) * (1 / 9007199254740992) * (|L.tp| * exactAbs k R)
        = |L.tp| * (2 * (R.length + 1) / 9007199254740992 * exactAbs k R) + |L.tp| * (2 * exactAbs k R) * (1 / 9007199254740992) := by ring
    linarith

theorem mulRe_err {c s a b r : ℚ} (hc : |c| ≤ 1) (hs : |s| ≤ 1) (ha : Rep a) (hb : Rep b) (h : mulRe c s a b = some r) :
    |r - (c * a - s * b)| ≤ 2 * (1 / 9007199254740992) * (|a| + |b|) + 2 * 2 ^ (-1074 : ℤ) := by
  unfold mulRe at h
  cases e1 : fin (c * a) with
  | none => rw [e1] at h; cases h
  | some x =>
    cases e2 : fin (s * b) with
    | none => rw [e1, e2] at h; cases h
    | some y =>
      rw [e1, e2] at h
      have hx := (fin_some e1).1
      have hy := (fin_some e2).1
      have hr := (fin_some h).1
      have key : ∀ {u v : ℚ}, |u| ≤ 1 → Rep v → |rnd (u * v)| ≤ |v| ∧ |rnd (u * v) - u * v| ≤ |v| * (1 / 9007199254740992) + 2 ^ (-1074 : ℤ) := by
        intro u v hu hv
        have huv : |u * v| ≤ |v| := by
          rw [abs_mul]
          exact mul_le_of_le_one_left (abs_nonneg _) hu
        have hrv : Rep |v| := by
          rcases abs_choice v with h | h <;> rw [h]
          · exact hv
          · exact rep_neg hv
        have he := rnd_err_abs (u * v)
        refine ⟨?_, he.trans (add_le_add (mul_le_mul_of_nonneg_right huv (by norm_num)) le_rfl)⟩
        rw [abs_le] at huv ⊢
        exact ⟨le_rnd (rep_neg hrv) huv.1, rnd_le hrv huv.2⟩
      obtain ⟨kx, kx'⟩ := key hc ha
      obtain ⟨ky, ky'⟩ := key hs hb
      rw [← hx] at kx kx'
      rw [← hy] at ky ky'
      have he := add_err (x := x) (y := -y) (by rw [hx]; exact rep_rnd _) (rep_neg (by rw [hy]; exact rep_rnd _))
      rw [← sub_eq_add_neg, ← hr] at he
      have t1 := abs_sub x y
      have t2 := abs_sub_le r (x - y) (c * a - s * b)
      have t3 := abs_sub (x - c * a) (y - s * b)
      rw [show x - c * a - (y - s * b) = x - y - (c * a - s * b) by ring] at t3
      generalize (2 : ℚ) ^ (-1074 : ℤ) = η at *
      linarith

theorem mulIm_err {c s a b r : ℚ} (hc : |c| ≤ 1) (hs : |s| ≤ 1) (ha : Rep a) (hb : Rep b) (h : mulIm c s a b = some r) :
    |r - (c * b + s * a)| ≤ 2 * (1 / 9007199254740992) * (|a| + |b|) + 2 * 2 ^ (-1074 : ℤ) := by
  have h' : mulRe c (-s) b a = some r := by
    unfold mulIm at h
    unfold mulRe
    rw [neg_mul, fin_neg]
    cases e1 : fin (c * b) with
    | none => rw [e1] at h; cases h
    | some x =>
      cases e2 : fin (s * a) with
      | none => rw [e1, e2] at h; cases h
      | some y =>
        rw [e1, e2] at h
        simp only [Option.map_some]
        rw [sub_neg_eq_add]
        exact h
  have := mulRe_err hc (by rwa [abs_neg]) hb ha h'
  rwa [add_comm |b|, neg_mul, sub_neg_eq_add] at this

theorem sum_close {T : Hop → Option ℚ} {V B : Hop → ℚ} : ∀ {hs : List Hop} {r : List ℚ}, (∀ h ∈ hs, ∀ r, T h = some r → |r - V h| ≤ B h) → hs.map T = r.map some → |r.sum - (hs.map V).sum| ≤ (hs.map B).sum := by
  intro hs
  induction hs with
  | nil =>
    intro r _ h
    cases r with
    | nil => simp
    | cons y r => cases h
  | cons h hs ih =>
    intro r hT hr
    cases r with
    | nil => cases hr
    | cons y r =>
      simp only [List.map_cons, List.cons.injEq] at hr
      have h1 := ih (fun h hh => hT h (by simp [hh])) hr.2
      have h2 := hT h (by simp) y hr.1
      rw [List.map_cons, List.sum_cons, List.map_cons, List.sum_cons, List.sum_cons]
      have := abs_add_le (y - V h) (r.sum - (hs.map V).sum)
      rw [show y - V h + (r.sum - (hs.map V).sum) = y + r.sum - (V h + (hs.map V).sum) by ring] at this
      linarith

theorem sum_bound (hs : List Hop) (a b : ℕ) (c d : ℚ) : (hs.map fun h => c * (|h.re a b| + |h.im a b|) + d).sum = c * strength hs a b + hs.length * d := by
  unfold strength
  induction hs with
  | nil => simp
  | cons h hs ih =>
    rw [List.map_cons, List.sum_cons, ih, List.map_cons, List.sum_cons, List.length_cons]
    push_cast
    ring

/-- **C202**: the elements are the sums of hopping times phase, up to rounding -/
theorem C202_value (L : Lib) (hL : L.Good) (hs : List Hop) (hd : Doubles hs) (hn : hs.length ≤ 2 ^ 50) (k : List ℚ) (a b : ℕ) (x y : ℚ) (h1 : fourierRe L hs k a b = some x) (h2 : fourierIm L hs k a b = some y) :
    |x - (hs.map fun h => L.cs (theta L k h) * h.re a b - L.sn (theta L k h) * h.im a b).sum| ≤ (5 / 2 * hs.length + 2) * 2 ^ (-53 : ℤ) * strength hs a b + hs.length * 2 ^ (-1073 : ℤ) ∧
      |y - (hs.map fun h => L.cs (theta L k h) * h.im a b + L.sn (theta L k h) * h.re a b).sum| ≤ (5 / 2 * hs.length + 2) * 2 ^ (-53 : ℤ) * strength hs a b + hs.length * 2 ^ (-1073 : ℤ) := by
  have h3 : (2 : ℚ) ^ (-1073 : ℤ) = 2 * 2 ^ (-1074 : ℤ) := by
    rw [show (-1073 : ℤ) = 1 + -1074 by norm_num, zpow_add₀ (by norm_num), zpow_one]
  rw [h3]
  obtain ⟨r1, e1, b1⟩ := sum_terms (a := a) (b := b) (fun h hh r hr => termRe_some hL (hd h hh a b).1 (hd h hh a b).2 hr) hn h1
  obtain ⟨r2, e2, b2⟩ := sum_terms (a := a) (b := b) (fun h hh r hr => termIm_some hL (hd h hh a b).1 (hd h hh a b).2 hr) hn h2
  constructor
  · have hc := sum_close (V := fun h => L.cs (theta L k h) * h.re a b - L.sn (theta L k h) * h.im a b) (B := fun h => 2 * (1 / 9007199254740992) * (|h.re a b| + |h.im a b|) + 2 * 2 ^ (-1074 : ℤ)) (fun h hh r hr => by
      unfold termRe at hr
      simp only [theta]
      cases e : angle L k h.R with
      | none => rw [e] at hr; cases hr
      | some t =>
        rw [e] at hr
        exact mulRe_err (hL.csOne _) (hL.snOne _) (hd h hh a b).1 (hd h hh a b).2 hr) e1
    rw [sum_bound] at hc
    have t := abs_sub_le x r1.sum (hs.map fun h => L.cs (theta L k h) * h.re a b - L.sn (theta L k h) * h.im a b).sum
    rw [show (2 : ℚ) ^ (-53 : ℤ) = 1 / 9007199254740992 by norm_num] at b1 ⊢
    generalize (2 : ℚ) ^ (-1074 : ℤ) = η at *
    linarith
  · have hc := sum_close (V := fun h => L.cs (theta L k h) * h.im a b + L.sn (theta L k h) * h.re a b) (B := fun h => 2 * (1 / 9007199254740992) * (|h.re a b| + |h.im a b|) + 2 * 2 ^ (-1074 : ℤ)) (fun h hh r hr => by
      unfold termIm at hr
      simp only [theta]
      cases e : angle L k h.R with
      | none => rw [e] at hr; cases hr
      | some t =>
        rw [e] at hr
        exact mulIm_err (hL.csOne _) (hL.snOne _) (hd h hh a b).1 (hd h hh a b).2 hr) e2
    rw [sum_bound] at hc
    have t := abs_sub_le y r2.sum (hs.map fun h => L.cs (theta L k h) * h.im a b + L.sn (theta L k h) * h.re a b).sum
    rw [show (2 : ℚ) ^ (-53 : ℤ) = 1 / 9007199254740992 by norm_num] at b2 ⊢
    generalize (2 : ℚ) ^ (-1074 : ℤ) = η at *
    linarith

theorem all_neg (l : List (Option ℚ)) : all (l.map (Option.map fun y => -y)) = (all l).map fun r => r.map fun y => -y := by
  induction l with
  | nil => rfl
  | cons o l ih =>
    cases o with
    | none => rfl
    | some x =>
      simp only [List.map_cons, Option.map_some, all, ih]
      cases all l <;> rfl

theorem sumLoop_cons (s x : ℚ) (l : List ℚ) : sumLoop s (x :: l) = (fin (s + x)).bind fun t => sumLoop t l := by
  conv_lhs => unfold sumLoop
  generalize fin (s + x) = o
  cases o <;> rfl

theorem sumLoop_neg (l : List ℚ) (s : ℚ) : sumLoop (-s) (l.map fun y => -y) = (sumLoop s l).map fun y => -y := by
  induction l generalizing s with
  | nil => rfl
  | cons x l ih =>
    rw [List.map_cons, sumLoop_cons, sumLoop_cons, show -s + -x = -(s + x) by ring, fin_neg]
    generalize fin (s + x) = o
    cases o with
    | none => rfl
    | some t => exact ih t

theorem total_neg (l : List ℚ) : JackknifeDouble.total (l.map fun y => -y) = (JackknifeDouble.total l).map fun y => -y := by
  cases l with
  | nil => rfl
  | cons x l => exact sumLoop_neg l x

/-- **C202**: for real hoppings the matrix at the opposite momentum is the complex conjugate to the last bit -/
theorem C202_time_reversal (L : Lib) (hL : L.Good) (hs : List Hop) (k : List ℚ) (a b : ℕ) (hr : ∀ h ∈ hs, h.im a b = 0) :
    fourierRe L hs (k.map fun x => -x) a b = fourierRe L hs k a b ∧ fourierIm L hs (k.map fun x => -x) a b = (fourierIm L hs k a b).map fun y => -y := by
  constructor
  · unfold fourierRe
    have : hs.map (termRe L (k.map fun x => -x) a b) = hs.map (termRe L k a b) := by
      refine List.map_congr_left fun h hh => ?_
      unfold termRe
      rw [angle_of_neg (dot_neg' k h.R)]
      cases angle L k h.R with
      | none => rfl
      | some t =>
        simp only [Option.map_some]
        rw [hL.even, hL.odd, ← mulRe_conj _ (L.sn t), hr h hh, neg_zero]
    rw [this]
  · unfold fourierIm
    have : hs.map (termIm L (k.map fun x => -x) a b) = (hs.map (termIm L k a b)).map (Option.map fun y => -y) := by
      rw [List.map_map]
      refine List.map_congr_left fun h hh => ?_
      unfold termIm
      simp only [Function.comp, termIm]
      rw [angle_of_neg (dot_neg' k h.R)]
      cases angle L k h.R with
      | none => rfl
      | some t =>
        simp only [Option.map_some]
        rw [hL.even, hL.odd, ← mulIm_conj, hr h hh, neg_zero]
    rw [this, all_neg]
    cases all (hs.map (termIm L k a b)) with
    | none => rfl
    | some r => exact total_neg r

theorem total_two (x y : ℚ) : JackknifeDouble.total [x, y] = fin (x + y) := by
  show sumLoop x [y] = _
  rw [sumLoop_cons]
  generalize fin (x + y) = o
  cases o <;> rfl

/-- **C202**: with one pair of opposite displacements the matrices are hermitian to the last bit -/
theorem C202_pair (L : Lib) (hL : L.Good) (h : Hop) (k : List ℚ) (a b : ℕ) :
    fourierRe L [h, h.dagger] k b a = fourierRe L [h, h.dagger] k a b ∧ fourierIm L [h, h.dagger] k b a = (fourierIm L [h, h.dagger] k a b).map fun y => -y := by
  constructor
  · unfold fourierRe
    simp only [List.map_cons, List.map_nil]
    rw [termRe_dagger hL, termRe_dagger hL]
    cases termRe L k b a h with
    | none =>
      cases termRe L k a b h <;> rfl
    | some x =>
      cases termRe L k a b h with
      | none => rfl
      | some y =>
        show JackknifeDouble.total [x, y] = JackknifeDouble.total [y, x]
        rw [total_two, total_two, add_comm]
  · unfold fourierIm
    simp only [List.map_cons, List.map_nil]
    rw [termIm_dagger hL, termIm_dagger hL]
    cases termIm L k b a h with
    | none =>
      cases termIm L k a b h <;> rfl
    | some x =>
      cases termIm L k a b h with
      | none => rfl
      | some y =>
        show JackknifeDouble.total [x, -y] = (JackknifeDouble.total [y, -x]).map fun y => -y
        rw [total_two, total_two, ← fin_neg]
        congr 1
        ring

/-- a library with a straight line between -1 and 1 for the sine, for the examples -/
def sample : Lib := ⟨fun _ => 1, fun x => rnd (max (-1) (min 1 x)), 884279719003555 / 140737488355328⟩

theorem sample_good : sample.Good where
  even _ := rfl
  odd x := by
    show rnd (max (-1) (min 1 (-x))) = -rnd (max (-1) (min 1 x))
    rw [← rnd_neg]
    congr 1
    rcases le_total x 1 with h | h <;> rcases le_total (-1) x with h' | h'
    · rw [min_eq_right (by linarith), max_eq_right (by linarith), min_eq_right h, max_eq_right h']
    · rw [min_eq_left (by linarith), max_eq_right (by linarith), min_eq_right h, max_eq_left h', neg_neg]
    · rw [min_eq_right (by linarith), max_eq_left (by linarith), min_eq_left h, max_eq_right (by linarith)]
    · exact absurd (h.trans h') (by norm_num)
  csRep _ := rep_one
  snRep _ := rep_rnd _
  csOne _ := by show |(1 : ℚ)| ≤ 1; norm_num
  snOne x := by
    show |rnd (max (-1) (min 1 x))| ≤ 1
    rw [abs_le]
    exact ⟨le_rnd (rep_neg rep_one) (le_max_left _ _), rnd_le rep_one (max_le (by norm_num) (min_le_left _ _))⟩

/-- one orbital on a chain, with hoppings to the two nearest neighbours on both sides -/
def chain : List Hop := [⟨[1], fun _ _ => 1, fun _ _ => 0⟩, ⟨[2], fun _ _ => 1, fun _ _ => 0⟩, ⟨[-1], fun _ _ => 1, fun _ _ => 0⟩, ⟨[-2], fun _ _ => 1, fun _ _ => 0⟩]

theorem chain_paired : Paired chain := by
  have h : chain.map Hop.dagger = [⟨[-1], fun _ _ => 1, fun _ _ => 0⟩, ⟨[-2], fun _ _ => 1, fun _ _ => 0⟩, ⟨[1], fun _ _ => 1, fun _ _ => 0⟩, ⟨[2], fun _ _ => 1, fun _ _ => 0⟩] := by
    simp [chain, Hop.dagger]
  show List.Perm (chain.map Hop.dagger) chain
  rw [h]
  exact List.perm_append_comm (l₁ := [(⟨[-1], fun _ _ => 1, fun _ _ => 0⟩ : Hop), ⟨[-2], fun _ _ => 1, fun _ _ => 0⟩])

/-- **C202**: with two pairs they are not: the energy of a chain with two neighbours on each side gets an imaginary part -/
theorem C202_chain : sample.Good ∧ Paired chain ∧ fourierIm sample chain [rnd (1 / 15)] 0 0 = some (2 ^ (-53 : ℤ)) := ⟨sample_good, chain_paired, by decide +kernel⟩

/-! ### Examples -/

example : Doubles chain := by
  intro h hh a b
  simp only [chain, List.mem_cons, List.not_mem_nil, or_false] at hh
  rcases hh with rfl | rfl | rfl | rfl <;> exact ⟨rep_one, rep_zero⟩

/-- two orbitals in two dimensions with complex hoppings -/
example : fourierRe sample [⟨[1, 0], fun a b => a + 2 * b, fun a b => b - a⟩, ⟨[0, -1], fun a b => a, fun _ b => b⟩] [1 / 8, 1 / 16] 1 0 = some (2 + rnd (884279719003555 / 140737488355328 / 8))
    ∧ fourierIm sample [⟨[1, 0], fun a b => a + 2 * b, fun a b => b - a⟩, ⟨[0, -1], fun a b => a, fun _ b => b⟩] [1 / 8, 1 / 16] 1 0
      = some (rnd (-1 + rnd (884279719003555 / 140737488355328 / 8)) - rnd (884279719003555 / 140737488355328 / 16)) := by decide +kernel

/-- an angle in two dimensions, whose exact value is that of `C202_angle` -/
example : angle sample [1 / 8, 1 / 16] [3, -2] = some (rnd (884279719003555 / 140737488355328 / 4)) ∧ exactDot [1 / 8, 1 / 16] [3, -2] = 1 / 4 ∧ exactAbs [1 / 8, 1 / 16] [3, -2] = 1 / 2 := by decide +kernel

/-- the bound for the chain: 10 units in the last place of a sum of the hoppings -/
example (y : ℚ) (h : fourierIm sample chain [rnd (1 / 15)] 0 0 = some y) : |y| ≤ 40 * 2 ^ (-53 : ℤ) := by
  have := C202_diagonal sample sample_good chain chain_paired (by
    intro h hh a b
    simp only [chain, List.mem_cons, List.not_mem_nil, or_false] at hh
    rcases hh with rfl | rfl | rfl | rfl <;> exact ⟨rep_one, rep_zero⟩) (by norm_num [chain]) _ _ _ h
  norm_num [strength, chain] at this ⊢
  linarith

end Verif.TightBindingDouble
