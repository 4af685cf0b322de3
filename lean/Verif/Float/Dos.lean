import Verif.Float.Relative
import Mathlib.Tactic.Ring
import Mathlib.Tactic.FieldSimp
import Mathlib.Algebra.Order.BigOperators.Group.List
import Mathlib.Algebra.Order.BigOperators.Ring.Finset
import Mathlib.Algebra.BigOperators.Field
import Mathlib.Algebra.BigOperators.Group.List.Lemmas

/-!
# Densities of states and weights of Hilbert transforms, in double precision

`DOSFromFunction` of `/repo/python/triqs/dos/dos.py` (179-182) and the weights of
`/repo/python/triqs/dos/hilbert_transform.py` (53-62).  In exact arithmetic these are C173 and C130.

* C192: the energies of a density of states that is given by a function, and the weights of the sums of a Hilbert
  transform.

Simplifications: no overflow and no NaN; `numpy.sum` adds in some order and with some bracketing.
-/

namespace Verif.DosDouble
open Verif.Binary64

/-! ## Model -/

/-- the step, dos.py:180 -/
def step (x0 x1 : ℚ) (N : ℕ) : ℚ := rnd (rnd (x1 - x0) / rnd ((N : ℚ) - 1))

/-- the energies, dos.py:181 -/
def energy (x0 x1 : ℚ) (N i : ℕ) : ℚ := rnd (x0 + rnd (step x0 x1 N * rnd (i : ℚ)))

def energies (x0 x1 : ℚ) (N : ℕ) : List ℚ := (List.range N).map (energy x0 x1 N)

/-- the factor of the point `i` of `n` points, hilbert_transform.py:58-61 -/
def width (e : ℕ → ℚ) (n i : ℕ) : ℚ :=
  if i = 0 then rnd (e 1 - e 0)
  else if i = n - 1 then rnd (e (n - 1) - e (n - 2))
  else rnd (rnd (rnd (e (i + 1) - e i) / 2) + rnd (rnd (e i - e (i - 1)) / 2))

/-- the numbers before the normalisation, hilbert_transform.py:55-61 -/
def raw (e r : ℕ → ℚ) (n i : ℕ) : ℚ := rnd (r i * width e n i)

/-- a way to add numbers -/
inductive Tree where
  | leaf (x : ℚ)
  | node (l r : Tree)

def Tree.leaves : Tree → List ℚ
  | .leaf x => [x]
  | .node l r => l.leaves ++ r.leaves

/-- the sum, `numpy.sum(R)`, hilbert_transform.py:62 -/
def Tree.sum : Tree → ℚ
  | .leaf x => x
  | .node l r => rnd (l.sum + r.sum)

/-- `rho_for_sum`, hilbert_transform.py:62, if the sum is `S` -/
def weight (e r : ℕ → ℚ) (n : ℕ) (S : ℚ) (i : ℕ) : ℚ := rnd (raw e r n i / S)

/-! ## Specification -/

/-- `T` adds the numbers `R 0, ..., R (n - 1)` -/
def Adds (T : Tree) (R : ℕ → ℚ) (n : ℕ) : Prop := T.leaves.Perm ((List.range n).map R)

/-! ## Proofs -/

/-- **C192, first energy.** -/
theorem C192_first (x0 x1 : ℚ) (N : ℕ) (h0 : Rep x0) : energy x0 x1 N 0 = x0 := by
  unfold energy
  rw [Nat.cast_zero, rnd_zero, mul_zero, rnd_zero, add_zero, rnd_rep h0]

theorem step_nonneg (x0 x1 : ℚ) (N : ℕ) (h : x0 ≤ x1) (hN : 1 ≤ N) : 0 ≤ step x0 x1 N := by
  have h1 : (1 : ℚ) ≤ N := by exact_mod_cast hN
  exact rnd_nonneg (div_nonneg (rnd_nonneg (by linarith)) (rnd_nonneg (by linarith)))

/-- **C192, order.**  The energies increase with the index (weakly). -/
theorem C192_order (x0 x1 : ℚ) (N i j : ℕ) (h : x0 ≤ x1) (hN : 1 ≤ N) (hij : i ≤ j) : energy x0 x1 N i ≤ energy x0 x1 N j := by
  have hc : (i : ℚ) ≤ j := by exact_mod_cast hij
  exact rnd_mono (by linarith [rnd_mono (mul_le_mul_of_nonneg_left (rnd_mono hc) (step_nonneg x0 x1 N h hN))])

/-- **C192, energies.**  They are equidistant up to rounding. -/
theorem C192_energies (x0 x1 : ℚ) (N i : ℕ) (h : x0 ≤ x1) (hN : 2 ≤ N) (hN' : N ≤ 2 ^ 53) (hi : i < N) :
    |energy x0 x1 N i - (x0 + (x1 - x0) * (i / (N - 1)))| ≤ 6 / 9007199254740992 * (|x0| + |x1|) + 3 * N * 2 ^ (-1074 : ℤ) := by
  have hn1 : (1 : ℚ) ≤ (N : ℚ) - 1 := by
    have : (2 : ℚ) ≤ N := by exact_mod_cast hN
    linarith
  have hrN : rnd ((N : ℚ) - 1) = (N : ℚ) - 1 := by
    have : Rep (((N - 1 : ℤ)) : ℚ) := rep_int (by rw [abs_le]; omega)
    rw [Int.cast_sub, Int.cast_natCast, Int.cast_one] at this
    exact rnd_rep this
  have hri : rnd (i : ℚ) = i := by
    have : Rep ((i : ℤ) : ℚ) := rep_int (by rw [abs_le]; omega)
    rw [Int.cast_natCast] at this
    exact rnd_rep this
  unfold energy step
  rw [hrN, hri]
  have hi0 : (0 : ℚ) ≤ i := Nat.cast_nonneg i
  have hiN : (i : ℚ) ≤ N - 1 := by
    have : ((i + 1 : ℕ) : ℚ) ≤ N := by exact_mod_cast hi
    push_cast at this
    linarith
  have hd0 : 0 ≤ x1 - x0 := by linarith
  have a1 := rnd_err_abs (x1 - x0)
  have a0 : 0 ≤ rnd (x1 - x0) := rnd_nonneg hd0
  rw [abs_of_nonneg hd0] at a1
  have hdA : x1 - x0 ≤ |x0| + |x1| := by linarith [le_abs_self x1, neg_abs_le x0]
  have hx0A : |x0| ≤ |x0| + |x1| := by linarith [abs_nonneg x1]
  generalize |x0| + |x1| = A at *
  generalize rnd (x1 - x0) = D at *
  have b1 := rnd_err_abs (D / ((N : ℚ) - 1))
  have b0 : 0 ≤ rnd (D / ((N : ℚ) - 1)) := rnd_nonneg (div_nonneg a0 (by linarith))
  rw [abs_of_nonneg (div_nonneg a0 (by linarith))] at b1
  generalize hs : rnd (D / ((N : ℚ) - 1)) = s at *
  have c1 := rnd_err_abs (s * i)
  have c0 : 0 ≤ rnd (s * (i : ℚ)) := rnd_nonneg (mul_nonneg b0 hi0)
  rw [abs_of_nonneg (mul_nonneg b0 hi0)] at c1
  have d1 := rnd_err_abs (x0 + rnd (s * (i : ℚ)))
  have d2 : |x0 + rnd (s * (i : ℚ))| ≤ |x0| + rnd (s * (i : ℚ)) := by
    have := abs_add_le x0 (rnd (s * (i : ℚ)))
    rwa [abs_of_nonneg c0] at this
  have hη : (0 : ℚ) < 2 ^ (-1074 : ℤ) := two_zpow_pos _
  generalize (2 : ℚ) ^ (-1074 : ℤ) = η at *
  -- the fraction
  have t0 : 0 ≤ (i : ℚ) / (N - 1) := div_nonneg hi0 (by linarith)
  have t1 : (i : ℚ) / (N - 1) ≤ 1 := (div_le_one (by linarith)).2 hiN
  have e1 : |s * i - D * (i / (N - 1))| ≤ D * (1 / 9007199254740992) + N * η := by
    have : s * i - D * (i / (N - 1)) = (s - D / (N - 1)) * i := by ring
    rw [this, abs_mul, abs_of_nonneg hi0]
    have h1 := mul_le_mul_of_nonneg_right b1 hi0
    have h2 : (D / ((N : ℚ) - 1) * (1 / 9007199254740992) + η) * i = D * (i / (N - 1)) * (1 / 9007199254740992) + i * η := by ring
    rw [h2] at h1
    have h3 : D * ((i : ℚ) / (N - 1)) ≤ D := mul_le_of_le_one_right a0 t1
    have h4 : (i : ℚ) * η ≤ (N - 1) * η := mul_le_mul_of_nonneg_right hiN hη.le
    have h5 : ((N : ℚ) - 1) * η = N * η - η := by ring
    linarith
  have e2 : |D * ((i : ℚ) / (N - 1)) - (x1 - x0) * (i / (N - 1))| ≤ (x1 - x0) * (1 / 9007199254740992) + η := by
    rw [← sub_mul, abs_mul, abs_of_nonneg t0]
    exact (mul_le_of_le_one_right (abs_nonneg _) t1).trans a1
  have hDhi : D ≤ (x1 - x0) * (1 + 1 / 9007199254740992) + η := by linarith [(abs_le.1 a1).2]
  have f0 : D * ((i : ℚ) / (N - 1)) ≤ D := mul_le_of_le_one_right a0 t1
  have hNη : 2 * η ≤ N * η := mul_le_mul_of_nonneg_right (by linarith) hη.le
  have hNε : N * η ≤ 9007199254740992 * η := mul_le_mul_of_nonneg_right (by exact_mod_cast hN') hη.le
  rw [show 3 * (N : ℚ) * η = 3 * (N * η) by ring]
  generalize (N : ℚ) * η = Nη at *
  generalize D * ((i : ℚ) / (N - 1)) = p at *
  generalize (x1 - x0) * ((i : ℚ) / (N - 1)) = q at *
  generalize s * (i : ℚ) = u at *
  generalize rnd u = v at *
  generalize rnd (x0 + v) = w at *
  generalize |x0 + v| = m at *
  generalize |x0| = B at *
  rw [abs_le] at a1 c1 d1 e1 e2 ⊢
  constructor <;> linarith [a1.1, a1.2, c1.1, c1.2, d1.1, d1.2, e1.1, e1.2, e2.1, e2.2]

theorem _root_.Verif.Binary64.Rel.weaken {j k : ℕ} {x y : ℚ} (h : Rel j x y) (hx : 0 ≤ x) (hjk : j ≤ k) : Rel k x y := by
  obtain ⟨d, rfl⟩ := Nat.exists_eq_add_of_le hjk
  have hd : c53 ^ d ≤ 1 := pow_le_one₀ c53_pos.le c53_le
  have hy := h.nonneg hx
  constructor
  · rw [pow_add, ← mul_assoc]
    exact (mul_le_of_le_one_right (mul_nonneg hx (c53_pow_pos j).le) hd).trans h.1
  · rw [pow_add, ← mul_assoc]
    exact (mul_le_of_le_one_right (mul_nonneg hy (c53_pow_pos j).le) hd).trans h.2

theorem _root_.Verif.Binary64.Rel.both {k : ℕ} {x y x' y' : ℚ} (h : Rel k x y) (h' : Rel k x' y') : Rel k (x + x') (y + y') := by
  constructor
  · rw [add_mul]; exact add_le_add h.1 h'.1
  · rw [add_mul]; exact add_le_add h.2 h'.2

theorem leaves_pos (T : Tree) : 1 ≤ T.leaves.length := by
  induction T with
  | leaf x => simp [Tree.leaves]
  | node l r hl hr => rw [Tree.leaves, List.length_append]; omega

theorem tree_rep (T : Tree) (h : ∀ x ∈ T.leaves, Rep x) : Rep T.sum := by
  cases T with
  | leaf x => exact h x (List.mem_singleton.2 rfl)
  | node l r => exact rep_rnd _

theorem tree_rel (T : Tree) (h : ∀ x ∈ T.leaves, Rep x ∧ 0 ≤ x) : Rel (T.leaves.length - 1) T.leaves.sum T.sum := by
  induction T with
  | leaf x =>
    have : (Tree.leaf x).leaves.sum = x := by simp [Tree.leaves]
    rw [this]; exact Rel.refl x
  | node l r hl hr =>
    have h1 : ∀ x ∈ l.leaves, Rep x ∧ 0 ≤ x := fun x hx => h x (List.mem_append.2 (Or.inl hx))
    have h2 : ∀ x ∈ r.leaves, Rep x ∧ 0 ≤ x := fun x hx => h x (List.mem_append.2 (Or.inr hx))
    have n1 : 0 ≤ l.leaves.sum := List.sum_nonneg fun x hx => (h1 x hx).2
    have n2 : 0 ≤ r.leaves.sum := List.sum_nonneg fun x hx => (h2 x hx).2
    have p1 := leaves_pos l
    have p2 := leaves_pos r
    have a1 := (hl h1).weaken n1 (k := l.leaves.length + r.leaves.length - 2) (by omega)
    have a2 := (hr h2).weaken n2 (k := l.leaves.length + r.leaves.length - 2) (by omega)
    have a3 := Rel.trans (a1.both a2)
      (rel_add (tree_rep l fun x hx => (h1 x hx).1) (tree_rep r fun x hx => (h2 x hx).1) (add_nonneg ((hl h1).nonneg n1) ((hr h2).nonneg n2)))
    rw [Tree.leaves, List.sum_append, List.length_append, Tree.sum]
    have : l.leaves.length + r.leaves.length - 1 = l.leaves.length + r.leaves.length - 2 + 1 := by omega
    rw [this]; exact a3

theorem width_nonneg (e : ℕ → ℚ) (n i : ℕ) (he : ∀ j k, j ≤ k → k < n → e j ≤ e k) (hn : 2 ≤ n) (hi : i < n) : 0 ≤ width e n i := by
  unfold width
  split
  · exact rnd_nonneg (by linarith [he 0 1 (by omega) (by omega)])
  · split
    · exact rnd_nonneg (by linarith [he (n - 2) (n - 1) (by omega) (by omega)])
    · have a := rnd_nonneg (x := e (i + 1) - e i) (by linarith [he i (i + 1) (by omega) (by omega)])
      have b := rnd_nonneg (x := e i - e (i - 1)) (by linarith [he (i - 1) i (by omega) (by omega)])
      exact rnd_nonneg (add_nonneg (rnd_nonneg (by linarith)) (rnd_nonneg (by linarith)))

theorem raw_nonneg (e r : ℕ → ℚ) (n i : ℕ) (he : ∀ j k, j ≤ k → k < n → e j ≤ e k) (hr : ∀ j < n, 0 ≤ r j) (hn : 2 ≤ n) (hi : i < n) :
    0 ≤ raw e r n i := rnd_nonneg (mul_nonneg (hr i hi) (width_nonneg e n i he hn hi))

theorem adds_sum {T : Tree} {R : ℕ → ℚ} {n : ℕ} (h : Adds T R n) : T.leaves.sum = ∑ i ∈ Finset.range n, R i := by
  rw [h.sum_eq]
  rfl

theorem adds_rel (T : Tree) (R : ℕ → ℚ) (n : ℕ) (h : Adds T R n) (hR : ∀ i < n, Rep (R i) ∧ 0 ≤ R i) :
    Rel (n - 1) (∑ i ∈ Finset.range n, R i) T.sum := by
  have hl : T.leaves.length = n := by rw [h.length_eq]; simp
  have := tree_rel T (by
    intro x hx
    obtain ⟨i, hi, rfl⟩ := List.mem_map.1 (h.mem_iff.1 hx)
    exact hR i (List.mem_range.1 hi))
  rwa [hl, adds_sum h] at this

/-- **C192, sum.**  The sum by which the weights are divided is positive as soon as one of the numbers is. -/
theorem C192_positive (e r : ℕ → ℚ) (n : ℕ) (T : Tree) (he : ∀ j k, j ≤ k → k < n → e j ≤ e k) (hr : ∀ j < n, 0 ≤ r j) (hn : 2 ≤ n)
    (hT : Adds T (raw e r n) n) (h : ∃ i < n, raw e r n i ≠ 0) : 0 < T.sum := by
  refine (adds_rel T _ n hT fun i hi => ⟨rep_rnd _, raw_nonneg e r n i he hr hn hi⟩).pos ?_
  obtain ⟨i, hi, h0⟩ := h
  have p := raw_nonneg e r n i he hr hn hi
  exact Finset.sum_pos' (fun j hj => raw_nonneg e r n j he hr hn (Finset.mem_range.1 hj)) ⟨i, Finset.mem_range.2 hi, lt_of_le_of_ne p (Ne.symm h0)⟩

/-- **C192, sign.** -/
theorem C192_nonneg (e r : ℕ → ℚ) (n i : ℕ) (S : ℚ) (he : ∀ j k, j ≤ k → k < n → e j ≤ e k) (hr : ∀ j < n, 0 ≤ r j) (hn : 2 ≤ n) (hi : i < n)
    (hS : 0 < S) : 0 ≤ weight e r n S i := rnd_nonneg (div_nonneg (raw_nonneg e r n i he hr hn hi) hS.le)

/-- **C192, normalisation.**  Whatever the order and the bracketing of the sum. -/
theorem C192_normalised (e r : ℕ → ℚ) (n : ℕ) (T : Tree) (he : ∀ j k, j ≤ k → k < n → e j ≤ e k) (hr : ∀ j < n, 0 ≤ r j) (hn : 2 ≤ n)
    (hn' : n ≤ 2 ^ 51) (hT : Adds T (raw e r n) n) (hS : 0 < T.sum) :
    |∑ i ∈ Finset.range n, weight e r n T.sum i - 1| ≤ 2 * n / 9007199254740992 + n * 2 ^ (-1074 : ℤ) := by
  have hrel := adds_rel T _ n hT fun i hi => ⟨rep_rnd _, raw_nonneg e r n i he hr hn hi⟩
  have hsym : Rel (n - 1) T.sum (∑ i ∈ Finset.range n, raw e r n i) := ⟨hrel.2, hrel.1⟩
  have a := hsym.err (by omega) hS.le
  have hc : ((n - 1 : ℕ) : ℚ) = n - 1 := by rw [Nat.cast_sub (by omega)]; simp
  rw [hc] at a
  generalize hs : T.sum = S at *
  have b : |∑ i ∈ Finset.range n, weight e r n S i - (∑ i ∈ Finset.range n, raw e r n i) / S| ≤
      (∑ i ∈ Finset.range n, raw e r n i) / S * (1 / 9007199254740992) + n * 2 ^ (-1074 : ℤ) := by
    rw [Finset.sum_div, ← Finset.sum_sub_distrib, Finset.sum_mul]
    refine (Finset.abs_sum_le_sum_abs _ _).trans ?_
    have : (n : ℚ) * 2 ^ (-1074 : ℤ) = ∑ i ∈ Finset.range n, (2 : ℚ) ^ (-1074 : ℤ) := by simp
    rw [this, ← Finset.sum_add_distrib]
    refine Finset.sum_le_sum fun i hi => ?_
    have := rnd_err_abs (raw e r n i / S)
    rwa [abs_of_nonneg (div_nonneg (raw_nonneg e r n i he hr hn (Finset.mem_range.1 hi)) hS.le)] at this
  generalize (∑ i ∈ Finset.range n, raw e r n i) = X at *
  generalize ∑ i ∈ Finset.range n, weight e r n S i = W at *
  have c : |X / S - 1| ≤ 2 * (n - 1) / 9007199254740992 := by
    have : X / S - 1 = (X - S) / S := by field_simp
    rw [this, abs_div, abs_of_pos hS, div_le_iff₀ hS]
    linarith
  have hq : (n : ℚ) ≤ 2251799813685248 := by exact_mod_cast hn'
  generalize (n : ℚ) * 2 ^ (-1074 : ℤ) = η at *
  rw [abs_le] at b c ⊢
  constructor <;> linarith [b.1, b.2, c.1, c.2]

/-- **C192, symmetry.**  A symmetric density of states has symmetric weights, to the last bit. -/
theorem C192_symmetric (e r : ℕ → ℚ) (n i : ℕ) (S : ℚ) (hn : 2 ≤ n) (hi : i < n) (he : ∀ j < n, e (n - 1 - j) = -e j)
    (hr : ∀ j < n, r (n - 1 - j) = r j) : weight e r n S (n - 1 - i) = weight e r n S i := by
  have hw : width e n (n - 1 - i) = width e n i := by
    unfold width
    by_cases h0 : i = 0
    · subst h0
      have e1 := he 0 (by omega)
      have e2 := he 1 (by omega)
      rw [if_neg (by omega), if_pos (by omega), if_pos rfl, show n - 2 = n - 1 - 1 by omega, e2]
      rw [show n - 1 - 0 = n - 1 by omega] at e1
      rw [e1]
      congr 1; ring
    · by_cases h1 : i = n - 1
      · subst h1
        have e1 := he (n - 1) (by omega)
        have e2 := he (n - 2) (by omega)
        rw [show n - 1 - (n - 1) = 0 by omega] at e1
        rw [show n - 1 - (n - 2) = 1 by omega] at e2
        rw [if_pos (by omega), if_neg h0, if_pos rfl, e1, e2]
        congr 1; ring
      · rw [if_neg (by omega), if_neg (by omega), if_neg h0, if_neg h1]
        have e1 := he (i - 1) (by omega)
        have e2 := he i (by omega)
        have e3 := he (i + 1) (by omega)
        rw [show n - 1 - i + 1 = n - 1 - (i - 1) by omega, show n - 1 - i - 1 = n - 1 - (i + 1) by omega, e1, e2, e3, add_comm]
        rw [show -e i - -e (i + 1) = e (i + 1) - e i by ring, show -e (i - 1) - -e i = e i - e (i - 1) by ring]
  unfold weight raw
  rw [hw, hr i hi]

/-- **C192, last energy.**  It may lie above the end of the interval. -/
theorem C192_last : ∃ (x0 x1 : ℚ) (N : ℕ), IsDouble x0 ∧ IsDouble x1 ∧ x0 < x1 ∧ 2 ≤ N ∧ x1 < energy x0 x1 N (N - 1) :=
  ⟨0, rnd (7 / 10), 36, isDouble_small rep_zero (by norm_num), isDouble_small (rep_rnd _) (by decide +kernel), by decide +kernel, by norm_num,
    by decide +kernel⟩

/-- **C192, symmetry of the energies.**  An interval around zero may have energies that are not symmetric. -/
theorem C192_unsymmetric : ∃ (x1 : ℚ) (N i : ℕ), IsDouble x1 ∧ 0 < x1 ∧ 2 ≤ N ∧ i < N ∧ energy (-x1) x1 N (N - 1 - i) ≠ -energy (-x1) x1 N i :=
  ⟨1, 4, 1, isDouble_small rep_one (by norm_num), by norm_num, by norm_num, by norm_num, by decide +kernel⟩

/-! ### Examples -/

example : energies 0 1 5 = [0, 1 / 4, 1 / 2, 3 / 4, 1] := by decide +kernel

/-- three points with weights 1/3, 1/3, 1/3 up to rounding -/
example : (List.range 3).map (weight (fun i => i) (fun _ => 1) 3 3) = List.replicate 3 (rnd (1 / 3)) := by decide +kernel

example : Adds (.node (.leaf 1) (.node (.leaf 1) (.leaf 1))) (raw (fun i => i) (fun _ => 1) 3) 3 := by unfold Adds; decide +kernel

/-- an inner point gets half of both neighbouring intervals -/
example : (List.range 3).map (raw (fun i => i ^ 2) (fun _ => 1) 3) = [1, 2, 3] := by decide +kernel

end Verif.DosDouble
