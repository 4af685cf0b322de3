import Verif.Float.Relative
import Verif.Float.LinearMesh
import Verif.Utility.MpiSlice
import Mathlib.Algebra.BigOperators.Group.List.Basic
import Mathlib.Tactic.Ring
import Mathlib.Tactic.FieldSimp

/-!
# Sums over k points and energies on several nodes in double precision

C130 and C131 are about exact arithmetic. Here the sums of `SumkDiscrete` and of the Hilbert transform are modelled with the rounding of the machine: every node adds the products of weights and inverse
matrices of its slice, and the results of the nodes are added in an order that MPI chooses.

Source: `/repo/python/triqs/sumk/sumk_discrete.py` (141, 149, 160-163), `/repo/python/triqs/dos/hilbert_transform.py` (134, 144, 149-154), `/repo/python/triqs/utility/mpi_mpi4py.py` (67-76, 96-109).
One part (real or imaginary) of one matrix element: in the product of a complex and a real number the other products are zero. The elements of the inverse matrices are given numbers. `none` means that a
number is not finite.
-/

namespace Verif.NodeSum

open Binary64 LinearDouble MpiSlice

/-! ## Model -/

/-- the loop on a node, sumk_discrete.py:160-161, hilbert_transform.py:149-150; weights and elements -/
def onNode : ℚ → List (ℚ × ℚ) → Option ℚ
  | acc, [] => some acc
  | acc, (w, x) :: l => match fin (x * w) with
    | none => none
    | some t => match fin (acc + t) with
      | none => none
      | some acc' => onNode acc' l

/-- an order of additions of the results of the nodes -/
inductive Order where
  | rank (r : ℕ)
  | add (a b : Order)

/-- `all_reduce`, mpi_mpi4py.py:67-76 -/
def reduce (vals : ℕ → Option ℚ) : Order → Option ℚ
  | .rank r => vals r
  | .add a b => match reduce vals a, reduce vals b with
    | some x, some y => fin (x + y)
    | _, _ => none

/-- the sum over the points on `size` nodes, sumk_discrete.py:141-163, hilbert_transform.py:134-154 -/
def total (size : ℕ) (T : Order) (l : List (ℚ × ℚ)) : Option ℚ := reduce (fun r => onNode 0 (sliceArray size r l)) T

/-! ## Specification -/

/-- the nodes in the order in which they appear -/
def Order.ranks : Order → List ℕ
  | .rank r => [r]
  | .add a b => a.ranks ++ b.ranks

/-- every node is added once -/
def Order.Complete (T : Order) (size : ℕ) : Prop := T.ranks.Perm (List.range size)

/-- the exact sum -/
def exact (l : List (ℚ × ℚ)) : ℚ := (l.map fun p => p.2 * p.1).sum

/-- the sum of the sizes -/
def size1 (l : List (ℚ × ℚ)) : ℚ := (l.map fun p => |p.2 * p.1|).sum

/-- no product is subnormal -/
def Normal (l : List (ℚ × ℚ)) : Prop := ∀ p ∈ l, p.2 * p.1 = 0 ∨ (2 : ℚ) ^ (-1022 : ℤ) ≤ |p.2 * p.1|

/-! ## Proofs -/

/-- one plus the unit of rounding -/
def g : ℚ := 1 + 1 / 9007199254740992

theorem g_one : 1 ≤ g := by unfold g; norm_num

theorem g_pow_one (k : ℕ) : 1 ≤ g ^ k := one_le_pow₀ g_one

theorem g_pow_mono {j k : ℕ} (h : j ≤ k) : g ^ j ≤ g ^ k := pow_le_pow_right₀ g_one h

theorem g_pow {k : ℕ} (h : k ≤ 2 ^ 52) : g ^ k ≤ 1 + 2 * k / 9007199254740992 := by
  induction k with
  | zero => simp
  | succ k ih =>
    have hk : (k : ℚ) ≤ 4503599627370496 := by exact_mod_cast (by omega : k ≤ 4503599627370496)
    have := ih (by omega)
    rw [pow_succ]
    calc g ^ k * g ≤ (1 + 2 * k / 9007199254740992) * g := mul_le_mul_of_nonneg_right this (by linarith [g_one])
      _ ≤ _ := by unfold g; push_cast; nlinarith

/-- a sum of doubles has a small relative error, even if it is subnormal -/
theorem add_err {x y : ℚ} (hx : Rep x) (hy : Rep y) : |rnd (x + y) - (x + y)| ≤ |x + y| * (1 / 9007199254740992) := by
  have key : ∀ {x y : ℚ}, Rep x → Rep y → 0 ≤ x + y → |rnd (x + y) - (x + y)| ≤ |x + y| * (1 / 9007199254740992) := by
    intro x y hx hy h
    rcases sub_cases hx (rep_neg hy) (by linarith) with hr | hn
    · rw [sub_neg_eq_add] at hr
      rw [rnd_rep hr, sub_self, abs_zero]
      positivity
    · rw [sub_neg_eq_add] at hn
      have := rnd_rel (x := x + y) (by rwa [abs_of_nonneg h])
      rwa [show (2 : ℚ) ^ (-53 : ℤ) = 1 / 9007199254740992 by norm_num] at this
  rcases le_total 0 (x + y) with h | h
  · exact key hx hy h
  · have := key (rep_neg hx) (rep_neg hy) (by linarith)
    rw [show -x + -y = -(x + y) by ring, rnd_neg, abs_neg, show -rnd (x + y) - -(x + y) = -(rnd (x + y) - (x + y)) by ring, abs_neg] at this
    exact this

/-- an addition of two results -/
theorem step {x y S S' A A' : ℚ} {k : ℕ} (hk : k ≤ 2 ^ 51) (hx : Rep x) (hy : Rep y) (h : |x - S| ≤ (g ^ k - 1) * A) (h' : |y - S'| ≤ (g ^ k - 1) * A') (hS : |S| ≤ A) (hS' : |S'| ≤ A')
    (hA : A + A' ≤ 2 ^ (1000 : ℤ)) : fin (x + y) = some (rnd (x + y)) ∧ |rnd (x + y) - (S + S')| ≤ (g ^ (k + 1) - 1) * (A + A') := by
  have h1 : |x + y - (S + S')| ≤ (g ^ k - 1) * (A + A') := by
    have := abs_add_le (x - S) (y - S')
    rw [show x - S + (y - S') = x + y - (S + S') by ring] at this
    linarith
  have h2 : |S + S'| ≤ A + A' := (abs_add_le S S').trans (add_le_add hS hS')
  have hA0 : 0 ≤ A + A' := (abs_nonneg _).trans h2
  have h3 : |x + y| ≤ g ^ k * (A + A') := by
    have := abs_add_le (x + y - (S + S')) (S + S')
    rw [sub_add_cancel] at this
    linarith
  have hg : g ^ k ≤ 2 := by
    have h4 := g_pow (k := k) (by omega)
    have : (k : ℚ) ≤ 2251799813685248 := by exact_mod_cast hk
    linarith
  constructor
  · refine fin_of_le (e := 1001) ?_ (by norm_num) (by norm_num)
    refine h3.trans ((mul_le_mul hg hA hA0 (by norm_num)).trans ?_)
    rw [show (1001 : ℤ) = 1 + 1000 by norm_num, two_zpow_add, zpow_one]
  · have h5 := add_err hx hy
    have h6 := abs_sub_le (rnd (x + y)) (x + y) (S + S')
    have h7 := mul_le_mul_of_nonneg_right h3 (by norm_num : (0 : ℚ) ≤ 1 / 9007199254740992)
    have h8 : (g ^ (k + 1) - 1) * (A + A') = g ^ k * (A + A') * (1 / 9007199254740992) + (g ^ k - 1) * (A + A') := by
      rw [pow_succ]
      conv_lhs => rw [show g ^ k * g = g ^ k * (1 + 1 / 9007199254740992) from rfl]
      ring
    rw [h8]
    linarith

theorem size1_nonneg (l : List (ℚ × ℚ)) : 0 ≤ size1 l := List.sum_nonneg (by
  intro x hx
  obtain ⟨p, _, rfl⟩ := List.mem_map.1 hx
  exact abs_nonneg _)

theorem exact_le (l : List (ℚ × ℚ)) : |exact l| ≤ size1 l := by
  unfold exact size1
  induction l with
  | nil => simp
  | cons p l ih =>
    rw [List.map_cons, List.map_cons, List.sum_cons, List.sum_cons]
    exact (abs_add_le _ _).trans (by linarith)

/-- the loop on a node -/
theorem onNode_err : ∀ (l : List (ℚ × ℚ)) (acc S A : ℚ) (k : ℕ), 1 ≤ k → k + l.length ≤ 2 ^ 51 → Rep acc → |acc - S| ≤ (g ^ k - 1) * A → |S| ≤ A → A + size1 l ≤ 2 ^ (1000 : ℤ) → Normal l →
    ∃ r, onNode acc l = some r ∧ Rep r ∧ |r - (S + exact l)| ≤ (g ^ (k + l.length) - 1) * (A + size1 l) := by
  intro l
  induction l with
  | nil =>
    intro acc S A k _ _ hr h _ _ _
    exact ⟨acc, rfl, hr, by simpa [exact, size1] using h⟩
  | cons p l ih =>
    obtain ⟨w, x⟩ := p
    intro acc S A k hk hkl hr h hS hA hN
    rw [List.length_cons] at hkl
    have hA' : A + (|x * w| + size1 l) ≤ 2 ^ (1000 : ℤ) := by
      have : size1 ((w, x) :: l) = |x * w| + size1 l := by unfold size1; rw [List.map_cons, List.sum_cons]
      exact le_of_eq_of_le (by rw [this]) hA
    have hl0 := size1_nonneg l
    have hA0 : 0 ≤ A := (abs_nonneg _).trans hS
    have hxw0 := abs_nonneg (x * w)
    have hp : fin (x * w) = some (rnd (x * w)) := fin_of_le (e := 1000) (le_trans (by linarith) hA') (by norm_num) (by norm_num)
    have hperr : |rnd (x * w) - x * w| ≤ (g ^ k - 1) * |x * w| := by
      have hg : 1 / 9007199254740992 ≤ g ^ k - 1 := by
        have := g_pow_mono hk
        rw [pow_one] at this
        unfold g at this ⊢
        linarith
      rcases hN (w, x) (by simp) with h0 | h0
      · have h0' : x * w = 0 := h0
        rw [h0', rnd_zero, sub_self, abs_zero, mul_zero]
      · have := rnd_rel (x := x * w) h0
        rw [show (2 : ℚ) ^ (-53 : ℤ) = 1 / 9007199254740992 by norm_num] at this
        refine this.trans ?_
        rw [mul_comm]
        exact mul_le_mul_of_nonneg_right hg hxw0
    obtain ⟨hf, he⟩ := step (k := k) (by omega) hr (rep_rnd _) h hperr hS le_rfl (le_trans (by linarith) hA')
    obtain ⟨r, h1, h2, h3⟩ := ih (rnd (acc + rnd (x * w))) (S + x * w) (A + |x * w|) (k + 1) (by omega) (by omega) (rep_rnd _) he
      ((abs_add_le _ _).trans (add_le_add hS le_rfl)) (by rw [add_assoc]; exact hA') (fun p hp => hN p (by simp [hp]))
    refine ⟨r, ?_, h2, ?_⟩
    · unfold onNode
      rw [hp]
      simp only
      rw [hf]
      exact h1
    · have e1 : S + exact ((w, x) :: l) = S + x * w + exact l := by unfold exact; rw [List.map_cons, List.sum_cons, add_assoc]
      have e2 : A + size1 ((w, x) :: l) = A + |x * w| + size1 l := by unfold size1; rw [List.map_cons, List.sum_cons, add_assoc]
      rw [e1, e2, List.length_cons, show k + (l.length + 1) = k + 1 + l.length by omega]
      exact h3

/-- the reduction over the nodes -/
theorem reduce_err {vals : ℕ → Option ℚ} {S A : ℕ → ℚ} {k : ℕ} : ∀ (T : Order), k + T.ranks.length ≤ 2 ^ 51 → (T.ranks.map A).sum ≤ 2 ^ (1000 : ℤ) →
    (∀ r ∈ T.ranks, ∃ v, vals r = some v ∧ Rep v ∧ |v - S r| ≤ (g ^ k - 1) * A r ∧ |S r| ≤ A r) →
    ∃ y, reduce vals T = some y ∧ Rep y ∧ |y - (T.ranks.map S).sum| ≤ (g ^ (k + T.ranks.length) - 1) * (T.ranks.map A).sum ∧ |(T.ranks.map S).sum| ≤ (T.ranks.map A).sum ∧
      0 ≤ (T.ranks.map A).sum := by
  intro T
  induction T with
  | rank r =>
    intro _ _ h
    obtain ⟨v, h1, h2, h3, h4⟩ := h r (by simp [Order.ranks])
    have hA : 0 ≤ A r := (abs_nonneg _).trans h4
    refine ⟨v, h1, h2, ?_, by simpa [Order.ranks] using h4, by simpa [Order.ranks] using hA⟩
    simp only [Order.ranks, List.map_cons, List.map_nil, List.sum_cons, List.sum_nil, add_zero, List.length_cons, List.length_nil]
    exact h3.trans (mul_le_mul_of_nonneg_right (by linarith [g_pow_mono (by omega : k ≤ k + (0 + 1))]) hA)
  | add a b iha ihb =>
    intro hk hA h
    simp only [Order.ranks, List.map_append, List.sum_append, List.length_append, List.mem_append] at hk hA h ⊢
    have ha0 : 0 ≤ (a.ranks.map A).sum := List.sum_nonneg (by
      intro x hx
      obtain ⟨r, hr, rfl⟩ := List.mem_map.1 hx
      obtain ⟨_, _, _, _, h4⟩ := h r (Or.inl hr)
      exact (abs_nonneg _).trans h4)
    have hb0 : 0 ≤ (b.ranks.map A).sum := List.sum_nonneg (by
      intro x hx
      obtain ⟨r, hr, rfl⟩ := List.mem_map.1 hx
      obtain ⟨_, _, _, _, h4⟩ := h r (Or.inr hr)
      exact (abs_nonneg _).trans h4)
    have hpos : ∀ T : Order, 1 ≤ T.ranks.length := by
      intro T
      induction T with
      | rank r => simp [Order.ranks]
      | add a b iha _ => simp only [Order.ranks, List.length_append]; omega
    have pa := hpos a
    have pb := hpos b
    obtain ⟨x, x1, x2, x3, x4, _⟩ := iha (by omega) (by linarith) (fun r hr => h r (Or.inl hr))
    obtain ⟨y, y1, y2, y3, y4, _⟩ := ihb (by omega) (by linarith) (fun r hr => h r (Or.inr hr))
    obtain ⟨m, hm, hma, hmb⟩ : ∃ m, m + 1 = k + (a.ranks.length + b.ranks.length) ∧ k + a.ranks.length ≤ m ∧ k + b.ranks.length ≤ m := ⟨k + (a.ranks.length + b.ranks.length) - 1, by omega, by omega, by omega⟩
    have x3' := x3.trans (mul_le_mul_of_nonneg_right (by linarith [g_pow_mono hma] : g ^ (k + a.ranks.length) - 1 ≤ g ^ m - 1) ha0)
    have y3' := y3.trans (mul_le_mul_of_nonneg_right (by linarith [g_pow_mono hmb] : g ^ (k + b.ranks.length) - 1 ≤ g ^ m - 1) hb0)
    obtain ⟨hf, he⟩ := step (by omega) x2 y2 x3' y3' x4 y4 hA
    refine ⟨rnd (x + y), ?_, rep_rnd _, ?_, (abs_add_le _ _).trans (by linarith), by linarith⟩
    · unfold reduce
      rw [x1, y1]
      exact hf
    · rw [← hm]
      exact he

theorem sum_flatMap (F : ℚ × ℚ → ℚ) (G : ℕ → List (ℚ × ℚ)) (l : List ℕ) : ((l.flatMap G).map F).sum = (l.map fun r => ((G r).map F).sum).sum := by
  induction l with
  | nil => rfl
  | cons r l ih => rw [List.flatMap_cons, List.map_append, List.sum_append, ih, List.map_cons, List.sum_cons]

/-- **C201**: for every number of nodes and every order in which MPI adds their results, the sum is finite and differs from the exact sum by at most `2 (n + nodes + 1) 2^-53` times the sum of the sizes -/
theorem C201_error (size : ℕ) (hsize : 0 < size) (T : Order) (hT : T.Complete size) (l : List (ℚ × ℚ)) (hl : l.length + size ≤ 2 ^ 50) (hA : size1 l ≤ 2 ^ (1000 : ℤ)) (hN : Normal l) :
    ∃ y, total size T l = some y ∧ IsDouble y ∧ |y - exact l| ≤ 2 * (l.length + size + 1) * 2 ^ (-53 : ℤ) * size1 l := by
  have hpart := C129_partition size hsize l
  have hsub : ∀ r, r < size → ∀ p ∈ sliceArray size r l, p ∈ l := by
    intro r hr p hp
    rw [← hpart]
    exact List.mem_flatMap.2 ⟨r, List.mem_range.2 hr, hp⟩
  have hE : (T.ranks.map fun r => exact (sliceArray size r l)).sum = exact l := by
    rw [(hT.map _).sum_eq]
    conv_rhs => rw [← hpart]
    unfold exact
    rw [sum_flatMap]
  have hS : (T.ranks.map fun r => size1 (sliceArray size r l)).sum = size1 l := by
    rw [(hT.map _).sum_eq]
    conv_rhs => rw [← hpart]
    unfold size1
    rw [sum_flatMap]
  have hlen : ∀ r, r < size → (sliceArray size r l).length ≤ l.length := by
    intro r hr
    conv_rhs => rw [← hpart]
    rw [List.length_flatMap]
    exact List.single_le_sum (fun _ _ => Nat.zero_le _) _ (List.mem_map.2 ⟨r, List.mem_range.2 hr, rfl⟩)
  have hsz : ∀ r, r < size → size1 (sliceArray size r l) ≤ size1 l := by
    intro r hr
    conv_rhs => rw [← hS]
    refine List.single_le_sum ?_ _ (List.mem_map.2 ⟨r, ?_, rfl⟩)
    · intro x hx
      obtain ⟨s, _, rfl⟩ := List.mem_map.1 hx
      exact size1_nonneg _
    · exact hT.mem_iff.2 (List.mem_range.2 hr)
  have hTl : T.ranks.length = size := by rw [hT.length_eq, List.length_range]
  obtain ⟨y, h1, h2, h3, _⟩ := reduce_err (vals := fun r => onNode 0 (sliceArray size r l)) (S := fun r => exact (sliceArray size r l)) (A := fun r => size1 (sliceArray size r l)) (k := 1 + l.length) T
    (by omega) (by rw [hS]; exact hA) (by
      intro r hr
      have hrs : r < size := List.mem_range.1 (hT.mem_iff.1 hr)
      obtain ⟨v, v1, v2, v3⟩ := onNode_err (sliceArray size r l) 0 0 0 1 le_rfl (by have := hlen r hrs; omega) rep_zero (by simp) (by simp) (by rw [zero_add]; exact (hsz r hrs).trans hA)
        (fun p hp => hN p (hsub r hrs p hp))
      refine ⟨v, v1, v2, ?_, exact_le _⟩
      rw [zero_add, zero_add] at v3
      refine v3.trans (mul_le_mul_of_nonneg_right ?_ (size1_nonneg _))
      linarith [g_pow_mono (by have := hlen r hrs; omega : 1 + (sliceArray size r l).length ≤ 1 + l.length)])
  rw [hE, hS, hTl] at h3
  have hA0 := size1_nonneg l
  have hg := g_pow (k := 1 + l.length + size) (by omega)
  have hn : ((1 + l.length + size : ℕ) : ℚ) ≤ 2251799813685248 := by exact_mod_cast (by omega : 1 + l.length + size ≤ 2251799813685248)
  have hfin : |y - exact l| ≤ 2 * (l.length + size + 1) * 2 ^ (-53 : ℤ) * size1 l := by
    refine h3.trans (mul_le_mul_of_nonneg_right ?_ hA0)
    rw [show (2 : ℚ) ^ (-53 : ℤ) = 1 / 9007199254740992 by norm_num]
    push_cast at hg
    linarith
  refine ⟨y, h1, ⟨h2, ?_⟩, hfin⟩
  have h4 := abs_add_le (y - exact l) (exact l)
  rw [sub_add_cancel] at h4
  have h5 := exact_le l
  refine lt_of_le_of_lt (?_ : |y| ≤ 2 ^ (1001 : ℤ)) (big_lt (by norm_num))
  rw [show (1001 : ℤ) = 1 + 1000 by norm_num, two_zpow_add, zpow_one]
  have h6 : (g ^ (1 + l.length + size) - 1) * size1 l ≤ 1 * size1 l := mul_le_mul_of_nonneg_right (by linarith) hA0
  linarith

/-- **C201**: results on different numbers of nodes and in different orders differ by rounding only -/
theorem C201_nodes (size size' : ℕ) (hsize : 0 < size) (hsize' : 0 < size') (T T' : Order) (hT : T.Complete size) (hT' : T'.Complete size') (l : List (ℚ × ℚ)) (hl : l.length + size ≤ 2 ^ 50)
    (hl' : l.length + size' ≤ 2 ^ 50) (hA : size1 l ≤ 2 ^ (1000 : ℤ)) (hN : Normal l) :
    ∃ y y', total size T l = some y ∧ total size' T' l = some y' ∧ |y - y'| ≤ 2 * (2 * l.length + size + size' + 2) * 2 ^ (-53 : ℤ) * size1 l := by
  obtain ⟨y, h1, _, h2⟩ := C201_error size hsize T hT l hl hA hN
  obtain ⟨y', h1', _, h2'⟩ := C201_error size' hsize' T' hT' l hl' hA hN
  refine ⟨y, y', h1, h1', ?_⟩
  have := abs_sub_le y (exact l) y'
  rw [abs_sub_comm (exact l)] at this
  linarith

theorem onNode_nonpos : ∀ {l : List (ℚ × ℚ)} {acc r : ℚ}, acc ≤ 0 → (∀ p ∈ l, 0 ≤ p.1 ∧ p.2 ≤ 0) → onNode acc l = some r → r ≤ 0 := by
  intro l
  induction l with
  | nil => intro acc r h _ hr; cases hr; exact h
  | cons p l ih =>
    obtain ⟨w, x⟩ := p
    intro acc r h hp hr
    unfold onNode at hr
    cases e1 : fin (x * w) with
    | none => rw [e1] at hr; cases hr
    | some t =>
      rw [e1] at hr
      simp only at hr
      cases e2 : fin (acc + t) with
      | none => rw [e2] at hr; cases hr
      | some a =>
        rw [e2] at hr
        obtain ⟨h1, h2⟩ := hp (w, x) (by simp)
        refine ih ?_ (fun q hq => hp q (by simp [hq])) hr
        have ht : t ≤ 0 := by
          rw [(fin_some e1).1]
          exact rnd_le rep_zero (mul_nonpos_of_nonpos_of_nonneg h2 h1)
        rw [(fin_some e2).1]
        exact rnd_le rep_zero (by linarith)

/-- **C201**: sums of numbers that are not positive with weights that are not negative are not positive, whatever the rounding errors are: diagonal elements stay causal -/
theorem C201_sign (size : ℕ) (hsize : 0 < size) (T : Order) (hT : T.Complete size) (l : List (ℚ × ℚ)) (h : ∀ p ∈ l, 0 ≤ p.1 ∧ p.2 ≤ 0) (y : ℚ) (hy : total size T l = some y) : y ≤ 0 := by
  have hall : ∀ r ∈ T.ranks, ∀ v, onNode 0 (sliceArray size r l) = some v → v ≤ 0 := by
    intro r hr v hv
    refine onNode_nonpos le_rfl (fun p hp => h p ?_) hv
    rw [← C129_partition size hsize l]
    exact List.mem_flatMap.2 ⟨r, hT.mem_iff.1 hr, hp⟩
  unfold total at hy
  clear hT
  induction T generalizing y with
  | rank r => exact hall r (by simp [Order.ranks]) y hy
  | add a b iha ihb =>
    unfold reduce at hy
    cases e1 : reduce (fun r => onNode 0 (sliceArray size r l)) a with
    | none => rw [e1] at hy; cases hy
    | some u =>
      cases e2 : reduce (fun r => onNode 0 (sliceArray size r l)) b with
      | none => rw [e1, e2] at hy; cases hy
      | some v =>
        rw [e1, e2] at hy
        have hu := iha u e1 fun r hr => hall r (by simp [Order.ranks, hr])
        have hv := ihb v e2 fun r hr => hall r (by simp [Order.ranks, hr])
        rw [(fin_some hy).1]
        exact rnd_le rep_zero (by linarith)

/-- points with the default weights, sumk_discrete.py:58, and the same element -/
def flat (n : ℕ) (c : ℚ) : List (ℚ × ℚ) := List.replicate n (rnd (1 / n), c)

/-- **C201**: without dispersion the sum with the default weights is the local element up to rounding -/
theorem C201_flat (size : ℕ) (hsize : 0 < size) (T : Order) (hT : T.Complete size) (n : ℕ) (hn : 1 ≤ n) (hl : n + size ≤ 2 ^ 50) (c : ℚ) (h0 : (2 : ℚ) ^ (-900 : ℤ) ≤ |c|) (h1 : |c| ≤ 2 ^ (900 : ℤ)) :
    ∃ y, total size T (flat n c) = some y ∧ |y - c| ≤ 2 * (n + size + 2) * 2 ^ (-53 : ℤ) * |c| := by
  have hn1 : (1 : ℚ) ≤ n := by exact_mod_cast hn
  have hn2 : (n : ℚ) ≤ 1125899906842624 := by exact_mod_cast (by omega : n ≤ 1125899906842624)
  have hnpos : (0 : ℚ) < n := by linarith
  have hc0 : 0 < |c| := (two_zpow_pos _).trans_le h0
  have hinv : (2 : ℚ) ^ (-50 : ℤ) ≤ 1 / n := by
    rw [show (2 : ℚ) ^ (-50 : ℤ) = 1 / 1125899906842624 by norm_num]
    exact one_div_le_one_div_of_le hnpos hn2
  have hw : |rnd (1 / n) - 1 / (n : ℚ)| ≤ 1 / n * (1 / 9007199254740992) := by
    have := rnd_rel (x := 1 / (n : ℚ)) (by
      rw [abs_of_pos (by positivity)]
      exact (two_zpow_le (by norm_num)).trans hinv)
    rwa [abs_of_pos (by positivity : (0 : ℚ) < 1 / n), show (2 : ℚ) ^ (-53 : ℤ) = 1 / 9007199254740992 by norm_num] at this
  have hw0 : (2 : ℚ) ^ (-50 : ℤ) ≤ rnd (1 / n) := le_rnd (rep_zpow (by norm_num)) hinv
  have hwpos : 0 < rnd (1 / n) := (two_zpow_pos _).trans_le hw0
  have hnw : |n * rnd (1 / n) - 1| ≤ 1 / 9007199254740992 := by
    have e : (n : ℚ) * rnd (1 / n) - 1 = n * (rnd (1 / n) - 1 / n) := by field_simp
    rw [e, abs_mul, abs_of_pos hnpos]
    calc (n : ℚ) * |rnd (1 / n) - 1 / (n : ℚ)| ≤ n * (1 / n * (1 / 9007199254740992)) := mul_le_mul_of_nonneg_left hw hnpos.le
      _ = 1 / 9007199254740992 := by field_simp
  have hex : exact (flat n c) = n * rnd (1 / n) * c := by
    unfold exact flat
    rw [List.map_replicate, List.sum_replicate, nsmul_eq_mul]
    ring
  have hsz : size1 (flat n c) = n * rnd (1 / n) * |c| := by
    unfold size1 flat
    rw [List.map_replicate, List.sum_replicate, nsmul_eq_mul, abs_mul, abs_of_pos hwpos]
    ring
  have hsz2 : size1 (flat n c) ≤ (1 + 1 / 9007199254740992) * |c| := by
    rw [hsz]
    refine mul_le_mul_of_nonneg_right ?_ hc0.le
    linarith [(abs_le.1 hnw).2]
  obtain ⟨y, hy, _, he⟩ := C201_error size hsize T hT (flat n c) (by rw [flat, List.length_replicate]; exact hl) (by
    have : (2 : ℚ) ^ (1000 : ℤ) = 2 ^ (100 : ℤ) * 2 ^ (900 : ℤ) := by rw [← two_zpow_add]; norm_num
    rw [this]
    exact hsz2.trans (mul_le_mul (by norm_num) h1 hc0.le (by norm_num))) (by
    intro p hp
    rw [List.eq_of_mem_replicate hp]
    right
    show (2 : ℚ) ^ (-1022 : ℤ) ≤ |c * rnd (1 / n)|
    rw [abs_mul, abs_of_pos hwpos]
    calc (2 : ℚ) ^ (-1022 : ℤ) ≤ 2 ^ (-900 : ℤ) * 2 ^ (-50 : ℤ) := by rw [← two_zpow_add]; exact two_zpow_le (by norm_num)
      _ ≤ |c| * rnd (1 / n) := mul_le_mul h0 hw0 (two_zpow_pos _).le hc0.le)
  refine ⟨y, hy, ?_⟩
  rw [show (2 : ℚ) ^ (-53 : ℤ) = 1 / 9007199254740992 by norm_num] at he ⊢
  have hlen : ((flat n c).length : ℚ) = n := by rw [flat, List.length_replicate]
  rw [hlen] at he
  have hec : |exact (flat n c) - c| ≤ 1 / 9007199254740992 * |c| := by
    rw [hex, show (n : ℚ) * rnd (1 / n) * c - c = (n * rnd (1 / n) - 1) * c by ring, abs_mul]
    exact mul_le_mul_of_nonneg_right hnw hc0.le
  have ht := abs_sub_le y (exact (flat n c)) c
  have hs2 : (size : ℚ) ≤ 1125899906842624 := by exact_mod_cast (by omega : size ≤ 1125899906842624)
  have hs0 : (0 : ℚ) ≤ size := by positivity
  have hk : 2 * ((n : ℚ) + size + 1) * (1 / 9007199254740992) * size1 (flat n c) ≤ 2 * ((n : ℚ) + size + 1) * (1 / 9007199254740992) * ((1 + 1 / 9007199254740992) * |c|) :=
    mul_le_mul_of_nonneg_left hsz2 (by positivity)
  have hk2 : 2 * ((n : ℚ) + size + 1) * (1 / 9007199254740992) * |c| ≤ 1 * |c| := mul_le_mul_of_nonneg_right (by linarith) hc0.le
  linarith

/-- **C201**: the bits of the result do depend on the number of nodes and on the order -/
theorem C201_order_witness : total 1 (.rank 0) [(1, 2 ^ (-53 : ℤ)), (1, 2 ^ (-53 : ℤ)), (1, 1)] = some (1 + 2 ^ (-52 : ℤ)) ∧
    total 3 (.add (.rank 0) (.add (.rank 1) (.rank 2))) [(1, 2 ^ (-53 : ℤ)), (1, 2 ^ (-53 : ℤ)), (1, 1)] = some 1 ∧
    total 3 (.add (.add (.rank 0) (.rank 1)) (.rank 2)) [(1, 2 ^ (-53 : ℤ)), (1, 2 ^ (-53 : ℤ)), (1, 1)] = some (1 + 2 ^ (-52 : ℤ)) := by decide +kernel

/-! ### Examples -/

/-- five points on two nodes -/
example : total 2 (.add (.rank 1) (.rank 0)) [(1, 1), (1 / 2, 3), (2, -1), (1, 5), (1 / 4, 8)] = some (15 / 2) ∧ exact [(1, 1), (1 / 2, 3), (2, -1), (1, 5), (1 / 4, 8)] = 15 / 2 := by decide +kernel

/-- more nodes than points -/
example : total 3 (.add (.rank 1) (.add (.rank 2) (.rank 0))) [(1, 7)] = some 7 := by decide +kernel

example : Order.Complete (.add (.rank 1) (.add (.rank 2) (.rank 0))) 3 := by
  show List.Perm [1, 2, 0] [0, 1, 2]
  decide

end Verif.NodeSum
