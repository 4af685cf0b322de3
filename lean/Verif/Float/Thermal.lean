import Verif.Float.Relative
import Verif.Float.LinearMesh
import Mathlib.Algebra.BigOperators.Group.List.Basic
import Mathlib.Algebra.Order.BigOperators.Group.List
import Mathlib.Tactic.Ring
import Mathlib.Tactic.FieldSimp

/-!
# Thermal weights and imaginary-time functions of atoms and baths in double precision

Source: `/repo/c++/triqs/atom_diag/impl/functions.cpp` (39-60), `/repo/c++/triqs/atom_diag/impl/gf.cpp` (59-74, 167-175), `/repo/c++/triqs/atom_diag/impl/worker.cpp` (291, 311-313, 341),
`/repo/python/triqs/gf/tools.py` (320-323).

The exponential of the C library is an arbitrary function `E` with the contract `MachineExp`: doubles between zero and one for arguments that are not positive, and one for zero. Nothing else is assumed about it, in
particular neither that it is monotone nor how accurate it is. `sum` of nda adds the elements in their order, starting from zero. Sums are shown to stay finite, and are therefore plain roundings in the model.
-/

namespace Verif.ThermalDouble

open Binary64 LinearDouble

/-! ## Model -/

/-- what is assumed about `exp` -/
structure MachineExp (E : ℚ → ℚ) : Prop where
  rep : ∀ x ≤ 0, Rep (E x)
  zero : E 0 = 1
  range : ∀ x ≤ 0, 0 ≤ E x ∧ E x ≤ 1

/-- `exp(x)` for a product `x` that is not positive; if the product is minus infinity, its exponential is zero -/
def expOf (E : ℚ → ℚ) (x : ℚ) : ℚ :=
  match fin x with
  | some y => E y
  | none => 0

/-- `gs_energy`, worker.cpp:291, 313: the least of the first energies of the blocks; a block without states has none -/
def gsEnergy (b : List (List ℚ)) : Option ℚ := (b.filterMap List.head?).min?

/-- the energies after worker.cpp:341; the differences are finite -/
def shifted (g : ℚ) (b : List (List ℚ)) : List (List ℚ) := b.map fun es => es.map fun x => rnd (x - g)

/-- `exp(-beta * E)` -/
def boltzmann (E : ℚ → ℚ) (beta e : ℚ) : ℚ := expOf E (-beta * e)

/-- the sum of a block, functions.cpp:41 -/
def blockSum (E : ℚ → ℚ) (beta z : ℚ) (es : List ℚ) : ℚ := es.foldl (fun a e => rnd (a + boltzmann E beta e)) z

/-- `partition_function`, functions.cpp:39-43 -/
def partition (E : ℚ → ℚ) (beta : ℚ) (b : List (List ℚ)) : ℚ := b.foldl (fun z es => rnd (z + blockSum E beta 0 es)) 0

/-- the diagonal of `atomic_density_matrix`, functions.cpp:48-60, all blocks -/
def densityDiagonal (E : ℚ → ℚ) (beta : ℚ) (b : List (List ℚ)) : List ℚ := b.flatten.map fun e => rnd (boltzmann E beta e / partition E beta b)

/-- `z` and the weights of the Lehmann representation, gf.cpp:59-74: one sum over all states -/
def lehmannZ (E : ℚ → ℚ) (beta : ℚ) (b : List (List ℚ)) : ℚ := b.foldl (blockSum E beta) 0

def lehmannWeights (E : ℚ → ℚ) (beta : ℚ) (b : List (List ℚ)) : List ℚ := b.flatten.map fun e => rnd (boltzmann E beta e / lehmannZ E beta b)

/-- the denominator of gf.cpp:171 -/
def tauDenom (E : ℚ → ℚ) (beta pole : ℚ) : ℚ := if 0 < pole then rnd (1 + expOf E (-beta * pole)) else rnd (expOf E (beta * pole) + 1)

/-- what one term with a real residue contributes at `tau`, gf.cpp:171-174 -/
def tauTerm (E : ℚ → ℚ) (beta pole residue tau : ℚ) : ℚ :=
  rnd (rnd (-residue / tauDenom E beta pole) * if 0 < pole then expOf E (-tau * pole) else expOf E (rnd (beta - tau) * pole))

/-- the argument of the exponential of a level of a bath, tools.py:322 -/
def bathArg (beta eps tau : ℚ) : ℚ := rnd (rnd (-tau * eps) + rnd (beta * if eps < 0 then eps else 0))

/-- `one_fermion` of a level, tools.py:322-323; the products are finite -/
def bathTerm (E : ℚ → ℚ) (beta eps tau : ℚ) : ℚ := rnd (-E (bathArg beta eps tau) / rnd (1 + E (rnd (-beta * |eps|))))

/-! ## Specification -/

/-- energies of an atom: doubles, sorted in every block, not all blocks empty -/
structure Levels (b : List (List ℚ)) : Prop where
  rep : ∀ es ∈ b, ∀ x ∈ es, Rep x
  sorted : ∀ es ∈ b, es.Pairwise (· ≤ ·)
  some : ∃ es ∈ b, es ≠ []

/-- energies above the ground state: doubles, not negative, one of them zero -/
structure Excitations (b : List (List ℚ)) : Prop where
  rep : ∀ es ∈ b, ∀ e ∈ es, Rep e ∧ 0 ≤ e
  ground : ∃ es ∈ b, (0 : ℚ) ∈ es

/-- number of states and of blocks -/
def size (b : List (List ℚ)) : ℕ := b.flatten.length + b.length

/-! ## Proofs -/

theorem expOf_range {E : ℚ → ℚ} (hE : MachineExp E) {x : ℚ} (hx : x ≤ 0) : Rep (expOf E x) ∧ 0 ≤ expOf E x ∧ expOf E x ≤ 1 := by
  unfold expOf
  split
  · rename_i y hy
    have h0 : y ≤ 0 := by rw [(fin_some hy).1]; exact rnd_le rep_zero hx
    exact ⟨hE.rep y h0, hE.range y h0⟩
  · exact ⟨rep_zero, le_refl _, by norm_num⟩

theorem expOf_zero {E : ℚ → ℚ} (hE : MachineExp E) : expOf E 0 = 1 := by
  have h0 : fin 0 = some 0 := by decide +kernel
  unfold expOf
  rw [h0]
  exact hE.zero

theorem Rel.add2 {j k : ℕ} {x y x' y' : ℚ} (h : Rel j x y) (h' : Rel k x' y') (hx : 0 ≤ x) (hx' : 0 ≤ x') : Rel (j + k) (x + x') (y + y') := by
  have hy := h.nonneg hx
  have hy' := h'.nonneg hx'
  have c1 : c53 ^ (j + k) ≤ c53 ^ j := pow_le_pow_of_le_one c53_pos.le c53_le (by omega)
  have c2 : c53 ^ (j + k) ≤ c53 ^ k := pow_le_pow_of_le_one c53_pos.le c53_le (by omega)
  constructor
  · have := h.1
    have := h'.1
    nlinarith
  · have := h.2
    have := h'.2
    nlinarith

theorem Rel.symm {k : ℕ} {x y : ℚ} (h : Rel k x y) : Rel k y x := ⟨h.2, h.1⟩

/-- energies above the ground state -/
theorem shifted_excitations {b : List (List ℚ)} (h : Levels b) : ∃ g, gsEnergy b = some g ∧ Excitations (shifted g b) := by
  obtain ⟨es, hes, hne⟩ := h.some
  have hnn : b.filterMap List.head? ≠ [] := by
    intro h0
    cases es with
    | nil => exact hne rfl
    | cons x l =>
      have : x ∈ b.filterMap List.head? := List.mem_filterMap.2 ⟨x :: l, hes, rfl⟩
      rw [h0] at this
      simp at this
  obtain ⟨g, hg⟩ : ∃ g, gsEnergy b = some g := by
    unfold gsEnergy
    cases hm : (b.filterMap List.head?).min? with
    | none => exact absurd (List.min?_eq_none_iff.1 hm) hnn
    | some g => exact ⟨g, rfl⟩
  have hg' := List.min?_eq_some_iff.1 (show (b.filterMap List.head?).min? = some g from hg)
  obtain ⟨gs, hgs, hh⟩ := List.mem_filterMap.1 hg'.1
  have hgmem : g ∈ gs := List.mem_of_head? hh
  have hgrep : Rep g := h.rep gs hgs g hgmem
  refine ⟨g, hg, ⟨?_, ?_⟩⟩
  · intro ls hls e he
    obtain ⟨es, hes, rfl⟩ := List.mem_map.1 hls
    obtain ⟨x, hx, rfl⟩ := List.mem_map.1 he
    refine ⟨rep_rnd _, rnd_nonneg ?_⟩
    cases es with
    | nil => simp at hx
    | cons y l =>
      have hy : g ≤ y := hg'.2 y (List.mem_filterMap.2 ⟨y :: l, hes, rfl⟩)
      have hs := List.pairwise_cons.1 (h.sorted _ hes)
      rcases List.mem_cons.1 hx with rfl | hx
      · linarith
      · linarith [hs.1 x hx]
  · refine ⟨gs.map fun x => rnd (x - g), List.mem_map.2 ⟨gs, hgs, rfl⟩, List.mem_map.2 ⟨g, hgmem, ?_⟩⟩
    rw [sub_self, rnd_zero]

theorem boltzmann_range {E : ℚ → ℚ} (hE : MachineExp E) {beta e : ℚ} (hb : 0 ≤ beta) (he : 0 ≤ e) : Rep (boltzmann E beta e) ∧ 0 ≤ boltzmann E beta e ∧ boltzmann E beta e ≤ 1 :=
  expOf_range hE (by nlinarith)

/-- the sum of the weights in exact arithmetic -/
def exactSum (E : ℚ → ℚ) (beta : ℚ) (es : List ℚ) : ℚ := (es.map (boltzmann E beta)).sum

theorem exactSum_nonneg {E : ℚ → ℚ} (hE : MachineExp E) {beta : ℚ} (hb : 0 ≤ beta) {es : List ℚ} (h : ∀ e ∈ es, Rep e ∧ 0 ≤ e) : 0 ≤ exactSum E beta es := by
  refine List.sum_nonneg ?_
  intro w hw
  obtain ⟨e, he, rfl⟩ := List.mem_map.1 hw
  exact (boltzmann_range hE hb (h e he).2).2.1

theorem blockSum_spec {E : ℚ → ℚ} (hE : MachineExp E) {beta : ℚ} (hb : 0 ≤ beta) : ∀ {es : List ℚ} (_ : ∀ e ∈ es, Rep e ∧ 0 ≤ e) {k n : ℕ} {S z : ℚ}, Rep z → 0 ≤ S → Rel k S z → z ≤ n → n + es.length ≤ 2 ^ 53 →
    Rep (blockSum E beta z es) ∧ Rel (k + es.length) (S + exactSum E beta es) (blockSum E beta z es) ∧ blockSum E beta z es ≤ ((n + es.length : ℕ) : ℚ) ∧ z ≤ blockSum E beta z es ∧
      ∀ e ∈ es, boltzmann E beta e ≤ blockSum E beta z es := by
  intro es
  induction es with
  | nil =>
    intro _ k n S z hz hS hr hzn _
    exact ⟨hz, by simpa [exactSum, blockSum] using hr, by simpa [blockSum] using hzn, le_refl _, by simp⟩
  | cons e es ih =>
    intro h k n S z hz hS hr hzn hlen
    rw [List.length_cons] at hlen
    obtain ⟨w1, w2, w3⟩ := boltzmann_range hE hb (h e (by simp)).2
    have z0 := hr.nonneg hS
    have hr' : Rel (k + 1) (S + boltzmann E beta e) (rnd (z + boltzmann E beta e)) := (hr.add w2).trans (rel_add hz w1 (by linarith))
    have hzn' : rnd (z + boltzmann E beta e) ≤ ((n + 1 : ℕ) : ℚ) := rnd_le (by exact_mod_cast rep_int (n := ((n + 1 : ℕ) : ℤ)) (by rw [abs_of_nonneg (by omega)]; exact_mod_cast (by omega : n + 1 ≤ 2 ^ 53))) (by
      push_cast
      linarith)
    have l1 : z ≤ rnd (z + boltzmann E beta e) := le_rnd hz (by linarith)
    have l2 : boltzmann E beta e ≤ rnd (z + boltzmann E beta e) := le_rnd w1 (by linarith)
    obtain ⟨a1, a2, a3, a4, a5⟩ := ih (fun x hx => h x (by simp [hx])) (rep_rnd _) (by linarith) hr' hzn' (by omega)
    have hs : blockSum E beta z (e :: es) = blockSum E beta (rnd (z + boltzmann E beta e)) es := rfl
    rw [hs, List.length_cons]
    refine ⟨a1, ?_, ?_, l1.trans a4, ?_⟩
    · rw [show k + (es.length + 1) = k + 1 + es.length by omega, show S + exactSum E beta (e :: es) = S + boltzmann E beta e + exactSum E beta es by simp [exactSum]; ring]
      exact a2
    · rw [show n + (es.length + 1) = n + 1 + es.length by omega]
      exact a3
    · intro x hx
      rcases List.mem_cons.1 hx with rfl | hx
      · exact l2.trans a4
      · exact a5 x hx

/-- the sum over the blocks -/
theorem partition_spec {E : ℚ → ℚ} (hE : MachineExp E) {beta : ℚ} (hb : 0 ≤ beta) : ∀ {b : List (List ℚ)} (_ : ∀ es ∈ b, ∀ e ∈ es, Rep e ∧ 0 ≤ e) {k n : ℕ} {S z : ℚ}, Rep z → 0 ≤ S → Rel k S z → z ≤ n →
    n + b.flatten.length ≤ 2 ^ 53 →
    let r := b.foldl (fun z es => rnd (z + blockSum E beta 0 es)) z
    Rep r ∧ Rel (k + size b) (S + exactSum E beta b.flatten) r ∧ r ≤ ((n + b.flatten.length : ℕ) : ℚ) ∧ z ≤ r ∧ ∀ es ∈ b, ∀ e ∈ es, boltzmann E beta e ≤ r := by
  intro b
  induction b with
  | nil =>
    intro _ k n S z hz hS hr hzn _
    exact ⟨hz, by simpa [exactSum, size] using hr, by simpa using hzn, le_refl _, by simp⟩
  | cons es b ih =>
    intro h k n S z hz hS hr hzn hlen
    rw [List.flatten_cons, List.length_append] at hlen
    have hes := h es (by simp)
    obtain ⟨c1, c2, c3, c4, c5⟩ := blockSum_spec hE hb hes (k := 0) (n := 0) (S := 0) (z := 0) rep_zero (le_refl _) (Rel.refl 0) (by norm_num) (by omega)
    rw [zero_add, zero_add] at c2
    rw [Nat.zero_add] at c3
    have z0 := hr.nonneg hS
    have e0 := exactSum_nonneg hE hb hes
    have hr' : Rel (k + es.length + 1) (S + exactSum E beta es) (rnd (z + blockSum E beta 0 es)) := (Rel.add2 hr c2 hS e0).trans (rel_add hz c1 (by linarith))
    have hzn' : rnd (z + blockSum E beta 0 es) ≤ ((n + es.length : ℕ) : ℚ) := rnd_le (by exact_mod_cast rep_int (n := ((n + es.length : ℕ) : ℤ)) (by rw [abs_of_nonneg (by omega)]; exact_mod_cast (by omega : n + es.length ≤ 2 ^ 53))) (by
      push_cast
      linarith)
    have l1 : z ≤ rnd (z + blockSum E beta 0 es) := le_rnd hz (by linarith)
    have l2 : blockSum E beta 0 es ≤ rnd (z + blockSum E beta 0 es) := le_rnd c1 (by linarith)
    obtain ⟨a1, a2, a3, a4, a5⟩ := ih (fun x hx => h x (by simp [hx])) (rep_rnd _) (by linarith) hr' hzn' (by omega)
    simp only [List.foldl_cons]
    refine ⟨a1, ?_, ?_, l1.trans a4, ?_⟩
    · have h1 : k + size (es :: b) = k + es.length + 1 + size b := by simp only [size, List.flatten_cons, List.length_append, List.length_cons]; omega
      have h2 : S + exactSum E beta (es :: b).flatten = S + exactSum E beta es + exactSum E beta b.flatten := by simp [exactSum]; ring
      rw [h1, h2]
      exact a2
    · rw [List.flatten_cons, List.length_append, show n + (es.length + b.flatten.length) = n + es.length + b.flatten.length by omega]
      exact a3
    · intro fs hfs
      rcases List.mem_cons.1 hfs with rfl | hfs
      · intro e he
        exact (c5 e he).trans (l2.trans a4)
      · exact a5 fs hfs

/-- one sum over all states is the same as one block -/
theorem lehmannZ_eq (E : ℚ → ℚ) (beta : ℚ) (b : List (List ℚ)) : lehmannZ E beta b = blockSum E beta 0 b.flatten := by
  unfold lehmannZ blockSum
  rw [List.foldl_flatten]

theorem tpos : (0 : ℚ) < 2 ^ (-1074 : ℤ) := two_zpow_pos _

theorem tsmall : (2 : ℚ) ^ (-1074 : ℤ) ≤ 1 / 2 ^ 100 := (two_zpow_le (by norm_num : (-1074 : ℤ) ≤ -100)).trans (by norm_num)

/-- rounded quotients by a rounded sum -/
theorem quotients {E : ℚ → ℚ} (hE : MachineExp E) {beta : ℚ} (hb : 0 ≤ beta) {es : List ℚ} (h : ∀ e ∈ es, Rep e ∧ 0 ≤ e) {z : ℚ} {N : ℕ} (hN : N ≤ 2 ^ 51) (hz : 1 ≤ z) (hr : Rel N (exactSum E beta es) z) :
    |(es.map fun e => rnd (boltzmann E beta e / z)).sum - 1| ≤ (2 * N + 2) * (1 / 9007199254740992) + es.length * 2 ^ (-1074 : ℤ) := by
  have z0 : 0 < z := by linarith
  have key : ∀ {l : List ℚ}, (∀ e ∈ l, Rep e ∧ 0 ≤ e) → |(l.map fun e => rnd (boltzmann E beta e / z)).sum - exactSum E beta l / z| ≤ exactSum E beta l / z * (1 / 9007199254740992) + l.length * 2 ^ (-1074 : ℤ) := by
    intro l
    induction l with
    | nil => intro _; simp [exactSum]
    | cons e l ih =>
      intro hl
      have h1 := ih fun x hx => hl x (by simp [hx])
      obtain ⟨_, w2, _⟩ := boltzmann_range hE hb (hl e (by simp)).2
      have h2 := rnd_err_abs (boltzmann E beta e / z)
      rw [abs_of_nonneg (a := boltzmann E beta e / z) (by positivity)] at h2
      have h3 : exactSum E beta (e :: l) / z = boltzmann E beta e / z + exactSum E beta l / z := by simp [exactSum, add_div]
      rw [h3, List.map_cons, List.sum_cons, List.length_cons]
      push_cast
      generalize (2 : ℚ) ^ (-1074 : ℤ) = t at *
      generalize (l.map fun e => rnd (boltzmann E beta e / z)).sum = A at *
      rw [abs_le] at h1 h2 ⊢
      constructor <;> linarith [h1.1, h1.2, h2.1, h2.2]
  have h1 := key h
  have h2 := (Rel.symm hr).err hN z0.le
  have h3 : |exactSum E beta es / z - 1| ≤ 2 * N / 9007199254740992 := by
    rw [show exactSum E beta es / z - 1 = (exactSum E beta es - z) / z by field_simp, abs_div, abs_of_pos z0, div_le_iff₀ z0]
    linarith
  have hN' : (N : ℚ) ≤ 2251799813685248 := by exact_mod_cast hN
  have h4 : exactSum E beta es / z ≤ 2 := by
    have := (abs_le.1 h3).2
    linarith
  generalize (2 : ℚ) ^ (-1074 : ℤ) = t at *
  rw [abs_le] at h1 h3 ⊢
  constructor <;> linarith [h1.1, h1.2, h3.1, h3.2]

/-- **C183, partition function**: for every temperature and all energies, the partition function is at least one and at most the number of states: nothing overflows and nothing is divided by zero; the weights are between zero
and one, and their sum is one up to rounding. -/
theorem C183_density_matrix (E : ℚ → ℚ) (hE : MachineExp E) (beta : ℚ) (hb : 0 ≤ beta) (b : List (List ℚ)) (h : Excitations b) (hn : size b ≤ 2 ^ 51) :
    1 ≤ partition E beta b ∧ partition E beta b ≤ b.flatten.length ∧ (∀ w ∈ densityDiagonal E beta b, 0 ≤ w ∧ w ≤ 1) ∧
      |(densityDiagonal E beta b).sum - 1| ≤ (2 * size b + 2) * 2 ^ (-53 : ℤ) + b.flatten.length * 2 ^ (-1074 : ℤ) := by
  obtain ⟨a1, a2, a3, _, a5⟩ := partition_spec hE hb h.rep (k := 0) (n := 0) (S := 0) (z := 0) rep_zero (le_refl _) (Rel.refl 0) (by norm_num) (by unfold size at hn; omega)
  rw [zero_add, zero_add] at a2
  rw [Nat.zero_add] at a3
  have hz : 1 ≤ partition E beta b := by
    obtain ⟨es, hes, he⟩ := h.ground
    have := a5 es hes 0 he
    unfold boltzmann at this
    rw [mul_zero, expOf_zero hE] at this
    exact this
  have hfl : ∀ e ∈ b.flatten, Rep e ∧ 0 ≤ e := by
    intro e he
    obtain ⟨es, hes, he⟩ := List.mem_flatten.1 he
    exact h.rep es hes e he
  refine ⟨hz, a3, ?_, ?_⟩
  · intro w hw
    obtain ⟨e, he, rfl⟩ := List.mem_map.1 hw
    obtain ⟨es, hes, he'⟩ := List.mem_flatten.1 he
    obtain ⟨_, w2, _⟩ := boltzmann_range hE hb (hfl e he).2
    have hle : boltzmann E beta e ≤ partition E beta b := a5 es hes e he'
    exact ⟨rnd_nonneg (div_nonneg w2 (by linarith)), rnd_le rep_one ((div_le_one (by linarith)).2 hle)⟩
  · rw [show (2 : ℚ) ^ (-53 : ℤ) = 1 / 9007199254740992 by norm_num]
    exact quotients hE hb hfl hn hz a2

/-- **C183, Lehmann weights**: the same for the weights of the Lehmann representation. -/
theorem C183_lehmann_weights (E : ℚ → ℚ) (hE : MachineExp E) (beta : ℚ) (hb : 0 ≤ beta) (b : List (List ℚ)) (h : Excitations b) (hn : b.flatten.length ≤ 2 ^ 51) :
    1 ≤ lehmannZ E beta b ∧ lehmannZ E beta b ≤ b.flatten.length ∧ (∀ w ∈ lehmannWeights E beta b, 0 ≤ w ∧ w ≤ 1) ∧
      |(lehmannWeights E beta b).sum - 1| ≤ (2 * b.flatten.length + 2) * 2 ^ (-53 : ℤ) + b.flatten.length * 2 ^ (-1074 : ℤ) := by
  have hfl : ∀ e ∈ b.flatten, Rep e ∧ 0 ≤ e := by
    intro e he
    obtain ⟨es, hes, he⟩ := List.mem_flatten.1 he
    exact h.rep es hes e he
  obtain ⟨a1, a2, a3, _, a5⟩ := blockSum_spec hE hb hfl (k := 0) (n := 0) (S := 0) (z := 0) rep_zero (le_refl _) (Rel.refl 0) (by norm_num) (by omega)
  rw [zero_add, zero_add, ← lehmannZ_eq] at a2
  rw [Nat.zero_add, ← lehmannZ_eq] at a3
  rw [← lehmannZ_eq] at a5
  have hz : 1 ≤ lehmannZ E beta b := by
    obtain ⟨es, hes, he⟩ := h.ground
    have := a5 0 (List.mem_flatten.2 ⟨es, hes, he⟩)
    unfold boltzmann at this
    rw [mul_zero, expOf_zero hE] at this
    exact this
  refine ⟨hz, a3, ?_, ?_⟩
  · intro w hw
    obtain ⟨e, he, rfl⟩ := List.mem_map.1 hw
    obtain ⟨_, w2, _⟩ := boltzmann_range hE hb (hfl e he).2
    exact ⟨rnd_nonneg (div_nonneg w2 (by linarith)), rnd_le rep_one ((div_le_one (by linarith)).2 (a5 e he))⟩
  · rw [show (2 : ℚ) ^ (-53 : ℤ) = 1 / 9007199254740992 by norm_num]
    exact quotients hE hb hfl hn hz a2

/-- **C183, ground state**: the energies that the diagonalisation stores satisfy the condition: none is negative and the ground state has exactly zero. -/
theorem C183_ground (b : List (List ℚ)) (h : Levels b) : ∃ g, gsEnergy b = some g ∧ Excitations (shifted g b) := shifted_excitations h

/-- the denominator is between one and two -/
theorem denom {e : ℚ} (h0 : 0 ≤ e) (h1 : e ≤ 1) : 1 ≤ rnd (1 + e) ∧ rnd (1 + e) ≤ 2 ∧ |rnd (1 + e) - (1 + e)| ≤ 3 / 9007199254740992 := by
  refine ⟨le_rnd rep_one (by linarith), rnd_le (by exact_mod_cast rep_int (n := 2) (by norm_num)) (by linarith), ?_⟩
  have := rnd_err_abs (1 + e)
  rw [abs_of_nonneg (a := 1 + e) (by linarith)] at this
  have ht := tsmall
  generalize (2 : ℚ) ^ (-1074 : ℤ) = t at *
  norm_num at ht
  linarith

theorem rnd_abs_le {x B : ℚ} (hB : Rep B) (h : |x| ≤ B) : |rnd x| ≤ B := by
  rw [abs_le] at h ⊢
  exact ⟨le_rnd (rep_neg hB) h.1, rnd_le hB h.2⟩

theorem rep_abs {x : ℚ} (h : Rep x) : Rep |x| := by
  rcases abs_choice x with h' | h' <;> rw [h']
  · exact h
  · exact rep_neg h

/-- the common factor of a term -/
theorem factor_le {r d : ℚ} (hr : Rep r) (hd : 1 ≤ d) : |rnd (-r / d)| ≤ |r| := by
  refine rnd_abs_le (rep_abs hr) ?_
  rw [abs_div, abs_neg, abs_of_pos (a := d) (by linarith)]
  exact div_le_self (abs_nonneg _) hd

theorem tauDenom_spec {E : ℚ → ℚ} (hE : MachineExp E) {beta pole : ℚ} (hb : 0 ≤ beta) : ∃ e, 0 ≤ e ∧ e ≤ 1 ∧ tauDenom E beta pole = rnd (1 + e) ∧ e = if 0 < pole then expOf E (-beta * pole) else expOf E (beta * pole) := by
  unfold tauDenom
  split
  · rename_i h
    obtain ⟨_, h1, h2⟩ := expOf_range hE (x := -beta * pole) (by nlinarith)
    exact ⟨_, h1, h2, rfl, rfl⟩
  · rename_i h
    obtain ⟨_, h1, h2⟩ := expOf_range hE (x := beta * pole) (by nlinarith)
    exact ⟨_, h1, h2, by rw [add_comm], rfl⟩

/-- **C183, a term of the Green function**: for every pole and every time between zero and `beta`, a term of the Green function is not larger than its residue, and has the other sign: nothing overflows however large
the product of the pole and `beta` is. -/
theorem C183_bounded (E : ℚ → ℚ) (hE : MachineExp E) (beta : ℚ) (pole r tau : ℚ) (hr : Rep r) (h0 : 0 ≤ tau) (h1 : tau ≤ beta) :
    |tauTerm E beta pole r tau| ≤ |r| ∧ (0 ≤ r → tauTerm E beta pole r tau ≤ 0) := by
  obtain ⟨e, e0, e1, hd, _⟩ := tauDenom_spec hE (pole := pole) (h0.trans h1)
  obtain ⟨d1, _, _⟩ := denom e0 e1
  have hx : 0 ≤ (if 0 < pole then expOf E (-tau * pole) else expOf E (rnd (beta - tau) * pole)) ∧ (if 0 < pole then expOf E (-tau * pole) else expOf E (rnd (beta - tau) * pole)) ≤ 1 := by
    split
    · rename_i h
      exact (expOf_range hE (by nlinarith)).2
    · rename_i h
      have : 0 ≤ rnd (beta - tau) := rnd_nonneg (by linarith)
      exact (expOf_range hE (by nlinarith)).2
  have hf := factor_le hr (by rw [hd]; exact d1 : 1 ≤ tauDenom E beta pole)
  unfold tauTerm
  generalize (if 0 < pole then expOf E (-tau * pole) else expOf E (rnd (beta - tau) * pole)) = x at *
  constructor
  · refine rnd_abs_le (rep_abs hr) ?_
    rw [abs_mul, abs_of_nonneg hx.1]
    exact (mul_le_of_le_one_right (abs_nonneg _) hx.2).trans hf
  · intro hrn
    refine rnd_le rep_zero ?_
    have : rnd (-r / tauDenom E beta pole) ≤ 0 := rnd_le rep_zero (div_nonpos_of_nonpos_of_nonneg (by linarith) (by rw [hd]; linarith))
    nlinarith

/-- sum of the two ends -/
theorem jump_aux {r e : ℚ} (hr : Rep r) (e0 : 0 ≤ e) (e1 : e ≤ 1) : |rnd (-r / rnd (1 + e)) + rnd (rnd (-r / rnd (1 + e)) * e) + r| ≤ 6 * |r| * (1 / 9007199254740992) + 3 * 2 ^ (-1074 : ℤ) := by
  obtain ⟨d1, d2, d3⟩ := denom e0 e1
  have hf := factor_le hr d1
  have h1 := rnd_err_abs (-r / rnd (1 + e))
  have h2 := rnd_err_abs (rnd (-r / rnd (1 + e)) * e)
  have ht := tpos
  generalize (2 : ℚ) ^ (-1074 : ℤ) = t at *
  generalize rnd (1 + e) = d at *
  generalize rnd (-r / d) = w at *
  generalize rnd (w * e) = v at *
  have d0 : 0 < d := by linarith
  have h3 : |w * d + r| ≤ |r| * (1 / 9007199254740992) + 2 * t := by
    have h4 : w * d + r = (w - -r / d) * d := by field_simp; ring
    rw [h4, abs_mul, abs_of_pos d0]
    rw [abs_div, abs_neg, abs_of_pos d0] at h1
    have h5 := mul_le_mul_of_nonneg_right h1 d0.le
    have h6 : (|r| / d * (1 / 9007199254740992) + t) * d = |r| * (1 / 9007199254740992) + t * d := by field_simp
    nlinarith
  have h7 : |w * (1 + e - d)| ≤ |r| * (3 / 9007199254740992) := by
    rw [abs_mul, abs_sub_comm]
    exact mul_le_mul hf d3 (abs_nonneg _) (abs_nonneg _)
  have h8 : |v - w * e| ≤ |r| * (1 / 9007199254740992) + t := by
    refine h2.trans ?_
    rw [abs_mul, abs_of_nonneg e0]
    have : |w| * e ≤ |r| := (mul_le_of_le_one_right (abs_nonneg _) e1).trans hf
    linarith
  have h9 : w + v + r = (w * d + r) + w * (1 + e - d) + (v - w * e) := by ring
  rw [h9]
  refine (abs_add_le _ _).trans ?_
  have := abs_add_le (w * d + r) (w * (1 + e - d))
  have hr0 := abs_nonneg r
  linarith

/-- **C183, jump**: on every mesh of at least two points, the values of a term at the first and at the last point add up to minus its residue, up to `6 2^-53` of it, whatever the accuracy of the exponential is. -/
theorem C183_jump (E : ℚ → ℚ) (hE : MachineExp E) (beta : ℚ) (hbr : IsDouble beta) (hb : 0 ≤ beta) (pole r : ℚ) (hr : Rep r) (L : ℤ) (hL : 2 ≤ L) :
    ∃ t0 t1, toValue 0 beta L 0 = some t0 ∧ toValue 0 beta L (L - 1) = some t1 ∧
      |tauTerm E beta pole r t0 + tauTerm E beta pole r t1 + r| ≤ 6 * |r| * 2 ^ (-53 : ℤ) + 3 * 2 ^ (-1074 : ℤ) := by
  obtain ⟨m0, m1⟩ := C176_ends 0 beta L ⟨rep_zero, by rw [abs_zero]; positivity⟩ hbr hL
  refine ⟨0, beta, m0, m1, ?_⟩
  obtain ⟨e, e0, e1, hd, he⟩ := tauDenom_spec hE (pole := pole) hb
  have hj := jump_aux hr e0 e1
  rw [show (2 : ℚ) ^ (-53 : ℤ) = 1 / 9007199254740992 by norm_num]
  unfold tauTerm
  rw [hd]
  by_cases hp : 0 < pole
  · rw [if_pos hp] at he
    rw [if_pos hp, if_pos hp, ← he, neg_zero, zero_mul, expOf_zero hE, mul_one, rnd_rnd]
    exact hj
  · rw [if_neg hp] at he
    rw [if_neg hp, if_neg hp, sub_zero, rnd_rep hbr.1, ← he, sub_self, rnd_zero, zero_mul, expOf_zero hE, mul_one, rnd_rnd, add_comm (rnd (_ * e))]
    exact hj

/-! ### Levels of a bath -/

/-- **C183, bath**: the exponential of a level of a bath has no positive argument, so that it does not overflow, and the function is between minus one and zero. -/
theorem C183_bath (E : ℚ → ℚ) (hE : MachineExp E) (beta eps tau : ℚ) (h0 : 0 ≤ tau) (h1 : tau ≤ beta) :
    bathArg beta eps tau ≤ 0 ∧ -1 ≤ bathTerm E beta eps tau ∧ bathTerm E beta eps tau ≤ 0 := by
  have harg : bathArg beta eps tau ≤ 0 := by
    unfold bathArg
    refine rnd_le rep_zero ?_
    split
    · rename_i h
      have : rnd (-tau * eps) ≤ rnd (-(beta * eps)) := rnd_mono (by nlinarith)
      rw [rnd_neg] at this
      linarith
    · rename_i h
      rw [mul_zero, rnd_zero, add_zero]
      exact rnd_le rep_zero (by nlinarith)
  have hden : rnd (-beta * |eps|) ≤ 0 := rnd_le rep_zero (by nlinarith [abs_nonneg eps])
  obtain ⟨e0, e1⟩ := hE.range _ hden
  obtain ⟨x0, x1⟩ := hE.range _ harg
  obtain ⟨d1, _, _⟩ := denom e0 e1
  refine ⟨harg, ?_⟩
  unfold bathTerm
  constructor
  · refine le_rnd (rep_neg rep_one) ?_
    rw [le_div_iff₀ (by linarith)]
    linarith
  · exact rnd_le rep_zero (div_nonpos_of_nonpos_of_nonneg (by linarith) (by linarith))

/-- **C183, jump of a bath**: the values at zero and at `beta` add up to minus one, up to `6 2^-53`. -/
theorem C183_bath_jump (E : ℚ → ℚ) (hE : MachineExp E) (beta eps : ℚ) (hb : 0 ≤ beta) : |bathTerm E beta eps 0 + bathTerm E beta eps beta + 1| ≤ 6 * 2 ^ (-53 : ℤ) := by
  have hden : rnd (-beta * |eps|) ≤ 0 := rnd_le rep_zero (by nlinarith [abs_nonneg eps])
  obtain ⟨e0, e1⟩ := hE.range _ hden
  have hargs : (bathArg beta eps 0 = 0 ∧ bathArg beta eps beta = rnd (-beta * |eps|)) ∨ (bathArg beta eps 0 = rnd (-beta * |eps|) ∧ bathArg beta eps beta = 0) := by
    unfold bathArg
    by_cases h : eps < 0
    · right
      rw [if_pos h, abs_of_neg h, neg_zero, zero_mul, rnd_zero, zero_add, rnd_rnd]
      refine ⟨by congr 1; ring, ?_⟩
      rw [show -beta * eps = -(beta * eps) by ring, rnd_neg, neg_add_cancel, rnd_zero]
    · left
      rw [if_neg h, abs_of_nonneg (by linarith), neg_zero, zero_mul, mul_zero, rnd_zero, add_zero, rnd_zero, add_zero, rnd_rnd]
      exact ⟨rfl, rfl⟩
  obtain ⟨d1, d2, d3⟩ := denom e0 e1
  have hsum : bathTerm E beta eps 0 + bathTerm E beta eps beta = rnd (-1 / rnd (1 + E (rnd (-beta * |eps|)))) + rnd (-E (rnd (-beta * |eps|)) / rnd (1 + E (rnd (-beta * |eps|)))) := by
    unfold bathTerm
    rcases hargs with ⟨h1, h2⟩ | ⟨h1, h2⟩ <;> rw [h1, h2, hE.zero]
    exact add_comm _ _
  rw [hsum]
  generalize E (rnd (-beta * |eps|)) = e at *
  have k1 := rnd_err_abs (-1 / rnd (1 + e))
  have k2 := rnd_err_abs (-e / rnd (1 + e))
  have ht := tsmall
  rw [show (2 : ℚ) ^ (-53 : ℤ) = 1 / 9007199254740992 by norm_num]
  generalize (2 : ℚ) ^ (-1074 : ℤ) = t at *
  generalize rnd (1 + e) = d at *
  have d0 : 0 < d := by linarith
  have i1 : |-1 / d| = 1 / d := by rw [abs_div, abs_neg, abs_one, abs_of_pos d0]
  have i2 : |-e / d| = e / d := by rw [abs_div, abs_neg, abs_of_nonneg e0, abs_of_pos d0]
  rw [i1] at k1
  rw [i2] at k2
  have i3 : 1 / d ≤ 1 := (div_le_one d0).2 d1
  have i4 : e / d ≤ 1 := (div_le_one d0).2 (by linarith)
  have i5 : |(1 + e) / d - 1| ≤ 3 / 9007199254740992 := by
    rw [show (1 + e) / d - 1 = (1 + e - d) / d by field_simp, abs_div, abs_of_pos d0, abs_sub_comm]
    exact (div_le_self (abs_nonneg _) d1).trans d3
  have i6 : (1 + e) / d = 1 / d + e / d := by ring
  have i7 : -1 / d = -(1 / d) := by ring
  have i8 : -e / d = -(e / d) := by ring
  rw [i7] at k1 ⊢
  rw [i8] at k2 ⊢
  rw [i6] at i5
  norm_num at ht
  rw [abs_le] at k1 k2 i5 ⊢
  constructor <;> linarith [k1.1, k1.2, k2.1, k2.2, i5.1, i5.2]

/-! ### Examples -/

/-- a rough exponential that satisfies the contract -/
def rough (x : ℚ) : ℚ := rnd (1 / (1 - x + x * x))

theorem rough_exp : MachineExp rough := by
  refine ⟨fun x _ => rep_rnd _, by unfold rough; norm_num; exact rnd_rep rep_one, fun x hx => ?_⟩
  have : 1 ≤ 1 - x + x * x := by nlinarith
  exact ⟨rnd_nonneg (by positivity), rnd_le rep_one ((div_le_one (by linarith)).2 this)⟩

/-- three blocks with five states; the ground state is in the second block -/
def atom : List (List ℚ) := [[1, 3], [-2, 0], [5 / 2]]

theorem rep_small (n : ℤ) (h : |n| ≤ 100) : Rep (n : ℚ) := rep_int (by omega)

theorem atom_levels : Levels atom := by
  have h52 : Rep (5 / 2 : ℚ) := ⟨5, -1, by norm_num, by norm_num, by norm_num⟩
  have h1 : Rep (1 : ℚ) := rep_one
  have h3 : Rep (3 : ℚ) := by exact_mod_cast rep_small 3 (by norm_num)
  have h2 : Rep (-2 : ℚ) := by exact_mod_cast rep_small (-2) (by norm_num)
  refine ⟨?_, ?_, [1, 3], by simp [atom], by simp⟩
  · intro es hes x hx
    simp only [atom, List.mem_cons, List.not_mem_nil, or_false] at hes
    rcases hes with rfl | rfl | rfl <;> simp only [List.mem_cons, List.not_mem_nil, or_false] at hx
    · rcases hx with rfl | rfl <;> assumption
    · rcases hx with rfl | rfl
      · assumption
      · exact rep_zero
    · rw [hx]; exact h52
  · intro es hes
    simp only [atom, List.mem_cons, List.not_mem_nil, or_false] at hes
    rcases hes with rfl | rfl | rfl <;> simp

example : gsEnergy atom = some (-2) ∧ shifted (-2) atom = [[3, 5], [0, 2], [9 / 2]] := by decide +kernel

/-- the density matrix of the atom at a very low temperature is that of the ground state -/
example : densityDiagonal rough (2 ^ 600) [[3, 5], [0, 2], [9 / 2]] = [0, 0, 1, 0, 0] := by decide +kernel

example : partition rough (1 / 4) [[3, 5], [0, 2], [9 / 2]] ≠ 1 ∧ (densityDiagonal rough (1 / 4) [[3, 5], [0, 2], [9 / 2]]).sum ≠ 1 := by decide +kernel

/-- a pole for which the product with `beta` is not finite -/
example : tauTerm rough (2 ^ 600) (2 ^ 600) 1 0 = -1 ∧ tauTerm rough (2 ^ 600) (2 ^ 600) 1 (2 ^ 600) = 0 := by decide +kernel

example : bathArg 10 (-3) 0 = -30 ∧ bathArg 10 (-3) 10 = 0 ∧ bathArg 10 3 2 = -6 ∧ bathArg 10 (-3) 2 = -24 := by decide +kernel

example : |bathTerm rough 10 (-3) 0 + bathTerm rough 10 (-3) 10 + 1| ≤ 6 * 2 ^ (-53 : ℤ) := C183_bath_jump rough rough_exp 10 (-3) (by norm_num)

end Verif.ThermalDouble
