import Verif.Float.OperatorAlgebra

/-!
# Real and imaginary parts of operators with the numbers of the machine

C119 is about exact coefficients. With doubles `transform` removes parts below the tolerance of `is_zero`.

Source: `/repo/c++/triqs/operators/many_body_operator.hpp` (226-234, 313-345), `/repo/c++/triqs/utility/numeric_ops.hpp` (41-49), `/repo/python/triqs/operators/util/hamiltonians.py` (290-310).

Coefficients are pairs of doubles, as in C187; a coefficient of type `real_or_complex` that is marked as real has the imaginary part zero. No coefficient overflows or is NaN. Products of complex numbers are computed without fused operations.
-/

namespace Verif.OperatorDouble
open Verif.Operators Verif.Binary64

/-! ## Model -/

section
variable {ι : Type} [LinearOrder ι]

/-- `transform` with a part of the coefficients, many_body_operator.hpp:313-321 -/
def partM (f : ℚ × ℚ → ℚ) (a : MMap ι (ℚ × ℚ)) : MMap ι (ℚ × ℚ) :=
  a.foldl (fun t e => if smallD (f e.2) then t else insertKeep e.1 (f e.2, 0) t) []

/-- `real(op)`, many_body_operator.hpp:328-333 -/
def realM (a : MMap ι (ℚ × ℚ)) : MMap ι (ℚ × ℚ) := partM Prod.fst a

/-- `imag(op)`, many_body_operator.hpp:340-345 -/
def imagM (a : MMap ι (ℚ × ℚ)) : MMap ι (ℚ × ℚ) := partM Prod.snd a

/-- the product of `std::complex<double>` numbers that are finite -/
def mulC (x y : ℚ × ℚ) : ℚ × ℚ := (rnd (rnd (x.1 * y.1) - rnd (x.2 * y.2)), rnd (rnd (x.1 * y.2) + rnd (x.2 * y.1)))

/-- `operator*=(scalar)`, many_body_operator.hpp:226-234 -/
def smulC (a : MMap ι (ℚ × ℚ)) (z : ℚ × ℚ) : MMap ι (ℚ × ℚ) := if complex.small z then [] else a.map fun e => (e.1, mulC e.2 z)

/-- `make_operator_real(H, tol)`, hamiltonians.py:308-310; `none` is the `RuntimeError` -/
def makeRealD (a : MMap ι (ℚ × ℚ)) (t : ℚ) : Option (MMap ι (ℚ × ℚ)) :=
  if a.any fun e => decide (t < |e.2.2|) then none else some (realM a)

/-! ## Specification -/

/-- a part that is not below the tolerance, and zero otherwise -/
def keep (x : ℚ) : ℚ := if smallD x then 0 else x

/-! ## Proofs -/

theorem part_fold (f : ℚ × ℚ → ℚ) (a t : MMap ι (ℚ × ℚ)) (ha : Sorted a) (ht : Sorted t) :
    Sorted (a.foldl (fun t e => if smallD (f e.2) then t else insertKeep e.1 (f e.2, 0) t) t) ∧
    ∀ m, coef (a.foldl (fun t e => if smallD (f e.2) then t else insertKeep e.1 (f e.2, 0) t) t) m = (coef t m).or ((coef a m).bind fun c => if smallD (f c) then none else some (f c, 0)) := by
  induction a generalizing t with
  | nil => exact ⟨ht, fun m => by simp [coef]⟩
  | cons e a ih =>
    rw [List.foldl_cons]
    by_cases hs : smallD (f e.2) = true
    · rw [if_pos hs]
      obtain ⟨h1, h2⟩ := ih t (List.pairwise_cons.1 ha).2 ht
      refine ⟨h1, fun m => ?_⟩
      rw [h2, coef]
      by_cases hm : m = e.1
      · rw [if_pos hm, hm, coef_tail ha, Option.bind_some, if_pos hs]
        rfl
      · rw [if_neg hm]
    · rw [if_neg hs]
      obtain ⟨h1, h2⟩ := ih (insertKeep e.1 (f e.2, 0) t) (List.pairwise_cons.1 ha).2 (insertKeep_sorted' _ _ _ ht)
      refine ⟨h1, fun m => ?_⟩
      rw [h2, coef_insertKeep _ _ _ ht, coef]
      by_cases hm : m = e.1
      · rw [if_pos hm, if_pos hm, hm, coef_tail ha, Option.bind_some, if_neg hs]
        cases coef t e.1 <;> rfl
      · rw [if_neg hm, if_neg hm]

theorem partM_sorted (f : ℚ × ℚ → ℚ) {a : MMap ι (ℚ × ℚ)} (ha : Sorted a) : Sorted (partM f a) := (part_fold f a [] ha List.Pairwise.nil).1

theorem coef_partM (f : ℚ × ℚ → ℚ) {a : MMap ι (ℚ × ℚ)} (ha : Sorted a) (m : Mono ι) :
    coef (partM f a) m = (coef a m).bind fun c => if smallD (f c) then none else some (f c, 0) := by
  have := (part_fold f a [] ha List.Pairwise.nil).2 m
  simpa [partM, coef] using this

/-- **C207, coefficients.** A monomial of `real(op)` has the real part of its coefficient to the last bit and is missing exactly if this is below the tolerance, and `imag(op)` has the imaginary part as a real number. -/
theorem C207_parts (a : MMap ι (ℚ × ℚ)) (ha : Sorted a) (m : Mono ι) (y : ℚ × ℚ) :
    (coef (realM a) m = some y ↔ ∃ c, coef a m = some c ∧ smallD c.1 = false ∧ y = (c.1, 0)) ∧
    (coef (imagM a) m = some y ↔ ∃ c, coef a m = some c ∧ smallD c.2 = false ∧ y = (c.2, 0)) := by
  have key : ∀ f : ℚ × ℚ → ℚ, coef (partM f a) m = some y ↔ ∃ c, coef a m = some c ∧ smallD (f c) = false ∧ y = (f c, 0) := by
    intro f
    rw [coef_partM f ha, Option.bind_eq_some_iff]
    refine exists_congr fun c => and_congr_right fun _ => ?_
    by_cases h : smallD (f c) = true
    · simp [h]
    · simp only [h, Bool.false_eq_true, if_false, Option.some.injEq, true_and]
      exact eq_comm
  exact ⟨key Prod.fst, key Prod.snd⟩

theorem keep_small {x : ℚ} (h : smallD x = true) : keep x = 0 := if_pos h

theorem keep_big {x : ℚ} (h : ¬smallD x = true) : keep x = x := if_neg h

/-- **C207, applied twice.** The real part of a real part is itself, and its imaginary part is zero. -/
theorem C207_twice (a : MMap ι (ℚ × ℚ)) (ha : Sorted a) : realM (realM a) = realM a ∧ imagM (realM a) = [] ∧ realM (imagM a) = imagM a ∧ imagM (imagM a) = [] := by
  have key : ∀ f : ℚ × ℚ → ℚ, realM (partM f a) = partM f a ∧ imagM (partM f a) = [] := by
    intro f
    have hs := partM_sorted f ha
    constructor
    · apply ext (partM_sorted Prod.fst hs) hs
      intro m
      rw [coef_partM Prod.fst hs, coef_partM f ha]
      cases coef a m with
      | none => rfl
      | some c => by_cases h : smallD (f c) = true <;> simp [h]
    · apply eq_nil
      intro m
      unfold imagM
      rw [coef_partM Prod.snd hs, coef_partM f ha]
      cases coef a m with
      | none => rfl
      | some c => by_cases h : smallD (f c) = true <;> simp [h, smallD_zero]
  exact ⟨(key Prod.fst).1, (key Prod.fst).2, (key Prod.snd).1, (key Prod.snd).2⟩

/-- **C207, daggers.** The real part of the dagger is the dagger of the real part, the imaginary part of it minus the dagger of the imaginary part, to the last bit. -/
theorem C207_dagger (a : MMap ι (ℚ × ℚ)) (ha : Sorted a) :
    realM (daggerM complex a) = daggerM complex (realM a) ∧ imagM (daggerM complex a) = negM complex (daggerM complex (imagM a)) := by
  have hd := daggerM_sorted complex ha
  constructor
  · apply ext (partM_sorted _ hd) (daggerM_sorted complex (partM_sorted _ ha))
    intro m
    rw [coef_partM _ hd, coef_daggerM complex ha, coef_daggerM complex (partM_sorted _ ha), coef_partM _ ha]
    cases coef a (Mono.adj m) with
    | none => rfl
    | some c => by_cases h : smallD c.1 = true <;> simp [h, complex]
  · apply ext (partM_sorted _ hd) (negM_sorted complex (daggerM_sorted complex (partM_sorted _ ha)))
    intro m
    rw [coef_partM _ hd, coef_daggerM complex ha, coef_negM, coef_daggerM complex (partM_sorted _ ha), coef_partM _ ha]
    cases coef a (Mono.adj m) with
    | none => rfl
    | some c => by_cases h : smallD c.2 = true <;> simp [h, complex, smallD_neg]

/-- **C207, hermitian operators.** If an operator is its own dagger, so is its real part, and the imaginary part is minus its own dagger. -/
theorem C207_hermitian (a : MMap ι (ℚ × ℚ)) (ha : Sorted a) (h : daggerM complex a = a) :
    daggerM complex (realM a) = realM a ∧ negM complex (daggerM complex (imagM a)) = imagM a := by
  obtain ⟨h1, h2⟩ := C207_dagger a ha
  rw [h] at h1 h2
  exact ⟨h1.symm, h2.symm⟩

theorem mulC_i {x : ℚ} (hx : Rep x) : mulC (x, 0) (0, 1) = (0, x) := by
  simp [mulC, rnd_zero, rnd_rep hx]

theorem smulC_sorted {a : MMap ι (ℚ × ℚ)} (ha : Sorted a) : Sorted (smulC a (0, 1)) := by
  unfold smulC
  split
  · exact List.Pairwise.nil
  · exact List.pairwise_map.2 ha

theorem coef_smulC_num (a : MMap ι (ℚ × ℚ)) (z : ℚ × ℚ) (m : Mono ι) (h1 : complex.small z = false) : coef (smulC a z) m = (coef a m).map fun c => mulC c z := by
  unfold smulC
  rw [h1, if_neg (by simp)]
  induction a with
  | nil => rfl
  | cons e a ih =>
    rw [List.map_cons, coef, coef]
    by_cases hm : m = e.1
    · rw [if_pos hm, if_pos hm]
      rfl
    · rw [if_neg hm, if_neg hm, ih]

theorem coef_smulC (a : MMap ι (ℚ × ℚ)) (m : Mono ι) : coef (smulC a (0, 1)) m = (coef a m).map fun c => mulC c (0, 1) :=
  coef_smulC_num a (0, 1) m (by decide +kernel)

theorem coef_sum (a : MMap ι (ℚ × ℚ)) (ha : Sorted a) (hr : ∀ e ∈ a, Rep e.2.1 ∧ Rep e.2.2) (m : Mono ι) :
    coef (addM complex (realM a) (smulC (imagM a) (0, 1))) m = (coef a m).bind fun c => if complex.small c then none else some (keep c.1, keep c.2) := by
  unfold realM imagM
  rw [C187_coefficients complex _ _ (partM_sorted _ ha) (smulC_sorted (partM_sorted _ ha)), coef_smulC]
  rw [coef_partM _ ha, coef_partM _ ha]
  cases hc : coef a m with
  | none => rfl
  | some c =>
    obtain ⟨r1, r2⟩ := hr _ (coef_mem hc)
    simp only [Option.bind_some]
    by_cases h1 : smallD c.1 = true
    · rw [if_pos h1]
      by_cases h2 : smallD c.2 = true
      · rw [if_pos h2, if_pos (by simp [complex, h1, h2])]
        rfl
      · rw [if_neg h2, if_neg (by simp [complex, h1, h2]), Option.map_some, mulC_i r2, keep_small h1, keep_big h2]
        rfl
    · rw [if_neg h1]
      by_cases h2 : smallD c.2 = true
      · rw [if_pos h2, if_neg (by simp [complex, h1, h2]), keep_big h1, keep_small h2]
        rfl
      · rw [if_neg h2, if_neg (by simp [complex, h1, h2]), Option.map_some, mulC_i r2, keep_big h1, keep_big h2]
        have e : complex.add (c.1, 0) (0, c.2) = c := by
          simp only [complex, add_zero, zero_add]
          rw [rnd_rep r1, rnd_rep r2]
        show (if complex.small (complex.add (c.1, 0) (0, c.2)) then none else some (complex.add (c.1, 0) (0, c.2))) = some (c.1, c.2)
        rw [e, if_neg (by simp [complex, h1])]

theorem small_sub_keep {x : ℚ} (h : Rep x) : smallD (rnd (x + -keep x)) = true := by
  by_cases hs : smallD x = true
  · rw [keep_small hs, neg_zero, add_zero, rnd_rep h, hs]
  · rw [keep_big hs, add_neg_cancel, rnd_zero, smallD_zero]

/-- sum of two rounded products -/
theorem two_products (p q : ℚ) : |rnd (rnd p + rnd q) - (p + q)| ≤ (|p| + |q|) * (3 / 9007199254740992) + 4 * 2 ^ (-1074 : ℤ) := by
  have h1 := rnd_err_abs p
  have h2 := rnd_err_abs q
  have h3 := rnd_err_abs (rnd p + rnd q)
  have t0 := two_zpow_pos (-1074)
  generalize (2 : ℚ) ^ (-1074 : ℤ) = t at *
  generalize rnd (rnd p + rnd q) = r at *
  generalize rnd p = a at *
  generalize rnd q = b at *
  have ha : |a| ≤ |p| + (|p| * (1 / 9007199254740992) + t) := by
    have := abs_add_le (a - p) p
    rw [sub_add_cancel] at this
    linarith
  have hb : |b| ≤ |q| + (|q| * (1 / 9007199254740992) + t) := by
    have := abs_add_le (b - q) q
    rw [sub_add_cancel] at this
    linarith
  have hab := abs_add_le a b
  have p0 := abs_nonneg p
  have q0 := abs_nonneg q
  have h4 := abs_le.1 h1
  have h5 := abs_le.1 h2
  have h6 := abs_le.1 h3
  rw [abs_le]
  constructor <;> linarith [h4.1, h4.2, h5.1, h5.2, h6.1, h6.2]

/-- **C207, products with numbers.** The coefficients of `z * op` are the products of complex numbers, up to small errors of both parts. -/
theorem C207_number (a : MMap ι (ℚ × ℚ)) (z c : ℚ × ℚ) (m : Mono ι) (hz : complex.small z = false) (hc : coef a m = some c) :
    ∃ d, coef (smulC a z) m = some d ∧
      |d.1 - (c.1 * z.1 - c.2 * z.2)| ≤ (|c.1 * z.1| + |c.2 * z.2|) * (3 / 9007199254740992) + 4 * 2 ^ (-1074 : ℤ) ∧
      |d.2 - (c.1 * z.2 + c.2 * z.1)| ≤ (|c.1 * z.2| + |c.2 * z.1|) * (3 / 9007199254740992) + 4 * 2 ^ (-1074 : ℤ) := by
  refine ⟨mulC c z, ?_, ?_, ?_⟩
  · rw [coef_smulC_num a z m hz, hc]
    rfl
  · have := two_products (c.1 * z.1) (-(c.2 * z.2))
    rw [rnd_neg, abs_neg, ← sub_eq_add_neg, ← sub_eq_add_neg] at this
    exact this
  · exact two_products _ _

/-- **C207, the sum of the parts.** `real(op) + 1j * imag(op)` has the coefficients of the operator to the last bit, except for parts below the tolerance, which are zero. It is equal to the operator for `==` exactly if the operator stores no coefficient below the tolerance. -/
theorem C207_sum (a : MMap ι (ℚ × ℚ)) (ha : Sorted a) (hr : ∀ e ∈ a, Rep e.2.1 ∧ Rep e.2.2) :
    (∀ m c, coef a m = some c → complex.small c = false → coef (addM complex (realM a) (smulC (imagM a) (0, 1))) m = some (keep c.1, keep c.2)) ∧
    (eqM complex a (addM complex (realM a) (smulC (imagM a) (0, 1))) = true ↔ ∀ e ∈ a, complex.small e.2 = false) := by
  constructor
  · intro m c hc hs
    rw [coef_sum a ha hr, hc, Option.bind_some, hs]
    rfl
  · have hs : Sorted (realM a) := partM_sorted Prod.fst ha
    rw [C187_equality complex a _ ha (addM_sorted complex _ hs)]
    constructor
    · intro h e he
      have hc := sorted_mem_coef ha he
      rcases h e.1 with ⟨h1, -⟩ | ⟨x, y, h1, h2, -⟩
      · rw [hc] at h1
        cases h1
      · rw [coef_sum a ha hr, hc, Option.bind_some] at h2
        by_cases hs : complex.small e.2 = true
        · rw [if_pos hs] at h2
          cases h2
        · simpa using hs
    · intro h m
      rw [coef_sum a ha hr]
      cases hc : coef a m with
      | none => exact Or.inl ⟨rfl, rfl⟩
      | some c =>
        have hm := coef_mem hc
        obtain ⟨r1, r2⟩ := hr _ hm
        refine Or.inr ⟨c, (keep c.1, keep c.2), rfl, ?_, ?_⟩
        · rw [Option.bind_some, h _ hm]
          rfl
        · show (smallD (rnd (c.1 + -keep c.1)) && smallD (rnd (c.2 + -keep c.2))) = true
          rw [small_sub_keep r1, small_sub_keep r2]
          rfl

/-- **C207, make_operator_real** fails exactly if a stored coefficient has an imaginary part above the tolerance given, and returns the real part otherwise. -/
theorem C207_make_real (a : MMap ι (ℚ × ℚ)) (ha : Sorted a) (t : ℚ) :
    (makeRealD a t = none ↔ ∃ m c, coef a m = some c ∧ t < |c.2|) ∧ ∀ b, makeRealD a t = some b → b = realM a ∧ imagM b = [] := by
  unfold makeRealD
  constructor
  · split
    · rename_i h
      obtain ⟨e, he, h⟩ := List.any_eq_true.1 h
      exact ⟨fun _ => ⟨e.1, e.2, sorted_mem_coef ha he, of_decide_eq_true h⟩, fun _ => rfl⟩
    · rename_i h
      refine ⟨fun h => (Option.some_ne_none _ h).elim, ?_⟩
      rintro ⟨m, c, hc, ht⟩
      exact absurd (List.any_eq_true.2 ⟨_, coef_mem hc, decide_eq_true ht⟩) h
  · intro b hb
    split at hb
    · cases hb
    · cases hb
      exact ⟨rfl, (C207_twice a ha).2.1⟩

/-- **C207, make_operator_real** with tolerance zero returns an operator without small coefficients unchanged, if it does not fail. -/
theorem C207_make_real_default (a b : MMap ι (ℚ × ℚ)) (ha : Sorted a) (hs : ∀ e ∈ a, complex.small e.2 = false) (h : makeRealD a 0 = some b) : b = a := by
  have him : ∀ m c, coef a m = some c → c.2 = 0 := by
    intro m c hc
    by_contra h0
    have := ((C207_make_real a ha 0).1).2 ⟨m, c, hc, abs_pos.2 h0⟩
    rw [this] at h
    cases h
  rw [((C207_make_real a ha 0).2 b h).1]
  apply ext (partM_sorted _ ha) ha
  intro m
  rw [coef_partM _ ha]
  cases hc : coef a m with
  | none => rfl
  | some c =>
    have h0 := him m c hc
    have h1 := hs _ (coef_mem hc)
    have h2 : smallD c.1 = false := by
      simp only [complex, h0, smallD_zero, Bool.and_true] at h1
      exact h1
    rw [Option.bind_some, h2, if_neg (by simp), ← h0]

end

/-! ### Examples -/

/-- a hopping term with two coefficients -/
def hop (x y : ℚ × ℚ) : MMap ℕ (ℚ × ℚ) := [([⟨true, 0⟩, ⟨false, 1⟩], x), ([⟨true, 1⟩, ⟨false, 0⟩], y)]

/-- **C207, counterexample.** An operator that passes the test `is_op_hermitian`, as its coefficients differ by less than the tolerance, has a real part that does not pass it: one of its coefficients is kept, the other is removed. -/
theorem C207_hermitian_witness :
    hermitianM complex (hop (2 ^ (-45 : ℤ), 1) (2 ^ (-46 : ℤ), -1)) = true ∧ hermitianM complex (realM (hop (2 ^ (-45 : ℤ), 1) (2 ^ (-46 : ℤ), -1))) = false := by decide +kernel

/-- **C207, counterexample.** The real part of a sum is not the sum of the real parts, not even for `==`: small real parts are removed before they add up. -/
theorem C207_additive_witness :
    eqM complex (realM (addM complex (hop (2 ^ (-46 : ℤ), 1) (1, 1)) (hop (2 ^ (-46 : ℤ), 1) (1, 1))))
      (addM complex (realM (hop (2 ^ (-46 : ℤ), 1) (1, 1))) (realM (hop (2 ^ (-46 : ℤ), 1) (1, 1)))) = false := by decide +kernel

example : realM (hop (1 / 2, 3) (0, 2)) = [([⟨true, 0⟩, ⟨false, 1⟩], (1 / 2, 0))] ∧ imagM (hop (1 / 2, 3) (0, 2)) = hop (3, 0) (2, 0) := by decide +kernel

example : addM complex (realM (hop (1 / 2, 3) (0, 2))) (smulC (imagM (hop (1 / 2, 3) (0, 2))) (0, 1)) = hop (1 / 2, 3) (0, 2) := by decide +kernel

example : daggerM complex (hop (1 / 2, 3) (1 / 2, -3)) = hop (1 / 2, 3) (1 / 2, -3) ∧ Sorted (hop (1 / 2, 3) (1 / 2, -3)) := ⟨by decide +kernel, by simp [Sorted, hop]; decide⟩

example : makeRealD (hop (1, 0) (2, 1 / 4)) (1 / 4) = some (hop (1, 0) (2, 0)) ∧ makeRealD (hop (1, 0) (2, 1 / 4)) (1 / 8) = none ∧ makeRealD (hop (1, 0) (2, 0)) 0 = some (hop (1, 0) (2, 0)) := by decide +kernel

/-- a stored coefficient below the tolerance is lost -/
example : eqM complex (hop (2 ^ (-60 : ℤ), 0) (1, 0)) (addM complex (realM (hop (2 ^ (-60 : ℤ), 0) (1, 0))) (smulC (imagM (hop (2 ^ (-60 : ℤ), 0) (1, 0))) (0, 1))) = false := by decide +kernel

/-- (1 + 2 i) (3 + 4 i) -/
example : mulC (1, 2) (3, 4) = (-5, 10) := by decide +kernel

end Verif.OperatorDouble
