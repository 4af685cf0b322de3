import Verif.Operators.Canonical
import Mathlib.Algebra.Star.Basic
import Mathlib.Algebra.Order.Ring.Int
import Mathlib.Data.Int.Star

/-!
# Properties C01–C06, C67, C68: second-quantised operators

The specification is `Verif.Fock` (creation and annihilation operators as linear maps on
amplitudes of occupation sets) together with `opAct`, `monoAct`, `action` of `Semantics.lean`
(a stored operator denotes the linear combination of the products of its factors).
-/

namespace Verif.Operators
open Verif.Fock

variable {ι : Type} [LinearOrder ι] {R : Type} [CommRing R] [DecidableEq R]

/-! ## Histories of API calls -/

/-- An expression built from the public API. The raw constructor from a coefficient and a
monomial (`raw`) stores its argument as given. -/
inductive Hist (ι R : Type) where
  | scalar (x : R)
  | raw (x : R) (m : Mono ι)
  | c (i : ι)
  | cDag (i : ι)
  | n (i : ι)
  | neg (a : Hist ι R)
  | add (a b : Hist ι R)
  | sub (a b : Hist ι R)
  | mul (a b : Hist ι R)
  | addScalar (a : Hist ι R) (x : R)
  | subScalar (a : Hist ι R) (x : R)
  | smul (a : Hist ι R) (x : R)
  | dagger (a : Hist ι R)
  | transform (L : Mono ι → R → R) (a : Hist ι R)

/-- The operator object the code builds for a history. -/
def Hist.eval [StarRing R] : Hist ι R → MMap ι R
  | .scalar x => ofScalar x
  | .raw x m => ofMonomial x m
  | .c i => Operators.c i
  | .cDag i => Operators.cDag i
  | .n i => Operators.nOp i
  | .neg a => Operators.neg a.eval
  | .add a b => Operators.add a.eval b.eval
  | .sub a b => Operators.sub a.eval b.eval
  | .mul a b => Operators.mul a.eval b.eval
  | .addScalar a x => Operators.addScalar a.eval x
  | .subScalar a x => Operators.subScalar a.eval x
  | .smul a x => Operators.smul a.eval x
  | .dagger a => Operators.dagger a.eval
  | .transform L a => Operators.transform L a.eval

/-- Every raw monomial passed by the caller is strictly normal ordered. -/
def Hist.RawNormal : Hist ι R → Prop
  | .raw _ m => NormalOrdered m
  | .neg a | .addScalar a _ | .subScalar a _ | .smul a _ | .dagger a | .transform _ a => a.RawNormal
  | .add a b | .sub a b | .mul a b => a.RawNormal ∧ b.RawNormal
  | _ => True

/-! ## C01 -/

/-- **C01.** The product computed by the code acts as "first `b`, then `a`". -/
theorem C01_product_is_composition (a b : MMap ι R) (ψ : Space ι R) :
    action (mul a b) ψ = action a (action b ψ) := by
  rw [mul_action]; rfl

-- (c₁ + 2 c†₂) (c†₁ - c₂): four products, two of them reordered, one contraction
example : mul (add (c 1) (smul (cDag 2) 2)) (sub (cDag 1) (c 2)) =
    ([([], 1), ([⟨true, 1⟩, ⟨true, 2⟩], -2), ([⟨true, 1⟩, ⟨false, 1⟩], -1),
      ([⟨true, 2⟩, ⟨false, 2⟩], -2), ([⟨false, 2⟩, ⟨false, 1⟩], 1)] : MMap ℕ ℤ) := by decide

/-! ## C02 -/

/-- **C02.** Linear operations act linearly. -/
theorem C02_linear_operations (a b : MMap ι R) (x : R) (ψ : Space ι R) :
    action (add a b) ψ = action a ψ + action b ψ ∧
    action (sub a b) ψ = action a ψ - action b ψ ∧
    action (neg a) ψ = - action a ψ ∧
    action (smul a x) ψ = x • action a ψ ∧
    action (ofScalar x : MMap ι R) ψ = x • ψ ∧
    action (addScalar a x) ψ = action a ψ + x • ψ ∧
    action (subScalar a x) ψ = action a ψ - x • ψ := by
  refine ⟨by rw [add_action]; rfl, by rw [sub_action]; rfl, by rw [neg_action]; rfl,
    by rw [smul_action]; rfl, by rw [ofScalar_action]; rfl, by rw [addScalar_action]; rfl, ?_⟩
  rw [subScalar, addScalar_action]
  simp [sub_eq_add_neg]

example : add (c 1) (smul (c 1) (-1)) = ([] : MMap ℕ ℤ) ∧
    sub (addScalar (c 1) 3) (c 1) = ([([], 3)] : MMap ℕ ℤ) := by decide

/-! ## C03 -/

/-- **C03.** The stored form is canonical after every history whose raw monomials (if any) are
normal ordered: keys strictly increasing (hence distinct), all monomials strictly normal ordered,
all coefficients non-zero. -/
theorem C03_always_canonical [NoZeroDivisors R] [Nontrivial R] [StarRing R] (h : Hist ι R)
    (hr : h.RawNormal) : Canonical h.eval := by
  induction h with
  | scalar x => exact ofScalar_canonical x
  | raw x m => exact ofMonomial_canonical x m hr
  | c i => exact makeCanonical_canonical _ _
  | cDag i => exact makeCanonical_canonical _ _
  | n i => exact mul_canonical (makeCanonical_canonical _ _) (makeCanonical_canonical _ _)
  | neg a ih => exact neg_canonical (ih hr)
  | add a b iha ihb => exact add_canonical (iha hr.1) (ihb hr.2)
  | sub a b iha ihb => exact sub_canonical (iha hr.1) (ihb hr.2)
  | mul a b iha ihb => exact mul_canonical (iha hr.1) (ihb hr.2)
  | addScalar a x ih => exact addScalar_canonical (ih hr) x
  | subScalar a x ih => exact addScalar_canonical (ih hr) (-x)
  | smul a x ih => exact smul_canonical (ih hr) x
  | dagger a ih => exact dagger_canonical (ih hr)
  | transform L a ih => exact transform_canonical (ih hr) L

/-- The order used by C03 is the documented one:
`c†_1 < c†_2 < c†_3 < c_3 < c_2 < c_1`, and it is strict. -/
theorem normalOrdered_iff (m : Mono ι) : NormalOrdered m ↔
    m.Pairwise (fun a b => (a.dagger = true ∧ b.dagger = false) ∨
      (a.dagger = true ∧ b.dagger = true ∧ a.idx < b.idx) ∨
      (a.dagger = false ∧ b.dagger = false ∧ b.idx < a.idx)) := by
  unfold NormalOrdered
  refine List.Pairwise.iff (fun {a b} => ?_)
  obtain ⟨da, ia⟩ := a; obtain ⟨db, ib⟩ := b
  cases da <;> cases db <;> simp [COp.lt]

example : (Hist.mul (.dagger (.mul (.c 2) (.c 1))) (.sub (.n 3) (.scalar 2)) : Hist ℕ ℤ).RawNormal ∧
    (Hist.mul (.dagger (.mul (.c 2) (.c 1))) (.sub (.n 3) (.scalar 2)) : Hist ℕ ℤ).eval ≠ [] := by
  exact ⟨⟨⟨trivial, trivial⟩, trivial, trivial⟩, by decide⟩

/-! ## C04 -/

theorem eqOp_iff_melem {a b : MMap ι R} (ha : Canonical a) (hb : Canonical b) :
    eqOp a b = true ↔ ∀ T S, melem (action a) T S = melem (action b) T S := by
  unfold eqOp isZero
  rw [List.isEmpty_iff]
  constructor
  · intro h T S
    have h1 := sub_action a b
    rw [h, action_nil] at h1
    have h2 : action a = action b := (sub_eq_zero.mp h1.symm)
    rw [h2]
  · intro h
    apply canonical_eq_nil_of_melem (sub_canonical ha hb)
    intro T S
    rw [sub_action]
    have := h T S
    simp only [melem, LinearMap.sub_apply, Pi.sub_apply] at this ⊢
    rw [this, sub_self]

/-- **C04.** `==` holds iff the two operators have the same matrix elements between all
occupation-number states, iff they are the same linear map. -/
theorem C04_equality_is_semantic [NoZeroDivisors R] [Nontrivial R] [StarRing R] (g h : Hist ι R)
    (hg : g.RawNormal) (hh : h.RawNormal) :
    (eqOp g.eval h.eval = true ↔ ∀ T S : Finset ι, melem (action g.eval) T S = melem (action h.eval) T S) ∧
    (eqOp g.eval h.eval = true ↔ ∀ ψ : Space ι R, action g.eval ψ = action h.eval ψ) := by
  have ha := C03_always_canonical g hg
  have hb := C03_always_canonical h hh
  have h1 := eqOp_iff_melem ha hb
  refine ⟨h1, ?_, ?_⟩
  · intro he ψ
    unfold eqOp isZero at he
    rw [List.isEmpty_iff] at he
    have h2 := sub_action g.eval h.eval
    rw [he, action_nil] at h2
    rw [sub_eq_zero.mp h2.symm]
  · intro he
    rw [h1]
    intro T S
    simp only [melem, he]

-- c₁ c†₁ == 1 - n₁, and c₁ c†₁ ≠ n₁
example : eqOp (Hist.mul (.c 1) (.cDag 1) : Hist ℕ ℤ).eval (Hist.sub (.scalar 1) (.n 1)).eval = true ∧
    eqOp (Hist.mul (.c 1) (.cDag 1) : Hist ℕ ℤ).eval (Hist.n 1).eval = false := by decide

/-! ## C05 -/

theorem dagger_melem [StarRing R] {a : MMap ι R} (ha : Canonical a) (T S : Finset ι) :
    melem (action (dagger a)) T S = star (melem (action a) S T) := by
  rw [dagger_action_eq ha, melem_action, melem_action]
  clear ha
  induction a with
  | nil => simp
  | cons e a ih =>
    simp only [List.map_cons, List.sum_cons, ih, star_add, star_mul, monoAct_adj, melem_monoAct_int]
    ring

/-- **C05** (adjoint). `⟨T| dagger(a) |S⟩ = conj ⟨S| a |T⟩` for all occupation sets. -/
theorem C05_dagger_is_adjoint [NoZeroDivisors R] [Nontrivial R] [StarRing R] (h : Hist ι R)
    (hr : h.RawNormal) (T S : Finset ι) :
    melem (action (dagger h.eval)) T S = star (melem (action h.eval) S T) :=
  dagger_melem (C03_always_canonical h hr) T S

omit [DecidableEq R] in
/-- matrix elements of a product with a canonical (finite) operator on the right -/
theorem melem_mul (A : Module.End R (Space ι R)) (b : MMap ι R) (T S : Finset ι) :
    ∃ l : List (R × Finset ι), action b (ket S : Space ι R) = (l.map (fun p => p.1 • ket p.2)).sum ∧
      A (action b (ket S)) T = (l.map (fun p => p.1 * melem A T p.2)).sum := by
  induction b with
  | nil => exact ⟨[], by simp, by simp⟩
  | cons e b ih =>
    obtain ⟨l, h1, h2⟩ := ih
    obtain ⟨r, S', h3⟩ := monoAct_ket (R := R) e.1 S
    refine ⟨(e.2 * r, S') :: l, ?_, ?_⟩
    · simp [h1, h3, smul_smul]
    · simp only [action_cons, LinearMap.add_apply, LinearMap.smul_apply, h3, map_add, map_smul,
        Pi.add_apply, Pi.smul_apply, smul_eq_mul, List.map_cons, List.sum_cons, h2]
      simp only [melem]; ring

omit [DecidableEq R] in
theorem sum_ket_apply (l : List (R × Finset ι)) (T : Finset ι) :
    ((l.map (fun p => p.1 • (ket p.2 : Space ι R))).sum) T = (l.map (fun p => p.1 * ket p.2 T)).sum := by
  induction l with
  | nil => simp
  | cons p l ih => simp [ih]

theorem dagger_mul_melem [NoZeroDivisors R] [StarRing R] {a b : MMap ι R} (ha : Canonical a)
    (hb : Canonical b) (T S : Finset ι) :
    melem (action (dagger (mul a b))) T S = melem (action (mul (dagger b) (dagger a))) T S := by
  rw [dagger_melem (mul_canonical ha hb)]
  have hmul : ∀ (x y : MMap ι R) (T S : Finset ι),
      melem (action (mul x y)) T S = (action x (action y (ket S))) T := by
    intro x y T S; rw [mul_action]; rfl
  rw [hmul, hmul]
  -- expand both sides in the finitely many intermediate states
  obtain ⟨l, hl1, hl2⟩ := melem_mul (action a) b S T
  obtain ⟨k, hk1, hk2⟩ := melem_mul (action (dagger b)) (dagger a) T S
  rw [hl2, hk2]
  -- coefficients of the right factor seen from the left factor
  have e1 : ∀ p ∈ l, melem (action a) S p.2 = star ((k.map (fun q => q.1 * ket q.2 p.2)).sum) := by
    intro p _
    have := dagger_melem ha p.2 S
    rw [melem, hk1, sum_ket_apply] at this
    rw [this, star_star]
  have e2 : ∀ q ∈ k, melem (action (dagger b)) T q.2 = star ((l.map (fun p => p.1 * ket p.2 q.2)).sum) := by
    intro q _
    rw [dagger_melem hb, melem, hl1, sum_ket_apply]
  have s1 : (l.map (fun p => p.1 * melem (action a) S p.2)).sum
      = (l.map (fun p => p.1 * star ((k.map (fun q => q.1 * ket q.2 p.2)).sum))).sum :=
    congrArg List.sum (List.map_congr_left (fun p hp => by rw [e1 p hp]))
  have s2 : (k.map (fun q => q.1 * melem (action (dagger b)) T q.2)).sum
      = (k.map (fun q => q.1 * star ((l.map (fun p => p.1 * ket p.2 q.2)).sum))).sum :=
    congrArg List.sum (List.map_congr_left (fun q hq => by rw [e2 q hq]))
  rw [s1, s2]
  have star_ket : ∀ A B : Finset ι, star (ket A B : R) = ket A B := by
    intro A B; simp only [ket]; split <;> simp
  have star_sum : ∀ (l : List R), star l.sum = (l.map star).sum := by
    intro l; induction l with
    | nil => simp
    | cons x l ih => simp [ih]
  -- double sum in both orders
  have dbl : ∀ (l k : List (R × Finset ι)),
      star ((l.map (fun p => p.1 * star ((k.map (fun q => q.1 * ket q.2 p.2)).sum))).sum)
      = (k.map (fun q => q.1 * star ((l.map (fun p => p.1 * ket p.2 q.2)).sum))).sum := by
    intro l
    induction l with
    | nil => intro k; simp
    | cons p l ih =>
      intro k
      simp only [List.map_cons, List.sum_cons, star_add, mul_add, ih]
      rw [List.sum_map_add]
      congr 1
      simp only [star_mul, star_star, star_ket]
      clear ih hl1 hl2 hk1 hk2 e1 e2 s1 s2
      induction k with
      | nil => simp
      | cons q k ihk =>
        simp only [List.map_cons, List.sum_cons, add_mul, ihk]
        rw [ket_symm]; ring
  exact dbl l k

/-- **C05** (consequences). `dagger(dagger(a)) == a` and `dagger(a*b) == dagger(b)*dagger(a)`. -/
theorem C05_dagger_laws [NoZeroDivisors R] [Nontrivial R] [StarRing R] (g h : Hist ι R)
    (hg : g.RawNormal) (hh : h.RawNormal) :
    eqOp (dagger (dagger g.eval)) g.eval = true ∧
    eqOp (dagger (mul g.eval h.eval)) (mul (dagger h.eval) (dagger g.eval)) = true := by
  have ha := C03_always_canonical g hg
  have hb := C03_always_canonical h hh
  constructor
  · rw [eqOp_iff_melem (dagger_canonical (dagger_canonical ha)) ha]
    intro T S
    rw [dagger_melem (dagger_canonical ha), dagger_melem ha, star_star]
  · rw [eqOp_iff_melem (dagger_canonical (mul_canonical ha hb))
      (mul_canonical (dagger_canonical hb) (dagger_canonical ha))]
    exact dagger_mul_melem ha hb

example : dagger (Hist.mul (.cDag 1) (.c 2) : Hist ℕ ℤ).eval
    = ([([⟨true, 2⟩, ⟨false, 1⟩], 1)] : MMap ℕ ℤ) := by decide

/-- `is_op_hermitian` (default tolerance) decides Hermiticity of the matrix elements. -/
theorem C68_is_op_hermitian [NoZeroDivisors R] [Nontrivial R] [StarRing R] (h : Hist ι R)
    (hr : h.RawNormal) :
    isHermitian h.eval = true ↔
      ∀ T S : Finset ι, melem (action h.eval) T S = star (melem (action h.eval) S T) := by
  have ha := C03_always_canonical h hr
  have h1 := eqOp_iff_melem (dagger_canonical ha) ha
  have h2 : isHermitian h.eval = eqOp (dagger h.eval) h.eval := by
    unfold isHermitian eqOp isZero
    cases sub (dagger h.eval) h.eval <;> simp
  rw [h2, h1]
  constructor
  · intro h3 T S; rw [← h3 T S, dagger_melem ha]
  · intro h3 T S; rw [dagger_melem ha, ← h3 T S]

example : isHermitian (Hist.add (.mul (.cDag 1) (.c 2)) (.mul (.cDag 2) (.c 1)) : Hist ℕ ℤ).eval = true ∧
    isHermitian (Hist.mul (.cDag 1) (.c 2) : Hist ℕ ℤ).eval = false := by decide

/-! ## C06 -/

omit [DecidableEq R] in
theorem c_action (i : ι) : action (c i : MMap ι R) = annihilate i := by
  simp [c, makeCanonical, opAct]

omit [DecidableEq R] in
theorem cDag_action (i : ι) : action (cDag i : MMap ι R) = create i := by
  simp [cDag, makeCanonical, opAct]

/-- **C06.** Canonical anticommutation relations, as computed and compared by the code. -/
theorem C06_anticommutation [NoZeroDivisors R] [Nontrivial R] (i j : ι) :
    eqOp (add (mul (c i) (cDag j)) (mul (cDag j) (c i))) (ofScalar (if i = j then 1 else 0) : MMap ι R) = true ∧
    eqOp (add (mul (c i) (c j)) (mul (c j) (c i))) (ofScalar 0 : MMap ι R) = true ∧
    eqOp (add (mul (cDag i) (cDag j)) (mul (cDag j) (cDag i))) (ofScalar 0 : MMap ι R) = true ∧
    eqOp (mul (nOp i) (nOp i)) (nOp i : MMap ι R) = true := by
  have hc : ∀ i, Canonical (c i : MMap ι R) := fun i => makeCanonical_canonical _ _
  have hd : ∀ i, Canonical (cDag i : MMap ι R) := fun i => makeCanonical_canonical _ _
  have hn : ∀ i, Canonical (nOp i : MMap ι R) := fun i => mul_canonical (hd i) (hc i)
  refine ⟨?_, ?_, ?_, ?_⟩
  · rw [eqOp_iff_melem (add_canonical (mul_canonical (hc i) (hd j)) (mul_canonical (hd j) (hc i)))
      (ofScalar_canonical _)]
    intro T S
    congr 1
    rw [add_action, mul_action, mul_action, c_action, cDag_action, ofScalar_action]
    by_cases h : i = j
    · subst h; rw [annihilate_create_self]; simp
    · rw [annihilate_create_ne i j h]; simp [h]
  · rw [eqOp_iff_melem (add_canonical (mul_canonical (hc i) (hc j)) (mul_canonical (hc j) (hc i)))
      (ofScalar_canonical _)]
    intro T S
    congr 1
    rw [add_action, mul_action, mul_action, c_action, c_action, ofScalar_action, annihilate_anti i j]
    simp
  · rw [eqOp_iff_melem (add_canonical (mul_canonical (hd i) (hd j)) (mul_canonical (hd j) (hd i)))
      (ofScalar_canonical _)]
    intro T S
    congr 1
    rw [add_action, mul_action, mul_action, cDag_action, cDag_action, ofScalar_action, create_anti i j]
    simp
  · rw [eqOp_iff_melem (mul_canonical (hn i) (hn i)) (hn i)]
    intro T S
    congr 1
    rw [mul_action, nOp, mul_action, c_action, cDag_action]
    have h1 := annihilate_create_self (R := R) i
    calc create i * annihilate i * (create i * annihilate i)
        = create i * (annihilate i * create i) * annihilate i := by simp only [mul_assoc]
      _ = create i * annihilate i := by
          rw [h1, mul_sub, sub_mul, mul_one, ← mul_assoc, create_sq]; simp

example : eqOp (add (mul (c 1) (cDag 1)) (mul (cDag 1) (c 1))) (ofScalar 1 : MMap ℕ ℤ) = true := by decide

/-! ## C67: the raw monomial constructor -/

/-- **C67** is false for unsorted monomials: the operator built from the raw monomial `c₁ c†₁`
is the same linear map as the product `c₁ * c†₁`, yet does not compare equal to it. -/
theorem C67_raw_constructor_breaks_equality :
    (∀ ψ, action (ofMonomial 1 [⟨false, 1⟩, ⟨true, 1⟩] : MMap ℕ ℤ) ψ = action (mul (c 1) (cDag 1)) ψ) ∧
    eqOp (ofMonomial 1 [⟨false, 1⟩, ⟨true, 1⟩] : MMap ℕ ℤ) (mul (c 1) (cDag 1)) = false := by
  refine ⟨?_, by decide⟩
  intro ψ
  rw [mul_action, c_action, cDag_action]
  simp [ofMonomial, opAct]

/-- **C67** (what holds). The raw constructor denotes the monomial it is given, and is equal (`==`)
to the normal-ordered product whenever the monomial is strictly normal ordered. -/
theorem C67_raw_constructor_partial [NoZeroDivisors R] [Nontrivial R] [StarRing R] (x : R) (m : Mono ι)
    (h : Hist ι R) (hr : h.RawNormal) (hm : NormalOrdered m) :
    (∀ ψ : Space ι R, action (ofMonomial x m) ψ = x • monoAct m ψ) ∧
    (eqOp (ofMonomial x m) h.eval = true ↔ ∀ ψ : Space ι R, action h.eval ψ = x • monoAct m ψ) := by
  have h1 : ∀ ψ : Space ι R, action (ofMonomial x m) ψ = x • monoAct m ψ := by
    intro ψ
    unfold ofMonomial
    split
    · rename_i h; simp [h]
    · simp
  refine ⟨h1, ?_⟩
  have := (C04_equality_is_semantic (Hist.raw x m) h hm hr).2
  have e : (Hist.raw x m : Hist ι R).eval = ofMonomial x m := rfl
  rw [e] at this
  rw [this]
  constructor
  · intro h2 ψ; rw [← h2, h1]
  · intro h2 ψ; rw [h2, h1]

example : NormalOrdered ([⟨true, 1⟩, ⟨true, 2⟩, ⟨false, 2⟩, ⟨false, 1⟩] : Mono ℕ) := by
  unfold NormalOrdered; decide

end Verif.Operators
