import Verif.Float.OperatorAlgebra
import Mathlib.Tactic.Ring

/-!
# How far sums and products of operators are from the exact ones

`many_body_operator.hpp` with coefficients of type `double`, model of `Verif/Float/OperatorAlgebra.lean`.  The
operator that a sum, difference or product stores differs from the exact sum or product by rounding and by the terms
that are removed because they are smaller than `100 epsilon`.

* C188: bounds of all matrix elements of the difference, between any two Fock states, and the number of terms that
  normal ordering produces.

Simplifications: those of `OperatorAlgebra`.
-/

namespace Verif.OperatorError
open Verif.Fock Verif.Operators Verif.Binary64 Verif.OperatorDouble

section
variable {ι : Type} [LinearOrder ι]

/-! ## Specification -/

/-- sum of the absolute values of the coefficients -/
def mag (a : MMap ι ℚ) : ℚ := (a.map fun e => |e.2|).sum

/-- pairs of an annihilator and a creator of the same orbital to the right of it: the possible contractions -/
def pairs : Mono ι → ℕ
  | [] => 0
  | x :: m => (if x.dagger then 0 else m.count ⟨true, x.idx⟩) + pairs m

/-- number of annihilators -/
def annihilators (m : Mono ι) : ℕ := m.countP fun x => !x.dagger

/-- number of creators -/
def creators (m : Mono ι) : ℕ := m.countP fun x => x.dagger

/-- the terms a product inserts, in order (many_body_operator.hpp:265-280 and 349-390) -/
def inserted (a b : MMap ι ℚ) : List (Mono ι × ℚ) :=
  a.flatMap fun e => b.flatMap fun f => (normTerms (normFuel (e.1 ++ f.1)) (e.1 ++ f.1) (rnd (e.2 * f.2))).getD []

/-! ## Proofs -/

/-! ### one insertion -/

/-- a linear functional with values of at most one on the monomials -/
def val (φ : Mono ι → ℚ) (a : MMap ι ℚ) : ℚ := (a.map fun e => e.2 * φ e.1).sum

theorem mag_cons (e : Mono ι × ℚ) (a : MMap ι ℚ) : mag (e :: a) = |e.2| + mag a := by simp [mag]
theorem val_cons (φ : Mono ι → ℚ) (e : Mono ι × ℚ) (a : MMap ι ℚ) : val φ (e :: a) = e.2 * φ e.1 + val φ a := by simp [val]
theorem mag_nonneg (a : MMap ι ℚ) : 0 ≤ mag a := by
  induction a with
  | nil => simp [mag]
  | cons e a ih => rw [mag_cons]; have := abs_nonneg e.2; linarith

theorem tol_eq : tol = 25 / 1125899906842624 := by unfold tol; norm_num

theorem tol_rep : Rep tol := ⟨100, -52, by norm_num, by norm_num, by unfold tol; norm_num⟩

theorem tiny_le : (2 : ℚ) ^ (-1074 : ℤ) ≤ tol := by
  have h : (2 : ℚ) ^ (-1074 : ℤ) ≤ 2 ^ (-52 : ℤ) := zpow_le_zpow_right₀ (by norm_num) (by norm_num)
  have : (0 : ℚ) < 2 ^ (-52 : ℤ) := two_zpow_pos _
  unfold tol
  linarith

/-- what is removed is small -/
theorem abs_le_of_small {z : ℚ} (h : smallD (rnd z) = true) : |z| ≤ tol := by
  unfold smallD at h
  rw [decide_eq_true_eq] at h
  rw [abs_le]
  constructor
  · by_contra hc
    rw [not_le] at hc
    have := rnd_le (rep_neg tol_rep) hc.le
    linarith [h.1]
  · by_contra hc
    rw [not_le] at hc
    have := le_rnd tol_rep hc.le
    linarith [h.2]

theorem insert_err (φ : Mono ι → ℚ) (hφ : ∀ m, |φ m| ≤ 1) (m : Mono ι) (c : ℚ) (t : MMap ι ℚ) :
    |val φ (insertM real m c t) - (val φ t + c * φ m)| ≤ (1 / 9007199254740992) * (mag t + |c|) + tol ∧
    mag (insertM real m c t) ≤ (1 + 1 / 9007199254740992) * (mag t + |c|) + tol := by
  have htol := tol_pos
  induction t with
  | nil =>
    have := abs_nonneg c
    simp only [insertM, val, mag, List.map_cons, List.map_nil, List.sum_cons, List.sum_nil]
    constructor
    · rw [show c * φ m + 0 - (0 + c * φ m) = 0 by ring, abs_zero]
      linarith
    · linarith
  | cons f t ih =>
    obtain ⟨m', c'⟩ := f
    have hc := abs_nonneg c
    have hc' := abs_nonneg c'
    have ht := mag_nonneg t
    rw [insertM]
    split
    · next hm =>
      subst hm
      have hz : |c' + c| ≤ |c'| + |c| := abs_add_le _ _
      simp only [real]
      by_cases hs : smallD (rnd (c' + c)) = true
      · simp only [hs, if_true]
        have hd := abs_le_of_small hs
        rw [val_cons, mag_cons]
        constructor
        · have he : val φ t - (c' * φ m + val φ t + c * φ m) = -((c' + c) * φ m) := by ring
          simp only
          rw [he, abs_neg, abs_mul]
          have h1 : |c' + c| * |φ m| ≤ |c' + c| * 1 := mul_le_mul_of_nonneg_left (hφ m) (abs_nonneg _)
          linarith
        · simp only
          linarith
      · simp only [hs, Bool.false_eq_true, if_false]
        have hr := rnd_err_abs (c' + c)
        have ht2 := tiny_le
        generalize (2 : ℚ) ^ (-1074 : ℤ) = η at *
        rw [val_cons, mag_cons, val_cons, mag_cons]
        simp only
        constructor
        · have he : rnd (c' + c) * φ m + val φ t - (c' * φ m + val φ t + c * φ m) = (rnd (c' + c) - (c' + c)) * φ m := by ring
          rw [he, abs_mul]
          have h1 : |rnd (c' + c) - (c' + c)| * |φ m| ≤ |rnd (c' + c) - (c' + c)| * 1 := mul_le_mul_of_nonneg_left (hφ m) (abs_nonneg _)
          linarith
        · have h2 : |rnd (c' + c)| ≤ |rnd (c' + c) - (c' + c)| + |c' + c| := by
            have := abs_add_le (rnd (c' + c) - (c' + c)) (c' + c)
            rwa [sub_add_cancel] at this
          linarith
    · split
      · rw [val_cons, mag_cons (m, c), mag_cons (m', c')]
        simp only
        constructor
        · rw [show c * φ m + val φ ((m', c') :: t) - (val φ ((m', c') :: t) + c * φ m) = 0 by ring, abs_zero]
          linarith
        · linarith
      · rw [val_cons, val_cons, mag_cons, mag_cons]
        simp only
        constructor
        · rw [show c' * φ m' + val φ (insertM real m c t) - (c' * φ m' + val φ t + c * φ m) = val φ (insertM real m c t) - (val φ t + c * φ m) by ring]
          linarith [ih.1]
        · linarith [ih.2]

/-! ### many insertions -/

theorem fold_err (φ : Mono ι → ℚ) (hφ : ∀ m, |φ m| ≤ 1) (l : List (Mono ι × ℚ)) (t : MMap ι ℚ) :
    |val φ (l.foldl (fun t e => insertM real e.1 e.2 t) t) - (val φ t + val φ l)| ≤
      ((1 + 1 / 9007199254740992) ^ l.length - 1) * (mag t + mag l + 200) := by
  induction l generalizing t with
  | nil => simp [val]
  | cons e l ih =>
    rw [List.foldl_cons, val_cons, mag_cons, List.length_cons, pow_succ]
    have h1 := ih (insertM real e.1 e.2 t)
    obtain ⟨h2, h3⟩ := insert_err φ hφ e.1 e.2 t
    rw [tol_eq] at h2 h3
    have hp : (1 : ℚ) ≤ (1 + 1 / 9007199254740992) ^ l.length := one_le_pow₀ (by norm_num)
    generalize ((1 : ℚ) + 1 / 9007199254740992) ^ l.length = P at *
    have hl := mag_nonneg l
    have hS : mag (insertM real e.1 e.2 t) + mag l + 200 ≤ (1 + 1 / 9007199254740992) * (mag t + (|e.2| + mag l) + 200) := by
      linarith
    have h4 : (P - 1) * (mag (insertM real e.1 e.2 t) + mag l + 200) ≤ (P - 1) * ((1 + 1 / 9007199254740992) * (mag t + (|e.2| + mag l) + 200)) :=
      mul_le_mul_of_nonneg_left hS (by linarith)
    rw [abs_le] at h1 h2 ⊢
    have h5 : (P * (1 + 1 / 9007199254740992) - 1) * (mag t + (|e.2| + mag l) + 200) =
        (P - 1) * ((1 + 1 / 9007199254740992) * (mag t + (|e.2| + mag l) + 200)) + 1 / 9007199254740992 * (mag t + (|e.2| + mag l) + 200) := by ring
    rw [h5]
    constructor
    · linarith [h1.1, h2.1]
    · linarith [h1.2, h2.2]

theorem pow_bound (n : ℕ) (h : n ≤ 2 ^ 52) : ((1 : ℚ) + 1 / 9007199254740992) ^ n - 1 ≤ 2 * n * (1 / 9007199254740992) := by
  induction n with
  | zero => norm_num
  | succ n ih =>
    have h1 := ih (by omega)
    have h2 : (n : ℚ) ≤ 4503599627370496 := by
      have : n ≤ 4503599627370496 := by omega
      exact_mod_cast this
    rw [pow_succ]
    push_cast
    generalize ((1 : ℚ) + 1 / 9007199254740992) ^ n = P at *
    generalize (n : ℚ) = x at *
    linarith

/-- the total error of `n` insertions -/
theorem fold_err' (φ : Mono ι → ℚ) (hφ : ∀ m, |φ m| ≤ 1) (l : List (Mono ι × ℚ)) (t : MMap ι ℚ) (hl : l.length ≤ 2 ^ 52) :
    |val φ (l.foldl (fun t e => insertM real e.1 e.2 t) t) - (val φ t + val φ l)| ≤
      2 * l.length * (2 ^ (-53 : ℤ) * (mag t + mag l) + tol) := by
  refine (fold_err φ hφ l t).trans ?_
  have h1 := pow_bound l.length hl
  have h2 : 0 ≤ mag t + mag l + 200 := by linarith [mag_nonneg t, mag_nonneg l]
  refine (mul_le_mul_of_nonneg_right h1 h2).trans (le_of_eq ?_)
  rw [tol_eq, show (2 : ℚ) ^ (-53 : ℤ) = 1 / 9007199254740992 by norm_num]
  ring

/-! ### matrix elements -/

theorem abs_sgn (i : ι) (S : Finset ι) : |(sgn i S : ℚ)| = 1 := by simp [sgn]

theorem opAct_ket_abs (x : COp ι) (S : Finset ι) :
    ∃ (r : ℚ) (S' : Finset ι), opAct x (ket S : Space ι ℚ) = r • ket S' ∧ |r| ≤ 1 := by
  unfold opAct
  split
  · rw [create_ket]; split
    · exact ⟨0, ∅, by simp, by simp⟩
    · exact ⟨_, _, rfl, (abs_sgn _ _).le⟩
  · rw [annihilate_ket]; split
    · exact ⟨_, _, rfl, (abs_sgn _ _).le⟩
    · exact ⟨0, ∅, by simp, by simp⟩

theorem monoAct_ket_abs (m : Mono ι) (S : Finset ι) :
    ∃ (r : ℚ) (S' : Finset ι), monoAct m (ket S : Space ι ℚ) = r • ket S' ∧ |r| ≤ 1 := by
  induction m with
  | nil => exact ⟨1, S, by simp, by simp⟩
  | cons x m ih =>
    obtain ⟨r, S', h, hr⟩ := ih
    obtain ⟨r', S'', h', hr'⟩ := opAct_ket_abs x S'
    refine ⟨r * r', S'', ?_, ?_⟩
    · rw [monoAct_cons, Module.End.mul_apply, h, map_smul, h', smul_smul]
    · rw [abs_mul]
      exact mul_le_one₀ hr (abs_nonneg _) hr'

theorem melem_abs (T S : Finset ι) (m : Mono ι) : |melem (monoAct m : Module.End ℚ (Space ι ℚ)) T S| ≤ 1 := by
  obtain ⟨r, S', h, hr⟩ := monoAct_ket_abs m S
  simp only [melem, h, Pi.smul_apply, smul_eq_mul, ket]
  split
  · simpa using hr
  · simp

theorem val_melem (a : MMap ι ℚ) (T S : Finset ι) : val (fun m => melem (monoAct m : Module.End ℚ (Space ι ℚ)) T S) a = melem (action a) T S :=
  (melem_action a T S).symm

/-- **C188, sums.**  All matrix elements of a sum in double precision are those of the exact sum up to
`2 n (2^-53 (|a| + |b|) + 100 epsilon)`, where `n` is the number of terms added and `|a|` the sum of the absolute
values of the coefficients. -/
theorem C188_sum (a b : MMap ι ℚ) (hb : b.length ≤ 2 ^ 52) (T S : Finset ι) :
    |melem (action (addM real a b)) T S - (melem (action a) T S + melem (action b) T S)| ≤
      2 * b.length * (2 ^ (-53 : ℤ) * (mag a + mag b) + 100 * 2 ^ (-52 : ℤ)) := by
  have := fold_err' (fun m => melem (monoAct m : Module.End ℚ (Space ι ℚ)) T S) (melem_abs T S) b a hb
  rw [val_melem, val_melem, val_melem] at this
  exact this

theorem mag_negM (b : MMap ι ℚ) : mag (negM real b) = mag b := by
  unfold mag negM real
  simp [List.map_map, Function.comp_def]

theorem melem_negM (b : MMap ι ℚ) (T S : Finset ι) : melem (action (negM real b)) T S = -melem (action b : Module.End ℚ (Space ι ℚ)) T S := by
  have : negM real b = neg b := rfl
  rw [this, neg_action]
  rfl

/-- **C188, differences.** -/
theorem C188_difference (a b : MMap ι ℚ) (hb : b.length ≤ 2 ^ 52) (T S : Finset ι) :
    |melem (action (subM real a b)) T S - (melem (action a) T S - melem (action b) T S)| ≤
      2 * b.length * (2 ^ (-53 : ℤ) * (mag a + mag b) + 100 * 2 ^ (-52 : ℤ)) := by
  have h := C188_sum a (negM real b) (by simpa [negM] using hb) T S
  rw [← subM_eq, mag_negM, melem_negM, ← sub_eq_add_neg] at h
  simpa [negM] using h

/-! ### contractions -/

theorem pairs_perm (pre l1 l2 : Mono ι) (h : l1.Perm l2) : pairs (pre ++ l1) + pairs l2 = pairs (pre ++ l2) + pairs l1 := by
  induction pre with
  | nil => simp [add_comm]
  | cons x pre ih =>
    simp only [List.cons_append, pairs]
    rw [(List.Perm.append_left pre h).count_eq]
    omega

theorem pairs_drop (pre : Mono ι) (a b : COp ι) (xs : Mono ι) : pairs (pre ++ xs) ≤ pairs (pre ++ a :: b :: xs) := by
  induction pre with
  | nil => simp only [List.nil_append, pairs]; omega
  | cons x pre ih =>
    simp only [List.cons_append, pairs]
    have : (pre ++ xs).count ⟨true, x.idx⟩ ≤ (pre ++ a :: b :: xs).count ⟨true, x.idx⟩ := by
      simp only [List.count_append]
      have := (((List.Sublist.refl xs).cons b).cons a).count_le (⟨true, x.idx⟩ : COp ι)
      omega
    split <;> omega

/-- a swap keeps the possible contractions, except for the one it makes -/
theorem pairs_swap (pre : Mono ι) (a b : COp ι) (xs : Mono ι) (h : b.lt a = true) :
    pairs (pre ++ b :: a :: xs) + (if a = ⟨!b.dagger, b.idx⟩ then 1 else 0) = pairs (pre ++ a :: b :: xs) := by
  have hp := pairs_perm pre (a :: b :: xs) (b :: a :: xs) (List.Perm.swap _ _ _)
  obtain ⟨da, ia⟩ := a
  obtain ⟨db, ib⟩ := b
  change pairs (pre ++ ⟨db, ib⟩ :: ⟨da, ia⟩ :: xs) + (if (⟨da, ia⟩ : COp ι) = ⟨!db, ib⟩ then 1 else 0) = _
  have key : pairs (⟨db, ib⟩ :: ⟨da, ia⟩ :: xs) + (if (⟨da, ia⟩ : COp ι) = ⟨!db, ib⟩ then 1 else 0) = pairs (⟨da, ia⟩ :: ⟨db, ib⟩ :: xs) := by
    simp only [pairs]
    cases da <;> cases db
    · simp [List.count_cons]
      omega
    · simp only [List.count_cons]
      by_cases hi : ia = ib
      · subst hi; simp; omega
      · have : ¬ ib = ia := fun e => hi e.symm
        simp [hi, this]
    · simp [COp.lt] at h
    · simp
  omega

theorem pass_pairs {R : Type} [CommRing R] (pre : Mono ι) (prev : COp ι) (c : R) (sw : Bool) (xs : Mono ι) :
    ((pass pre prev c sw xs).emitted.map fun e => 2 ^ pairs e.1).sum +
      (match (pass pre prev c sw xs).rest with | none => 0 | some r => 2 ^ pairs r.1) ≤ 2 ^ pairs (pre ++ prev :: xs) := by
  induction xs generalizing pre prev c sw with
  | nil => simp [pass]
  | cons cur xs ih =>
    unfold pass
    split
    · simp
    · split
      · next hlt =>
        have h1 := ih (pre ++ [cur]) prev (-c) true
        have h2 := pairs_swap pre prev cur xs hlt
        simp only [List.append_assoc, List.cons_append, List.nil_append] at h1
        simp only
        split
        · next hc =>
          rw [if_pos hc] at h2
          simp only [List.map_cons, List.sum_cons]
          have h3 : pairs (pre ++ xs) ≤ pairs (pre ++ cur :: prev :: xs) := pairs_drop pre cur prev xs
          have h4 : 2 ^ pairs (pre ++ xs) ≤ 2 ^ pairs (pre ++ cur :: prev :: xs) := Nat.pow_le_pow_right (by norm_num) h3
          rw [← h2, Nat.pow_succ]
          omega
        · next hc =>
          rw [if_neg hc, Nat.add_zero] at h2
          rw [← h2]
          exact h1
      · have h1 := ih (pre ++ [prev]) cur c sw
        simp only [List.append_assoc, List.cons_append, List.nil_append] at h1
        exact h1

theorem normTerms_length {R : Type} [CommRing R] (fuel : ℕ) : ∀ (m : Mono ι) (c : R) (l : List (Mono ι × R)),
    normTerms fuel m c = some l → l.length ≤ 2 ^ pairs m := by
  induction fuel with
  | zero => intro m c l h; simp [normTerms] at h
  | succ fuel ih =>
    have hemit : ∀ (es : List (Mono ι × R)) (l : List (Mono ι × R)),
        emitAll (normTerms fuel) es = some l → l.length ≤ (es.map fun e => 2 ^ pairs e.1).sum := by
      intro es
      induction es with
      | nil => intro l h; simp [emitAll] at h; subst h; simp
      | cons e es ihes =>
        obtain ⟨m0, c0⟩ := e
        intro l h
        simp only [emitAll] at h
        cases h1 : normTerms fuel m0 c0 with
        | none => simp [h1] at h
        | some l1 =>
          cases h2 : emitAll (normTerms fuel) es with
          | none => simp [h1, h2] at h
          | some l2 =>
            simp [h1, h2] at h
            subst h
            have h3 := ih m0 c0 l1 h1
            have h4 := ihes l2 h2
            simp only [List.length_append, List.map_cons, List.sum_cons]
            omega
    intro m c l h
    cases m with
    | nil => simp [normTerms] at h; subst h; simp [pairs]
    | cons x xs =>
      simp only [normTerms] at h
      have hp := pass_pairs [] x c false xs
      rw [List.nil_append] at hp
      cases h1 : emitAll (normTerms fuel) (pass [] x c false xs).emitted with
      | none => simp [h1] at h
      | some l1 =>
        have hl1 := hemit _ l1 h1
        simp only [h1] at h
        cases hr : (pass [] x c false xs).rest with
        | none =>
          simp only [hr, Option.some.injEq] at h hp
          subst h
          omega
        | some r =>
          obtain ⟨m', c', sw'⟩ := r
          simp only [hr] at h hp
          cases sw' with
          | false =>
            simp at h
            subst h
            change _ + 2 ^ pairs m' ≤ _ at hp
            have : 1 ≤ 2 ^ pairs m' := Nat.one_le_two_pow
            simp only [List.length_append, List.length_singleton]
            omega
          | true =>
            cases h2 : normTerms fuel m' c' with
            | none => simp [h2] at h
            | some l2 =>
              simp [h2] at h
              subst h
              change _ + 2 ^ pairs m' ≤ _ at hp
              have := ih m' c' l2 h2
              simp only [List.length_append]
              omega

theorem pairs_append (p q : Mono ι) : pairs (p ++ q) = pairs p + pairs q + (p.map fun x => if x.dagger then 0 else q.count ⟨true, x.idx⟩).sum := by
  induction p with
  | nil => simp [pairs]
  | cons x p ih =>
    simp only [List.cons_append, pairs, List.map_cons, List.sum_cons, ih, List.count_append]
    split <;> omega

theorem normal_pairs {m : Mono ι} (h : NormalOrdered m) : pairs m = 0 := by
  induction m with
  | nil => rfl
  | cons x m ih =>
    obtain ⟨h1, h2⟩ := List.pairwise_cons.1 h
    rw [pairs, ih h2]
    split
    · rfl
    · next hx =>
      rw [Nat.add_zero, List.count_eq_zero]
      intro hm
      have := h1 _ hm
      simp [COp.lt, hx] at this

theorem normal_nodup {m : Mono ι} (h : NormalOrdered m) : m.Nodup := by
  refine h.imp ?_
  rintro a b hab rfl
  simp [COp.lt] at hab

theorem cross_le_ann (p q : Mono ι) (hq : q.Nodup) : (p.map fun x => if x.dagger then 0 else q.count ⟨true, x.idx⟩).sum ≤ annihilators p := by
  induction p with
  | nil => simp [annihilators]
  | cons x p ih =>
    simp only [List.map_cons, List.sum_cons, annihilators, List.countP_cons]
    have := List.nodup_iff_count_le_one.1 hq (⟨true, x.idx⟩ : COp ι)
    unfold annihilators at ih
    cases hx : x.dagger
    · simp [hx]; omega
    · simp [hx]; exact ih

theorem cross_le_cre (p q : Mono ι) (hp : p.Nodup) : (p.map fun x => if x.dagger then 0 else q.count ⟨true, x.idx⟩).sum ≤ creators q := by
  induction q with
  | nil =>
    have : (p.map fun x : COp ι => if x.dagger then 0 else ([] : Mono ι).count ⟨true, x.idx⟩).sum = 0 := by
      apply List.sum_eq_zero
      intro y hy
      obtain ⟨x, _, rfl⟩ := List.mem_map.1 hy
      simp
    rw [this]
    exact Nat.zero_le _
  | cons y q ih =>
    have hsplit : (p.map fun x => if x.dagger then 0 else (y :: q).count ⟨true, x.idx⟩).sum =
        (p.map fun x => if x.dagger then 0 else q.count ⟨true, x.idx⟩).sum + (if y.dagger then p.count ⟨false, y.idx⟩ else 0) := by
      clear hp ih
      induction p with
      | nil => simp
      | cons x p ihp =>
        rw [List.map_cons, List.sum_cons, ihp, List.map_cons, List.sum_cons]
        clear ihp
        generalize (p.map fun x => if x.dagger then 0 else q.count ⟨true, x.idx⟩).sum = A
        obtain ⟨dx, ix⟩ := x
        obtain ⟨dy, iy⟩ := y
        simp only [List.count_cons]
        cases dx <;> cases dy <;> simp
        by_cases h : iy = ix
        · subst h; simp; omega
        · have : ¬ ix = iy := fun e => h e.symm
          simp [h, this]; omega
    rw [hsplit]
    have := List.nodup_iff_count_le_one.1 hp (⟨false, y.idx⟩ : COp ι)
    simp only [creators, List.countP_cons]
    unfold creators at ih
    cases hy : y.dagger <;> simp <;> omega

/-- **C188, terms of normal ordering.**  The product of two normal ordered monomials is ordered into at most `2^k`
terms, where `k` is the number of annihilators of the first and also of creators of the second. -/
theorem C188_terms (p q : Mono ι) (hp : NormalOrdered p) (hq : NormalOrdered q) (c : ℚ) (l : List (Mono ι × ℚ))
    (h : normTerms (normFuel (p ++ q)) (p ++ q) c = some l) : l.length ≤ 2 ^ min (annihilators p) (creators q) := by
  refine (normTerms_length _ _ _ _ h).trans (Nat.pow_le_pow_right (by norm_num) ?_)
  rw [pairs_append, normal_pairs hp, normal_pairs hq, Nat.zero_add]
  exact le_min (cross_le_ann p q (normal_nodup hq)) (cross_le_cre p q (normal_nodup hp))

/-! ### products -/

theorem terms_some (m : Mono ι) (c : ℚ) : ∃ l, normTerms (normFuel m) m c = some l :=
  Option.isSome_iff_exists.1 (normTerms_isSome _ m c (by unfold normFuel; have := inv_le m; omega))

theorem mulD_eq (a b : MMap ι ℚ) : mulD a b = (inserted a b).foldl (fun t e => insertM real e.1 e.2 t) [] := by
  unfold mulD inserted
  rw [List.foldl_flatMap]
  congr 1
  funext t e
  rw [List.foldl_flatMap]
  congr 1
  funext t f
  unfold normalizeD
  obtain ⟨l, hl⟩ := terms_some (e.1 ++ f.1) (rnd (e.2 * f.2))
  rw [hl]
  rfl

theorem mag_append (a b : MMap ι ℚ) : mag (a ++ b) = mag a + mag b := by simp [mag]
theorem val_append (φ : Mono ι → ℚ) (a b : MMap ι ℚ) : val φ (a ++ b) = val φ a + val φ b := by simp [val]

theorem mag_const {l : List (Mono ι × ℚ)} {x : ℚ} (h : ∀ e ∈ l, |e.2| = x) : mag l = l.length * x := by
  induction l with
  | nil => simp [mag]
  | cons e l ih =>
    rw [mag_cons, ih fun e he => h e (by simp [he]), h e (by simp), List.length_cons]
    push_cast
    ring

/-- one pair of terms -/
theorem pair_bound (T S : Finset ι) (L : ℕ) (e f : Mono ι × ℚ)
    (hL : ∀ l, normTerms (normFuel (e.1 ++ f.1)) (e.1 ++ f.1) (rnd (e.2 * f.2)) = some l → l.length ≤ L) :
    let l := (normTerms (normFuel (e.1 ++ f.1)) (e.1 ++ f.1) (rnd (e.2 * f.2))).getD []
    l.length ≤ L ∧
    |melem (action l) T S - e.2 * f.2 * melem (monoAct (e.1 ++ f.1) : Module.End ℚ (Space ι ℚ)) T S| ≤ 2 ^ (-53 : ℤ) * (|e.2| * |f.2|) + 2 ^ (-1074 : ℤ) ∧
    mag l ≤ L * ((1 + 2 ^ (-53 : ℤ)) * (|e.2| * |f.2|) + 2 ^ (-1074 : ℤ)) := by
  obtain ⟨l, hl⟩ := terms_some (e.1 ++ f.1) (rnd (e.2 * f.2))
  have hlen := hL l hl
  have hr := rnd_err_abs (e.2 * f.2)
  rw [show (1 / 9007199254740992 : ℚ) = 2 ^ (-53 : ℤ) by norm_num, abs_mul e.2 f.2] at hr
  simp only [hl, Option.getD_some]
  refine ⟨hlen, ?_, ?_⟩
  · rw [normTerms_action _ _ _ _ hl]
    have h1 : melem (rnd (e.2 * f.2) • monoAct (e.1 ++ f.1) : Module.End ℚ (Space ι ℚ)) T S =
        rnd (e.2 * f.2) * melem (monoAct (e.1 ++ f.1) : Module.End ℚ (Space ι ℚ)) T S := rfl
    rw [h1, ← sub_mul, abs_mul]
    have h2 := melem_abs T S (e.1 ++ f.1)
    have h3 := mul_le_mul_of_nonneg_left h2 (abs_nonneg (rnd (e.2 * f.2) - e.2 * f.2))
    linarith
  · rw [mag_const (x := |rnd (e.2 * f.2)|)]
    · have h2 : |rnd (e.2 * f.2)| ≤ |rnd (e.2 * f.2) - e.2 * f.2| + |e.2 * f.2| := by
        have := abs_add_le (rnd (e.2 * f.2) - e.2 * f.2) (e.2 * f.2)
        rwa [sub_add_cancel] at this
      rw [abs_mul e.2 f.2] at h2
      have h3 : (l.length : ℚ) ≤ L := by exact_mod_cast hlen
      have h4 : |rnd (e.2 * f.2)| ≤ (1 + 2 ^ (-53 : ℤ)) * (|e.2| * |f.2|) + 2 ^ (-1074 : ℤ) := by
        generalize (2 : ℚ) ^ (-1074 : ℤ) = η at *
        generalize (2 : ℚ) ^ (-53 : ℤ) = u at *
        linarith
      exact mul_le_mul h3 h4 (abs_nonneg _) (by positivity)
    · intro g hg
      rcases (normTerms_normal _ _ _ _ hl g hg).2 with h | h <;> rw [h]
      exact abs_neg _

theorem flat_bound {α : Type} (g : α → List (Mono ι × ℚ)) (T S : Finset ι) (as : List α) (L : ℕ) (ex err mg : α → ℚ)
    (h : ∀ x ∈ as, (g x).length ≤ L ∧ |melem (action (g x) : Module.End ℚ (Space ι ℚ)) T S - ex x| ≤ err x ∧ mag (g x) ≤ mg x) :
    (as.flatMap g).length ≤ as.length * L ∧
    |melem (action (as.flatMap g) : Module.End ℚ (Space ι ℚ)) T S - (as.map ex).sum| ≤ (as.map err).sum ∧ mag (as.flatMap g) ≤ (as.map mg).sum := by
  induction as with
  | nil => simp [mag, melem]
  | cons x as ih =>
    obtain ⟨h1, h2, h3⟩ := ih fun y hy => h y (by simp [hy])
    obtain ⟨h4, h5, h6⟩ := h x (by simp)
    rw [List.flatMap_cons, List.length_append, List.length_cons, mag_append, ← val_melem, val_append, val_melem, val_melem]
    simp only [List.map_cons, List.sum_cons]
    refine ⟨?_, ?_, by linarith⟩
    · rw [Nat.succ_mul]
      omega
    · rw [abs_le] at h2 h5 ⊢
      constructor
      · linarith [h2.1, h5.1]
      · linarith [h2.2, h5.2]

theorem sum_affine (b : MMap ι ℚ) (u v w : ℚ) : (b.map fun f => w * (u * |f.2|) + v).sum = w * (u * mag b) + b.length * v := by
  induction b with
  | nil => simp [mag]
  | cons f b ih =>
    rw [List.map_cons, List.sum_cons, ih, mag_cons, List.length_cons]
    push_cast
    ring

theorem sum_affine' (a : MMap ι ℚ) (u v w : ℚ) : (a.map fun e => w * (|e.2| * u) + v).sum = w * (mag a * u) + a.length * v := by
  induction a with
  | nil => simp [mag]
  | cons f b ih =>
    rw [List.map_cons, List.sum_cons, ih, mag_cons, List.length_cons]
    push_cast
    ring

theorem action_mul_melem (a b : MMap ι ℚ) (T S : Finset ι) :
    melem (action a * action b : Module.End ℚ (Space ι ℚ)) T S =
      (a.map fun e => (b.map fun f => e.2 * f.2 * melem (monoAct (e.1 ++ f.1) : Module.End ℚ (Space ι ℚ)) T S).sum).sum := by
  induction a with
  | nil => simp [melem]
  | cons e a ih =>
    rw [List.map_cons, List.sum_cons, ← ih, action_cons, add_mul]
    have h1 : melem (e.2 • monoAct e.1 * action b + action a * action b : Module.End ℚ (Space ι ℚ)) T S =
        melem (e.2 • monoAct e.1 * action b : Module.End ℚ (Space ι ℚ)) T S + melem (action a * action b : Module.End ℚ (Space ι ℚ)) T S := rfl
    rw [h1]
    congr 1
    clear ih h1
    induction b with
    | nil => simp [melem]
    | cons f b ih =>
      rw [List.map_cons, List.sum_cons, ← ih, action_cons, mul_add, monoAct_append]
      simp [melem]
      ring

/-- **C188, products.**  If every pair of terms is ordered into at most `L` terms, the matrix elements of a product in
double precision are those of the exact product up to
`2 n (2^-53 s + 100 epsilon) + 2^-53 |a||b| + n₀ 2^-1074` with `n = L n₀`, `n₀` pairs of terms and
`s = L ((1 + 2^-53) |a||b| + n₀ 2^-1074)`. -/
theorem C188_product (a b : MMap ι ℚ) (L : ℕ) (T S : Finset ι)
    (hL : ∀ e ∈ a, ∀ f ∈ b, ∀ l, normTerms (normFuel (e.1 ++ f.1)) (e.1 ++ f.1) (rnd (e.2 * f.2)) = some l → l.length ≤ L)
    (hn : a.length * (b.length * L) ≤ 2 ^ 52) :
    |melem (action (mulD a b)) T S - melem (action a * action b : Module.End ℚ (Space ι ℚ)) T S| ≤
      2 * (a.length * (b.length * L) : ℕ) *
        (2 ^ (-53 : ℤ) * (L * ((1 + 2 ^ (-53 : ℤ)) * (mag a * mag b) + a.length * b.length * 2 ^ (-1074 : ℤ))) + 100 * 2 ^ (-52 : ℤ))
      + (2 ^ (-53 : ℤ) * (mag a * mag b) + a.length * b.length * 2 ^ (-1074 : ℤ)) := by
  have inner : ∀ e ∈ a,
      (b.flatMap fun f => (normTerms (normFuel (e.1 ++ f.1)) (e.1 ++ f.1) (rnd (e.2 * f.2))).getD []).length ≤ b.length * L ∧
      |melem (action (b.flatMap fun f => (normTerms (normFuel (e.1 ++ f.1)) (e.1 ++ f.1) (rnd (e.2 * f.2))).getD []) : Module.End ℚ (Space ι ℚ)) T S -
        (b.map fun f => e.2 * f.2 * melem (monoAct (e.1 ++ f.1) : Module.End ℚ (Space ι ℚ)) T S).sum| ≤
        2 ^ (-53 : ℤ) * (|e.2| * mag b) + b.length * 2 ^ (-1074 : ℤ) ∧
      mag (b.flatMap fun f => (normTerms (normFuel (e.1 ++ f.1)) (e.1 ++ f.1) (rnd (e.2 * f.2))).getD []) ≤
        (L * (1 + 2 ^ (-53 : ℤ))) * (|e.2| * mag b) + b.length * (L * 2 ^ (-1074 : ℤ)) := by
    intro e he
    have := flat_bound (fun f => (normTerms (normFuel (e.1 ++ f.1)) (e.1 ++ f.1) (rnd (e.2 * f.2))).getD []) T S b L
      (fun f => e.2 * f.2 * melem (monoAct (e.1 ++ f.1) : Module.End ℚ (Space ι ℚ)) T S)
      (fun f => 2 ^ (-53 : ℤ) * (|e.2| * |f.2|) + 2 ^ (-1074 : ℤ))
      (fun f => (L * (1 + 2 ^ (-53 : ℤ))) * (|e.2| * |f.2|) + L * 2 ^ (-1074 : ℤ))
      (by
        intro f hf
        obtain ⟨h1, h2, h3⟩ := pair_bound T S L e f (hL e he f hf)
        refine ⟨h1, h2, h3.trans (le_of_eq ?_)⟩
        ring)
    rw [sum_affine, sum_affine] at this
    exact this
  have outer := flat_bound (fun e => b.flatMap fun f => (normTerms (normFuel (e.1 ++ f.1)) (e.1 ++ f.1) (rnd (e.2 * f.2))).getD []) T S a (b.length * L)
      (fun e => (b.map fun f => e.2 * f.2 * melem (monoAct (e.1 ++ f.1) : Module.End ℚ (Space ι ℚ)) T S).sum)
      (fun e => 2 ^ (-53 : ℤ) * (|e.2| * mag b) + b.length * 2 ^ (-1074 : ℤ))
      (fun e => (L * (1 + 2 ^ (-53 : ℤ))) * (|e.2| * mag b) + b.length * (L * 2 ^ (-1074 : ℤ))) inner
  rw [sum_affine', sum_affine', ← action_mul_melem] at outer
  obtain ⟨h1, h2, h3⟩ := outer
  change (inserted a b).length ≤ _ at h1
  change |melem (action (inserted a b)) T S - _| ≤ _ at h2
  change mag (inserted a b) ≤ _ at h3
  have h4 := fold_err' (fun m => melem (monoAct m : Module.End ℚ (Space ι ℚ)) T S) (melem_abs T S) (inserted a b) [] (h1.trans hn)
  rw [← mulD_eq, val_melem, val_melem, val_melem] at h4
  have h0 : melem (action ([] : MMap ι ℚ) : Module.End ℚ (Space ι ℚ)) T S = 0 := by simp [melem]
  have hm0 : mag ([] : MMap ι ℚ) = 0 := by simp [mag]
  rw [h0, hm0, zero_add, zero_add] at h4
  have h5 : (2 * (inserted a b).length * (2 ^ (-53 : ℤ) * mag (inserted a b) + tol) : ℚ) ≤
      2 * (a.length * (b.length * L) : ℕ) *
        (2 ^ (-53 : ℤ) * (L * ((1 + 2 ^ (-53 : ℤ)) * (mag a * mag b) + a.length * b.length * 2 ^ (-1074 : ℤ))) + 100 * 2 ^ (-52 : ℤ)) := by
    have h6 : ((inserted a b).length : ℚ) ≤ (a.length * (b.length * L) : ℕ) := by exact_mod_cast h1
    have h7 : (2 : ℚ) ^ (-53 : ℤ) * mag (inserted a b) + tol ≤
        2 ^ (-53 : ℤ) * (L * ((1 + 2 ^ (-53 : ℤ)) * (mag a * mag b) + a.length * b.length * 2 ^ (-1074 : ℤ))) + 100 * 2 ^ (-52 : ℤ) := by
      have h8 := mul_le_mul_of_nonneg_left h3 (two_zpow_pos (-53)).le
      have h9 : (2 : ℚ) ^ (-53 : ℤ) * (L * (1 + 2 ^ (-53 : ℤ)) * (mag a * mag b) + a.length * (b.length * (L * 2 ^ (-1074 : ℤ)))) =
          2 ^ (-53 : ℤ) * (L * ((1 + 2 ^ (-53 : ℤ)) * (mag a * mag b) + a.length * b.length * 2 ^ (-1074 : ℤ))) := by ring
      rw [h9] at h8
      exact add_le_add h8 le_rfl
    refine mul_le_mul (mul_le_mul_of_nonneg_left h6 (by norm_num)) h7 ?_ (by positivity)
    have := mag_nonneg (inserted a b)
    have := tol_pos
    positivity
  have h10 : (2 : ℚ) ^ (-53 : ℤ) * (mag a * mag b) + a.length * (b.length * 2 ^ (-1074 : ℤ)) =
      2 ^ (-53 : ℤ) * (mag a * mag b) + a.length * b.length * 2 ^ (-1074 : ℤ) := by ring
  rw [h10] at h2
  have h11 := abs_sub_le (melem (action (mulD a b)) T S) (melem (action (inserted a b)) T S) (melem (action a * action b : Module.End ℚ (Space ι ℚ)) T S)
  exact h11.trans (add_le_add (h4.trans h5) h2)

theorem annihilators_bound {a : MMap ι ℚ} {k : ℕ} (h : ∀ e ∈ a, annihilators e.1 ≤ k) (ha : ∀ e ∈ a, NormalOrdered e.1) (b : MMap ι ℚ)
    (hb : ∀ f ∈ b, NormalOrdered f.1) : ∀ e ∈ a, ∀ f ∈ b, ∀ l,
      normTerms (normFuel (e.1 ++ f.1)) (e.1 ++ f.1) (rnd (e.2 * f.2)) = some l → l.length ≤ 2 ^ k := fun e he f hf l hl =>
  (C188_terms e.1 f.1 (ha e he) (hb f hf) _ l hl).trans (Nat.pow_le_pow_right (by norm_num) ((min_le_left _ _).trans (h e he)))

/-- **C188, products of canonical operators.**  For operators as the code stores them, the first with at most `k`
annihilators in every term, the bound of the products with `L = 2^k`, in a simple form: `n = 2^k |a| |b|` terms, and
`5 n (2^-53 2^k ‖a‖ ‖b‖ + 100 epsilon)`. -/
theorem C188_product_canonical (a b : MMap ι ℚ) (k : ℕ) (T S : Finset ι) (ha : ∀ e ∈ a, NormalOrdered e.1) (hb : ∀ f ∈ b, NormalOrdered f.1)
    (hk : ∀ e ∈ a, annihilators e.1 ≤ k) (hn : a.length * (b.length * 2 ^ k) ≤ 2 ^ 52) :
    |melem (action (mulD a b)) T S - melem (action a * action b : Module.End ℚ (Space ι ℚ)) T S| ≤
      5 * (a.length * (b.length * 2 ^ k) : ℕ) * (2 ^ (-53 : ℤ) * (2 ^ k * (mag a * mag b)) + 100 * 2 ^ (-52 : ℤ)) := by
  have h := C188_product a b (2 ^ k) T S (annihilators_bound hk ha b hb) hn
  refine h.trans ?_
  rcases Nat.eq_zero_or_pos (a.length * (b.length * 2 ^ k)) with h0 | h0
  · have : a = [] ∨ b = [] := by
      rcases Nat.mul_eq_zero.1 h0 with h | h
      · exact .inl (List.length_eq_zero_iff.1 h)
      · rcases Nat.mul_eq_zero.1 h with h | h
        · exact .inr (List.length_eq_zero_iff.1 h)
        · exact absurd h (by positivity)
    rcases this with rfl | rfl <;> simp [mag]
  · have hab : ((a.length : ℚ) * b.length) ≤ (a.length * (b.length * 2 ^ k) : ℕ) := by
      push_cast
      have h1 : (1 : ℚ) ≤ 2 ^ k := one_le_pow₀ (by norm_num)
      have h2 : (b.length : ℚ) * 1 ≤ b.length * 2 ^ k := mul_le_mul_of_nonneg_left h1 (by positivity)
      rw [mul_one] at h2
      exact mul_le_mul_of_nonneg_left h2 (by positivity)
    have hN : ((a.length * (b.length * 2 ^ k) : ℕ) : ℚ) ≤ 4503599627370496 := by exact_mod_cast hn
    have hN1 : (1 : ℚ) ≤ (a.length * (b.length * 2 ^ k) : ℕ) := by exact_mod_cast h0
    have hK : ((2 ^ k : ℕ) : ℚ) = 2 ^ k := by push_cast; rfl
    have hk1 : (1 : ℚ) ≤ 2 ^ k := one_le_pow₀ (by norm_num)
    have hM : 0 ≤ mag a * mag b := mul_nonneg (mag_nonneg a) (mag_nonneg b)
    have hpn : (2 : ℚ) ^ k * (a.length * b.length) = (a.length * (b.length * 2 ^ k) : ℕ) := by push_cast; ring
    have htiny : (2 : ℚ) ^ (-1074 : ℤ) ≤ 1 / 2 ^ 200 := by
      have h : (2 : ℚ) ^ (-1074 : ℤ) ≤ 2 ^ (-200 : ℤ) := zpow_le_zpow_right₀ (by norm_num) (by norm_num)
      refine h.trans (le_of_eq ?_)
      norm_num
    have htiny0 : (0 : ℚ) < 2 ^ (-1074 : ℤ) := two_zpow_pos _
    rw [hK, show (2 : ℚ) ^ (-53 : ℤ) = 1 / 9007199254740992 by norm_num, show (2 : ℚ) ^ (-52 : ℤ) = 1 / 4503599627370496 by norm_num]
    have he : (2 : ℚ) ^ k * ((1 + 1 / 9007199254740992) * (mag a * mag b) + a.length * b.length * 2 ^ (-1074 : ℤ)) =
        (1 + 1 / 9007199254740992) * (2 ^ k * (mag a * mag b)) + (2 ^ k * (a.length * b.length)) * 2 ^ (-1074 : ℤ) := by ring
    rw [he, hpn]
    have hG : mag a * mag b ≤ 2 ^ k * (mag a * mag b) := le_mul_of_one_le_left hM hk1
    generalize ((a.length * (b.length * 2 ^ k) : ℕ) : ℚ) = N at *
    generalize (2 : ℚ) ^ (-1074 : ℤ) = η at *
    generalize (2 : ℚ) ^ k * (mag a * mag b) = G at *
    have hG0 : 0 ≤ G := hM.trans hG
    have hNη : N * η ≤ 4503599627370496 * (1 / 2 ^ 200) := mul_le_mul hN htiny htiny0.le (by norm_num)
    have hLη : (a.length : ℚ) * b.length * η ≤ N * η := mul_le_mul_of_nonneg_right hab htiny0.le
    have hNG : G ≤ N * G := le_mul_of_one_le_left hG0 hN1
    generalize N * η = E at *
    generalize (a.length : ℚ) * b.length * η = F at *
    have hE : E ≤ 1 / 4503599627370496 := hNη.trans (by norm_num)
    have hNE : N * E ≤ N * (1 / 4503599627370496) := mul_le_mul_of_nonneg_left hE (by linarith)
    have e1 : 2 * N * (1 / 9007199254740992 * ((1 + 1 / 9007199254740992) * G + E) + 100 * (1 / 4503599627370496)) =
        2 / 9007199254740992 * (1 + 1 / 9007199254740992) * (N * G) + 2 / 9007199254740992 * (N * E) + 200 / 4503599627370496 * N := by ring
    have e2 : 5 * N * (1 / 9007199254740992 * G + 100 * (1 / 4503599627370496)) = 5 / 9007199254740992 * (N * G) + 500 / 4503599627370496 * N := by ring
    rw [e1, e2]
    generalize N * G = Q at *
    generalize N * E = W at *
    linarith

/-- **C188, multiples.**  A multiple is exact up to the rounding of each coefficient, or, if the number is smaller than
`100 epsilon`, it is zero. -/
theorem C188_multiple (a : MMap ι ℚ) (x : ℚ) (T S : Finset ι) :
    |melem (action (smulD a x)) T S - x * melem (action a : Module.End ℚ (Space ι ℚ)) T S| ≤
      if smallD x then 100 * 2 ^ (-52 : ℤ) * mag a else 2 ^ (-53 : ℤ) * (|x| * mag a) + a.length * 2 ^ (-1074 : ℤ) := by
  rw [← val_melem, ← val_melem]
  have hφ := melem_abs T S
  have hφ' : ∀ m, |(fun m => melem (monoAct m : Module.End ℚ (Space ι ℚ)) T S) m| ≤ 1 := hφ
  generalize (fun m => melem (monoAct m : Module.End ℚ (Space ι ℚ)) T S) = φ at hφ' ⊢
  unfold smulD
  by_cases hx : smallD x = true
  · rw [if_pos hx, if_pos hx]
    have hx' : |x| ≤ 100 * 2 ^ (-52 : ℤ) := by
      unfold smallD tol at hx
      rw [decide_eq_true_eq] at hx
      exact abs_le.2 ⟨hx.1.le, hx.2.le⟩
    have h1 : |val φ a| ≤ mag a := by
      clear hφ
      induction a with
      | nil => simp [val, mag]
      | cons e a ih =>
        rw [val_cons, mag_cons]
        have h2 := abs_add_le (e.2 * φ e.1) (val φ a)
        rw [abs_mul] at h2
        have h3 := mul_le_mul_of_nonneg_left (hφ' e.1) (abs_nonneg e.2)
        linarith
    rw [show val φ ([] : MMap ι ℚ) = 0 by simp [val], zero_sub, abs_neg, abs_mul]
    exact mul_le_mul hx' h1 (abs_nonneg _) (mul_nonneg (by norm_num) (two_zpow_pos _).le)
  · rw [if_neg hx, if_neg hx]
    clear hφ
    induction a with
    | nil => simp [val, mag]
    | cons e a ih =>
      rw [List.map_cons, val_cons, val_cons, mag_cons, List.length_cons]
      have hr := rnd_err_abs (e.2 * x)
      rw [show (1 / 9007199254740992 : ℚ) = 2 ^ (-53 : ℤ) by norm_num, abs_mul] at hr
      have h3 := mul_le_mul_of_nonneg_left (hφ' e.1) (abs_nonneg (rnd (e.2 * x) - e.2 * x))
      rw [← abs_mul] at h3
      have h4 : rnd (e.2 * x) * φ e.1 + val φ (a.map fun e => (e.1, rnd (e.2 * x))) - x * (e.2 * φ e.1 + val φ a) =
          (rnd (e.2 * x) - e.2 * x) * φ e.1 + (val φ (a.map fun e => (e.1, rnd (e.2 * x))) - x * val φ a) := by ring
      rw [h4]
      have h5 := abs_add_le ((rnd (e.2 * x) - e.2 * x) * φ e.1) (val φ (a.map fun e => (e.1, rnd (e.2 * x))) - x * val φ a)
      push_cast
      have h6 : (2 : ℚ) ^ (-53 : ℤ) * (|x| * (|e.2| + mag a)) + (a.length + 1) * 2 ^ (-1074 : ℤ) =
          (|e.2| * |x| * 2 ^ (-53 : ℤ) + 2 ^ (-1074 : ℤ)) + (2 ^ (-53 : ℤ) * (|x| * mag a) + a.length * 2 ^ (-1074 : ℤ)) := by ring
      rw [h6]
      generalize (2 : ℚ) ^ (-1074 : ℤ) = η at *
      generalize (2 : ℚ) ^ (-53 : ℤ) = u at *
      linarith

/-- **C188, `==`.**  Operators that are equal for the code have almost the same matrix elements. -/
theorem C188_equal (a b : MMap ι ℚ) (hb : b.length ≤ 2 ^ 52) (h : eqM real a b = true) (T S : Finset ι) :
    |melem (action a) T S - melem (action b : Module.End ℚ (Space ι ℚ)) T S| ≤
      2 * b.length * (2 ^ (-53 : ℤ) * (mag a + mag b) + 100 * 2 ^ (-52 : ℤ)) := by
  have h1 := C188_difference a b hb T S
  rw [eqM, List.isEmpty_iff] at h
  have h0 : melem (action ([] : MMap ι ℚ) : Module.End ℚ (Space ι ℚ)) T S = 0 := by simp [melem]
  rw [h, h0, zero_sub, abs_neg] at h1
  exact h1

/-! ### Examples -/

end

/-- `c_0 c_1 c†_1 c†_0` has four terms, as many as the bound allows -/
example : (normTerms (normFuel ([⟨false, 1⟩, ⟨false, 0⟩] ++ [⟨true, 0⟩, ⟨true, 1⟩] : Mono ℕ)) ([⟨false, 1⟩, ⟨false, 0⟩] ++ [⟨true, 0⟩, ⟨true, 1⟩]) (1 : ℚ)).map List.length = some 4 ∧
    min (annihilators ([⟨false, 1⟩, ⟨false, 0⟩] : Mono ℕ)) (creators ([⟨true, 0⟩, ⟨true, 1⟩] : Mono ℕ)) = 2 := by decide +kernel

/-- a third of a density plus another third -/
example : |melem (action (addM real (num (1 / 3)) (num (1 / 3)))) {0} {0} - (melem (action (num (1 / 3))) {0} {0} + melem (action (num (1 / 3))) {0} {0})| ≤ 1 / 10 ^ 13 := by
  refine (C188_sum (num (1 / 3)) (num (1 / 3)) (by simp [num]) {0} {0}).trans ?_
  norm_num [num, mag]

example : |melem (action (mulD (num 3) (num (1 / 3)))) {0} {0} - melem (action (num 3) * action (num (1 / 3)) : Module.End ℚ (Space ℕ ℚ)) {0} {0}| ≤ 1 / 10 ^ 12 := by
  refine (C188_product_canonical (num 3) (num (1 / 3)) 1 {0} {0} ?_ ?_ ?_ ?_).trans ?_
  · simp [num, NormalOrdered, COp.lt]
  · simp [num, NormalOrdered, COp.lt]
  · simp [num, annihilators]
  · simp [num]
  · norm_num [num, mag]

end Verif.OperatorError
