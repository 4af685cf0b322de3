import Verif.Operators.Lemmas
import Verif.Operators.Fock

/-!
# Meaning of the stored operator, and its preservation by the code

`action a` is the linear map on Fock space represented by the stored monomials.
-/

namespace Verif.Operators
open Verif.Fock

variable {ι : Type} [LinearOrder ι] {R : Type} [CommRing R]

/-- Specification: the linear map of one elementary operator. -/
noncomputable def opAct (x : COp ι) : Module.End R (Space ι R) :=
  if x.dagger then create x.idx else annihilate x.idx

/-- Specification: a monomial is the product of its factors. -/
noncomputable def monoAct (m : Mono ι) : Module.End R (Space ι R) := (m.map opAct).prod

/-- Specification: an operator is the linear combination of its monomials. -/
noncomputable def action (a : MMap ι R) : Module.End R (Space ι R) :=
  (a.map (fun e => e.2 • monoAct e.1)).sum

@[simp] theorem action_nil : action ([] : MMap ι R) = 0 := rfl
@[simp] theorem action_cons (e : Mono ι × R) (a : MMap ι R) :
    action (e :: a) = e.2 • monoAct e.1 + action a := by simp [action]
@[simp] theorem action_append (a b : MMap ι R) : action (a ++ b) = action a + action b := by
  simp [action]
@[simp] theorem monoAct_nil : monoAct (R := R) ([] : Mono ι) = 1 := rfl
@[simp] theorem monoAct_cons (x : COp ι) (m : Mono ι) :
    monoAct (R := R) (x :: m) = opAct x * monoAct m := by simp [monoAct]
@[simp] theorem monoAct_append (a b : Mono ι) :
    monoAct (R := R) (a ++ b) = monoAct a * monoAct b := by simp [monoAct]

theorem opAct_sq (x : COp ι) : (opAct x * opAct x : Module.End R (Space ι R)) = 0 := by
  unfold opAct
  split
  · exact create_sq _
  · exact annihilate_sq _

theorem opAct_contract (a b : COp ι) (hlt : b.lt a = true) (h : a = ⟨!b.dagger, b.idx⟩) :
    (opAct a * opAct b : Module.End R (Space ι R)) = 1 - opAct b * opAct a := by
  obtain ⟨d, i⟩ := b
  subst h
  cases d <;> simp [COp.lt] at hlt
  simp [opAct, annihilate_create_self]

theorem opAct_anti (a b : COp ι) (h : a ≠ ⟨!b.dagger, b.idx⟩) :
    (opAct a * opAct b : Module.End R (Space ι R)) = - (opAct b * opAct a) := by
  obtain ⟨db, j⟩ := b
  obtain ⟨da, i⟩ := a
  cases da <;> cases db <;> simp [opAct] at h ⊢
  · exact annihilate_anti i j
  · exact annihilate_create_ne i j h
  · rw [annihilate_create_ne j i (fun e => h e.symm), neg_neg]
  · exact create_anti i j

theorem neg_smul_end (c : R) (A : Module.End R (Space ι R)) : (-c) • A = -(c • A) := by
  ext f T; simp

theorem smul_neg_end (c : R) (A : Module.End R (Space ι R)) : c • (-A) = -(c • A) := by
  ext f T; simp

theorem mul_neg_end (A B : Module.End R (Space ι R)) : A * (-B) = -(A * B) := by
  ext f T; simp [Module.End.mul_apply]

theorem neg_mul_end (A B : Module.End R (Space ι R)) : (-A) * B = -(A * B) := by
  ext f T; simp [Module.End.mul_apply]

/-- value of what one pass leaves behind -/
noncomputable def restAct : Option (Mono ι × R × Bool) → Module.End R (Space ι R)
  | none => 0
  | some (m, c, _) => c • monoAct m

theorem pass_action (pre : Mono ι) (prev : COp ι) (c : R) (sw : Bool) (xs : Mono ι) :
    action (pass pre prev c sw xs).emitted + restAct (pass pre prev c sw xs).rest
      = c • monoAct (pre ++ prev :: xs) := by
  induction xs generalizing pre prev c sw with
  | nil => simp [pass, restAct]
  | cons cur xs ih =>
    unfold pass
    split
    · rename_i h; subst h
      have := opAct_sq (R := R) prev
      simp only [action_nil, restAct, monoAct_append, monoAct_cons, ← mul_assoc, add_zero]
      rw [mul_assoc (monoAct pre), this]
      simp
    · split
      · rename_i hlt
        have h1 := ih (pre ++ [cur]) prev (-c) true
        simp only
        split
        · rename_i hc
          have h2 := opAct_contract (R := R) prev cur hlt hc
          simp only [action_cons]
          rw [add_assoc, h1]
          simp only [monoAct_append, monoAct_cons, monoAct_nil, mul_one, ← mul_assoc]
          rw [mul_assoc (monoAct pre) (opAct prev), h2, mul_sub, mul_one, sub_mul, smul_sub,
            neg_smul_end, ← sub_eq_add_neg]
          simp only [mul_assoc]
        · rename_i hc
          have h2 := opAct_anti (R := R) prev cur hc
          rw [h1]
          simp only [monoAct_append, monoAct_cons, monoAct_nil, mul_one, ← mul_assoc]
          rw [mul_assoc (monoAct pre) (opAct prev), h2]
          simp only [neg_smul_end, mul_neg_end, neg_mul_end, smul_neg_end, mul_assoc]
      · have h1 := ih (pre ++ [prev]) cur c sw
        simpa using h1

theorem normTerms_action (fuel : Nat) : ∀ (m : Mono ι) (c : R) (l : List (Mono ι × R)),
    normTerms fuel m c = some l → action l = c • monoAct m := by
  induction fuel with
  | zero => intro m c l h; simp [normTerms] at h
  | succ fuel ih =>
    have hemit : ∀ (es : List (Mono ι × R)) (l : List (Mono ι × R)),
        emitAll (normTerms fuel) es = some l → action l = action es := by
      intro es
      induction es with
      | nil => intro l h; simp [emitAll] at h; subst h; rfl
      | cons e es ihes =>
        obtain ⟨m0, c0⟩ := e
        intro l h
        simp only [emitAll] at h
        cases h1 : normTerms fuel m0 c0 with
        | none => simp [h1] at h
        | some l1 =>
          cases h2 : emitAll (normTerms fuel) es with
          | none => simp [h1, h2] at h
          | some l2 =>
            simp [h1, h2] at h
            subst h
            simp [ih m0 c0 l1 h1, ihes l2 h2]
    intro m c l h
    cases m with
    | nil => simp [normTerms] at h; subst h; simp
    | cons x xs =>
      have hp := pass_action [] x c false xs
      simp only [normTerms] at h
      cases h1 : emitAll (normTerms fuel) (pass [] x c false xs).emitted with
      | none => simp [h1] at h
      | some l1 =>
        have hl1 := hemit _ l1 h1
        simp only [h1] at h
        simp only [List.nil_append] at hp
        rw [← hp]
        cases hr : (pass [] x c false xs).rest with
        | none => simp [hr] at h; subst h; simp [restAct, hl1]
        | some r =>
          obtain ⟨m', c', sw'⟩ := r
          simp only [hr] at h
          cases sw' with
          | false =>
            simp at h
            subst h
            simp [restAct, hl1]
          | true =>
            simp only [if_true] at h
            cases h2 : normTerms fuel m' c' with
            | none => simp [h2] at h
            | some l2 =>
              simp [h2] at h
              subst h
              simp [restAct, hl1, ih m' c' l2 h2]

variable [DecidableEq R]

theorem insertAdd_action (m : Mono ι) (c : R) (t : MMap ι R) :
    action (insertAdd m c t) = action t + c • monoAct m := by
  induction t with
  | nil => simp [insertAdd]
  | cons e t ih =>
    obtain ⟨m', c'⟩ := e
    unfold insertAdd
    split
    · rename_i h; subst h
      split
      · rename_i h0
        rw [action_cons, add_right_comm, ← add_smul, h0]; simp
      · simp [add_smul]; abel
    · split
      · simp; abel
      · simp [ih]; abel

theorem foldl_insertAdd_action (l : List (Mono ι × R)) (t : MMap ι R) :
    action (l.foldl (fun t e => insertAdd e.1 e.2 t) t) = action t + action l := by
  induction l generalizing t with
  | nil => simp
  | cons e l ih => simp [ih, insertAdd_action]; abel

theorem normalizeAndInsert_action (m : Mono ι) (c : R) (t : MMap ι R) :
    action (normalizeAndInsert m c t) = action t + c • monoAct m := by
  unfold normalizeAndInsert
  obtain ⟨l, hl⟩ := Option.isSome_iff_exists.mp
    (normTerms_isSome (normFuel m) m c (by have := inv_le m; unfold normFuel; omega))
  rw [hl]
  simp only
  rw [foldl_insertAdd_action, normTerms_action _ _ _ _ hl]

theorem add_action (a b : MMap ι R) : action (add a b) = action a + action b :=
  foldl_insertAdd_action b a

theorem sub_action (a b : MMap ι R) : action (sub a b) = action a - action b := by
  unfold sub
  induction b generalizing a with
  | nil => simp
  | cons e b ih => simp [ih, insertAdd_action, neg_smul_end]; abel

theorem neg_action (a : MMap ι R) : action (neg a) = - action a := by
  unfold neg
  induction a with
  | nil => simp
  | cons e a ih => simp [ih, neg_smul_end]; abel

theorem smul_action (a : MMap ι R) (x : R) : action (smul a x) = x • action a := by
  unfold smul
  split
  · rename_i h; simp [h]
  · induction a with
    | nil => simp
    | cons e a ih => simp [ih, mul_smul, smul_comm x]

theorem ofScalar_action (x : R) : action (ofScalar x : MMap ι R) = x • 1 := by
  unfold ofScalar
  split
  · rename_i h; simp [h]
  · simp

theorem addScalar_action (a : MMap ι R) (x : R) : action (addScalar a x) = action a + x • 1 := by
  unfold addScalar
  split
  · rename_i h; simp [h]
  · simp [insertAdd_action]

theorem mul_action (a b : MMap ι R) : action (mul a b) = action a * action b := by
  have inner : ∀ (e : Mono ι × R) (b t : MMap ι R),
      action (b.foldl (fun t f => normalizeAndInsert (e.1 ++ f.1) (e.2 * f.2) t) t)
        = action t + (e.2 • monoAct e.1) * action b := by
    intro e b
    induction b with
    | nil => intro t; simp
    | cons f b ih =>
      intro t
      simp only [List.foldl_cons, ih, normalizeAndInsert_action, action_cons, monoAct_append, mul_add,
        smul_mul_smul_comm]
      abel
  have outer : ∀ (a t : MMap ι R),
      action (a.foldl (fun t e => b.foldl (fun t f => normalizeAndInsert (e.1 ++ f.1) (e.2 * f.2) t) t) t)
        = action t + action a * action b := by
    intro a
    induction a with
    | nil => intro t; simp
    | cons e a ih =>
      intro t
      simp only [List.foldl_cons, ih, inner, action_cons, add_mul]
      abel
  have := outer a []
  simpa [mul] using this

end Verif.Operators
