import Verif.Operators.Model
import Mathlib.Algebra.Algebra.Basic
import Mathlib.Algebra.BigOperators.Group.List.Basic
import Mathlib.Tactic.Ring
import Mathlib.Tactic.Abel
import Mathlib.Tactic.NoncommRing
import Mathlib.Data.List.Sort

/-! Helper lemmas about the operator model: order facts, the sorting loop, and its value
in any representation of the canonical anticommutation relations. -/

namespace Verif.Operators

section order
variable {ι : Type} [LinearOrder ι]

theorem COp.lt_irrefl (a : COp ι) : a.lt a = false := by
  simp [COp.lt]

theorem COp.lt_trans {a b c : COp ι} (h1 : a.lt b = true) (h2 : b.lt c = true) : a.lt c = true := by
  obtain ⟨da, ia⟩ := a; obtain ⟨db, ib⟩ := b; obtain ⟨dc, ic⟩ := c
  cases da <;> cases db <;> cases dc <;> simp [COp.lt] at * <;>
    first
      | exact _root_.lt_trans h1 h2
      | exact _root_.lt_trans h2 h1

theorem COp.lt_trichotomy (a b : COp ι) : a.lt b = true ∨ a = b ∨ b.lt a = true := by
  obtain ⟨da, ia⟩ := a; obtain ⟨db, ib⟩ := b
  rcases _root_.lt_trichotomy ia ib with h | h | h <;>
    cases da <;> cases db <;> simp [COp.lt, h]

theorem COp.lt_asymm {a b : COp ι} (h1 : a.lt b = true) : b.lt a = false := by
  cases h : b.lt a
  · rfl
  · have := COp.lt_trans h1 h
    rw [COp.lt_irrefl] at this; exact this.symm

theorem lexLt_irrefl (m : Mono ι) : lexLt m m = false := by
  induction m with
  | nil => rfl
  | cons a as ih => simp [lexLt, COp.lt_irrefl, ih]

theorem lexLt_trans : ∀ {a b c : Mono ι}, lexLt a b = true → lexLt b c = true → lexLt a c = true
  | [], [], _, h1, _ => by simp [lexLt] at h1
  | [], _ :: _, [], _, h2 => by simp [lexLt] at h2
  | [], _ :: _, _ :: _, _, _ => rfl
  | _ :: _, [], _, h1, _ => by simp [lexLt] at h1
  | _ :: _, _ :: _, [], _, h2 => by simp [lexLt] at h2
  | x :: xs, y :: ys, z :: zs, h1, h2 => by
    rcases COp.lt_trichotomy x y with hxy | hxy | hxy
    · rcases COp.lt_trichotomy y z with hyz | hyz | hyz
      · simp [lexLt, COp.lt_trans hxy hyz]
      · subst hyz; simp [lexLt, hxy]
      · simp [lexLt, COp.lt_asymm hyz, hyz] at h2
    · subst hxy
      simp only [lexLt, COp.lt_irrefl] at h1
      rcases COp.lt_trichotomy x z with hyz | hyz | hyz
      · simp [lexLt, hyz]
      · subst hyz
        simp only [lexLt, COp.lt_irrefl] at h2 ⊢
        simpa using lexLt_trans (by simpa using h1) (by simpa using h2)
      · simp [lexLt, COp.lt_asymm hyz, hyz] at h2
    · simp [lexLt, COp.lt_asymm hxy, hxy] at h1

theorem lexLt_trichotomy : ∀ (a b : Mono ι), lexLt a b = true ∨ a = b ∨ lexLt b a = true
  | [], [] => by simp
  | [], _ :: _ => by simp [lexLt]
  | _ :: _, [] => by simp [lexLt]
  | x :: xs, y :: ys => by
    rcases COp.lt_trichotomy x y with hxy | hxy | hxy
    · simp [lexLt, hxy]
    · subst hxy
      rcases lexLt_trichotomy xs ys with h | h | h <;> simp [lexLt, COp.lt_irrefl, h]
    · simp [lexLt, hxy]

theorem monoLt_irrefl (m : Mono ι) : monoLt m m = false := by
  simp [monoLt, lexLt_irrefl]

theorem monoLt_trans {a b c : Mono ι} (h1 : monoLt a b = true) (h2 : monoLt b c = true) :
    monoLt a c = true := by
  unfold monoLt at *
  by_cases hab : a.length = b.length <;> by_cases hbc : b.length = c.length
  · simp only [hab, hbc, ne_eq, not_true_eq_false, if_false] at *
    exact lexLt_trans h1 h2
  · simp_all
  · simp_all
  · simp only [ne_eq, hab, hbc, not_false_eq_true, if_true, decide_eq_true_eq] at *
    have : a.length ≠ c.length := by omega
    simp [this]; omega

theorem monoLt_trichotomy (a b : Mono ι) : monoLt a b = true ∨ a = b ∨ monoLt b a = true := by
  unfold monoLt
  by_cases hab : a.length = b.length
  · simp only [hab, ne_eq, not_true_eq_false, if_false]
    exact lexLt_trichotomy a b
  · have hba : b.length ≠ a.length := fun h => hab h.symm
    simp only [ne_eq, hab, hba, not_false_eq_true, if_true, decide_eq_true_eq]
    rcases Nat.lt_or_gt_of_ne hab with h | h
    · exact Or.inl h
    · exact Or.inr (Or.inr h)

/-- strictly normal ordered monomial -/
def NormalOrdered (m : Mono ι) : Prop := m.Pairwise (fun a b => a.lt b = true)

end order

/-! ### Number of inversions, the termination measure of the sort -/
section inv
variable {ι : Type} [LinearOrder ι]

def inv : Mono ι → Nat
  | [] => 0
  | x :: xs => xs.countP (fun y => y.lt x) + inv xs

theorem inv_le (m : Mono ι) : inv m ≤ m.length * m.length := by
  induction m with
  | nil => simp [inv]
  | cons x xs ih =>
    have := List.countP_le_length (p := fun y => COp.lt y x) (l := xs)
    simp only [inv, List.length_cons]
    have h2 : (xs.length + 1) * (xs.length + 1) = xs.length * xs.length + 2 * xs.length + 1 := by ring
    omega

theorem inv_swap (pre xs : Mono ι) (a b : COp ι) (h : b.lt a = true) :
    inv (pre ++ b :: a :: xs) < inv (pre ++ a :: b :: xs) := by
  induction pre with
  | nil =>
    have := COp.lt_asymm h
    simp [inv, List.countP_cons, h, this]; omega
  | cons x pre ih =>
    simp only [List.cons_append, inv]
    have : (pre ++ b :: a :: xs).countP (fun y => y.lt x) = (pre ++ a :: b :: xs).countP (fun y => y.lt x) := by
      simp [List.countP_append, List.countP_cons]; omega
    omega

theorem inv_remove (pre xs : Mono ι) (a b : COp ι) (h : b.lt a = true) :
    inv (pre ++ xs) < inv (pre ++ a :: b :: xs) := by
  induction pre with
  | nil => simp [inv, List.countP_cons, h]; omega
  | cons x pre ih =>
    simp only [List.cons_append, inv]
    have : (pre ++ xs).countP (fun y => y.lt x) ≤ (pre ++ a :: b :: xs).countP (fun y => y.lt x) := by
      simp [List.countP_append, List.countP_cons]; omega
    omega

end inv

section passL
variable {ι : Type} [LinearOrder ι] {R : Type} [CommRing R]

theorem pass_emitted_inv (pre : Mono ι) (prev : COp ι) (c : R) (sw : Bool) (xs : Mono ι) :
    ∀ e ∈ (pass pre prev c sw xs).emitted, inv e.1 < inv (pre ++ prev :: xs) := by
  induction xs generalizing pre prev c sw with
  | nil => simp [pass]
  | cons cur xs ih =>
    intro e he
    unfold pass at he
    split at he
    · simp at he
    · split at he
      · rename_i hlt
        have hs := inv_swap pre xs prev cur hlt
        simp only at he
        have key : ∀ e ∈ (pass (pre ++ [cur]) prev (-c) true xs).emitted,
            inv e.1 < inv (pre ++ prev :: cur :: xs) := by
          intro e he
          have := ih (pre ++ [cur]) prev (-c) true e he
          simp only [List.append_assoc, List.singleton_append] at this
          omega
        split at he
        · simp only [List.mem_cons] at he
          rcases he with rfl | he
          · exact inv_remove pre xs prev cur hlt
          · exact key e he
        · exact key e he
      · have := ih (pre ++ [prev]) cur c sw e he
        simpa using this

theorem pass_rest_inv (pre : Mono ι) (prev : COp ι) (c : R) (sw : Bool) (xs : Mono ι)
    (m' : Mono ι) (c' : R) (sw' : Bool) (h : (pass pre prev c sw xs).rest = some (m', c', sw')) :
    inv m' ≤ inv (pre ++ prev :: xs) ∧ (sw' = true → sw = false → inv m' < inv (pre ++ prev :: xs)) := by
  induction xs generalizing pre prev c sw with
  | nil =>
    simp [pass] at h
    obtain ⟨rfl, rfl, rfl⟩ := h
    exact ⟨le_refl _, fun h1 h2 => by simp [h1] at h2⟩
  | cons cur xs ih =>
    unfold pass at h
    split at h
    · simp at h
    · split at h
      · rename_i hlt
        have hs := inv_swap pre xs prev cur hlt
        have h' : (pass (pre ++ [cur]) prev (-c) true xs).rest = some (m', c', sw') := by
          split at h <;> exact h
        have := ih _ _ _ _ h'
        simp only [List.append_assoc, List.singleton_append] at this
        exact ⟨by omega, fun _ _ => by omega⟩
      · have := ih _ _ _ _ h
        simpa using this

/-- A pass that did not swap leaves a sorted monomial untouched. -/
theorem pass_rest_sorted (pre : Mono ι) (prev : COp ι) (c : R) (sw : Bool) (xs : Mono ι)
    (m' : Mono ι) (c' : R) (h : (pass pre prev c sw xs).rest = some (m', c', false)) :
    sw = false ∧ m' = pre ++ prev :: xs ∧ c' = c ∧
      List.IsChain (fun a b => COp.lt a b = true) (prev :: xs) := by
  induction xs generalizing pre prev c sw with
  | nil =>
    simp [pass] at h
    obtain ⟨rfl, rfl, rfl⟩ := h
    simp
  | cons cur xs ih =>
    unfold pass at h
    split at h
    · simp at h
    · rename_i hne
      split at h
      · have h' : (pass (pre ++ [cur]) prev (-c) true xs).rest = some (m', c', false) := by
          split at h <;> exact h
        have := ih _ _ _ _ h'
        simp at this
      · rename_i hlt
        obtain ⟨h1, h2, h3, h4⟩ := ih _ _ _ _ h
        refine ⟨h1, by simpa using h2, h3, ?_⟩
        refine List.IsChain.cons_cons ?_ h4
        rcases COp.lt_trichotomy prev cur with h | h | h
        · exact h
        · exact absurd h hne
        · simp [h] at hlt

/-- coefficients only change sign -/
theorem pass_coeff (pre : Mono ι) (prev : COp ι) (c : R) (sw : Bool) (xs : Mono ι) :
    (∀ e ∈ (pass pre prev c sw xs).emitted, e.2 = c ∨ e.2 = -c) ∧
    (∀ r, (pass pre prev c sw xs).rest = some r → r.2.1 = c ∨ r.2.1 = -c) := by
  induction xs generalizing pre prev c sw with
  | nil => simp [pass]
  | cons cur xs ih =>
    unfold pass
    split
    · simp
    · split
      · obtain ⟨h1, h2⟩ := ih (pre ++ [cur]) prev (-c) true
        simp only [neg_neg] at h1 h2
        simp only
        split
        · refine ⟨?_, fun r hr => (h2 r hr).symm⟩
          intro e he
          simp only [List.mem_cons] at he
          rcases he with rfl | he
          · exact Or.inl rfl
          · exact (h1 e he).symm
        · exact ⟨fun e he => (h1 e he).symm, fun r hr => (h2 r hr).symm⟩
      · exact ih _ _ _ _

end passL

section normL
variable {ι : Type} [LinearOrder ι] {R : Type} [CommRing R]

theorem emit_isSome (fuel : Nat) (es : List (Mono ι × R))
    (h : ∀ e ∈ es, (normTerms fuel e.1 e.2).isSome) : (emitAll (normTerms fuel) es).isSome := by
  induction es with
  | nil => simp [emitAll]
  | cons e es ih =>
    obtain ⟨m, c⟩ := e
    have h1 := h (m, c) (by simp)
    have h2 := ih (fun e he => h e (by simp [he]))
    obtain ⟨l, hl⟩ := Option.isSome_iff_exists.mp h1
    obtain ⟨l', hl'⟩ := Option.isSome_iff_exists.mp h2
    simp only at hl
    simp [emitAll, hl, hl']

theorem normTerms_isSome (fuel : Nat) : ∀ (m : Mono ι) (c : R), inv m < fuel →
    (normTerms fuel m c).isSome := by
  induction fuel with
  | zero => intro m c h; omega
  | succ fuel ih =>
    intro m c h
    cases m with
    | nil => simp [normTerms]
    | cons x xs =>
      have he : (emitAll (normTerms fuel) (pass [] x c false xs).emitted).isSome := by
        apply emit_isSome
        intro e he
        apply ih
        have := pass_emitted_inv [] x c false xs e he
        simp at this; omega
      obtain ⟨l, hl⟩ := Option.isSome_iff_exists.mp he
      simp only [normTerms, hl]
      cases hr : (pass [] x c false xs).rest with
      | none => simp
      | some r =>
        obtain ⟨m', c', sw'⟩ := r
        cases sw' with
        | false => simp
        | true =>
          have := (pass_rest_inv [] x c false xs m' c' true hr).2 rfl rfl
          simp at this
          obtain ⟨l', hl'⟩ := Option.isSome_iff_exists.mp (ih m' c' (by omega))
          simp [hl']

/-- Terms inserted by the sort are strictly normal ordered and carry `±c`. -/
theorem normTerms_normal (fuel : Nat) : ∀ (m : Mono ι) (c : R) (l : List (Mono ι × R)),
    normTerms fuel m c = some l → ∀ e ∈ l, NormalOrdered e.1 ∧ (e.2 = c ∨ e.2 = -c) := by
  induction fuel with
  | zero => intro m c l h; simp [normTerms] at h
  | succ fuel ih =>
    have hemit : ∀ (c : R) (es : List (Mono ι × R)) (l : List (Mono ι × R)),
        (∀ e ∈ es, e.2 = c ∨ e.2 = -c) →
        emitAll (normTerms fuel) es = some l → ∀ e ∈ l, NormalOrdered e.1 ∧ (e.2 = c ∨ e.2 = -c) := by
      intro c es
      induction es with
      | nil => intro l _ h; simp [emitAll] at h; subst h; simp
      | cons e es ihes =>
        obtain ⟨m0, c0⟩ := e
        intro l hc h
        simp only [emitAll] at h
        cases h1 : normTerms fuel m0 c0 with
        | none => simp [h1] at h
        | some l1 =>
          cases h2 : emitAll (normTerms fuel) es with
          | none => simp [h1, h2] at h
          | some l2 =>
            simp [h1, h2] at h
            subst h
            intro e he
            rcases List.mem_append.mp he with he | he
            · obtain ⟨h3, h4⟩ := ih m0 c0 l1 h1 e he
              refine ⟨h3, ?_⟩
              have hc0 := hc (m0, c0) (by simp)
              simp only at hc0
              rcases hc0 with h5 | h5 <;> rcases h4 with h6 | h6 <;> rw [h6, h5] <;> simp
            · exact ihes l2 (fun e he => hc e (by simp [he])) h2 e he
    intro m c l h
    cases m with
    | nil => simp [normTerms] at h; subst h; simp [NormalOrdered]
    | cons x xs =>
      simp only [normTerms] at h
      obtain ⟨hce, hcr⟩ := pass_coeff [] x c false xs
      cases h1 : emitAll (normTerms fuel) (pass [] x c false xs).emitted with
      | none => simp [h1] at h
      | some l1 =>
        have hl1 := hemit c _ l1 hce h1
        simp only [h1] at h
        cases hr : (pass [] x c false xs).rest with
        | none => simp [hr] at h; subst h; exact hl1
        | some r =>
          obtain ⟨m', c', sw'⟩ := r
          have hc' := hcr _ hr
          simp only at hc'
          simp only [hr] at h
          cases sw' with
          | false =>
            simp at h
            subst h
            obtain ⟨_, h2, h3, h4⟩ := pass_rest_sorted [] x c false xs m' c' hr
            intro e he
            rcases List.mem_append.mp he with he | he
            · exact hl1 e he
            · simp at he; subst he
              refine ⟨?_, hc'⟩
              simp at h2
              rw [NormalOrdered, h2]
              have : Trans (fun a b : COp ι => a.lt b = true) (fun a b : COp ι => a.lt b = true)
                  (fun a b : COp ι => a.lt b = true) := ⟨fun h1 h2 => COp.lt_trans h1 h2⟩
              exact List.isChain_iff_pairwise.mp h4
          | true =>
            simp only [if_true] at h
            cases h2 : normTerms fuel m' c' with
            | none => simp [h2] at h
            | some l2 =>
              simp [h2] at h
              subst h
              intro e he
              rcases List.mem_append.mp he with he | he
              · exact hl1 e he
              · obtain ⟨h3, h4⟩ := ih m' c' l2 h2 e he
                refine ⟨h3, ?_⟩
                rcases hc' with h5 | h5 <;> rcases h4 with h6 | h6 <;> rw [h6, h5] <;> simp

end normL
end Verif.Operators
