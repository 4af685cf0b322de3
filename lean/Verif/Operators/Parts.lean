import Verif.Operators.Hamiltonians
import Mathlib.Analysis.Complex.Basic

/-!
# Property C119 and the reality test of C114: real and imaginary parts of operators

Source: `/repo/c++/triqs/operators/many_body_operator.hpp:323-345`, `/repo/python/triqs/operators/util/hamiltonians.py:39-98, 290-310`.

Simplifications: exact complex numbers, as in `Verif.Operators.Model`.
-/

set_option linter.unusedSectionVars false

namespace Verif.Ham
open Verif.Operators Verif.Fock Complex

/-! ## Model -/

section
variable {σ : Type} [DecidableEq σ] {ι : Type} [LinearOrder ι]

/-- `real(op)`, many_body_operator.hpp:328-333. -/
noncomputable def realOp (a : MMap ι ℂ) : MMap ι ℂ := transform (fun _ x => (x.re : ℂ)) a

/-- `imag(op)`, many_body_operator.hpp:340-345. -/
noncomputable def imagOp (a : MMap ι ℂ) : MMap ι ℂ := transform (fun _ x => (x.im : ℂ)) a

/-- `make_operator_real(H, tol)`, hamiltonians.py:308-310; `none` is the `RuntimeError`. -/
noncomputable def makeOperatorReal (a : MMap ι ℂ) (tol : ℝ) : Option (MMap ι ℂ) :=
  if a.any fun e => decide (tol < |e.2.im|) then none else some (realOp a)

/-- `h_int_slater` with the test of the matrix, hamiltonians.py:79-98; `none` is the `RuntimeError`. -/
noncomputable def slaterChecked (cplx : Bool) (mk : σ → ℕ → ι) (sp : List σ) (n : ℕ) (U : ℕ → ℕ → ℕ → ℕ → ℂ) : Option (MMap ι ℂ) :=
  (pairs sp).foldlM (fun H s => (quads n).foldlM (fun H a =>
    if decide (1e-10 < |(U a.1 a.2.1 a.2.2.1 a.2.2.2).im|) && !cplx then none
    else some (add H (slaterTerm mk (fun a b k d => if cplx then U a b k d else ((U a b k d).re : ℂ)) s a))) H) []

end

/-! ## Specification -/

section
variable {ι : Type} [LinearOrder ι]

/-- the operator with the real parts of all coefficients set to zero, as `imag` is documented (many_body_operator.hpp:335,
operators_desc.py:43) -/
noncomputable def documentedImag (a : MMap ι ℂ) : MMap ι ℂ :=
  (a.map fun e => (e.1, (e.2.im : ℂ) * I)).filter fun e => decide (e.2 ≠ 0)

end

/-! ## Proofs -/

section
variable {σ : Type} [DecidableEq σ] {ι : Type} [LinearOrder ι]

theorem transform_action {a : MMap ι ℂ} (ha : Canonical a) (L : Mono ι → ℂ → ℂ) :
    action (transform L a) = (a.map fun e => L e.1 e.2 • monoAct e.1).sum := by
  have key : ∀ (a t : MMap ι ℂ), a.Pairwise (fun e f => monoLt e.1 f.1 = true) → (∀ e ∈ a, ∀ f ∈ t, f.1 ≠ e.1) →
      action (a.foldl (fun t e => if L e.1 e.2 = 0 then t else insertKeep e.1 (L e.1 e.2) t) t) =
        action t + (a.map fun e => L e.1 e.2 • monoAct e.1).sum := by
    intro a
    induction a with
    | nil => intro t _ _; simp
    | cons e a ih =>
      intro t hs hd
      have hs' := List.pairwise_cons.mp hs
      rw [List.foldl_cons, List.map_cons, List.sum_cons]
      by_cases h0 : L e.1 e.2 = 0
      · rw [if_pos h0, ih _ hs'.2 (fun f hf g hg => hd f (by simp [hf]) g hg), h0, zero_smul, zero_add]
      · rw [if_neg h0, ih _ hs'.2, insertKeep_action _ _ _ (hd e (by simp)), add_assoc]
        intro f hf g hg
        rcases mem_insertKeep hg with hg | hg
        · exact hd f (by simp [hf]) g hg
        · rw [hg]
          intro h
          have := hs'.1 f hf
          rw [h, monoLt_irrefl] at this
          cases this
  have := key a [] ha.sorted (by simp)
  rw [transform, this, action_nil, zero_add]

theorem transform_melem {a : MMap ι ℂ} (ha : Canonical a) (L : Mono ι → ℂ → ℂ) (T S : Finset ι) :
    melem (action (transform L a)) T S = (a.map fun e => L e.1 e.2 * melem (monoAct e.1) T S).sum := by
  rw [transform_action ha]
  induction a with
  | nil => simp [melem]
  | cons e a ih =>
    have h := ih ⟨(List.pairwise_cons.mp ha.sorted).2, fun e h => ha.normal e (by simp [h]), fun e h => ha.nonzero e (by simp [h])⟩
    rw [List.map_cons, List.sum_cons, List.map_cons, List.sum_cons, ← h]
    simp [melem]

/-- **C119.** The matrix elements of `real(op)` and `imag(op)` are the real and the imaginary parts of those of the operator. -/
theorem C119_melem (a : MMap ι ℂ) (ha : Canonical a) (T S : Finset ι) :
    melem (action (realOp a)) T S = ((melem (action a) T S).re : ℂ) ∧ melem (action (imagOp a)) T S = ((melem (action a) T S).im : ℂ) := by
  unfold realOp imagOp
  rw [transform_melem ha, transform_melem ha, melem_action]
  clear ha
  induction a with
  | nil => simp
  | cons e a ih =>
    have hr : (melem (monoAct e.1 : Module.End ℂ (Space ι ℂ)) T S).im = 0 := by
      have := melem_monoAct_int (R := ℂ) e.1 T S
      exact conj_eq_iff_im.mp this
    simp only [List.map_cons, List.sum_cons]
    rw [ih.1, ih.2]
    constructor <;> apply Complex.ext <;> simp [hr]

/-- **C119.** An operator is `real(op) + i imag(op)`. -/
theorem C119_sum (a : MMap ι ℂ) (ha : Canonical a) : eqOp a (add (realOp a) (smul (imagOp a) I)) = true := by
  have h1 : Canonical (realOp a) := transform_canonical ha _
  have h2 : Canonical (imagOp a) := transform_canonical ha _
  rw [eqOp_iff_melem ha (add_canonical h1 (smul_canonical h2 _))]
  intro T S
  have h3 : melem (action (add (realOp a) (smul (imagOp a) I))) T S = melem (action (realOp a)) T S + I * melem (action (imagOp a)) T S := by
    rw [add_action, smul_action]
    simp [melem]
  rw [h3, (C119_melem a ha T S).1, (C119_melem a ha T S).2, mul_comm I]
  exact (re_add_im _).symm

/-- **C119.** The real part of a Hermitian operator is Hermitian, its imaginary part is antihermitian. -/
theorem C119_hermitian (a : MMap ι ℂ) (ha : Canonical a) (h : isHermitian a = true) :
    isHermitian (realOp a) = true ∧ eqOp (dagger (imagOp a)) (neg (imagOp a)) = true := by
  have hh : ∀ b : MMap ι ℂ, isHermitian b = eqOp (dagger b) b := by
    intro b
    unfold isHermitian eqOp isZero
    cases sub (dagger b) b <;> simp
  have h1 : Canonical (realOp a) := transform_canonical ha _
  have h2 : Canonical (imagOp a) := transform_canonical ha _
  rw [hh, eqOp_iff_melem (dagger_canonical ha) ha] at h
  have h3 : ∀ T S, star (melem (action a) S T) = melem (action a) T S := by
    intro T S
    rw [← dagger_melem ha, h]
  constructor
  · rw [hh, eqOp_iff_melem (dagger_canonical h1) h1]
    intro T S
    rw [dagger_melem h1, (C119_melem a ha _ _).1, (C119_melem a ha _ _).1, ← h3 T S]
    simp
  · rw [eqOp_iff_melem (dagger_canonical h2) (neg_canonical h2)]
    intro T S
    have h4 : melem (action (neg (imagOp a))) T S = -melem (action (imagOp a)) T S := by
      rw [neg_action]
      simp [melem]
    rw [h4, dagger_melem h2, (C119_melem a ha _ _).2, (C119_melem a ha _ _).2, ← h3 T S]
    simp

/-- **C119.** `make_operator_real` fails exactly when a coefficient has an imaginary part above the tolerance; with the default
tolerance zero it returns the operator itself. -/
theorem C119_make_real (a : MMap ι ℂ) (ha : Canonical a) (tol : ℝ) :
    (makeOperatorReal a tol = none ↔ ∃ e ∈ a, tol < |e.2.im|) ∧
    (∀ b, makeOperatorReal a tol = some b → (∀ T S, (melem (action b) T S).im = 0) ∧ (tol = 0 → eqOp b a = true)) := by
  have h1 : Canonical (realOp a) := transform_canonical ha _
  unfold makeOperatorReal
  constructor
  · simp
  · intro b hb
    split at hb
    · cases hb
    · rename_i hn
      obtain rfl := Option.some.inj hb
      refine ⟨fun T S => by rw [(C119_melem a ha T S).1, ofReal_im], ?_⟩
      rintro rfl
      have hi : ∀ e ∈ a, e.2.im = 0 := by
        intro e he
        by_contra hne
        exact hn (List.any_eq_true.mpr ⟨e, he, decide_eq_true (abs_pos.mpr hne)⟩)
      rw [eqOp_iff_melem h1 ha]
      intro T S
      unfold realOp
      rw [transform_melem ha, melem_action]
      congr 1
      apply List.map_congr_left
      intro e he
      rw [show ((e.2.re : ℝ) : ℂ) = e.2 from Complex.ext (by simp) (by simp [hi e he])]

/-- **C119.** `imag(op)` is not the operator with the real parts set to zero: an imaginary coefficient becomes real. -/
theorem C119_documentation_false : ∃ a : MMap ℕ ℂ, Canonical a ∧ imagOp a ≠ documentedImag a := by
  refine ⟨[([⟨true, 0⟩, ⟨false, 0⟩], 3 * I)], ⟨by simp, ?_, by simp⟩, ?_⟩
  · intro e he
    obtain rfl := List.mem_singleton.mp he
    have h2 : (nOp 0 : MMap ℕ ℚ) = [([⟨true, 0⟩, ⟨false, 0⟩], 1)] := by decide +kernel
    have h3 : Canonical (nOp 0 : MMap ℕ ℚ) := mul_canonical (can_cDag _) (can_c _)
    rw [h2] at h3
    exact h3.normal _ (List.mem_singleton.mpr rfl)
  · intro h
    have h1 : imagOp [([(⟨true, 0⟩ : COp ℕ), ⟨false, 0⟩], 3 * I)] = [([⟨true, 0⟩, ⟨false, 0⟩], 3)] := by
      simp [imagOp, transform, insertKeep]
    have h2 : documentedImag [([(⟨true, 0⟩ : COp ℕ), ⟨false, 0⟩], 3 * I)] = [([⟨true, 0⟩, ⟨false, 0⟩], 3 * I)] := by
      simp [documentedImag]
    rw [h1, h2] at h
    simp only [List.cons.injEq, Prod.mk.injEq, true_and, and_true] at h
    have := congrArg Complex.im h
    simp at this

theorem foldlM_check {α β : Type} (bad : α → Bool) (f : β → α → β) (l : List α) (b : β) :
    l.foldlM (fun b a => if bad a then none else some (f b a)) b = if l.any bad then none else some (l.foldl f b) := by
  induction l generalizing b with
  | nil => rfl
  | cons x l ih =>
    rw [List.foldlM_cons, List.any_cons, List.foldl_cons]
    by_cases h : bad x = true
    · rw [if_pos h, h]
      rfl
    · rw [if_neg h, Bool.eq_false_iff.mpr h]
      exact ih _

/-- **C114.** `h_int_slater` fails exactly when complex matrices are not allowed, there is a spin, and an element of the matrix
has an imaginary part above `1e-10`; otherwise it is the Hamiltonian of the matrix, or of its real part if complex matrices are
not allowed. -/
theorem C114_reality (cplx : Bool) (mk : σ → ℕ → ι) (sp : List σ) (n : ℕ) (U : ℕ → ℕ → ℕ → ℕ → ℂ) :
    (slaterChecked cplx mk sp n U = none ↔ cplx = false ∧ sp ≠ [] ∧ ∃ a < n, ∃ b < n, ∃ k < n, ∃ d < n, 1e-10 < |(U a b k d).im|) ∧
    ∀ H, slaterChecked cplx mk sp n U = some H →
      H = slater mk sp n (fun a b k d => if cplx then U a b k d else ((U a b k d).re : ℂ)) := by
  have h : slaterChecked cplx mk sp n U = if (pairs sp).any (fun _ => (quads n).any fun a => decide (1e-10 < |(U a.1 a.2.1 a.2.2.1 a.2.2.2).im|) && !cplx)
      then none else some (slater mk sp n (fun a b k d => if cplx then U a b k d else ((U a b k d).re : ℂ))) := by
    unfold slaterChecked
    simp only [foldlM_check]
    rfl
  rw [h]
  constructor
  · have : ((pairs sp).any (fun _ => (quads n).any fun a => decide (1e-10 < |(U a.1 a.2.1 a.2.2.1 a.2.2.2).im|) && !cplx)) = true ↔
        cplx = false ∧ sp ≠ [] ∧ ∃ a < n, ∃ b < n, ∃ k < n, ∃ d < n, 1e-10 < |(U a b k d).im| := by
      rw [List.any_eq_true]
      constructor
      · rintro ⟨p, hp, hq⟩
        obtain ⟨a, ha, hb⟩ := List.any_eq_true.mp hq
        simp only [Bool.and_eq_true, decide_eq_true_eq, Bool.not_eq_true'] at hb
        refine ⟨hb.2, ?_, ?_⟩
        · rintro rfl
          simp [pairs] at hp
        · simp only [quads, List.mem_flatMap, List.mem_map, List.mem_range] at ha
          obtain ⟨a, ha, b, hb', k, hk, d, hd, rfl⟩ := ha
          exact ⟨a, ha, b, hb', k, hk, d, hd, hb.1⟩
      · rintro ⟨h1, h2, a, ha, b, hb, k, hk, d, hd, h3⟩
        obtain ⟨s, l, rfl⟩ := List.exists_cons_of_ne_nil h2
        refine ⟨(s, s), by simp [pairs], List.any_eq_true.mpr ⟨(a, b, k, d), ?_, ?_⟩⟩
        · simp only [quads, List.mem_flatMap, List.mem_map, List.mem_range]
          exact ⟨a, ha, b, hb, k, hk, d, hd, rfl⟩
        · simp only [Bool.and_eq_true, decide_eq_true_eq, Bool.not_eq_true']
          exact ⟨h3, h1⟩
    rw [← this]
    split_ifs with h <;> simp [h]
  · intro H hH
    split at hH
    · cases hH
    · exact (Option.some.inj hH).symm

end

/-! ### Examples -/

-- (2 + 3i) c†_0 c_0 has the parts 2 c†_0 c_0 and 3 c†_0 c_0
example : realOp [([(⟨true, 0⟩ : COp ℕ), ⟨false, 0⟩], 2 + 3 * I)] = [([⟨true, 0⟩, ⟨false, 0⟩], 2)] ∧
    imagOp [([(⟨true, 0⟩ : COp ℕ), ⟨false, 0⟩], 2 + 3 * I)] = [([⟨true, 0⟩, ⟨false, 0⟩], 3)] := by
  simp [realOp, imagOp, transform, insertKeep]

example : makeOperatorReal [([(⟨true, 0⟩ : COp ℕ), ⟨false, 0⟩], 2 + 3 * I)] 1 = none ∧
    makeOperatorReal [([(⟨true, 0⟩ : COp ℕ), ⟨false, 0⟩], 2 + 3 * I)] 4 = some [([⟨true, 0⟩, ⟨false, 0⟩], 2)] := by
  constructor
  · have : (1 : ℝ) < |3| := by norm_num
    simp [makeOperatorReal, this]
  · have : (3 : ℝ) ≤ 4 := by norm_num
    simp [makeOperatorReal, this, realOp, transform, insertKeep]

-- an imaginary interaction is refused unless complex matrices are allowed
example : slaterChecked false exMk [0, 1] 1 (fun _ _ _ _ => I) = none ∧ slaterChecked true exMk [0, 1] 1 (fun _ _ _ _ => I) ≠ none := by
  constructor
  · rw [(C114_reality _ _ _ _ _).1]
    refine ⟨rfl, by simp, 0, by norm_num, 0, by norm_num, 0, by norm_num, 0, by norm_num, ?_⟩
    simp
    norm_num
  · intro h
    rw [(C114_reality _ _ _ _ _).1] at h
    exact Bool.noConfusion h.1

end Verif.Ham
