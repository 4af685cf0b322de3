import Mathlib.Data.List.GetD
import Mathlib.Analysis.SpecialFunctions.Pow.Real
import Mathlib.Data.Complex.BigOperators
import Mathlib.Algebra.BigOperators.Group.Finset.Sigma
import Mathlib.Algebra.BigOperators.Group.List.Basic
import Mathlib.Data.List.Sort
import Mathlib.Tactic.Linarith
import Mathlib.Tactic.NormNum

/-!
# Property C137: fitting a discrete bath

Sources: `/repo/python/triqs/gf/tools.py` (`discretize_bath`).

The minimiser of scipy is not modelled: the properties are about what it is given (the start values and the function of the
packed parameters) and about the result made from its answer.

Simplifications: exact real numbers; the Cholesky factor is a parameter; arrays are functions of their indices with sizes.
-/

namespace Verif.BathFit

/-! ## Model -/

inductive Err where
  | assertion
  | value
  | linalg
deriving DecidableEq

/-- a hopping matrix of `n` orbitals and `b` bath levels -/
inductive Hop where
  | real (v : ℕ → ℕ → ℝ)
  | complex (v : ℕ → ℕ → ℂ)

/-- the entries, in the order of `flatten` -/
def rows {α : Type} (n b : ℕ) (v : ℕ → ℕ → List α) : List α := (List.range n).flatMap fun i => (List.range b).flatMap fun j => v i j

/-- `V0.view(float).flatten()`, line 478: a complex number is its real and its imaginary part -/
noncomputable def flat (n b : ℕ) : Hop → List ℝ
  | .real v => rows n b fun i j => [v i j]
  | .complex v => rows n b fun i j => [(v i j).re, (v i j).im]

/-- line 478 -/
noncomputable def pack (n b : ℕ) (V : Hop) (eps : List ℝ) : List ℝ := flat n b V ++ eps

/-- `unflatten`, lines 408-416. `view(complex)` needs an even number of elements, `reshape` the right number. -/
noncomputable def unflatten (cmplx : Bool) (n b : ℕ) (x : List ℝ) : Except Err ((ℕ → ℕ → ℂ) × List ℝ) :=
  if cmplx then
    let h := x.take (2 * b * n)
    if h.length % 2 ≠ 0 then .error .value
    else if h.length / 2 ≠ n * b then .error .value
    else .ok (fun i j => ⟨h.getD (2 * (i * b + j)) 0, h.getD (2 * (i * b + j) + 1) 0⟩, x.drop (2 * b * n))
  else
    let h := x.take (b * n)
    if h.length ≠ n * b then .error .value
    else .ok (fun i j => (h.getD (i * b + j) 0 : ℝ), x.drop (b * n))

/-- the arguments of `make_delta` in the function that is minimised, lines 421-424, with the assertion of line 313 -/
noncomputable def arguments (cmplx : Bool) (n b : ℕ) (x : List ℝ) : Except Err ((ℕ → ℕ → ℂ) × List ℝ) := do
  let r ← unflatten cmplx n b x
  if b ≠ r.2.length then .error .assertion else .ok r

/-- the columns of lines 466-467: `L` is the Cholesky factor -/
noncomputable def guess (n b : ℕ) (L : ℕ → ℕ → ℂ) (i j : ℕ) : ℂ :=
  L i (j % n) / (Real.sqrt (((List.range b).map (fun k => k % n)).count (j % n)) : ℝ)

/-- the argument `V0` -/
inductive V0Arg where
  | array (V : Hop) (rows cols : ℕ)
  | float (x : ℝ)
  | complex (x : ℂ)
  | none
  | other

/-- lines 442-469. `scalar`: the function is scalar-valued, for which line 459 raises a `LinAlgError`. `L` is the Cholesky
factor of the moment, `none` if it is not positive definite, and `Lreal` says if numpy returns it as real numbers, as it does
for the real data of a function of imaginary time. -/
noncomputable def initial (scalar : Bool) (n b : ℕ) (cmplx : Bool) (L : Option (ℕ → ℕ → ℂ)) (Lreal : Bool) : V0Arg → Except Err Hop
  | .array V r c => if r = n ∧ c = b then .ok V else .error .assertion
  | .float x => .ok (.real fun _ _ => x)
  | .complex x => if cmplx then .ok (.complex fun _ _ => x) else .error .value
  | .none =>
    if scalar then .error .linalg
    else match L with
      | Option.none => .error .linalg
      | some L =>
        if !cmplx then .ok (.real fun i j => (guess n b (fun i j => ((L i j).re : ℂ)) i j).re)
        else if Lreal then .ok (.real fun i j => (guess n b L i j).re)
        else .ok (.complex (guess n b L))
  | .other => .error .value

/-- the argument `eps0`, lines 472-475 -/
inductive E0Arg where
  | list (e : List ℝ)
  | number (w : ℝ)

noncomputable def energies (b : ℕ) : E0Arg → Except Err (List ℝ)
  | .list e => if e.length = b then .ok e else .error .assertion
  | .number w => .ok ((List.range b).map fun i : ℕ => if b ≤ 1 then -w else -w + i * (2 * w / ((b : ℝ) - 1)))

/-- the first evaluation of the function that is minimised -/
noncomputable def start (scalar : Bool) (n b : ℕ) (cmplx : Bool) (L : Option (ℕ → ℕ → ℂ)) (Lreal : Bool) (V0 : V0Arg) (eps0 : E0Arg) :
    Except Err ((ℕ → ℕ → ℂ) × List ℝ) := do
  let V ← initial scalar n b cmplx L Lreal V0
  let e ← energies b eps0
  arguments cmplx n b (pack n b V e)

open Classical in
/-- `numpy.argsort`, line 504 -/
noncomputable def order (b : ℕ) (eps : ℕ → ℝ) : List ℕ := (List.range b).mergeSort (fun i j => decide (eps i ≤ eps j))

/-- the result made from the answer of the minimiser, lines 504-508: energies and hoppings in the new order -/
noncomputable def result (b : ℕ) (V : ℕ → ℕ → ℂ) (eps : ℕ → ℝ) : (ℕ → ℕ → ℂ) × (ℕ → ℝ) :=
  (fun i j => V i ((order b eps).getD j 0), fun j => eps ((order b eps).getD j 0))

/-! ## Specification -/

/-- the hybridisation of levels with the hoppings `V` and the energies `eps`, for any function `one` of the energy -/
noncomputable def hyb (b : ℕ) (V : ℕ → ℕ → ℂ) (eps : ℕ → ℝ) (one : ℝ → ℂ) (k l : ℕ) : ℂ :=
  ∑ j ∈ Finset.range b, V k j * one (eps j) * star (V l j)

/-- the hopping matrix as complex numbers -/
def Hop.val : Hop → ℕ → ℕ → ℂ
  | .real v => fun i j => (v i j : ℂ)
  | .complex v => v

def Hop.isComplex : Hop → Bool
  | .real _ => false
  | .complex _ => true

/-! ## Proofs -/

theorem length_flatMap_const {α : Type} (l : List ℕ) (f : ℕ → List α) (c : ℕ) (h : ∀ i, (f i).length = c) :
    (l.flatMap f).length = l.length * c := by
  induction l with
  | nil => simp
  | cons a l ih => rw [List.flatMap_cons, List.length_append, h, ih, List.length_cons]; ring

theorem rows_length {α : Type} (n b c : ℕ) (v : ℕ → ℕ → List α) (h : ∀ i j, (v i j).length = c) : (rows n b v).length = n * (b * c) := by
  unfold rows
  rw [length_flatMap_const _ _ (b * c), List.length_range]
  intro i
  rw [length_flatMap_const _ _ c (h i), List.length_range]

theorem flatMap_get {α : Type} (n c : ℕ) (f : ℕ → List α) (h : ∀ i, (f i).length = c) (i k : ℕ) (hi : i < n) (hk : k < c) (d : α) :
    ((List.range n).flatMap f).getD (i * c + k) d = (f i).getD k d := by
  induction n with
  | zero => omega
  | succ n ih =>
    rw [List.range_succ, List.flatMap_append, List.getD_eq_getElem?_getD, List.getElem?_append]
    have hl : ((List.range n).flatMap f).length = n * c := by rw [length_flatMap_const _ _ c h, List.length_range]
    rw [hl]
    by_cases h1 : i < n
    · have : i * c + k < n * c := by
        have : (i + 1) * c ≤ n * c := Nat.mul_le_mul_right c h1
        nlinarith
      rw [if_pos this, ← List.getD_eq_getElem?_getD, ih h1]
    · have : i = n := by omega
      subst this
      rw [if_neg (by omega)]
      simp [List.getD_eq_getElem?_getD]

theorem rows_get {α : Type} (n b c : ℕ) (v : ℕ → ℕ → List α) (h : ∀ i j, (v i j).length = c) (i j k : ℕ) (hi : i < n) (hj : j < b)
    (hk : k < c) (d : α) : (rows n b v).getD (c * (i * b + j) + k) d = (v i j).getD k d := by
  unfold rows
  have h1 : ∀ i, ((List.range b).flatMap fun j => v i j).length = b * c := by
    intro i; rw [length_flatMap_const _ _ c (h i), List.length_range]
  have : c * (i * b + j) + k = i * (b * c) + (j * c + k) := by ring
  rw [this, flatMap_get n (b * c) _ h1 i (j * c + k) hi (by
    have : (j + 1) * c ≤ b * c := Nat.mul_le_mul_right c hj
    nlinarith)]
  exact flatMap_get b c _ (h i) j k hj hk d

/-- C137: if the hoppings are complex exactly when complex hoppings are asked for, the function that is minimised gets back
the hoppings and energies that were packed. -/
theorem C137_roundtrip (n b : ℕ) (V : Hop) (eps : List ℝ) (he : eps.length = b) :
    ∃ W, arguments V.isComplex n b (pack n b V eps) = .ok (W, eps) ∧ ∀ i < n, ∀ j < b, W i j = V.val i j := by
  cases V with
  | real v =>
    have hl : (flat n b (.real v)).length = b * n := by
      rw [flat, rows_length n b 1 _ (by simp)]; ring
    have ht : (pack n b (.real v) eps).take (b * n) = flat n b (.real v) := by unfold pack; rw [← hl]; simp
    have hd : (pack n b (.real v) eps).drop (b * n) = eps := by unfold pack; rw [← hl]; simp
    refine ⟨fun i j => ((flat n b (.real v)).getD (i * b + j) 0 : ℝ), ?_, ?_⟩
    · simp only [arguments, unflatten, Hop.isComplex, ht, hd, hl, mul_comm n b, ne_eq, not_true_eq_false, if_false, bind, Except.bind, he,
        Bool.false_eq_true]
    · intro i hi j hj
      have := rows_get n b 1 (fun i j => [v i j]) (by simp) i j 0 hi hj (by norm_num) (0 : ℝ)
      rw [one_mul, add_zero] at this
      simp only [flat, Hop.val, this]
      simp
  | complex v =>
    have hl : (flat n b (.complex v)).length = 2 * b * n := by
      rw [flat, rows_length n b 2 _ (by simp)]; ring
    have ht : (pack n b (.complex v) eps).take (2 * b * n) = flat n b (.complex v) := by unfold pack; rw [← hl]; simp
    have hd : (pack n b (.complex v) eps).drop (2 * b * n) = eps := by unfold pack; rw [← hl]; simp
    refine ⟨fun i j => ⟨(flat n b (.complex v)).getD (2 * (i * b + j)) 0, (flat n b (.complex v)).getD (2 * (i * b + j) + 1) 0⟩, ?_, ?_⟩
    · have h2 : 2 * b * n % 2 = 0 := by rw [mul_assoc]; exact Nat.mul_mod_right 2 _
      have h3 : 2 * b * n / 2 = n * b := by rw [mul_assoc, Nat.mul_div_cancel_left _ (by norm_num), mul_comm]
      simp only [arguments, unflatten, Hop.isComplex, ht, hd, hl, h2, h3, ne_eq, not_true_eq_false, if_false, bind, Except.bind, he, if_true]
    · intro i hi j hj
      have h0 := rows_get n b 2 (fun i j => [(v i j).re, (v i j).im]) (by simp) i j 0 hi hj (by norm_num) (0 : ℝ)
      have h1 := rows_get n b 2 (fun i j => [(v i j).re, (v i j).im]) (by simp) i j 1 hi hj (by norm_num) (0 : ℝ)
      rw [add_zero] at h0
      simp only [flat, Hop.val, h0, h1]
      simp

/-- C137: otherwise the first evaluation fails. -/
theorem C137_mismatch (cmplx : Bool) (n b : ℕ) (hn : 0 < n) (hb : 0 < b) (V : Hop) (eps : List ℝ) (he : eps.length = b)
    (h : V.isComplex ≠ cmplx) : ∃ e, arguments cmplx n b (pack n b V eps) = .error e := by
  cases V with
  | real v =>
    have hc : cmplx = true := by cases cmplx <;> simp_all [Hop.isComplex]
    subst hc
    have hl : (pack n b (.real v) eps).length = n * b + b := by
      unfold pack; rw [List.length_append, flat, rows_length n b 1 _ (by simp), he, mul_one]
    simp only [arguments, unflatten, if_true]
    by_cases h1 : (List.take (2 * b * n) (pack n b (.real v) eps)).length % 2 = 0
    · by_cases h2 : (List.take (2 * b * n) (pack n b (.real v) eps)).length / 2 = n * b
      · refine ⟨.assertion, ?_⟩
        have h3 : b ≠ (List.drop (2 * b * n) (pack n b (.real v) eps)).length := by
          rw [List.length_drop, hl]
          have : b * n ≥ b := Nat.le_mul_of_pos_right b hn
          have : n * b = b * n := mul_comm _ _
          have : 2 * b * n = 2 * (b * n) := by ring
          omega
        simp only [h1, h2, ne_eq, not_true_eq_false, if_false, bind, Except.bind]
        rw [if_pos h3]
      · exact ⟨.value, by simp only [h1, h2, bind, Except.bind, ne_eq, not_true_eq_false, not_false_eq_true, if_true, if_false]⟩
    · exact ⟨.value, by simp only [h1, bind, Except.bind, ne_eq, not_false_eq_true, if_true]⟩
  | complex v =>
    have hc : cmplx = false := by cases cmplx <;> simp_all [Hop.isComplex]
    subst hc
    have hl : (pack n b (.complex v) eps).length = 2 * (n * b) + b := by
      unfold pack; rw [List.length_append, flat, rows_length n b 2 _ (by simp), he]; ring
    simp only [arguments, unflatten, Bool.false_eq_true, if_false]
    by_cases h1 : (List.take (b * n) (pack n b (.complex v) eps)).length = n * b
    · refine ⟨.assertion, ?_⟩
      have h3 : b ≠ (List.drop (b * n) (pack n b (.complex v) eps)).length := by
        rw [List.length_drop, hl]
        have : 0 < b * n := Nat.mul_pos hb hn
        have : n * b = b * n := mul_comm _ _
        omega
      simp only [h1, ne_eq, not_true_eq_false, if_false, bind, Except.bind]
      rw [if_pos h3]
    · exact ⟨.value, by simp only [h1, bind, Except.bind, ne_eq, not_false_eq_true, if_true]⟩

theorem energies_length {b : ℕ} {E : E0Arg} {e : List ℝ} (h : energies b E = .ok e) : e.length = b := by
  cases E with
  | list l =>
    by_cases h1 : l.length = b
    · simp only [energies, h1, if_true, Except.ok.injEq] at h; rw [← h]; exact h1
    · simp [energies, h1] at h
  | number w => simp only [energies, Except.ok.injEq] at h; rw [← h]; simp

/-- C137: a number as `eps0` stands for levels at equal distances from `-eps0` to `eps0`. -/
theorem C137_grid (b : ℕ) (hb : 2 ≤ b) (w : ℝ) : ∃ e, energies b (.number w) = .ok e ∧ e.length = b ∧ e.getD 0 0 = -w ∧ e.getD (b - 1) 0 = w ∧
    ∀ i, i + 2 < b → e.getD (i + 2) 0 - e.getD (i + 1) 0 = e.getD (i + 1) 0 - e.getD i 0 := by
  have hb1 : (b : ℝ) - 1 ≠ 0 := by
    have : (2 : ℝ) ≤ b := by exact_mod_cast hb
    linarith
  refine ⟨_, rfl, by simp, ?_⟩
  have g : ∀ i < b, ((List.range b).map fun i : ℕ => if b ≤ 1 then -w else -w + i * (2 * w / ((b : ℝ) - 1))).getD i 0 = -w + i * (2 * w / ((b : ℝ) - 1)) := by
    intro i hi
    rw [List.getD_eq_getElem _ _ (by simpa using hi), List.getElem_map, List.getElem_range, if_neg (by omega)]
  refine ⟨?_, ?_, fun i hi => ?_⟩
  · rw [g 0 (by omega)]; simp
  · rw [g (b - 1) (by omega), Nat.cast_sub (by omega)]
    push_cast
    field_simp
    ring
  · rw [g (i + 2) hi, g (i + 1) (by omega), g i (by omega)]
    push_cast
    ring

/-- three levels between -2 and 2 -/
example : energies 3 (.number 2) = .ok [-2, 0, 2] := by
  simp [energies, List.range_succ]
  norm_num

/-- C137: the arguments with which the fit can start: an array of the right shape which is complex if and only if `cmplx` is
set; a real number if `cmplx` is not set; a complex number if it is; no value for a matrix-valued function with a positive
definite moment, which is not real if `cmplx` is set. -/
theorem C137_start (scalar : Bool) (n b : ℕ) (hn : 0 < n) (hb : 0 < b) (cmplx : Bool) (L : Option (ℕ → ℕ → ℂ)) (Lreal : Bool)
    (V0 : V0Arg) (eps0 : E0Arg) :
    (∃ r, start scalar n b cmplx L Lreal V0 eps0 = .ok r) ↔
      (∀ e, eps0 = .list e → e.length = b) ∧
      match V0 with
      | .array V r c => r = n ∧ c = b ∧ V.isComplex = cmplx
      | .float _ => cmplx = false
      | .complex _ => cmplx = true
      | .none => scalar = false ∧ L.isSome ∧ (cmplx = true → Lreal = false)
      | .other => False := by
  have key : ∀ V : Hop, ∀ e : List ℝ, e.length = b →
      ((∃ r, arguments cmplx n b (pack n b V e) = .ok r) ↔ V.isComplex = cmplx) := by
    intro V e he
    constructor
    · rintro ⟨r, hr⟩
      by_contra hc
      obtain ⟨x, hx⟩ := C137_mismatch cmplx n b hn hb V e he hc
      rw [hx] at hr; cases hr
    · rintro rfl
      obtain ⟨W, hW, -⟩ := C137_roundtrip n b V e he
      exact ⟨_, hW⟩
  have hE : (∃ e, energies b eps0 = .ok e) ↔ ∀ e, eps0 = .list e → e.length = b := by
    cases eps0 with
    | list l => unfold energies; by_cases h : l.length = b <;> simp [h]
    | number w => simp [energies]
  have main : ∀ V : Hop, initial scalar n b cmplx L Lreal V0 = .ok V →
      ((∃ r, start scalar n b cmplx L Lreal V0 eps0 = .ok r) ↔ (∀ e, eps0 = .list e → e.length = b) ∧ V.isComplex = cmplx) := by
    intro V hV
    unfold start
    rw [hV]
    simp only [bind, Except.bind]
    rw [← hE]
    cases he : energies b eps0 with
    | error x => simp
    | ok e =>
      simp only [Except.ok.injEq, exists_eq', true_and]
      exact key V e (energies_length he)
  have fail : ∀ x, initial scalar n b cmplx L Lreal V0 = .error x → ¬ ∃ r, start scalar n b cmplx L Lreal V0 eps0 = .ok r := by
    intro x hx
    unfold start
    rw [hx]
    simp [bind, Except.bind]
  cases V0 with
  | array V r c =>
    by_cases h : r = n ∧ c = b
    · rw [main V (by simp [initial, h])]; simp [h]
    · have := fail .assertion (by simp [initial, h])
      simp only [this, false_iff]
      rintro ⟨-, h1, h2, -⟩
      exact h ⟨h1, h2⟩
  | float x => rw [main _ rfl]; cases cmplx <;> simp [Hop.isComplex]
  | complex x =>
    cases cmplx with
    | false => have := fail .value (by simp [initial]); simp [this]
    | true => rw [main (.complex fun _ _ => x) (by simp [initial])]; simp [Hop.isComplex]
  | none =>
    cases scalar with
    | true => have := fail .linalg (by simp [initial]); simp [this]
    | false =>
      cases L with
      | none => have := fail .linalg (by simp [initial]); simp [this]
      | some L =>
        cases cmplx with
        | false => rw [main (.real fun i j => (guess n b (fun i j => ((L i j).re : ℂ)) i j).re) (by simp [initial])]; simp [Hop.isComplex]
        | true =>
          cases Lreal with
          | false => rw [main (.complex (guess n b L)) (by simp [initial])]; simp [Hop.isComplex]
          | true => rw [main (.real fun i j => (guess n b L i j).re) (by simp [initial])]; simp [Hop.isComplex]
  | other => have := fail .value (by simp [initial]); simp [this]

theorem count_eq (n b c : ℕ) : ((List.range b).map (fun k => k % n)).count c = ((Finset.range b).filter (fun k => k % n = c)).card := by
  induction b with
  | zero => simp
  | succ b ih =>
    rw [List.range_succ, List.map_append, List.count_append, ih, Finset.range_add_one, Finset.filter_insert]
    by_cases h : b % n = c
    · rw [if_pos h, Finset.card_insert_of_notMem (by simp)]; simp [h]
    · rw [if_neg h]; simp [h]

/-- C137: the columns of the initial guess repeat those of the Cholesky factor such that the first moment is right, if there
are at least as many bath levels as orbitals; in general only the first `b` columns of the factor are used. -/
theorem C137_guess (n b : ℕ) (hn : 0 < n) (L : ℕ → ℕ → ℂ) (i k : ℕ) :
    ∑ j ∈ Finset.range b, guess n b L i j * star (guess n b L k j) = ∑ c ∈ Finset.range (min n b), L i c * star (L k c) := by
  have h1 : ∀ j, guess n b L i j * star (guess n b L k j) =
      L i (j % n) * star (L k (j % n)) / (((Finset.range b).filter (fun m => m % n = j % n)).card : ℂ) := by
    intro j
    unfold guess
    rw [count_eq]
    set N := ((Finset.range b).filter (fun m => m % n = j % n)).card
    have hs : ((Real.sqrt (N : ℝ) : ℝ) : ℂ) * ((Real.sqrt (N : ℝ) : ℝ) : ℂ) = (N : ℂ) := by
      rw [← Complex.ofReal_mul, Real.mul_self_sqrt (Nat.cast_nonneg N)]; simp
    rw [star_div₀]
    simp only [Complex.star_def, Complex.conj_ofReal]
    rw [div_mul_div_comm, hs]
  simp only [h1]
  rw [← Finset.sum_fiberwise_of_maps_to (s := Finset.range b) (t := Finset.range n) (g := fun j => j % n)
    (fun j _ => Finset.mem_range.2 (Nat.mod_lt _ hn))]
  have h2 : ∀ c ∈ Finset.range n, ∑ j ∈ Finset.range b with j % n = c,
      L i (j % n) * star (L k (j % n)) / (((Finset.range b).filter (fun m => m % n = j % n)).card : ℂ) =
        if c < b then L i c * star (L k c) else 0 := by
    intro c hc
    have hc' : c < n := Finset.mem_range.1 hc
    have h3 : ∀ j ∈ (Finset.range b).filter (fun j => j % n = c),
        L i (j % n) * star (L k (j % n)) / (((Finset.range b).filter (fun m => m % n = j % n)).card : ℂ) =
          L i c * star (L k c) / (((Finset.range b).filter (fun m => m % n = c)).card : ℂ) := by
      intro j hj
      rw [(Finset.mem_filter.1 hj).2]
    rw [Finset.sum_congr rfl h3, Finset.sum_const, nsmul_eq_mul]
    by_cases h4 : c < b
    · rw [if_pos h4]
      have : ((Finset.range b).filter (fun m => m % n = c)).card ≠ 0 := by
        rw [Finset.card_ne_zero]
        exact ⟨c, Finset.mem_filter.2 ⟨Finset.mem_range.2 h4, Nat.mod_eq_of_lt hc'⟩⟩
      have h5 : (((Finset.range b).filter (fun m => m % n = c)).card : ℂ) ≠ 0 := by exact_mod_cast this
      rw [mul_div_cancel₀ _ h5]
    · rw [if_neg h4]
      have : (Finset.range b).filter (fun m => m % n = c) = ∅ := by
        rw [Finset.filter_eq_empty_iff]
        intro m hm h6
        have := Nat.mod_le m n
        have := Finset.mem_range.1 hm
        omega
      rw [this]; simp
  rw [Finset.sum_congr rfl h2, ← Finset.sum_filter]
  refine Finset.sum_congr ?_ fun _ _ => rfl
  ext c
  simp only [Finset.mem_filter, Finset.mem_range]
  omega

theorem order_perm (b : ℕ) (eps : ℕ → ℝ) : (order b eps).Perm (List.range b) := List.mergeSort_perm _ _

theorem order_length (b : ℕ) (eps : ℕ → ℝ) : (order b eps).length = b := by rw [(order_perm b eps).length_eq, List.length_range]

/-- C137: the energies of the result are in ascending order. -/
theorem C137_sorted (b : ℕ) (V : ℕ → ℕ → ℂ) (eps : ℕ → ℝ) (i j : ℕ) (hij : i ≤ j) (hj : j < b) :
    (result b V eps).2 i ≤ (result b V eps).2 j := by
  rcases hij.eq_or_lt with rfl | hlt
  · exact le_refl _
  have hp : (order b eps).Pairwise (fun x y => eps x ≤ eps y) := by
    have := List.pairwise_mergeSort (le := fun i j => open Classical in decide (eps i ≤ eps j))
      (by intro a b c; simp only [decide_eq_true_eq]; exact le_trans)
      (by intro a b; simp only [Bool.or_eq_true, decide_eq_true_eq]; exact le_total _ _) (List.range b)
    refine List.Pairwise.imp ?_ this
    intro x y h
    simpa using h
  have hl := order_length b eps
  have := List.pairwise_iff_getElem.1 hp i j (by omega) (by omega) hlt
  simpa [result, List.getD_eq_getElem?_getD, hl, hj, (by omega : i < b)] using this

theorem sum_getD (l : List ℕ) (f : ℕ → ℂ) : ∑ j ∈ Finset.range l.length, f (l.getD j 0) = (l.map f).sum := by
  induction l with
  | nil => simp
  | cons a l ih =>
    rw [List.length_cons, Finset.sum_range_succ', List.map_cons, List.sum_cons, ← ih]
    simp [add_comm]

/-- C137: and the bath is the one found by the minimiser: hoppings and energies are permuted together. -/
theorem C137_result (b : ℕ) (V : ℕ → ℕ → ℂ) (eps : ℕ → ℝ) (one : ℝ → ℂ) (k l : ℕ) :
    hyb b (result b V eps).1 (result b V eps).2 one k l = hyb b V eps one k l := by
  have h := sum_getD (order b eps) (fun j => V k j * one (eps j) * star (V l j))
  rw [order_length] at h
  unfold hyb
  simp only [result]
  rw [h, ((order_perm b eps).map _).sum_eq]
  clear h
  induction b with
  | zero => simp
  | succ b ih => rw [List.range_succ, List.map_append, List.sum_append, ih, Finset.sum_range_succ]; simp

/-! ### Examples -/

/-- a real number as start value with `cmplx=True` always fails, as does no value for a scalar-valued function -/
example (L : Option (ℕ → ℕ → ℂ)) : (¬ ∃ r, start false 2 4 true L false (.float 1) (.number 3) = .ok r) ∧
    ¬ ∃ r, start true 1 4 false L false .none (.number 3) = .ok r := by
  constructor
  · rw [C137_start _ _ _ (by norm_num) (by norm_num)]; simp
  · rw [C137_start _ _ _ (by norm_num) (by norm_num)]; simp

/-- while these work -/
example (L : ℕ → ℕ → ℂ) : (∃ r, start false 2 4 true (some L) false .none (.number 3) = .ok r) ∧
    ∃ r, start false 2 4 false none false (.float 1) (.list [1, 2, 3, 4]) = .ok r := by
  constructor
  · rw [C137_start _ _ _ (by norm_num) (by norm_num)]; simp
  · rw [C137_start _ _ _ (by norm_num) (by norm_num)]; simp

/-- two orbitals, three levels -/
example (L : ℕ → ℕ → ℂ) : ∑ j ∈ Finset.range 3, guess 2 3 L 0 j * star (guess 2 3 L 1 j) = L 0 0 * star (L 1 0) + L 0 1 * star (L 1 1) := by
  rw [C137_guess 2 3 (by norm_num)]
  simp [Finset.sum_range_succ]

/-- the lowest energy comes first -/
example (V : ℕ → ℕ → ℂ) : (result 3 V (fun i => -(i : ℝ))).2 0 ≤ (result 3 V (fun i => -(i : ℝ))).2 2 :=
  C137_sorted 3 V _ 0 2 (by norm_num) (by norm_num)

end Verif.BathFit
