import Verif.Float.Matsubara
import Verif.Float.LegendreSum
import Verif.Float.Mean

/-!
# Density at finite temperature from real frequencies in double precision

Source: `/repo/c++/triqs/gfs/functions/density.cpp` (167-184).

One diagonal element of the matrix: the real part of the function is dropped in line 178, so that only the imaginary parts of the data matter. `exp` of the C library is an arbitrary function `E` whose values are not negative, `none` stands for the infinity. Products with zeros are left out, for finite numbers they change nothing.
-/

namespace Verif.FermiDensity

open Binary64
open LegendreSum (addTerms)
open MatsubaraDouble (piD piD_bounds)

/-! ## Model -/

/-- `exp(beta * w)`, density.cpp:174; the product may be plus or minus infinity -/
def expOf (E : ℚ → Option ℚ) (x : ℚ) : Option ℚ :=
  match fin x with
  | some y => E y
  | none => if 0 < x then none else some 0

/-- imaginary part of `g[w] / (1. + exp(beta * w))`, density.cpp:174; a number divided by infinity is zero -/
def term (E : ℚ → Option ℚ) (beta w a : ℚ) : Option ℚ :=
  match (expOf E (beta * w)).bind fun e => fin (1 + e) with
  | none => some 0
  | some d => fin (a / d)

/-- lines 178-183: from the sum to the density, for the step `delta` of the mesh -/
def scale (delta s : ℚ) : Option ℚ :=
  (fin (delta / piD)).bind fun f => (fin (s * f)).bind fun p => (fin (-p + -p)).bind fun t => fin (t / 2)

/-- `density(g, beta)`, density.cpp:168-184, one diagonal element; the list contains the frequencies of the mesh with the imaginary parts of the element -/
def density (E : ℚ → Option ℚ) (beta delta : ℚ) (l : List (ℚ × ℚ)) : Option ℚ :=
  (addTerms 0 (l.map fun p => term E beta p.1 p.2)).bind (scale delta)

/-! ## Specification -/

/-- the sum over all frequencies, occupied or not, added and scaled in the same way -/
def total (delta : ℚ) (l : List (ℚ × ℚ)) : Option ℚ := (addTerms 0 (l.map fun p => some p.2)).bind (scale delta)

/-- values of `exp` are not negative -/
def Positive (E : ℚ → Option ℚ) : Prop := ∀ x e, E x = some e → 0 ≤ e

/-- `exp` does not decrease, and infinity is larger than all numbers -/
def Monotonic (E : ℚ → Option ℚ) : Prop := ∀ x y e', x ≤ y → E y = some e' → ∃ e, E x = some e ∧ e ≤ e'

/-! ## Proofs -/

theorem fin_abs_le {x y z : ℚ} (h : fin y = some z) (hxy : |x| ≤ |y|) : fin x = some (rnd x) := by
  obtain ⟨rfl, hd⟩ := fin_some h
  refine fin_eq ⟨rep_rnd x, lt_of_le_of_lt ?_ hd.2⟩
  have a := rnd_mono (le_abs_self y)
  rcases abs_cases y with ⟨hy, _⟩ | ⟨hy, _⟩
  all_goals
    have hr : |rnd y| = rnd |y| := by
      rw [hy]
      first
      | exact abs_of_nonneg (rnd_nonneg ‹_›)
      | (rw [rnd_neg]; exact abs_of_nonpos (by have := rnd_nonneg (x := -y) (by linarith); rw [rnd_neg] at this; linarith))
    rw [hr, abs_le]
    have h1 := abs_le.1 hxy
    have h2 := rnd_mono h1.1
    rw [rnd_neg] at h2
    exact ⟨h2, rnd_mono h1.2⟩

/-- sums of larger numbers below zero are larger and finite -/
theorem addTerms_mono {α : Type} (f g : α → Option ℚ) : ∀ (l : List α) (z z' r' : ℚ), z' ≤ z → z ≤ 0 →
    (∀ a ∈ l, ∃ t t', f a = some t ∧ g a = some t' ∧ t' ≤ t ∧ t ≤ 0) → addTerms z' (l.map g) = some r' →
    ∃ r, addTerms z (l.map f) = some r ∧ r' ≤ r ∧ r ≤ 0 := by
  intro l
  induction l with
  | nil =>
    intro z z' r' h h0 _ hr
    rw [← Option.some.inj hr]
    exact ⟨z, rfl, h, h0⟩
  | cons a l ih =>
    intro z z' r' h h0 hl hr
    obtain ⟨t, t', ht, ht', h1, h2⟩ := hl a List.mem_cons_self
    rw [List.map_cons] at hr ⊢
    unfold addTerms at hr ⊢
    rw [ht', Option.bind_some] at hr
    rw [ht, Option.bind_some]
    obtain ⟨y', hy', hr⟩ := Option.bind_eq_some_iff.1 hr
    have hf := fin_abs_le (x := z + t) hy' (by rw [abs_of_nonpos (by linarith), abs_of_nonpos (by linarith)]; linarith)
    rw [hf, Option.bind_some]
    refine ih _ y' r' ?_ ?_ (fun b hb => hl b (List.mem_cons_of_mem _ hb)) hr
    · rw [(fin_some hy').1]
      exact rnd_mono (by linarith)
    · have := rnd_mono (show z + t ≤ 0 by linarith)
      rwa [rnd_zero] at this

theorem rnd_nonpos {x : ℚ} (h : x ≤ 0) : rnd x ≤ 0 := by
  have := rnd_mono h
  rwa [rnd_zero] at this

theorem scale_mono {delta s s' n' : ℚ} (hd : 0 ≤ delta) (h : s' ≤ s) (h0 : s ≤ 0) (hn : scale delta s' = some n') :
    ∃ n, scale delta s = some n ∧ 0 ≤ n ∧ n ≤ n' := by
  unfold scale at hn ⊢
  obtain ⟨f, hf, hn⟩ := Option.bind_eq_some_iff.1 hn
  obtain ⟨p', hp', hn⟩ := Option.bind_eq_some_iff.1 hn
  obtain ⟨t', ht', hn⟩ := Option.bind_eq_some_iff.1 hn
  have f0 : 0 ≤ f := by
    rw [(fin_some hf).1]
    exact rnd_nonneg (div_nonneg hd (by have := piD_bounds.1; linarith))
  have a0 : s * f ≤ 0 := mul_nonpos_of_nonpos_of_nonneg h0 f0
  have a1 : s' * f ≤ s * f := mul_le_mul_of_nonneg_right h f0
  have F1 := fin_abs_le (x := s * f) hp' (by rw [abs_of_nonpos a0, abs_of_nonpos (a1.trans a0)]; linarith)
  have b0 := rnd_nonpos a0
  have b1 : p' ≤ rnd (s * f) := by
    rw [(fin_some hp').1]
    exact rnd_mono a1
  rw [hf, Option.bind_some, F1, Option.bind_some]
  generalize rnd (s * f) = p at *
  have F2 := fin_abs_le (x := -p + -p) ht' (by rw [abs_of_nonneg (by linarith), abs_of_nonneg (by linarith)]; linarith)
  have c0 : 0 ≤ rnd (-p + -p) := rnd_nonneg (by linarith)
  have c1 : rnd (-p + -p) ≤ t' := by
    rw [(fin_some ht').1]
    exact rnd_mono (by linarith)
  rw [F2, Option.bind_some]
  generalize rnd (-p + -p) = t at *
  have F3 := fin_abs_le (x := t / 2) hn (by rw [abs_of_nonneg (by linarith), abs_of_nonneg (by linarith)]; linarith)
  refine ⟨_, F3, rnd_nonneg (by linarith), ?_⟩
  rw [(fin_some hn).1]
  exact rnd_mono (by linarith)

/-- denominators are at least one -/
theorem denom_ge {E : ℚ → Option ℚ} (hE : Positive E) {x d : ℚ} (h : (expOf E x).bind (fun e => fin (1 + e)) = some d) : 1 ≤ d := by
  obtain ⟨e, he, hd⟩ := Option.bind_eq_some_iff.1 h
  have e0 : 0 ≤ e := by
    unfold expOf at he
    split at he
    · exact hE _ _ he
    · split_ifs at he
      rw [← Option.some.inj he]
  rw [(fin_some hd).1]
  exact le_rnd rep_one (by linarith)

/-- terms for two data and the same frequency -/
theorem term_mono {E : ℚ → Option ℚ} (hE : Positive E) (beta w : ℚ) {a a' : ℚ} (ha' : IsDouble a') (h : a' ≤ a) (h0 : a ≤ 0) :
    ∃ t t', term E beta w a = some t ∧ term E beta w a' = some t' ∧ t' ≤ t ∧ t ≤ 0 := by
  unfold term
  cases hd : (expOf E (beta * w)).bind fun e => fin (1 + e) with
  | none => exact ⟨0, 0, rfl, rfl, le_refl _, le_refl _⟩
  | some d =>
    have d1 := denom_ge hE hd
    have d0 : 0 < d := by linarith
    have b0 : a / d ≤ 0 := div_nonpos_of_nonpos_of_nonneg h0 d0.le
    have b1 : a' / d ≤ a / d := div_le_div_of_nonneg_right h d0.le
    have b2 : a' ≤ a' / d := by
      rw [le_div_iff₀ d0]
      nlinarith
    have fa : fin a' = some a' := by
      rw [fin_eq (by rwa [rnd_rep ha'.1]), rnd_rep ha'.1]
    have F' := fin_abs_le (x := a' / d) fa (by rw [abs_of_nonpos (by linarith), abs_of_nonpos (by linarith)]; linarith)
    have F := fin_abs_le (x := a / d) fa (by rw [abs_of_nonpos (by linarith), abs_of_nonpos (by linarith)]; linarith)
    exact ⟨_, _, F, F', rnd_mono b1, rnd_nonpos b0⟩

/-- a term is between the datum and zero -/
theorem term_le {E : ℚ → Option ℚ} (hE : Positive E) (beta w : ℚ) {a : ℚ} (ha : IsDouble a) (h0 : a ≤ 0) : ∃ t, term E beta w a = some t ∧ a ≤ t ∧ t ≤ 0 := by
  unfold term
  cases hd : (expOf E (beta * w)).bind fun e => fin (1 + e) with
  | none => exact ⟨0, rfl, h0, le_refl _⟩
  | some d =>
    have d1 := denom_ge hE hd
    have d0 : 0 < d := by linarith
    have b0 : a / d ≤ 0 := div_nonpos_of_nonpos_of_nonneg h0 d0.le
    have b2 : a ≤ a / d := by
      rw [le_div_iff₀ d0]
      nlinarith
    have fa : fin a = some a := by
      rw [fin_eq (by rwa [rnd_rep ha.1]), rnd_rep ha.1]
    have F := fin_abs_le (x := a / d) fa (by rw [abs_of_nonpos (by linarith), abs_of_nonpos (by linarith)]; linarith)
    exact ⟨_, F, le_rnd ha.1 b2, rnd_nonpos b0⟩

/-- **C213, bounds.** Whatever the temperature is, the density of a function with spectral weight that is not negative is finite, not negative and at most the total weight computed in the same way. -/
theorem C213_bounds {E : ℚ → Option ℚ} (hE : Positive E) (beta delta : ℚ) (hd : 0 ≤ delta) (l : List (ℚ × ℚ)) (hl : ∀ p ∈ l, IsDouble p.2 ∧ p.2 ≤ 0)
    (T : ℚ) (hT : total delta l = some T) : ∃ n, density E beta delta l = some n ∧ 0 ≤ n ∧ n ≤ T := by
  unfold total at hT
  obtain ⟨s', hs', hT⟩ := Option.bind_eq_some_iff.1 hT
  obtain ⟨s, hs, h1, h2⟩ := addTerms_mono (fun p : ℚ × ℚ => term E beta p.1 p.2) (fun p => some p.2) l 0 0 s' (le_refl _) (le_refl _) (by
    intro p hp
    obtain ⟨t, ht, a, b⟩ := term_le hE beta p.1 (hl p hp).1 (hl p hp).2
    exact ⟨t, p.2, ht, rfl, a, b⟩) hs'
  unfold density
  rw [hs, Option.bind_some]
  exact scale_mono hd h1 h2 hT

/-- **C213, spectral weight.** More spectral weight does not give less density. -/
theorem C213_weight {E : ℚ → Option ℚ} (hE : Positive E) (beta delta : ℚ) (hd : 0 ≤ delta) (l : List (ℚ × ℚ × ℚ))
    (hl : ∀ p ∈ l, IsDouble p.2.2 ∧ p.2.2 ≤ p.2.1 ∧ p.2.1 ≤ 0) (n' : ℚ) (h : density E beta delta (l.map fun p => (p.1, p.2.2)) = some n') :
    ∃ n, density E beta delta (l.map fun p => (p.1, p.2.1)) = some n ∧ n ≤ n' := by
  unfold density at h ⊢
  rw [List.map_map] at h ⊢
  obtain ⟨s', hs', h⟩ := Option.bind_eq_some_iff.1 h
  obtain ⟨s, hs, h1, h2⟩ := addTerms_mono (fun p : ℚ × ℚ × ℚ => term E beta p.1 p.2.1) (fun p => term E beta p.1 p.2.2) l 0 0 s' (le_refl _) (le_refl _)
    (fun p hp => term_mono hE beta p.1 (hl p hp).1 (hl p hp).2.1 (hl p hp).2.2) hs'
  obtain ⟨n, hn, _, h3⟩ := scale_mono hd h1 h2 h
  refine ⟨n, ?_, h3⟩
  rw [show ((fun p : ℚ × ℚ => term E beta p.1 p.2) ∘ fun p : ℚ × ℚ × ℚ => (p.1, p.2.1)) = fun p : ℚ × ℚ × ℚ => term E beta p.1 p.2.1 from rfl, hs, Option.bind_some, hn]

/-- the exponentials of larger arguments are larger -/
theorem expOf_mono {E : ℚ → Option ℚ} (hE : Positive E) (hM : Monotonic E) {x y e' : ℚ} (h : x ≤ y) (h' : expOf E y = some e') : ∃ e, expOf E x = some e ∧ e ≤ e' := by
  unfold expOf at h' ⊢
  split at h'
  · rename_i v hv
    cases hx : fin x with
    | some u =>
      refine hM u v e' ?_ h'
      rw [(fin_some hx).1, (fin_some hv).1]
      exact rnd_mono h
    | none =>
      by_cases h0 : 0 < x
      · have := fin_abs_le (x := x) hv (by rw [abs_of_pos h0, abs_of_pos (h0.trans_le h)]; exact h)
        rw [hx] at this
        exact absurd this (by simp)
      · exact ⟨0, if_neg h0, hE _ _ h'⟩
  · rename_i hv
    split_ifs at h' with h0
    rw [← Option.some.inj h']
    cases hx : fin x with
    | some u =>
      have := fin_abs_le (x := y) hx (by rw [abs_of_nonpos (by linarith), abs_of_nonpos (by linarith)]; linarith)
      rw [hv] at this
      exact absurd this (by simp)
    | none => exact ⟨0, if_neg (by linarith), le_refl _⟩

/-- a level with a smaller argument of the exponential is more occupied -/
theorem term_cold {E : ℚ → Option ℚ} (hE : Positive E) (hM : Monotonic E) {beta beta' w a : ℚ} (h : beta' * w ≤ beta * w) (ha : IsDouble a) (h0 : a ≤ 0) :
    ∃ t t', term E beta w a = some t ∧ term E beta' w a = some t' ∧ t' ≤ t ∧ t ≤ 0 := by
  obtain ⟨t, ht, _, t0⟩ := term_le hE beta w ha h0
  obtain ⟨t', ht', _, t0'⟩ := term_le hE beta' w ha h0
  refine ⟨t, t', ht, ht', ?_, t0⟩
  unfold term at ht ht'
  cases hd : (expOf E (beta * w)).bind fun e => fin (1 + e) with
  | none =>
    rw [hd] at ht
    rw [← Option.some.inj ht]
    exact t0'
  | some d =>
    have d1 := denom_ge hE hd
    obtain ⟨e, he, hf⟩ := Option.bind_eq_some_iff.1 hd
    obtain ⟨e', he', hee⟩ := expOf_mono hE hM h he
    have e0' : 0 ≤ e' := by
      unfold expOf at he'
      split at he'
      · exact hE _ _ he'
      · split_ifs at he'
        rw [← Option.some.inj he']
    have F := fin_abs_le (x := 1 + e') hf (by rw [abs_of_pos (by linarith), abs_of_pos (by linarith)]; linarith)
    have hd' : (expOf E (beta' * w)).bind (fun e => fin (1 + e)) = some (rnd (1 + e')) := by rw [he', Option.bind_some, F]
    have d1' := denom_ge hE hd'
    have dd : rnd (1 + e') ≤ d := by
      rw [(fin_some hf).1]
      exact rnd_mono (by linarith)
    rw [hd] at ht
    rw [hd'] at ht'
    simp only at ht ht'
    rw [(fin_some ht).1, (fin_some ht').1]
    refine rnd_mono ?_
    rw [div_le_div_iff₀ (by linarith) (by linarith)]
    exact mul_le_mul_of_nonpos_left dd h0

theorem density_cold {E : ℚ → Option ℚ} (hE : Positive E) (hM : Monotonic E) {beta beta' delta : ℚ} (hd : 0 ≤ delta) (l : List (ℚ × ℚ))
    (hl : ∀ p ∈ l, IsDouble p.2 ∧ p.2 ≤ 0) (hw : ∀ p ∈ l, beta' * p.1 ≤ beta * p.1) (n' : ℚ) (h : density E beta' delta l = some n') :
    ∃ n, density E beta delta l = some n ∧ n ≤ n' := by
  unfold density at h ⊢
  obtain ⟨s', hs', h⟩ := Option.bind_eq_some_iff.1 h
  obtain ⟨s, hs, h1, h2⟩ := addTerms_mono (fun p : ℚ × ℚ => term E beta p.1 p.2) (fun p => term E beta' p.1 p.2) l 0 0 s' (le_refl _) (le_refl _)
    (fun p hp => term_cold hE hM (hw p hp) (hl p hp).1 (hl p hp).2) hs'
  obtain ⟨n, hn, _, h3⟩ := scale_mono hd h1 h2 h
  exact ⟨n, by rw [hs, Option.bind_some, hn], h3⟩

/-- **C213, temperature.** If all frequencies are at or below zero, the density does not decrease when the temperature is lowered. -/
theorem C213_cold {E : ℚ → Option ℚ} (hE : Positive E) (hM : Monotonic E) {beta beta' delta : ℚ} (hb : beta ≤ beta') (hd : 0 ≤ delta) (l : List (ℚ × ℚ))
    (hl : ∀ p ∈ l, IsDouble p.2 ∧ p.2 ≤ 0) (hw : ∀ p ∈ l, p.1 ≤ 0) (n' : ℚ) (h : density E beta' delta l = some n') :
    ∃ n, density E beta delta l = some n ∧ n ≤ n' :=
  density_cold hE hM hd l hl (fun p hp => mul_le_mul_of_nonpos_right hb (hw p hp)) n' h

/-- **C213, temperature.** If all frequencies are at or above zero, the density does not increase when the temperature is lowered. -/
theorem C213_empty {E : ℚ → Option ℚ} (hE : Positive E) (hM : Monotonic E) {beta beta' delta : ℚ} (hb : beta ≤ beta') (hd : 0 ≤ delta) (l : List (ℚ × ℚ))
    (hl : ∀ p ∈ l, IsDouble p.2 ∧ p.2 ≤ 0) (hw : ∀ p ∈ l, 0 ≤ p.1) (n : ℚ) (h : density E beta delta l = some n) :
    ∃ n', density E beta' delta l = some n' ∧ n' ≤ n :=
  density_cold hE hM hd l hl (fun p hp => mul_le_mul_of_nonneg_right hb (hw p hp)) n h

/-- **C213, extremes.** If the product of the inverse temperature and the frequency is beyond the range of doubles, a level above zero is empty and one below zero is full: there is no NaN. -/
theorem C213_extreme (E : ℚ → Option ℚ) {beta w a : ℚ} (ha : IsDouble a) (h : fin (beta * w) = none) :
    term E beta w a = some (if 0 < beta * w then 0 else a) := by
  unfold term expOf
  rw [h]
  simp only
  split_ifs
  · rfl
  · have h1 : fin (1 + 0 : ℚ) = some 1 := by
      rw [add_zero, fin_eq (by rw [rnd_rep rep_one]; exact isDouble_small rep_one (by norm_num)), rnd_rep rep_one]
    have fa : fin a = some a := by
      rw [fin_eq (by rwa [rnd_rep ha.1]), rnd_rep ha.1]
    rw [Option.bind_some, h1]
    simp only
    rw [div_one, fa]

/-- sums of relative errors of terms below zero -/
theorem addTerms_rel {α : Type} (f : α → Option ℚ) (x : α → ℚ) : ∀ (l : List α) (j : ℕ) (Z z r : ℚ), 2 ≤ j → 0 ≤ Z → Rep z → Rel j Z (-z) →
    (∀ a ∈ l, ∃ t, f a = some t ∧ Rep t ∧ 0 ≤ x a ∧ Rel 2 (x a) (-t)) → addTerms z (l.map f) = some r →
    Rel (j + l.length) (Z + (l.map x).sum) (-r) ∧ Rep r := by
  intro l
  induction l with
  | nil =>
    intro j Z z r _ _ hz h _ hr
    rw [← Option.some.inj hr]
    simpa using ⟨h, hz⟩
  | cons a l ih =>
    intro j Z z r hj hZ hz h hl hr
    obtain ⟨t, ht, rt, x0, hx⟩ := hl a List.mem_cons_self
    rw [List.map_cons] at hr
    unfold addTerms at hr
    rw [ht, Option.bind_some] at hr
    obtain ⟨y, hy, hr⟩ := Option.bind_eq_some_iff.1 hr
    have h1 := MeanDouble.rel_add2 h hx hj x0
    have h2 := h1.trans (rel_add (rep_neg hz) (rep_neg rt) (h1.nonneg (add_nonneg hZ x0)))
    rw [← neg_add, rnd_neg, ← (fin_some hy).1] at h2
    have := ih (j + 1) (Z + x a) y r (by omega) (add_nonneg hZ x0) (fin_some hy).2.1 h2 (fun b hb => hl b (List.mem_cons_of_mem _ hb)) hr
    rw [List.map_cons, List.sum_cons, List.length_cons, show j + (l.length + 1) = j + 1 + l.length by omega, ← add_assoc Z]
    exact this

/-- relative error of a term -/
theorem term_rel {E : ℚ → Option ℚ} {beta w a e : ℚ} (he : expOf E (beta * w) = some e) (e0 : 0 ≤ e) (e1 : e ≤ 2 ^ (500 : ℤ)) (hd : IsDouble a) (ha : a = 0 ∨ a ≤ -2 ^ (-500 : ℤ)) :
    ∃ t, term E beta w a = some t ∧ Rep t ∧ 0 ≤ -a / (1 + e) ∧ Rel 2 (-a / (1 + e)) (-t) := by
  have one_le : (1 : ℚ) ≤ 2 ^ (500 : ℤ) := one_le_zpow₀ (by norm_num) (by norm_num)
  have hb : 1 + e ≤ 2 ^ (501 : ℤ) := by
    rw [show (501 : ℤ) = 1 + 500 by norm_num, two_zpow_add, zpow_one]
    generalize (2 : ℚ) ^ (500 : ℤ) = X at *
    linarith
  have F := LinearDouble.fin_of_le (x := 1 + e) (e := 501) (by rwa [abs_of_pos (by linarith)]) (by norm_num) (by norm_num)
  have R : Rel 1 (1 + e) (rnd (1 + e)) := rel_rnd (((zpow_le_one_of_nonpos₀ (by norm_num) (by norm_num)).trans (by linarith : (1 : ℚ) ≤ 1 + e)))
  have d1 : 1 ≤ rnd (1 + e) := le_rnd rep_one (by linarith)
  have d2 : rnd (1 + e) ≤ 2 ^ (501 : ℤ) := rnd_le (rep_zpow (by norm_num)) hb
  unfold term
  rw [he, Option.bind_some, F]
  simp only
  generalize rnd (1 + e) = d at *
  have d0 : 0 < d := by linarith
  have fa : fin a = some a := by
    rw [fin_eq (by rwa [rnd_rep hd.1]), rnd_rep hd.1]
  have Fa := fin_abs_le (x := a / d) fa (by rw [abs_div, abs_of_pos d0]; exact div_le_self (abs_nonneg _) d1)
  refine ⟨_, Fa, rep_rnd _, ?_, ?_⟩
  · refine div_nonneg ?_ (by linarith)
    rcases ha with rfl | ha
    · simp
    · have := two_zpow_pos (-500)
      linarith
  rcases ha with rfl | ha
  · rw [zero_div, neg_zero, zero_div, rnd_zero, neg_zero]
    simp [Binary64.Rel]
  · have a0 : 0 < -a := by
      have := two_zpow_pos (-500)
      linarith
    have h1 := ((Rel.refl (-a)).div R a0.le (by linarith))
    have h2 : Rel 1 (-a / d) (rnd (-a / d)) := by
      refine rel_rnd ?_
      rw [le_div_iff₀ d0]
      refine le_trans ?_ (show (2 : ℚ) ^ (-500 : ℤ) ≤ -a by linarith)
      refine (mul_le_mul_of_nonneg_left d2 (two_zpow_pos _).le).trans ?_
      rw [← two_zpow_add]
      exact two_zpow_le (by norm_num)
    have := h1.trans h2
    rw [← rnd_neg, ← neg_div]
    exact this

/-- **C213, accuracy.** A result that is not tiny is the sum over the frequencies with Fermi factors, times the step over pi, up to `2 (N + 5) 2^-53`. The exponentials are those of the library. -/
theorem C213_accuracy {E : ℚ → Option ℚ} (hE : Positive E) {beta delta n : ℚ} (e : ℚ → ℚ) (l : List (ℚ × ℚ)) (hd : 2 ^ (-900 : ℤ) ≤ delta)
    (he : ∀ p ∈ l, expOf E (beta * p.1) = some (e p.1) ∧ e p.1 ≤ 2 ^ (500 : ℤ)) (hl : ∀ p ∈ l, IsDouble p.2 ∧ (p.2 = 0 ∨ p.2 ≤ -2 ^ (-500 : ℤ)))
    (hN : l.length + 5 ≤ 2 ^ 51) (h : density E beta delta l = some n) (hn : 2 ^ (-1021 : ℤ) ≤ n) :
    |n - delta / piD * (l.map fun p => -p.2 / (1 + e p.1)).sum| ≤ delta / piD * (l.map fun p => -p.2 / (1 + e p.1)).sum * (2 * (l.length + 5 : ℕ) / 9007199254740992) := by
  have hpi := piD_bounds
  have e0 : ∀ p ∈ l, 0 ≤ e p.1 := by
    intro p hp
    have := (he p hp).1
    unfold expOf at this
    split at this
    · exact hE _ _ this
    · split_ifs at this
      rw [← Option.some.inj this]
  have ht := fun p hp => term_rel (he p hp).1 (e0 p hp) (he p hp).2 (hl p hp).1 (hl p hp).2
  unfold density at h
  obtain ⟨s, hs, h⟩ := Option.bind_eq_some_iff.1 h
  obtain ⟨R, rs⟩ := addTerms_rel (fun p : ℚ × ℚ => term E beta p.1 p.2) (fun p => -p.2 / (1 + e p.1)) l 2 0 0 s (le_refl _) (le_refl _) rep_zero (by simp [Binary64.Rel]) ht hs
  rw [zero_add] at R
  have S0 : 0 ≤ (l.map fun p : ℚ × ℚ => -p.2 / (1 + e p.1)).sum := by
    refine List.sum_nonneg fun y hy => ?_
    obtain ⟨p, hp, rfl⟩ := List.mem_map.1 hy
    obtain ⟨_, _, _, h0, _⟩ := ht p hp
    exact h0
  generalize (l.map fun p : ℚ × ℚ => -p.2 / (1 + e p.1)).sum = S at *
  unfold scale at h
  obtain ⟨f, hf, h⟩ := Option.bind_eq_some_iff.1 h
  obtain ⟨p, hp, h⟩ := Option.bind_eq_some_iff.1 h
  obtain ⟨t, ht', h⟩ := Option.bind_eq_some_iff.1 h
  have hD : 0 < delta := (two_zpow_pos _).trans_le hd
  have pi0 : 0 < piD := by linarith
  have Rf : Rel 1 (delta / piD) f := by
    rw [(fin_some hf).1]
    refine rel_rnd ?_
    rw [le_div_iff₀ pi0]
    refine le_trans ?_ hd
    refine (mul_le_mul_of_nonneg_left (show piD ≤ 2 ^ (2 : ℤ) by rw [show (2 : ℚ) ^ (2 : ℤ) = 4 by norm_num]; exact hpi.2.le) (two_zpow_pos _).le).trans ?_
    rw [← two_zpow_add]
    exact two_zpow_le (by norm_num)
  have hdp : 0 < delta / piD := div_pos hD pi0
  have R1 := Rf.mul R hdp.le S0
  have twice : Rep (-p + -p) := by
    obtain ⟨m, ex, h1, h2, h3⟩ := rep_neg (fin_some hp).2.1
    refine ⟨m, ex + 1, by omega, h2, ?_⟩
    rw [h3, two_zpow_add, zpow_one]
    ring
  have en : n = rnd (f * -s) := by
    rw [(fin_some h).1, (fin_some ht').1, rnd_rep twice, show (-p + -p) / 2 = -p by ring, rnd_rep (rep_neg (fin_some hp).2.1), (fin_some hp).1, ← rnd_neg]
    congr 1
    ring
  have big : (2 : ℚ) ^ (-1022 : ℤ) ≤ f * -s := by
    by_contra hc
    have := rnd_le (rep_zpow (e := -1022) (by norm_num)) (not_le.1 hc).le
    rw [← en] at this
    exact absurd (hn.trans this) (not_le.2 (two_zpow_lt (by norm_num)))
  have R2 := R1.trans (rel_rnd big)
  rw [← en] at R2
  have R3 : Rel (l.length + 5) (delta / piD * S) n := by
    have c : c53 ^ (l.length + 5) ≤ c53 ^ (1 + (2 + l.length) + 1) := pow_le_pow_of_le_one c53_pos.le c53_le (by omega)
    have n0 : 0 ≤ n := (two_zpow_pos _).le.trans hn
    exact ⟨(mul_le_mul_of_nonneg_left c (mul_nonneg hdp.le S0)).trans R2.1, (mul_le_mul_of_nonneg_left c n0).trans R2.2⟩
  exact R3.err hN (mul_nonneg hdp.le S0)

/-! ### Examples -/

/-- a rough exponential: `1 + x` for positive, `1/4` for negative numbers, infinity from 100 on -/
def rough (x : ℚ) : Option ℚ := if 100 ≤ x then none else if 0 ≤ x then some (1 + x) else some (1 / 4)

theorem rough_positive : Positive rough := by
  intro x e h
  unfold rough at h
  split_ifs at h
  · rw [← Option.some.inj h]
    linarith
  · rw [← Option.some.inj h]
    norm_num

theorem rough_monotonic : Monotonic rough := by
  intro x y e' h h'
  unfold rough at h' ⊢
  split_ifs at h' with h1 h2
  · rw [← Option.some.inj h', if_neg (by linarith)]
    split_ifs
    · exact ⟨_, rfl, by linarith⟩
    · exact ⟨_, rfl, by linarith⟩
  · rw [← Option.some.inj h', if_neg (by linarith), if_neg (by linarith)]
    exact ⟨_, rfl, le_refl _⟩

/-- a full, a half filled and an empty level -/
def three : List (ℚ × ℚ) := [(-1, -2), (0, -4), (200, -8)]

theorem three_data : ∀ p ∈ three, IsDouble p.2 ∧ p.2 ≤ 0 := by
  have hb : (8 : ℚ) < 2 ^ 1024 := lt_of_lt_of_le (by norm_num : (8 : ℚ) < 2 ^ 4) (pow_le_pow_right₀ (by norm_num) (by norm_num))
  intro p hp
  simp only [three, List.mem_cons, List.not_mem_nil, or_false] at hp
  rcases hp with rfl | rfl | rfl
  · exact ⟨⟨by exact_mod_cast rep_int (n := -2) (by norm_num), lt_of_le_of_lt (by norm_num) hb⟩, by norm_num⟩
  · exact ⟨⟨by exact_mod_cast rep_int (n := -4) (by norm_num), lt_of_le_of_lt (by norm_num) hb⟩, by norm_num⟩
  · exact ⟨⟨by exact_mod_cast rep_int (n := -8) (by norm_num), by rw [abs_of_neg (by norm_num), neg_neg]; exact hb⟩, by norm_num⟩

/-- terms: 1.6 for the first level, half of the second, nothing of the third -/
example : three.map (fun p => term rough 1 p.1 p.2) = [some (-3602879701896397 / 2251799813685248), some (-2), some 0] := by decide +kernel

example : (density rough 1 (1 / 2) three).isSome ∧ (total (1 / 2) three).isSome := by decide +kernel

example (T : ℚ) (hT : total (1 / 2) three = some T) : ∃ n, density rough 1 (1 / 2) three = some n ∧ 0 ≤ n ∧ n ≤ T :=
  C213_bounds rough_positive 1 (1 / 2) (by norm_num) three three_data T hT

/-- the first two levels -/
example (n' : ℚ) (h : density rough 3 (1 / 2) (three.take 2) = some n') : ∃ n, density rough 2 (1 / 2) (three.take 2) = some n ∧ n ≤ n' :=
  C213_cold rough_positive rough_monotonic (by norm_num) (by norm_num) _ (fun p hp => three_data p (List.mem_of_mem_take hp)) (by
    intro p hp
    simp only [three, List.take_succ_cons, List.take_zero, List.mem_cons, List.not_mem_nil, or_false] at hp
    rcases hp with rfl | rfl <;> norm_num) n' h

/-- the density of the first two levels: about 3.6 / (2 pi) -/
example : (density rough 1 (1 / 2) (three.take 2)).map (fun n => decide (|n - 18 / 10 / piD| ≤ 1 / 2 ^ 50)) = some true := by decide +kernel

example : term rough (2 ^ 1000) (2 ^ 500) (-1) = some 0 ∧ term rough (2 ^ 1000) (-2 ^ 500) (-1) = some (-1) := by decide +kernel

end Verif.FermiDensity
