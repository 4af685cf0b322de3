import Verif.MC.Sampling
import Mathlib.MeasureTheory.Measure.Lebesgue.Basic
import Mathlib.MeasureTheory.Measure.Prod
import Mathlib.MeasureTheory.Measure.Real

/-!
# Detailed balance

Claim C31: the Metropolis step of `mc_generic.hpp:266-276` with the selection of `mc_move_set.hpp:196-225` (model `mcStep`) satisfies detailed balance, for proposals made from
any probability space. Probabilities are measures of the sets of random numbers: two uniform numbers of `[0, 1)` (selection and acceptance) and the noise of the proposal.
-/

namespace Verif.MC

open MeasureTheory Set

/-! ## Model -/

/-- `double` -/
noncomputable def realNum : Num ℝ ℝ := ⟨fun k => |k|, fun r => r, false⟩

/-- user moves: probabilities, proposal of each move from the configuration and the noise, ratio returned for a configuration and a proposal -/
structure Chain (X Ω : Type) where
  probs : List ℝ
  f : Nat → X → Ω → X
  k : Nat → X → X → ℝ

/-- world: the uniform numbers to be drawn, the noise of the proposal, configuration and proposed configuration -/
structure BW (X Ω : Type) where
  us : List ℝ
  ω : Ω
  x : X
  y : X

section
variable {X Ω : Type}

def bDraw (w : BW X Ω) : ℝ × BW X Ω := (w.us.headD 0, { w with us := w.us.tail })

def bMove (c : Chain X Ω) (i : Nat) : Move (BW X Ω) ℝ where
  attempt w := .ok (.fin (c.k i w.x (c.f i w.x w.ω))) { w with y := c.f i w.x w.ω }
  accept w := .ok 1 { w with x := w.y }
  reject w := .ok () w

def bDef (c : Chain X Ω) : SetDef (BW X Ω) ℝ ℝ where
  moves := (List.range c.probs.length).map (bMove c)
  probs := c.probs
  draw := bDraw

/-- the configuration after one step of the code from `x`, with the numbers `u1`, `u2` and the noise `ω` -/
noncomputable def nextX (c : Chain X Ω) (x : X) (u1 : ℝ) (ω : Ω) (u2 : ℝ) : Option X :=
  match mcStep realNum (bDef c) ((⟨[u1, u2], ω, x, x⟩, ⟨[], [], none, 0⟩), 1, 0) with
  | .ok _ s => some s.1.1.x
  | _ => none

/-! ## Specification -/

variable [MeasurableSpace Ω] (ν : Measure Ω)

/-- the random numbers that lead from `x` to `y` -/
def stepSet (c : Chain X Ω) (x y : X) : Set (ℝ × Ω × ℝ) := {t | t.1 ∈ Ico 0 1 ∧ t.2.2 ∈ Ico 0 1 ∧ nextX c x t.1 t.2.1 t.2.2 = some y}

/-- probability that one step leads from `x` to `y` -/
noncomputable def P (c : Chain X Ω) (x y : X) : ℝ := (volume.prod (ν.prod volume)).real (stepSet c x y)

/-- probability that the move `i` proposes `y` from `x` -/
noncomputable def T (c : Chain X Ω) (i : Nat) (x y : X) : ℝ := ν.real {ω | c.f i x ω = y}

/-! ## Proofs -/

theorem nextX_eq (c : Chain X Ω) (x : X) {u1 : ℝ} (ω : Ω) (u2 : ℝ) {i : Nat} (hi : i < c.probs.length) (hp : pick c.probs u1 = some i) :
    nextX c x u1 ω u2 = some (if u2 < min 1 |c.k i x (c.f i x ω)| then c.f i x ω else x) := by
  have hm : (bDef c).moves[i]? = some (bMove c i) := by simp [bDef, hi]
  have h0 : (bDef c).moves.length ≠ 0 := by simp only [bDef, List.length_map, List.length_range]; omega
  have hatt : setAttempt realNum (bDef c) (⟨[u1, u2], ω, x, x⟩, ⟨[], [], none, 0⟩) =
      .ok |c.k i x (c.f i x ω)| (⟨[u2], ω, x, c.f i x ω⟩, ⟨bump [] i, [], some i, signOf realNum (.fin (c.k i x (c.f i x ω)))⟩) := by
    unfold setAttempt
    rw [if_neg h0]
    have hp' : pick (bDef c).probs ((bDef c).draw (⟨[u1, u2], ω, x, x⟩ : BW X Ω)).1 = some i := hp
    simp only
    rw [hp']
    simp only
    rw [hm]
    rfl
  unfold nextX mcStep
  simp only
  rw [hatt]
  simp only
  have hd : (liftDraw (bDef c).draw ((⟨[u2], ω, x, c.f i x ω⟩, ⟨bump [] i, [], some i, signOf realNum (.fin (c.k i x (c.f i x ω)))⟩) : BW X Ω × SetSt ℝ)) =
    (u2, (⟨[], ω, x, c.f i x ω⟩, ⟨bump [] i, [], some i, signOf realNum (.fin (c.k i x (c.f i x ω)))⟩)) := rfl
  rw [hd]
  simp only
  split_ifs with h
  · unfold setAccept
    simp only [Option.bind_some, hm, Option.map_some]
    rfl
  · unfold setReject
    simp only [Option.bind_some, hm]
    rfl

/-- hypotheses on the probabilities and the proposals -/
structure Chain.Ok (c : Chain X Ω) : Prop where
  nonneg : ∀ p ∈ c.probs, 0 ≤ p
  pos : 0 < c.probs.sum
  meas : ∀ i x y, MeasurableSet {ω | c.f i x ω = y}

/-- the selection interval of a move -/
noncomputable def sel (c : Chain X Ω) (i : Nat) : Set ℝ := Ico ((c.probs.take i).sum / c.probs.sum) ((c.probs.take (i + 1)).sum / c.probs.sum)

theorem sel_sub {c : Chain X Ω} (hc : c.Ok) {i : Nat} (hi : i < c.probs.length) : sel c i ⊆ Ico 0 1 := by
  intro u hu
  have h0 : 0 ≤ (c.probs.take i).sum := List.sum_nonneg (fun x hx => hc.nonneg x (List.mem_of_mem_take hx))
  have h1 : (c.probs.take (i + 1)).sum ≤ (c.probs.take c.probs.length).sum := take_sum_mono hc.nonneg (by omega)
  rw [List.take_length] at h1
  exact ⟨le_trans (div_nonneg h0 hc.pos.le) hu.1, lt_of_lt_of_le hu.2 ((div_le_one hc.pos).2 h1)⟩

theorem sel_iff {c : Chain X Ω} (hc : c.Ok) {i : Nat} (hi : i < c.probs.length) {u : ℝ} (hu : u ∈ Ico (0 : ℝ) 1) : pick c.probs u = some i ↔ u ∈ sel c i :=
  (C30_selection c.probs hc.nonneg hc.pos u hu.1 hu.2).2 i hi

theorem sel_disjoint {c : Chain X Ω} (hc : c.Ok) {i j : Nat} (hi : i < c.probs.length) (hj : j < c.probs.length) {u : ℝ} (h1 : u ∈ sel c i) (h2 : u ∈ sel c j) : i = j := by
  have hu := sel_sub hc hi h1
  have e1 := (sel_iff hc hi hu).2 h1
  have e2 := (sel_iff hc hj hu).2 h2
  rw [e1] at e2
  injection e2

theorem sel_measure {c : Chain X Ω} (hc : c.Ok) {i : Nat} (hi : i < c.probs.length) : volume.real (sel c i) = c.probs[i] / c.probs.sum := by
  unfold sel
  have h := C30_length c.probs i hi
  have h0 : 0 ≤ c.probs[i] / c.probs.sum := div_nonneg (hc.nonneg _ (List.getElem_mem hi)) hc.pos.le
  rw [Real.volume_real_Ico, h, max_eq_left h0]

/-- **C30, probability.** The set of numbers of `[0, 1)` for which move `i` is chosen has measure `p_i / Σ p`. -/
theorem C30_probability (p : List ℝ) (hp : ∀ x ∈ p, 0 ≤ x) (hs : 0 < p.sum) (i : Nat) (hi : i < p.length) :
    volume {u : ℝ | 0 ≤ u ∧ u < 1 ∧ pick p u = some i} = ENNReal.ofReal (p[i] / p.sum) := by
  have hc : (⟨p, fun _ x _ => x, fun _ _ _ => 0⟩ : Chain Unit Unit).Ok := ⟨hp, hs, fun _ _ _ => MeasurableSet.of_discrete⟩
  have : {u : ℝ | 0 ≤ u ∧ u < 1 ∧ pick p u = some i} = sel (⟨p, fun _ x _ => x, fun _ _ _ => 0⟩ : Chain Unit Unit) i := by
    ext u
    constructor
    · rintro ⟨h0, h1, h2⟩
      exact (sel_iff hc hi ⟨h0, h1⟩).1 h2
    · intro h
      have hu := sel_sub hc hi h
      exact ⟨hu.1, hu.2, (sel_iff hc hi hu).2 h⟩
  rw [this]
  unfold sel
  rw [Real.volume_Ico, C30_length p i hi]

/-- the numbers that lead to another configuration, by move -/
theorem stepSet_eq {c : Chain X Ω} (hc : c.Ok) {x y : X} (hxy : x ≠ y) :
    stepSet c x y = ⋃ i ∈ Finset.range c.probs.length, sel c i ×ˢ ({ω | c.f i x ω = y} ×ˢ Ico 0 (min 1 |c.k i x y|)) := by
  ext ⟨u1, ω, u2⟩
  simp only [stepSet, mem_ofPred_eq, mem_iUnion, Finset.mem_range, mem_prod, exists_prop]
  constructor
  · rintro ⟨h1, h2, h3⟩
    obtain ⟨i, hp, hi⟩ := (C30_selection c.probs hc.nonneg hc.pos u1 h1.1 h1.2).1
    rw [nextX_eq c x ω u2 hi hp] at h3
    injection h3 with h3
    by_cases hlt : u2 < min 1 |c.k i x (c.f i x ω)|
    · rw [if_pos hlt] at h3
      rw [h3] at hlt
      exact ⟨i, hi, (sel_iff hc hi h1).1 hp, h3, h2.1, hlt⟩
    · rw [if_neg hlt] at h3
      exact absurd h3 hxy
  · rintro ⟨i, hi, h1, h2, h3⟩
    have hu := sel_sub hc hi h1
    refine ⟨hu, ⟨h3.1, lt_of_lt_of_le h3.2 (min_le_left _ _)⟩, ?_⟩
    rw [nextX_eq c x ω u2 hi ((sel_iff hc hi hu).2 h1), h2, if_pos h3.2]

variable [IsProbabilityMeasure ν]

/-- **Transition probability** of one step of the code between different configurations: the sum over the moves of selection, proposal and acceptance probability. -/
theorem C31_transition_probability {c : Chain X Ω} (hc : c.Ok) {x y : X} (hxy : x ≠ y) :
    P ν c x y = ∑ i ∈ Finset.range c.probs.length, c.probs.getD i 0 / c.probs.sum * (T ν c i x y * min 1 |c.k i x y|) := by
  unfold P
  rw [stepSet_eq hc hxy, measureReal_biUnion_finset ?_ ?_ ?_]
  · apply Finset.sum_congr rfl
    intro i hi
    have hi := Finset.mem_range.1 hi
    rw [measureReal_prod_prod, measureReal_prod_prod, sel_measure hc hi, Real.volume_real_Ico, sub_zero, max_eq_left (le_min zero_le_one (abs_nonneg _)),
      List.getD_eq_getElem?_getD, List.getElem?_eq_getElem hi]
    rfl
  · intro i hi j hj hij
    rw [Function.onFun, Set.disjoint_left]
    rintro ⟨u1, t⟩ h1 h2
    exact hij (sel_disjoint hc (Finset.mem_range.1 hi) (Finset.mem_range.1 hj) h1.1 h2.1)
  · intro i _
    exact measurableSet_Ico.prod ((hc.meas i x y).prod measurableSet_Ico)
  · intro i hi
    rw [Measure.prod_prod, Measure.prod_prod]
    unfold sel
    rw [Real.volume_Ico, Real.volume_Ico]
    exact ENNReal.mul_ne_top ENNReal.ofReal_ne_top (ENNReal.mul_ne_top (measure_ne_top _ _) ENNReal.ofReal_ne_top)

/-- **C31, detailed balance.** For all configuration spaces, weights (of any sign, not zero), numbers and probabilities of moves and proposals from any probability space: if the ratio
returned by each move has absolute value `|w(y)| T(y→x) / (|w(x)| T(x→y))` whenever `T(x→y) ≠ 0`, the step of the code satisfies `|w(x)| P(x→y) = |w(y)| P(y→x)`. -/
theorem C31_detailed_balance {c : Chain X Ω} (hc : c.Ok) (w : X → ℝ) (hw : ∀ x, w x ≠ 0)
    (hk : ∀ i x y, x ≠ y → T ν c i x y ≠ 0 → |c.k i x y| = |w y| * T ν c i y x / (|w x| * T ν c i x y)) (x y : X) :
    |w x| * P ν c x y = |w y| * P ν c y x := by
  by_cases hxy : x = y
  · rw [hxy]
  rw [C31_transition_probability ν hc hxy, C31_transition_probability ν hc (Ne.symm hxy), Finset.mul_sum, Finset.mul_sum]
  apply Finset.sum_congr rfl
  intro i _
  have flow : ∀ x y : X, x ≠ y → |w x| * (T ν c i x y * min 1 |c.k i x y|) = min (|w x| * T ν c i x y) (|w y| * T ν c i y x) := by
    intro x y hxy
    have hx : 0 < |w x| := abs_pos.2 (hw x)
    have ht : 0 ≤ T ν c i x y := measureReal_nonneg
    have ht' : 0 ≤ T ν c i y x := measureReal_nonneg
    by_cases h0 : T ν c i x y = 0
    · rw [h0, zero_mul, mul_zero, min_eq_left (mul_nonneg (abs_nonneg _) ht')]
    · have htp : 0 < T ν c i x y := lt_of_le_of_ne ht (Ne.symm h0)
      rw [hk i x y hxy h0, ← mul_assoc, mul_min_of_nonneg _ _ (by positivity), mul_one]
      congr 1
      field_simp
  have h1 := flow x y hxy
  have h2 := flow y x (Ne.symm hxy)
  rw [min_comm (|w y| * _)] at h2
  calc |w x| * (c.probs.getD i 0 / c.probs.sum * (T ν c i x y * min 1 |c.k i x y|)) = c.probs.getD i 0 / c.probs.sum * (|w x| * (T ν c i x y * min 1 |c.k i x y|)) := by ring
    _ = c.probs.getD i 0 / c.probs.sum * (|w y| * (T ν c i y x * min 1 |c.k i y x|)) := by rw [h1, h2]
    _ = _ := by ring

/-- the step goes somewhere -/
theorem P_sum [Fintype X] {c : Chain X Ω} (hc : c.Ok) (x : X) : ∑ y, P ν c x y = 1 := by
  classical
  have hbox : (volume.prod (ν.prod volume)).real ((Ico (0 : ℝ) 1) ×ˢ ((univ : Set Ω) ×ˢ (Ico (0 : ℝ) 1))) = 1 := by
    rw [measureReal_prod_prod, measureReal_prod_prod, Real.volume_real_Ico]
    simp
  have hfin : (volume.prod (ν.prod volume)) ((Ico (0 : ℝ) 1) ×ˢ ((univ : Set Ω) ×ˢ (Ico (0 : ℝ) 1))) ≠ ⊤ := by
    rw [Measure.prod_prod, Measure.prod_prod]
    simp
  have hsome : ∀ t : ℝ × Ω × ℝ, t.1 ∈ Ico (0 : ℝ) 1 → ∃ y, nextX c x t.1 t.2.1 t.2.2 = some y := by
    intro t ht
    obtain ⟨i, hp, hi⟩ := (C30_selection c.probs hc.nonneg hc.pos t.1 ht.1 ht.2).1
    exact ⟨_, nextX_eq c x t.2.1 t.2.2 hi hp⟩
  have hmeas : ∀ y, x ≠ y → MeasurableSet (stepSet c x y) := by
    intro y hxy
    rw [stepSet_eq hc hxy]
    exact Finset.measurableSet_biUnion _ (fun i _ => measurableSet_Ico.prod ((hc.meas i x y).prod measurableSet_Ico))
  have hxx : stepSet c x x = ((Ico (0 : ℝ) 1) ×ˢ ((univ : Set Ω) ×ˢ (Ico (0 : ℝ) 1))) \ ⋃ y ∈ Finset.univ.erase x, stepSet c x y := by
    ext t
    simp only [stepSet, mem_ofPred_eq, mem_sdiff, mem_prod, mem_univ, true_and, mem_iUnion, Finset.mem_erase, Finset.mem_univ, and_true, exists_prop, not_exists, not_and]
    constructor
    · rintro ⟨h1, h2, h3⟩
      refine ⟨⟨h1, h2⟩, fun y hy _ _ h => ?_⟩
      rw [h3] at h
      injection h with h
      exact hy h.symm
    · rintro ⟨⟨h1, h2⟩, h3⟩
      refine ⟨h1, h2, ?_⟩
      obtain ⟨y, hy⟩ := hsome t h1
      by_cases hyx : y = x
      · rw [hy, hyx]
      · exact absurd hy (h3 y hyx h1 h2)
  have hall : MeasurableSet (stepSet c x x) := by
    rw [hxx]
    refine (measurableSet_Ico.prod (MeasurableSet.univ.prod measurableSet_Ico)).diff (Finset.measurableSet_biUnion _ ?_)
    intro y hy
    exact hmeas y (Ne.symm (Finset.ne_of_mem_erase hy))
  have hcover : ((Ico (0 : ℝ) 1) ×ˢ ((univ : Set Ω) ×ˢ (Ico (0 : ℝ) 1))) = ⋃ y ∈ (Finset.univ : Finset X), stepSet c x y := by
    ext t
    simp only [stepSet, mem_prod, mem_univ, true_and, mem_iUnion, Finset.mem_univ, exists_prop, mem_ofPred_eq]
    constructor
    · rintro ⟨h1, h2⟩
      obtain ⟨y, hy⟩ := hsome t h1
      exact ⟨y, h1, h2, hy⟩
    · rintro ⟨y, h1, h2, -⟩
      exact ⟨h1, h2⟩
  rw [← hbox, hcover, measureReal_biUnion_finset ?_ ?_ ?_]
  · rfl
  · intro y _ z _ hyz
    rw [Function.onFun, Set.disjoint_left]
    rintro t ⟨-, -, h1⟩ ⟨-, -, h2⟩
    rw [h1] at h2
    injection h2 with h2
    exact hyz h2
  · intro y _
    by_cases hxy : x = y
    · rw [← hxy]; exact hall
    · exact hmeas y hxy
  · intro y _
    refine measure_ne_top_of_subset ?_ hfin
    rintro t ⟨h1, h2, -⟩
    exact ⟨h1, mem_univ _, h2⟩

/-- **C31, the sampled distribution is stationary**: one step keeps the distribution proportional to `|w|`. -/
theorem C31_stationary [Fintype X] {c : Chain X Ω} (hc : c.Ok) (w : X → ℝ) (hw : ∀ x, w x ≠ 0)
    (hk : ∀ i x y, x ≠ y → T ν c i x y ≠ 0 → |c.k i x y| = |w y| * T ν c i y x / (|w x| * T ν c i x y)) (y : X) :
    ∑ x, |w x| * P ν c x y = |w y| := by
  have : ∀ x, |w x| * P ν c x y = |w y| * P ν c y x := fun x => C31_detailed_balance ν hc w hw hk x y
  rw [Finset.sum_congr rfl (fun x _ => this x), ← Finset.mul_sum, P_sum ν hc, mul_one]

end

/-! ### Example: two configurations of weights 1 and -3, one move that flips and one that proposes the configuration it has -/

noncomputable def twoState : Chain Bool Unit where
  probs := [1, 3]
  f i x _ := if i = 0 then !x else x
  k _ x y := (if y then -3 else 1) / (if x then -3 else 1)

theorem twoState_ok : twoState.Ok where
  nonneg := by intro p hp; simp [twoState] at hp; rcases hp with rfl | rfl <;> norm_num
  pos := by norm_num [twoState]
  meas _ _ _ := MeasurableSet.of_discrete

theorem twoState_T (x y : Bool) (h : x ≠ y) : T (Measure.dirac ()) twoState 0 x y = 1 ∧ T (Measure.dirac ()) twoState 1 x y = 0 := by
  have h1 : (!x) = y := by cases x <;> cases y <;> simp_all
  constructor
  · unfold T
    have : {ω : Unit | twoState.f 0 x ω = y} = univ := by ext; simp [twoState, h1]
    rw [this]; simp
  · unfold T
    have : {ω : Unit | twoState.f 1 x ω = y} = ∅ := by ext; simp [twoState, h]
    rw [this]; simp

-- from the heavier to the lighter one with probability 1/4 * 1/3
example : P (Measure.dirac ()) twoState true false = 1 / 12 := by
  rw [C31_transition_probability _ twoState_ok (by decide)]
  obtain ⟨h1, h2⟩ := twoState_T true false (by decide)
  have : twoState.probs.length = 2 := rfl
  rw [this, Finset.sum_range_succ, Finset.sum_range_one, h1, h2]
  norm_num [twoState]

example : |(-3 : ℝ)| * P (Measure.dirac ()) twoState true false = |(1 : ℝ)| * P (Measure.dirac ()) twoState false true := by
  have := C31_detailed_balance (Measure.dirac ()) twoState_ok (fun x => if x then -3 else 1) (by intro x; cases x <;> norm_num)
    (by
      intro i x y hxy _
      have hT : ∀ i, T (Measure.dirac ()) twoState i x y ≠ 0 → T (Measure.dirac ()) twoState i y x = T (Measure.dirac ()) twoState i x y := by
        intro i _
        unfold T
        congr 1
        ext
        simp only [twoState, mem_ofPred_eq]
        cases x <;> cases y <;> split_ifs <;> simp_all
      rename_i hne
      rw [hT i hne, mul_div_mul_right _ _ hne, ← abs_div]
      rfl) true false
  simpa using this

end Verif.MC
