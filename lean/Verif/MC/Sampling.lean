import Verif.MC.Moves
import Mathlib.Algebra.Order.Ring.Rat
import Mathlib.Tactic.NormNum

/-!
# Attempts are resolved once, the sign follows the weight, moves are selected with their probability

Claims C27, C28 and C30 about the model of `Moves.lean`.
-/

namespace Verif.MC

section
variable {W K R : Type} [Field R] [LinearOrder R] [Field K] [IsStrictOrderedRing R]

/-- **C27.** For all moves made of user moves (alone or in nested sets), all worlds, generators and numbers of steps: after a run from cleared
statistics that does not throw, what was observed is one trial per step: the attempt of one user move followed by exactly one accept or reject of the same move. It
was accepted exactly when the number drawn is below the size of the ratio. `config_id` is increased by the number of steps, the numbers of proposals add up to the
number of steps, the numbers of acceptances to the number of accepted trials, and no move has more acceptances than proposals. -/
theorem C27_attempts_resolved_once {N : Num K R} (hN : N.Ok) {d : SetDef W K R} {log : W → List (Event K)}
    (hm : ∀ m ∈ d.moves, Built N W d.draw log m) (n : Nat) (w : W) (st : SetSt K) (sign : K) (id : Nat) (s' : (W × SetSt K) × K × Nat)
    (h : mcSteps N d n ((w, clearStats d st), sign, id) = .ok () s') :
    ∃ ts : List (Trial K), ts.length = n ∧ log s'.1.1 = log w ++ ts.flatMap Trial.events ∧ (∀ t ∈ ts, Fair N d.draw t) ∧ s'.2.2 = id + n ∧
      s'.1.2.nprop.length = d.moves.length ∧ s'.1.2.nacc.length = d.moves.length ∧ s'.1.2.nprop.sum = n ∧
      s'.1.2.nacc.sum = ts.countP (fun t => t.accepted.isSome) ∧ ∀ i, s'.1.2.nacc.getD i 0 ≤ s'.1.2.nprop.getD i 0 := by
  have hz : ∀ i, (d.moves.map (fun _ => 0)).getD i 0 = 0 := by
    intro i
    rw [List.getD_eq_getElem?_getD, List.getElem?_map]
    cases d.moves[i]? <;> rfl
  obtain ⟨ts, f1, f0, f2, f3, f4, f5, f6, f7, f8, f9⟩ := mcSteps_ok (fun m h => (hm m h).protocol hN) n _ s' h (by simp [clearStats]) (by simp [clearStats])
    (by intro i; simp only [clearStats]; rw [hz])
  refine ⟨ts, f1, f2, f0, f4, f5, f6, ?_, ?_, f9⟩
  · rw [f7]; simp [clearStats]
  · rw [f8]; simp [clearStats]

/-- **C27, runs that throw.** When a user move throws or returns a ratio that is not a number, the observation is a list of complete trials followed by at most one
attempt without resolution; the sign and `config_id` are those after the complete trials. -/
theorem C27_throwing_run {N : Num K R} (hN : N.Ok) {d : SetDef W K R} {log : W → List (Event K)} (h0 : d.moves ≠ [])
    (hm : ∀ m ∈ d.moves, Built N W d.draw log m) (n : Nat) (w : W) (st : SetSt K) (sign : K) (id : Nat) (s' : (W × SetSt K) × K × Nat)
    (h : mcSteps N d n ((w, clearStats d st), sign, id) = .exn s') :
    ∃ (ts : List (Trial K)) (rest : List (Event K)), ts.length < n ∧ log s'.1.1 = log w ++ ts.flatMap Trial.events ++ rest ∧
      (rest = [] ∨ ∃ i v, rest = [.att i v]) ∧ s'.2.2 = id + ts.length ∧ s'.2.1 = sign * (ts.map (Trial.factor N)).prod ∧
      s'.1.2.nprop.sum = ts.length + 1 := by
  obtain ⟨k, s1, hk, e1, e2⟩ := mcSteps_exn _ _ _ h
  have hz : ∀ i, (d.moves.map (fun _ => 0)).getD i 0 = 0 := by
    intro i
    rw [List.getD_eq_getElem?_getD, List.getElem?_map]
    cases d.moves[i]? <;> rfl
  have hp := fun m h => (hm m h).protocol hN
  obtain ⟨ts, f1, f0, f2, f3, f4, f5, f6, f7, f8, f9⟩ := mcSteps_ok hp k _ s1 e1 (by simp [clearStats]) (by simp [clearStats])
    (by intro i; simp only [clearStats]; rw [hz])
  obtain ⟨g1, ⟨j, hj, g2, -⟩, g3⟩ := mcStep_exn h0 hp e2
  have hsum : s'.1.2.nprop.sum = ts.length + 1 := by
    rw [g2, bump_sum (by omega), f7, f1]; simp [clearStats]
  rcases g3 with g3 | ⟨i, v, g3⟩
  · exact ⟨ts, [], by omega, by rw [g3, f2, List.append_nil], Or.inl rfl, by rw [g1, f4, f1], by rw [g1, f3], hsum⟩
  · exact ⟨ts, [.att i v], by omega, by rw [g3, f2], Or.inr ⟨i, v, rfl⟩, by rw [g1, f4, f1], by rw [g1, f3], hsum⟩

/-! ### The sign -/

/-- `x` is a positive multiple of `y` -/
def SamePhase (N : Num K R) (x y : K) : Prop := ∃ c : R, 0 < c ∧ x = N.ofReal c * y

/-- what the ratio says about the new weight, up to a positive factor -/
def dir : Ratio K → K
  | .fin k => k
  | .inf neg => if neg then -1 else 1
  | .nan => 1

/-- The weights of the configurations along a list of trials: a rejected trial keeps the weight, an accepted one multiplies it by the ratio and the sign returned
by `accept`, up to a positive factor (for a move that returns `T/T' * w'/w`, or a part of it, this is the meaning of the ratio). -/
inductive Follows (N : Num K R) : K → List (Trial K) → K → Prop
  | nil (w : K) : Follows N w [] w
  | rej {w w' : K} {ts : List (Trial K)} (id : Nat) (v : Ratio K) (h : Follows N w ts w') : Follows N w (⟨id, v, none⟩ :: ts) w'
  | acc {w w1 w' : K} {ts : List (Trial K)} (id : Nat) (v : Ratio K) (a : K) (h1 : SamePhase N w1 (w * dir v * a)) (h : Follows N w1 ts w') :
      Follows N w (⟨id, v, some a⟩ :: ts) w'

/-- the embedding of the reals in the sign type -/
structure Num.Hom (N : Num K R) : Prop extends N.Ok where
  ofReal_mul : ∀ a b, N.ofReal (a * b) = N.ofReal a * N.ofReal b
  ofReal_one : N.ofReal 1 = 1

omit [IsStrictOrderedRing R] in
theorem signOf_dir {N : Num K R} (hN : N.Hom) {v : Ratio K} (hv : ∀ k, v = .fin k → N.abs k > 1 / 10 ^ 14) [IsStrictOrderedRing R] :
    SamePhase N (dir v) (signOf N v) := by
  cases v with
  | fin k =>
    have hk := hv k rfl
    have hp : 0 < N.abs k := lt_trans (by positivity) hk
    refine ⟨N.abs k, hp, ?_⟩
    simp only [dir, signOf]
    rw [if_pos hk]
    have := hN.ofReal_ne _ hp.ne'
    field_simp
  | inf b => exact ⟨1, one_pos, by rw [hN.ofReal_one, one_mul]; rfl⟩
  | nan => exact ⟨1, one_pos, by rw [hN.ofReal_one, one_mul]; rfl⟩

theorem follows_sign {N : Num K R} (hN : N.Hom) {w w' : K} {ts : List (Trial K)} (hf : Follows N w ts w')
    (ht : ∀ t ∈ ts, t.accepted.isSome → ∀ k, t.ratio = .fin k → N.abs k > 1 / 10 ^ 14) :
    ∀ s, SamePhase N w s → SamePhase N w' (s * (ts.map (Trial.factor N)).prod) := by
  induction hf with
  | nil w => intro s h; simpa using h
  | rej id v h ih =>
    intro s hs
    have := ih (fun t h => ht t (List.mem_cons_of_mem _ h)) s hs
    simpa [Trial.factor] using this
  | @acc w w1 w' ts id v a h1 h ih =>
    intro s hs
    have := ih (fun t h => ht t (List.mem_cons_of_mem _ h)) (s * (signOf N v * a)) (by
      obtain ⟨c1, p1, e1⟩ := h1
      obtain ⟨c2, p2, e2⟩ := hs
      obtain ⟨c3, p3, e3⟩ := signOf_dir hN (v := v) (fun k hk => ht _ List.mem_cons_self rfl k hk)
      refine ⟨c1 * (c2 * c3), by positivity, ?_⟩
      rw [e1, e2, e3, hN.ofReal_mul, hN.ofReal_mul]; ring)
    simpa [Trial.factor, mul_assoc] using this

/-- **C28 (partial).** For all moves made of user moves, alone or in nested sets: if every number drawn is at least `10^-14`, the sign kept by the simulation is, after any
number of steps, the initial sign times the product over the accepted trials of the phase of the ratio and the sign returned by `accept`; in particular, when the initial sign is the phase of
the weight of the initial configuration, it stays the phase of the weight of the current configuration. Missing: numbers below `10^-14`, see `C28_tiny_ratio`. -/
theorem C28_sign_follows_weight_partial {N : Num K R} (hN : N.Hom) {d : SetDef W K R} {log : W → List (Event K)}
    (hm : ∀ m ∈ d.moves, Built N W d.draw log m) (hu : ∀ w, 1 / 10 ^ 14 ≤ (d.draw w).1) (n : Nat) (w : W) (st : SetSt K) (sign : K) (id : Nat)
    (s' : (W × SetSt K) × K × Nat) (h : mcSteps N d n ((w, clearStats d st), sign, id) = .ok () s') :
    ∃ ts : List (Trial K), ts.length = n ∧ log s'.1.1 = log w ++ ts.flatMap Trial.events ∧ s'.2.1 = sign * (ts.map (Trial.factor N)).prod ∧
      (∀ t ∈ ts, ∀ a, t.accepted = some a → ∃ z : K, t.factor N = z * a ∧ SamePhase N (dir t.ratio) z ∧ ∀ k, t.ratio = .fin k → N.ofReal (N.abs k) * z = k) ∧
      ∀ wt wt' : K, Follows N wt ts wt' → SamePhase N wt sign → SamePhase N wt' s'.2.1 := by
  have hz : ∀ i, (d.moves.map (fun _ => 0)).getD i 0 = 0 := by
    intro i
    rw [List.getD_eq_getElem?_getD, List.getElem?_map]
    cases d.moves[i]? <;> rfl
  obtain ⟨ts, f1, f0, f2, f3, -⟩ := mcSteps_ok (fun m h => (hm m h).protocol hN.toOk) n _ s' h (by simp [clearStats]) (by simp [clearStats])
    (by intro i; simp only [clearStats]; rw [hz])
  have big : ∀ t ∈ ts, t.accepted.isSome → ∀ k, t.ratio = .fin k → N.abs k > 1 / 10 ^ 14 := by
    intro t ht hs k hk
    obtain ⟨u, ⟨w, rfl⟩, he⟩ := f0 t ht
    have := he.1 hs
    rw [hk] at this
    exact lt_of_le_of_lt (hu w) (lt_of_lt_of_le this (min_le_right _ _))
  refine ⟨ts, f1, f2, f3, ?_, ?_⟩
  · intro t ht a ha
    have hb := big t ht (by rw [ha]; rfl)
    refine ⟨signOf N t.ratio, by simp [Trial.factor, ha], signOf_dir hN hb, ?_⟩
    intro k hk
    have h1 := hb k hk
    have hp : 0 < N.abs k := lt_trans (by positivity) h1
    rw [hk]
    simp only [signOf]
    rw [if_pos h1]
    have := hN.ofReal_ne _ hp.ne'
    field_simp
  · intro wt wt' hf hs
    rw [f3]
    exact follows_sign hN hf big sign hs

/-! ### Selection -/

theorem scan_below {u : R} {n : Nat} : ∀ (l : List R) (k : Nat), l.IsChain (· ≤ ·) → scan u l k = some n → ∃ i, n = k + i ∧ (∃ h : i < l.length, u < l[i]) ∧
    ∀ j (h : j < l.length), j < i → l[j] ≤ u := by
  intro l
  induction l with
  | nil => intro k _ h; cases h
  | cons c cs ih =>
    intro k hl h
    simp only [scan] at h
    by_cases hc : u ≥ c
    · rw [if_pos hc] at h
      obtain ⟨i, e, ⟨h1, h2⟩, h3⟩ := ih (k + 1) hl.of_cons h
      refine ⟨i + 1, by omega, ⟨by simpa using h1, by simpa using h2⟩, ?_⟩
      intro j hj hji
      cases j with
      | zero => exact hc
      | succ j => exact h3 j (by simpa using hj) (by omega)
    · rw [if_neg hc] at h
      injection h with h
      exact ⟨0, by omega, ⟨by simp, by simpa using hc⟩, fun j hj hji => by omega⟩

theorem scan_of {u : R} : ∀ (l : List R) (k i : Nat) (h : i < l.length), u < l[i] → (∀ j (h : j < l.length), j < i → l[j] ≤ u) → scan u l k = some (k + i) := by
  intro l
  induction l with
  | nil => intro k i h; simp at h
  | cons c cs ih =>
    intro k i h h1 h2
    cases i with
    | zero =>
      simp only [List.getElem_cons_zero] at h1
      simp only [scan]
      rw [if_neg (by simpa using h1)]; rfl
    | succ i =>
      simp only [scan]
      have := h2 0 (by simp) (by omega)
      rw [if_pos (by simpa using this), ih (k + 1) i (by simpa using h) (by simpa using h1) (fun j hj hji => h2 (j + 1) (by simpa using hj) (by omega))]
      congr 1; omega

omit [LinearOrder R] [IsStrictOrderedRing R] in
theorem runningSums_eq : ∀ (l : List R) (a : R), runningSums a l = (List.range l.length).map (fun i => a + (l.take (i + 1)).sum) := by
  intro l
  induction l with
  | nil => intro a; rfl
  | cons p ps ih =>
    intro a
    rw [runningSums, ih, List.length_cons, List.range_succ_eq_map, List.map_cons, List.map_map]
    congr 1
    · simp
    · apply List.map_congr_left
      intro i _
      simp [add_assoc]

omit [LinearOrder R] [IsStrictOrderedRing R] in
theorem shiftLast_length (l : List R) : (shiftLast l).length = l.length := by
  fun_induction shiftLast l <;> simp_all

omit [LinearOrder R] [IsStrictOrderedRing R] in
theorem shiftLast_get : ∀ (l : List R) (i : Nat) (h : i < l.length), (shiftLast l)[i]'(by rw [shiftLast_length]; exact h) = l[i] + if i + 1 = l.length then 1 / 1000 else 0 := by
  intro l
  fun_induction shiftLast l with
  | case1 => intro i h; simp at h
  | case2 c =>
    intro i h
    have : i = 0 := by simpa using h
    subst this
    simp [shiftLast]
  | case3 c cs hcs ih =>
    intro i h
    cases i with
    | zero =>
      have : cs.length ≠ 0 := by
        intro h0
        exact hcs (List.length_eq_zero_iff.1 h0)
      simp only [shiftLast, List.getElem_cons_zero, List.length_cons]
      rw [if_neg (by omega), add_zero]
    | succ i =>
      simp only [shiftLast, List.getElem_cons_succ, List.length_cons]
      rw [ih i (by simpa using h)]
      congr 1
      simp

omit [LinearOrder R] [IsStrictOrderedRing R] in
theorem accSums_length (p : List R) : (accSums p).length = p.length + 1 := by
  simp [accSums, shiftLast_length, runningSums_eq]

omit [LinearOrder R] [IsStrictOrderedRing R] in
theorem sum_map_div (l : List R) (c : R) : (l.map (· / c)).sum = l.sum / c := by
  induction l with
  | nil => simp
  | cons a l ih => rw [List.map_cons, List.sum_cons, List.sum_cons, ih, add_div]

omit [LinearOrder R] [IsStrictOrderedRing R] in
theorem accSums_get (p : List R) (i : Nat) (h : i < p.length + 1) : (accSums p)[i]'(by rw [accSums_length]; exact h) =
    (p.take i).sum / p.sum + if i = p.length then 1 / 1000 else 0 := by
  unfold accSums
  simp only
  rw [shiftLast_get _ _ (by simp [runningSums_eq]; omega)]
  congr 1
  · simp only [runningSums_eq, List.getElem_map, List.getElem_range, zero_add]
    rw [← List.map_take, sum_map_div]
    simp
  · simp only [runningSums_eq]; simp

omit [IsStrictOrderedRing R] in
theorem take_sum_mono {p : List R} (hp : ∀ x ∈ p, 0 ≤ x) [IsStrictOrderedRing R] {i j : Nat} (h : i ≤ j) : (p.take i).sum ≤ (p.take j).sum := by
  induction h with
  | refl => exact le_rfl
  | @step j _ ih =>
    refine ih.trans ?_
    by_cases hj : j < p.length
    · rw [List.take_succ_eq_append_getElem hj, List.sum_append]
      have := hp _ (List.getElem_mem hj)
      simpa using this
    · rw [List.take_of_length_le (by omega), List.take_of_length_le (by omega)]

/-- **C30.** For all lists of non negative probabilities with a positive sum and all numbers `u` in `[0, 1)`: exactly one move is chosen, inside the tables; it is the
move `i` with `(p_0 + ... + p_(i-1)) / Σ p ≤ u < (p_0 + ... + p_i) / Σ p`. The interval has length `p_i / Σ p`, so a move of probability zero is never chosen. -/
theorem C30_selection (p : List R) (hp : ∀ x ∈ p, 0 ≤ x) (hs : 0 < p.sum) (u : R) (hu0 : 0 ≤ u) (hu1 : u < 1) :
    (∃ i, pick p u = some i ∧ i < p.length) ∧
    ∀ i < p.length, (pick p u = some i ↔ (p.take i).sum / p.sum ≤ u ∧ u < (p.take (i + 1)).sum / p.sum) := by
  have mono : ∀ {i j : Nat}, i ≤ j → (p.take i).sum / p.sum ≤ (p.take j).sum / p.sum := fun h =>
    div_le_div_of_nonneg_right (take_sum_mono hp h) hs.le
  -- choice from the interval
  have key : ∀ i < p.length, (p.take i).sum / p.sum ≤ u → u < (p.take (i + 1)).sum / p.sum → pick p u = some i := by
    intro i hi h1 h2
    have hsc : scan u (accSums p) 0 = some (0 + (i + 1)) := by
      apply scan_of _ _ _ (by rw [accSums_length]; omega)
      · rw [accSums_get p (i + 1) (by omega)]
        split_ifs
        · have : (0 : R) < 1 / 1000 := by positivity
          linarith
        · linarith
      · intro j hj hji
        rw [accSums_length] at hj
        rw [accSums_get p j hj, if_neg (by omega), add_zero]
        exact (mono (by omega)).trans h1
    unfold pick
    rw [hsc, Nat.zero_add]
    simp only
    rw [if_pos hi]
  have ex : ∃ i < p.length, (p.take i).sum / p.sum ≤ u ∧ u < (p.take (i + 1)).sum / p.sum := by
    have hex : ∃ j, u < (p.take j).sum / p.sum := ⟨p.length, by rw [List.take_length, div_self hs.ne']; exact hu1⟩
    classical
    have hspec := Nat.find_spec hex
    have hle : Nat.find hex ≤ p.length := Nat.find_le (by rw [List.take_length, div_self hs.ne']; exact hu1)
    have hne : Nat.find hex ≠ 0 := by
      intro h0
      rw [h0] at hspec
      simp at hspec
      exact absurd hspec (not_lt.mpr hu0)
    refine ⟨Nat.find hex - 1, by omega, not_lt.1 (Nat.find_min hex (by omega)), ?_⟩
    rw [show Nat.find hex - 1 + 1 = Nat.find hex by omega]
    exact hspec
  obtain ⟨i, hi, h1, h2⟩ := ex
  have hpick := key i hi h1 h2
  refine ⟨⟨i, hpick, hi⟩, ?_⟩
  intro j hj
  constructor
  · intro h
    rw [hpick] at h
    injection h with h
    subst h
    exact ⟨h1, h2⟩
  · rintro ⟨h3, h4⟩
    exact key j hj h3 h4

omit [LinearOrder R] [IsStrictOrderedRing R] in
/-- the interval of a move has length `p_i / Σ p` -/
theorem C30_length (p : List R) (i : Nat) (hi : i < p.length) : (p.take (i + 1)).sum / p.sum - (p.take i).sum / p.sum = p[i] / p.sum := by
  rw [List.take_succ_eq_append_getElem hi, List.sum_append, ← sub_div]
  simp

/-- a move of probability zero is never chosen -/
theorem C30_zero_never (p : List R) (hp : ∀ x ∈ p, 0 ≤ x) (hs : 0 < p.sum) (u : R) (hu0 : 0 ≤ u) (hu1 : u < 1) (i : Nat) (hi : i < p.length) (h0 : p[i] = 0) :
    pick p u ≠ some i := by
  intro h
  obtain ⟨h1, h2⟩ := ((C30_selection p hp hs u hu0 hu1).2 i hi).1 h
  have := C30_length p i hi
  rw [h0, zero_div] at this
  linarith

end

/-! ### Examples and disagreements -/

/-- `double` as sign type, with exact numbers -/
def ratNum : Num ℚ ℚ := ⟨fun k => |k|, fun r => r, false⟩

theorem ratNum_hom : ratNum.Hom where
  abs_nonneg := abs_nonneg
  abs_ofReal := fun _ h => abs_of_nonneg h
  ofReal_ne := fun _ h => h
  ofReal_mul := fun _ _ => rfl
  ofReal_one := rfl

/-- test world: the numbers that will be drawn, a configuration and a proposed configuration -/
structure TW where
  rng : List ℚ
  x : Int
  y : Int

def twDraw (w : TW) : ℚ × TW := (w.rng.headD (1 / 2), { w with rng := w.rng.tail })

/-- proposes to change the configuration by `c`, with a constant ratio -/
def shift (c : Int) (r : Ratio ℚ) : Move TW ℚ where
  attempt w := .ok r { w with y := w.x + c }
  accept w := .ok 1 { w with x := w.y }
  reject w := .ok () w

def flat : SetDef (TW × List (Event ℚ)) ℚ ℚ where
  moves := [observe 0 (shift 1 (.fin (-1 / 2))), observe 1 (shift 10 (.inf true)), observe 2 (shift 100 (.fin (-(1 / 10 ^ 15))))]
  probs := [1, 2, 1]
  draw := liftDraw twDraw

def start (rng : List ℚ) : (((TW × List (Event ℚ)) × SetSt ℚ) × ℚ × Nat) := (((⟨rng, 0, 0⟩, []), clearStats flat ⟨[], [], none, 0⟩), 1, 0)

/-- configuration, sign, proposals and acceptances after a run -/
def summary {V : Type} (cfg : V → Int) (o : Out ((V × SetSt ℚ) × ℚ × Nat) Unit) : Option (Int × ℚ × List Nat × List Nat) :=
  match o with
  | .ok _ s => some (cfg s.1.1, s.2.1, s.1.2.nprop, s.1.2.nacc)
  | _ => none

-- accepted move 0 (sign -1), rejected move 0, accepted move 1 with an infinite negative ratio
example : summary (fun w => w.1.x) (mcSteps ratNum flat 3 (start [1 / 8, 1 / 4, 1 / 8, 3 / 4, 1 / 2, 99 / 100])) = some (11, 1, [2, 1, 0], [1, 1, 0]) := by decide +kernel

example : ∀ m ∈ flat.moves, Built ratNum _ flat.draw (fun s => s.2) m := by
  intro m hm
  simp only [flat, List.mem_cons, List.not_mem_nil, or_false] at hm
  rcases hm with rfl | rfl | rfl <;> exact Built.user _ _ _

/-- a set that contains the set `flat` and a user move -/
def nested : SetDef ((TW × List (Event ℚ)) × SetSt ℚ) ℚ ℚ where
  moves := [asMove ratNum flat, liftMove (Equiv.refl _) (observe 3 (shift 1000 (.fin 3)))]
  probs := [1, 1]
  draw := liftDraw (liftDraw twDraw)

example : ∀ m ∈ nested.moves, Built ratNum _ nested.draw (fun s => s.1.2) m := by
  intro m hm
  simp only [nested, List.mem_cons, List.not_mem_nil, or_false] at hm
  rcases hm with rfl | rfl
  · exact Built.set flat (by simp [flat]) (by
      intro m hm
      simp only [flat, List.mem_cons, List.not_mem_nil, or_false] at hm
      rcases hm with rfl | rfl | rfl <;> exact Built.user _ _ _)
  · exact Built.lift (Equiv.refl _) (Built.user twDraw 3 _)

-- the inner set chosen, then its move 0, accepted; then the user move of the outer set
example : summary (fun w => w.1.1.x) (mcSteps ratNum nested 2 (((((⟨[1 / 4, 1 / 8, 1 / 3, 3 / 4, 1 / 2], 0, 0⟩, []), clearStats flat ⟨[], [], none, 0⟩)),
    clearStats nested ⟨[], [], none, 0⟩), 1, 0)) = some (1001, -1, [1, 1], [1, 1]) := by decide +kernel

theorem ok_of_check {S : Type} {o : Out S Unit} {P : S → Prop} [∀ s, Decidable (P s)] (h : (match o with | .ok _ s => decide (P s) | _ => false) = true) :
    ∃ s, o = .ok () s ∧ P s := by
  cases o with
  | ok a s => exact ⟨s, rfl, by simpa using h⟩
  | exn s => cases h
  | undef => cases h

/-- **C28 is false for tiny ratios**: with the smallest number of the default generator (`2^-52`, `C34_bounds`), a move that returns the ratio `-10^-15` is accepted and
the sign of the simulation is unchanged although the weight changes sign. -/
theorem C28_tiny_ratio : ∃ (rng : List ℚ) (s' : ((TW × List (Event ℚ)) × SetSt ℚ) × ℚ × Nat),
    (∀ u ∈ rng, 1 / 2 ^ 52 ≤ u ∧ u ≤ 1 - 1 / 2 ^ 52) ∧ mcSteps ratNum flat 1 (start rng) = .ok () s' ∧ s'.1.1.1.x = 100 ∧
    s'.1.1.2 = [.att 2 (.fin (-(1 / 10 ^ 15))), .acc 2 1] ∧ s'.2.1 = 1 ∧
    ∀ w w' : ℚ, 0 < w → Follows ratNum w [⟨2, .fin (-(1 / 10 ^ 15)), some 1⟩] w' → w' < 0 := by
  have h : ∃ s', mcSteps ratNum flat 1 (start [7 / 8, 1 / 2 ^ 52]) = .ok () s' ∧ s'.1.1.1.x = 100 ∧
      s'.1.1.2 = [.att 2 (.fin (-(1 / 10 ^ 15))), .acc 2 1] ∧ s'.2.1 = 1 := ok_of_check (by decide +kernel)
  obtain ⟨s', h1, h2, h3, h4⟩ := h
  refine ⟨_, s', ?_, h1, h2, h3, h4, ?_⟩
  · intro u hu
    simp only [List.mem_cons, List.not_mem_nil, or_false] at hu
    rcases hu with rfl | rfl <;> norm_num
  · intro w w' hw hf
    cases hf with
    | acc _ _ _ h1 h =>
      cases h
      obtain ⟨c, hc, e⟩ := h1
      simp only [ratNum, dir] at e
      rw [e]
      have : 0 < c * w := by positivity
      nlinarith

/-- a number `u = 1` (excluded above) with a last move of probability zero: this move is chosen -/
theorem C30_one_picks_last : pick ([1, 0] : List ℚ) 1 = some 1 := by decide +kernel

end Verif.MC
