import Verif.Float.Random
import Verif.Float.Relative

/-!
# The choice of a move in double precision

The table of accumulated probabilities and the choice of a move with the rounding of the machine.

Source: `/repo/c++/triqs/mc_tools/mc_move_set.hpp` (153-156, 169-175, 200-206, 293-305). The assertions, which are compiled only in debug mode, are not modelled; in particular the one of line
301, which demands an error below `10^-13`.
-/

namespace Verif.MovesDouble

open Binary64 RandomDouble

/-! ## Model -/

/-- `acc += p` for all elements, mc_move_set.hpp:297; `none` if it is infinite -/
def sumFin : ℚ → List ℚ → Option ℚ
  | a, [] => some a
  | a, p :: l => match fin (a + p) with
    | none => none
    | some b => sumFin b l

/-- the division by the sum, mc_move_set.hpp:299; by an infinite one it gives zero -/
def ratio : Option ℚ → ℚ → ℚ
  | none, _ => 0
  | some s, p => rnd (p / s)

/-- the accumulation after the first element, mc_move_set.hpp:300 -/
def running : ℚ → List ℚ → List ℚ
  | _, [] => []
  | a, p :: l => rnd (p + a) :: running (rnd (p + a)) l

/-- the last element is increased, mc_move_set.hpp:302 -/
def shiftLast : List ℚ → List ℚ
  | [] => []
  | [c] => [rnd (c + rnd (1 / 1000))]
  | c :: d :: l => c :: shiftLast (d :: l)

/-- `normaliseProba`, mc_move_set.hpp:293-305, for the probabilities `w` after the leading zero of the constructor, 154; `none`: all are zero, and the table is not made of
numbers -/
def table (w : List ℚ) : Option (List ℚ) :=
  let s := sumFin 0 (0 :: w)
  if s = some 0 then none else some (shiftLast (ratio s 0 :: running (ratio s 0) (w.map (ratio s))))

/-- `while (proba >= Proba_Moves_Acc_Sum[n]) n++`, mc_move_set.hpp:203; `none` when the end of the table is passed -/
def scan (r : ℚ) : List ℚ → ℕ → Option ℕ
  | [], _ => none
  | c :: l, n => if c ≤ r then scan r l (n + 1) else some n

/-- the number of the move, mc_move_set.hpp:200-206; `none`: access outside of the tables -/
def pick (w : List ℚ) (r : ℚ) : Option ℕ :=
  match table w with
  | none => none
  | some t => match scan r t 0 with
    | some (n + 1) => if n < w.length then some n else none
    | _ => none

/-! ## Specification -/

/-- the exact probability of the moves before the move `u` -/
def before (w : List ℚ) (u : ℕ) : ℚ := (w.take u).sum / w.sum

/-- weights: doubles that are not negative and not all zero, whose sum does not overflow; at most `2^39` -/
structure Weights (w : List ℚ) : Prop where
  dbl : ∀ p ∈ w, IsDouble p
  nonneg : ∀ p ∈ w, 0 ≤ p
  pos : 0 < w.sum
  finite : sumFin 0 w ≠ none
  many : w.length ≤ 2 ^ 39

/-! ## Proofs -/

theorem sumFin_spec (l : List ℚ) : ∀ (a x : ℚ) (k : ℕ) (s : ℚ), Rep a → 0 ≤ a → 0 ≤ x → Rel k x a → (∀ p ∈ l, Rep p ∧ 0 ≤ p) → sumFin a l = some s →
    Rep s ∧ Rel (k + l.length) (x + l.sum) s := by
  induction l with
  | nil =>
    intro a x k s ha _ _ h _ e
    cases e
    simpa using ⟨ha, h⟩
  | cons p l ih =>
    intro a x k s ha ha0 hx h hl e
    obtain ⟨hp, hp0⟩ := hl p (by simp)
    unfold sumFin at e
    split at e
    · cases e
    · rename_i b hb
      obtain ⟨rfl, hbd⟩ := fin_some hb
      have h1 : Rel (k + 1) (x + p) (rnd (a + p)) := (h.add hp0).trans (rel_add ha hp (by linarith))
      obtain ⟨r1, r2⟩ := ih _ (x + p) (k + 1) s (rep_rnd _) (rnd_nonneg (by linarith)) (by linarith) h1 (fun q hq => hl q (by simp [hq])) e
      refine ⟨r1, ?_⟩
      rw [List.length_cons, List.sum_cons, show k + (l.length + 1) = k + 1 + l.length by omega, ← add_assoc]
      exact r2

theorem sum_nonneg' {w : List ℚ} (h : ∀ p ∈ w, 0 ≤ p) : 0 ≤ w.sum := List.sum_nonneg h

/-- errors of the accumulated probabilities -/
theorem running_err (f : ℚ → ℚ) (S η : ℚ) (hS : 0 < S) (hη0 : 0 ≤ η) (hη : η ≤ 1 / 8) (w : List ℚ) : ∀ (a A : ℚ) (k : ℕ),
    (∀ x ∈ w, 0 ≤ x ∧ |f x - x / S| ≤ x / S * η + 1 / 2 ^ 200) → 0 ≤ A → A + w.sum / S ≤ 1 → |a - A| ≤ η * A + k * (4 / 9007199254740992) → k + w.length ≤ 2 ^ 40 →
    ∀ j c, (running a (w.map f))[j]? = some c → |c - (A + (w.take (j + 1)).sum / S)| ≤ η * (A + (w.take (j + 1)).sum / S) + (k + j + 1) * (4 / 9007199254740992) := by
  induction w with
  | nil => intro a A k _ _ _ _ _ j c h; simp [running] at h
  | cons x w ih =>
    intro a A k hw hA hsum ha hk j c hc
    obtain ⟨hx0, hfx⟩ := hw x (by simp)
    have hw0 : 0 ≤ w.sum := List.sum_nonneg fun p hp => (hw p (by simp [hp])).1
    have hq0 : 0 ≤ x / S := div_nonneg hx0 hS.le
    have hwq : 0 ≤ w.sum / S := div_nonneg hw0 hS.le
    rw [List.sum_cons, add_div] at hsum
    rw [List.length_cons] at hk
    have hkq : (k : ℚ) ≤ 1099511627776 := by exact_mod_cast (by omega : k ≤ 1099511627776)
    have hstep : |rnd (f x + a) - (A + x / S)| ≤ η * (A + x / S) + ((k : ℚ) + 1) * (4 / 9007199254740992) := by
      have h1 := rnd_err_abs (f x + a)
      have ht : (2 : ℚ) ^ (-1074 : ℤ) ≤ 1 / 2 ^ 200 := by
        calc (2 : ℚ) ^ (-1074 : ℤ) ≤ 2 ^ (-200 : ℤ) := two_zpow_le (by norm_num)
          _ = 1 / 2 ^ 200 := by norm_num
      have ht2 : (1 : ℚ) / 2 ^ 200 ≤ 1 / 9007199254740992 / 4 := by norm_num
      have hAη : η * A ≤ 1 / 8 := by nlinarith
      have hqη : x / S * η ≤ 1 / 8 := by nlinarith
      have hb : |f x + a| ≤ 2 := by
        generalize (1 : ℚ) / 2 ^ 200 = e at *
        rw [abs_le] at ha hfx ⊢
        constructor <;> linarith [ha.1, ha.2, hfx.1, hfx.2]
      have hb2 := mul_le_mul_of_nonneg_right hb (by norm_num : (0 : ℚ) ≤ 1 / 9007199254740992)
      generalize (2 : ℚ) ^ (-1074 : ℤ) = e' at *
      generalize (1 : ℚ) / 2 ^ 200 = e at *
      have h2 : |rnd (f x + a) - (f x + a)| ≤ 2 * (1 / 9007199254740992) + e := by linarith
      rw [abs_le] at ha hfx h2 ⊢
      constructor <;> linarith [ha.1, ha.2, hfx.1, hfx.2, h2.1, h2.2]
    rw [List.map_cons] at hc
    unfold running at hc
    cases j with
    | zero =>
      rw [List.getElem?_cons_zero] at hc
      cases hc
      simpa using hstep
    | succ j =>
      rw [List.getElem?_cons_succ] at hc
      have := ih (rnd (f x + a)) (A + x / S) (k + 1) (fun p hp => hw p (by simp [hp])) (by linarith) (by linarith) (by push_cast; exact hstep) (by omega) j c hc
      rw [List.take_succ_cons, List.sum_cons, add_div, ← add_assoc]
      push_cast at this ⊢
      calc _ ≤ _ := this
        _ = _ := by ring

theorem running_length (a : ℚ) (l : List ℚ) : (running a l).length = l.length := by
  induction l generalizing a with
  | nil => rfl
  | cons p l ih => simp [running, ih]

theorem shiftLast_length (l : List ℚ) : (shiftLast l).length = l.length := by
  induction l with
  | nil => rfl
  | cons c l ih => cases l with
    | nil => rfl
    | cons d l => simp only [shiftLast, List.length_cons] at ih ⊢; omega

theorem shiftLast_get (l : List ℚ) (j : ℕ) (h : j + 1 < l.length) : (shiftLast l)[j]? = l[j]? := by
  induction l generalizing j with
  | nil => rfl
  | cons c l ih => cases l with
    | nil => simp at h
    | cons d l =>
      cases j with
      | zero => simp [shiftLast]
      | succ j =>
        simp only [shiftLast, List.getElem?_cons_succ]
        exact ih j (by simpa using h)

theorem shiftLast_last (l : List ℚ) (j : ℕ) (h : j + 1 = l.length) (c : ℚ) (hc : l[j]? = some c) : (shiftLast l)[j]? = some (rnd (c + rnd (1 / 1000))) := by
  induction l generalizing j with
  | nil => simp at h
  | cons d l ih => cases l with
    | nil =>
      simp at h
      subst h
      simp at hc
      subst hc
      simp [shiftLast]
    | cons e l =>
      cases j with
      | zero => simp at h
      | succ j =>
        simp only [shiftLast, List.getElem?_cons_succ] at hc ⊢
        exact ih j (by simpa using h) hc

/-- the search -/
theorem scan_spec (r : ℚ) (t : List ℚ) : ∀ n m, scan r t n = some m → n ≤ m ∧ (∃ c, t[m - n]? = some c ∧ r < c) ∧ ∀ j c, j < m - n → t[j]? = some c → c ≤ r := by
  induction t with
  | nil => intro n m h; cases h
  | cons d t ih =>
    intro n m h
    unfold scan at h
    split at h
    · rename_i hd
      obtain ⟨h1, ⟨c, hc, hr⟩, h3⟩ := ih (n + 1) m h
      refine ⟨by omega, ⟨c, ?_, hr⟩, ?_⟩
      · rw [show m - n = (m - (n + 1)) + 1 by omega, List.getElem?_cons_succ]
        exact hc
      · intro j c hj hc
        cases j with
        | zero => rw [List.getElem?_cons_zero] at hc; cases hc; exact hd
        | succ j => rw [List.getElem?_cons_succ] at hc; exact h3 j c (by omega) hc
    · rename_i hd
      cases h
      refine ⟨le_refl _, ⟨d, by simp, not_le.1 hd⟩, fun j c hj _ => by omega⟩

theorem scan_some (r : ℚ) (t : List ℚ) (c : ℚ) (hc : c ∈ t) (hr : r < c) : ∀ n, ∃ m, scan r t n = some m := by
  induction t with
  | nil => cases hc
  | cons d t ih =>
    intro n
    unfold scan
    split
    · rename_i hd
      rcases List.mem_cons.1 hc with rfl | h
      · linarith
      · exact ih h (n + 1)
    · exact ⟨n, rfl⟩

/-- the table of admissible weights -/
theorem table_spec {w : List ℚ} (h : Weights w) : ∃ s t, 0 < s ∧ table w = some (shiftLast t) ∧ t = 0 :: running 0 (w.map fun p => rnd (p / s)) ∧ t.length = w.length + 1 ∧
    ∀ u c, t[u]? = some c → |c - before w u| ≤ w.length * 2 ^ (-49 : ℤ) := by
  have hw0 : w ≠ [] := by rintro rfl; simpa using h.pos
  have hlen : 1 ≤ w.length := List.length_pos_iff.2 hw0
  have hmany := h.many
  obtain ⟨s, hs⟩ := Option.ne_none_iff_exists'.1 h.finite
  have h00 : fin (0 + 0) = some 0 := by decide +kernel
  have hs0 : sumFin 0 (0 :: w) = some s := by
    unfold sumFin
    rw [h00]
    exact hs
  obtain ⟨_, hrel⟩ := sumFin_spec w 0 0 0 s rep_zero (le_refl _) (le_refl _) (Rel.refl 0) (fun p hp => ⟨(h.dbl p hp).1, h.nonneg p hp⟩) hs
  rw [zero_add, zero_add] at hrel
  have hspos : 0 < s := hrel.pos h.pos
  have hr0 : ratio (some s) 0 = 0 := by show rnd (0 / s) = 0; rw [zero_div, rnd_zero]
  refine ⟨s, 0 :: running 0 (w.map fun p => rnd (p / s)), hspos, ?_, rfl, ?_, ?_⟩
  · unfold table
    simp only
    rw [hs0, if_neg (by simpa using hspos.ne'), hr0]
    rfl
  · simp [running_length]
  · intro u c hc
    have hnq : (w.length : ℚ) ≤ 549755813888 := by exact_mod_cast (by omega : w.length ≤ 549755813888)
    have hn1 : (1 : ℚ) ≤ w.length := by exact_mod_cast hlen
    rw [show (2 : ℚ) ^ (-49 : ℤ) = 16 / 9007199254740992 by norm_num]
    cases u with
    | zero =>
      rw [List.getElem?_cons_zero] at hc
      cases hc
      simp [before]
    | succ u =>
      rw [List.getElem?_cons_succ] at hc
      have hsumS : (w.take (u + 1)).sum ≤ w.sum := by
        have := List.sum_append (l₁ := w.take (u + 1)) (l₂ := w.drop (u + 1))
        rw [List.take_append_drop] at this
        have hd : 0 ≤ (w.drop (u + 1)).sum := List.sum_nonneg fun p hp => h.nonneg p (List.mem_of_mem_drop hp)
        linarith
      have htk : 0 ≤ (w.take (u + 1)).sum := List.sum_nonneg fun p hp => h.nonneg p (List.mem_of_mem_take hp)
      have hE : 2 * (w.length : ℚ) / 9007199254740992 ≤ 1 / 8192 := by linarith
      have key := running_err (fun p => rnd (p / s)) w.sum ((2 * w.length + 2) / 9007199254740992) h.pos (by positivity) (by linarith) w 0 0 0 (by
        intro x hx
        have hx0 := h.nonneg x hx
        refine ⟨hx0, ?_⟩
        have hq0 : 0 ≤ x / w.sum := div_nonneg hx0 h.pos.le
        have h1 : Rel w.length (x / w.sum) (x / s) := by
          have := (Rel.refl x).div hrel hx0 h.pos
          rwa [zero_add] at this
        have h2 := h1.err (by omega) hq0
        have hxs : 0 ≤ x / s := div_nonneg hx0 hspos.le
        have h3 := rnd_err_abs (x / s)
        rw [abs_of_nonneg hxs] at h3
        have ht : (2 : ℚ) ^ (-1074 : ℤ) ≤ 1 / 2 ^ 200 := by
          calc (2 : ℚ) ^ (-1074 : ℤ) ≤ 2 ^ (-200 : ℤ) := two_zpow_le (by norm_num)
            _ = 1 / 2 ^ 200 := by norm_num
        have h4 : x / s ≤ x / w.sum * 2 := by
          have h5 := (abs_le.1 h2).2
          have h6 : x / w.sum * (2 * (w.length : ℚ) / 9007199254740992) ≤ x / w.sum * (1 / 8192) := mul_le_mul_of_nonneg_left hE hq0
          linarith
        generalize (2 : ℚ) ^ (-1074 : ℤ) = e' at *
        generalize (1 : ℚ) / 2 ^ 200 = e at *
        have h7 : x / w.sum * ((2 * (w.length : ℚ) + 2) / 9007199254740992) = x / w.sum * (2 * (w.length : ℚ) / 9007199254740992) + x / w.sum * 2 * (1 / 9007199254740992) := by ring
        rw [h7]
        rw [abs_le] at h2 h3 ⊢
        constructor <;> linarith [h2.1, h2.2, h3.1, h3.2]) (le_refl _) (by rw [zero_add, div_self h.pos.ne']) (by simp) (by omega) u c hc
      rw [zero_add] at key
      have hu : u < w.length := by
        have := (List.getElem?_eq_some_iff.1 hc).1
        simpa [running_length] using this
      have huq : (u : ℚ) + 1 ≤ w.length := by exact_mod_cast hu
      have hQ1 : (w.take (u + 1)).sum / w.sum ≤ 1 := by rw [div_le_one h.pos]; exact hsumS
      refine key.trans ?_
      have hm := mul_le_mul_of_nonneg_left hQ1 (by positivity : (0 : ℚ) ≤ (2 * (w.length : ℚ) + 2) / 9007199254740992)
      push_cast
      linarith

theorem milli_le : (1 : ℚ) / 1024 + 1 / 2 ^ 20 ≤ rnd (1 / 1000) := by decide +kernel

theorem before_all {w : List ℚ} (h : 0 < w.sum) : before w w.length = 1 := by
  unfold before
  rw [List.take_length, div_self h.ne']

/-- **C178, a move is always found**: for all weights and all draws the search ends inside of the table, whatever the rounding errors are. -/
theorem C178_found (w : List ℚ) (h : Weights w) (r : ℚ) (hr : Draw r) : ∃ u, pick w r = some u ∧ u < w.length := by
  obtain ⟨s, t, hs, htab, ht, hlen, herr⟩ := table_spec h
  have hn : (w.length : ℚ) ≤ 549755813888 := by exact_mod_cast (by have := h.many; omega : w.length ≤ 549755813888)
  have hw0 : 1 ≤ w.length := List.length_pos_iff.2 (by rintro rfl; simpa using h.pos)
  -- the last entry
  obtain ⟨c, hc⟩ : ∃ c, t[w.length]? = some c := ⟨_, List.getElem?_eq_getElem (by omega)⟩
  have hcerr := herr _ c hc
  rw [before_all h.pos, show (2 : ℚ) ^ (-49 : ℤ) = 16 / 9007199254740992 by norm_num] at hcerr
  have hlast := shiftLast_last t w.length hlen.symm c hc
  have hbig : 1 ≤ rnd (c + rnd (1 / 1000)) := le_rnd rep_one (by
    have := milli_le
    have := (abs_le.1 hcerr).1
    linarith)
  obtain ⟨m, hm⟩ := scan_some r (shiftLast t) _ (List.mem_of_getElem? hlast) (lt_of_lt_of_le hr.2.2 hbig) 0
  obtain ⟨_, ⟨d, hd, hrd⟩, _⟩ := scan_spec r _ 0 m hm
  rw [Nat.sub_zero] at hd
  have hmlen : m < w.length + 1 := by
    have := (List.getElem?_eq_some_iff.1 hd).1
    rwa [shiftLast_length, hlen] at this
  cases m with
  | zero =>
    rw [shiftLast_get t 0 (by omega), ht, List.getElem?_cons_zero] at hd
    cases hd
    have := hr.2.1
    linarith
  | succ m =>
    refine ⟨m, ?_, by omega⟩
    unfold pick
    rw [htab]
    simp only
    rw [hm]
    simp only
    rw [if_pos (by omega)]

/-- what the choice says about the table -/
theorem pick_spec {w : List ℚ} (h : Weights w) {r : ℚ} {u : ℕ} (hp : pick w r = some u) :
    ∃ s t, table w = some (shiftLast t) ∧ t = 0 :: running 0 (w.map fun p => rnd (p / s)) ∧ t.length = w.length + 1 ∧ 0 < s ∧
      (∀ v c, t[v]? = some c → |c - before w v| ≤ w.length * 2 ^ (-49 : ℤ)) ∧ u < w.length ∧
      (∃ c, t[u]? = some c ∧ c ≤ r) ∧ (∃ d, (shiftLast t)[u + 1]? = some d ∧ r < d) := by
  obtain ⟨s, t, hs, htab, ht, hlen, herr⟩ := table_spec h
  refine ⟨s, t, htab, ht, hlen, hs, herr, ?_⟩
  unfold pick at hp
  rw [htab] at hp
  simp only at hp
  split at hp
  · rename_i n hn
    split at hp
    · rename_i hu
      cases hp
      obtain ⟨_, h2, h3⟩ := scan_spec r _ 0 _ hn
      obtain ⟨c, hc⟩ : ∃ c, t[u]? = some c := ⟨_, List.getElem?_eq_getElem (by omega)⟩
      exact ⟨hu, ⟨c, hc, h3 u c (by omega) (by rw [shiftLast_get t u (by omega)]; exact hc)⟩, h2⟩
    · cases hp
  · cases hp

theorem before_mono {w : List ℚ} (h : Weights w) {u v : ℕ} (huv : u ≤ v) : before w u ≤ before w v := by
  unfold before
  refine div_le_div_of_nonneg_right ?_ h.pos.le
  have h1 : w.take u = (w.take v).take u := by rw [List.take_take, min_eq_left huv]
  have h2 := List.sum_append (l₁ := (w.take v).take u) (l₂ := (w.take v).drop u)
  rw [List.take_append_drop] at h2
  have hd : 0 ≤ ((w.take v).drop u).sum := List.sum_nonneg fun p hp => h.nonneg p (List.mem_of_mem_take (List.mem_of_mem_drop hp))
  rw [h1]
  linarith

/-- **C178, probabilities**: the move `u` is chosen for the draws between the exact accumulated probabilities, up to `n 2^-49` at both ends. -/
theorem C178_probabilities (w : List ℚ) (h : Weights w) (r : ℚ) (hr : Draw r) (u : ℕ) (hu : u < w.length) :
    (pick w r = some u → before w u - w.length * 2 ^ (-49 : ℤ) ≤ r ∧ r ≤ before w (u + 1) + w.length * 2 ^ (-49 : ℤ)) ∧
    (before w u + w.length * 2 ^ (-49 : ℤ) ≤ r → r < before w (u + 1) - w.length * 2 ^ (-49 : ℤ) → pick w r = some u) := by
  have upper : ∀ v, pick w r = some v → v + 1 < w.length → ∃ d, r < d ∧ |d - before w (v + 1)| ≤ w.length * 2 ^ (-49 : ℤ) := by
    intro v hv hvl
    obtain ⟨s, t, _, _, hlen, _, herr, _, _, ⟨d, hd, hrd⟩⟩ := pick_spec h hv
    rw [shiftLast_get t _ (by omega)] at hd
    exact ⟨d, hrd, herr _ d hd⟩
  have lower : ∀ v, pick w r = some v → ∃ c, c ≤ r ∧ |c - before w v| ≤ w.length * 2 ^ (-49 : ℤ) := by
    intro v hv
    obtain ⟨s, t, _, _, hlen, _, herr, _, ⟨c, hc, hcr⟩, _⟩ := pick_spec h hv
    exact ⟨c, hcr, herr _ c hc⟩
  have hE : (0 : ℚ) ≤ w.length * 2 ^ (-49 : ℤ) := by positivity
  generalize (w.length : ℚ) * 2 ^ (-49 : ℤ) = E at *
  constructor
  · intro hp
    obtain ⟨c, hc, he⟩ := lower u hp
    refine ⟨by linarith [(abs_le.1 he).1], ?_⟩
    by_cases hl : u + 1 < w.length
    · obtain ⟨d, hd, he'⟩ := upper u hp hl
      linarith [(abs_le.1 he').2]
    · have : u + 1 = w.length := by omega
      rw [this, before_all h.pos]
      linarith [hr.2.2]
  · intro h1 h2
    obtain ⟨v, hv, hvl⟩ := C178_found w h r hr
    rcases lt_trichotomy v u with hlt | rfl | hgt
    · obtain ⟨d, hd, he⟩ := upper v hv (by omega)
      have := before_mono h (by omega : v + 1 ≤ u)
      linarith [(abs_le.1 he).2]
    · exact hv
    · obtain ⟨c, hc, he⟩ := lower v hv
      have hb := before_mono h (by omega : u + 1 ≤ v)
      linarith [(abs_le.1 he).1]

theorem running_succ (a : ℚ) (l : List ℚ) (j : ℕ) (c p : ℚ) (hc : (a :: running a l)[j]? = some c) (hp : l[j]? = some p) : (a :: running a l)[j + 1]? = some (rnd (p + c)) := by
  induction l generalizing a j with
  | nil => simp at hp
  | cons q l ih =>
    cases j with
    | zero =>
      simp at hc hp
      subst hc hp
      simp [running]
    | succ j =>
      rw [List.getElem?_cons_succ] at hc hp ⊢
      unfold running at hc ⊢
      exact ih _ j hc hp

theorem running_rep (a : ℚ) (l : List ℚ) (ha : Rep a) (c : ℚ) (hc : c ∈ a :: running a l) : Rep c := by
  induction l generalizing a with
  | nil => simp [running] at hc; exact hc ▸ ha
  | cons q l ih =>
    rcases List.mem_cons.1 hc with rfl | h
    · exact ha
    · unfold running at h
      exact ih _ (rep_rnd _) h

/-- **C178, weight zero**: a move of weight zero that is not the last one is never chosen, for any draw. -/
theorem C178_zero (w : List ℚ) (h : Weights w) (r : ℚ) (u : ℕ) (hu : u + 1 < w.length) (hz : w[u]? = some 0) : pick w r ≠ some u := by
  intro hp
  obtain ⟨s, t, _, ht, hlen, _, _, _, ⟨c, hc, hcr⟩, ⟨d, hd, hrd⟩⟩ := pick_spec h hp
  rw [shiftLast_get t _ (by omega)] at hd
  have hrep : Rep c := running_rep 0 _ rep_zero c (ht ▸ List.mem_of_getElem? hc)
  rw [ht] at hc hd
  have h0 : (w.map fun p => rnd (p / s))[u]? = some 0 := by
    rw [List.getElem?_map, hz]
    simp [rnd_zero]
  rw [running_succ 0 _ u c 0 hc h0, zero_add, rnd_rep hrep] at hd
  cases hd
  linarith

/-- **C178, the last move of weight zero can be chosen**: after seven moves of weight one, a move of weight zero is chosen for the draw `1 - 2^-52`, since the sum of the seven rounded
sevenths is `1 - 2^-52`. -/
theorem C178_zero_last : Weights [1, 1, 1, 1, 1, 1, 1, 0] ∧ Draw (1 - 2 ^ (-52 : ℤ)) ∧ pick [1, 1, 1, 1, 1, 1, 1, 0] (1 - 2 ^ (-52 : ℤ)) = some 7 := by
  refine ⟨⟨?_, ?_, ?_, ?_, ?_⟩, ?_, ?_⟩
  · intro p hp
    simp at hp
    rcases hp with rfl | rfl
    · exact isDouble_small rep_one (by norm_num)
    · exact isDouble_small rep_zero (by norm_num)
  · intro p hp
    simp at hp
    rcases hp with rfl | rfl <;> norm_num
  · norm_num
  · decide +kernel
  · simp
  · refine ⟨isDouble_small ?_ (by norm_num [abs_le]), by norm_num, by norm_num⟩
    have h := rep_rnd (1 - 2 ^ (-52 : ℤ))
    rwa [show rnd (1 - 2 ^ (-52 : ℤ)) = 1 - 2 ^ (-52 : ℤ) by decide +kernel] at h
  · decide +kernel

/-- **C178, overflow**: two moves whose weights are the largest double: the sum is infinite, all entries of the table but the last are zero and the last is `0.001`. The draw `1/2` leads out of the table. -/
theorem C178_overflow : (∀ p ∈ [(2 : ℚ) ^ 1024 - 2 ^ 971, 2 ^ 1024 - 2 ^ 971], rnd p = p ∧ p < 2 ^ 1024) ∧ pick [2 ^ 1024 - 2 ^ 971, 2 ^ 1024 - 2 ^ 971] (1 / 2) = none := by
  constructor
  · decide +kernel
  · decide +kernel

/-- **C178, all weights zero**: no move is found. -/
theorem C178_all_zero (n : ℕ) (r : ℚ) : pick (List.replicate n 0) r = none := by
  have h : ∀ n : ℕ, sumFin 0 (List.replicate n 0) = some 0 := by
    intro n
    induction n with
    | zero => rfl
    | succ n ih =>
      rw [List.replicate_succ]
      unfold sumFin
      rw [show fin (0 + 0) = some 0 by decide +kernel]
      exact ih
  have h1 : sumFin 0 (0 :: List.replicate n 0) = some 0 := h (n + 1)
  unfold pick table
  simp only
  rw [h1, if_pos rfl]

/-! ### Examples -/

example : pick [1, 2, 1] (1 / 4) = some 1 ∧ pick [1, 2, 1] (3 / 4) = some 2 ∧ pick [1, 2, 1] 0 = some 0 := by decide +kernel
example : pick [1, 0, 1] (1 / 2) = some 2 := by decide +kernel
example : before [1, 2, 1] 2 = 3 / 4 := by decide +kernel
/-- three equal moves: the boundary is the rounded third -/
example : table [1, 1, 1] = some [0, rnd (1 / 3), rnd (2 / 3), rnd (1 + rnd (1 / 1000))] := by decide +kernel

end Verif.MovesDouble
