import Verif.Hilbert.ImpModel
import Verif.Hilbert.SpaceProps
import Verif.Operators.Canonical
import Mathlib.Algebra.Ring.Parity
import Mathlib.Algebra.BigOperators.Ring.Finset

/-! # Lemmas for C13 -/

namespace Verif.Imp
open Verif.Operators Verif.Fock

variable {R : Type} [CommRing R]

/-! ### the sort -/

def DagFirst (m : Mono Nat) : Prop := m.Pairwise (fun a b => b.dagger = true → a.dagger = true)

theorem greater_anti {a b : COp Nat} (h : b.dagger = true → a.dagger = true) (hg : greater a b = true) :
    a.dagger = b.dagger ∧ (opAct a * opAct b : Module.End R (Space Nat R)) = - (opAct b * opAct a) := by
  obtain ⟨da, ia⟩ := a; obtain ⟨db, ib⟩ := b
  cases da <;> cases db <;> simp_all [greater]
  · exact opAct_anti _ _ (by simp)
  · exact opAct_anti _ _ (by simp)

theorem dagFirst_swap {a b : COp Nat} {m : Mono Nat} (h : DagFirst (a :: b :: m)) (e : a.dagger = b.dagger) :
    DagFirst (b :: a :: m) := by
  unfold DagFirst at *
  simp only [List.pairwise_cons, List.mem_cons, forall_eq_or_imp] at h ⊢
  exact ⟨⟨fun h' => by rw [← e]; exact h', h.2.1⟩, h.1.2, h.2.2⟩

theorem sortPass_action (k : Nat) : ∀ (m : Mono Nat) (c : R), DagFirst m →
    (sortPass k m c).2.1 • (monoAct (sortPass k m c).1 : Module.End R (Space Nat R)) = c • monoAct m
    ∧ (sortPass k m c).1.Perm m ∧ DagFirst (sortPass k m c).1
    ∧ (∀ x, (∀ y ∈ m, y.dagger = true → x = true) →
        (∀ y ∈ (sortPass k m c).1, y.dagger = true → x = true)) := by
  induction k with
  | zero => intro m c h; exact ⟨rfl, List.Perm.refl _, h, fun _ h => h⟩
  | succ k ih =>
    intro m c h
    match m with
    | [] => exact ⟨rfl, List.Perm.refl _, h, fun _ h => h⟩
    | [a] => exact ⟨rfl, List.Perm.refl _, h, fun _ h => h⟩
    | a :: b :: m =>
      unfold sortPass
      split
      · rename_i hg
        have hab := (List.pairwise_cons.mp h).1 b (by simp)
        obtain ⟨e, anti⟩ := greater_anti (R := R) hab hg
        have h' := dagFirst_swap h e
        have h'' := (List.pairwise_cons.mp h').2
        obtain ⟨h1, h2, h3, _⟩ := ih (a :: m) (c * (-1)) h''
        refine ⟨?_, ?_, ?_, ?_⟩
        · simp only [monoAct_cons]
          have : (sortPass k (a :: m) (c * (-1))).2.1 •
              ((opAct b : Module.End R (Space Nat R)) * monoAct (sortPass k (a :: m) (c * (-1))).1)
              = opAct b * ((sortPass k (a :: m) (c * (-1))).2.1 • monoAct (sortPass k (a :: m) (c * (-1))).1) := by
            ext f T; simp
          rw [this, h1, monoAct_cons, ← mul_assoc (opAct a), anti]
          rw [neg_mul_end, smul_neg_end]
          ext f T; simp
        · exact (h2.cons b).trans (List.Perm.swap a b m)
        · refine List.pairwise_cons.mpr ⟨?_, h3⟩
          intro y hy
          exact (List.pairwise_cons.mp h').1 y (h2.mem_iff.mp hy)
        · intro x hx y hy
          rcases List.mem_cons.mp hy with rfl | hy
          · exact hx _ (by simp)
          · have := h2.mem_iff.mp hy
            refine hx y ?_
            simp only [List.mem_cons] at this ⊢
            tauto
      · have h'' := (List.pairwise_cons.mp h).2
        obtain ⟨h1, h2, h3, _⟩ := ih (b :: m) c h''
        refine ⟨?_, h2.cons a, ?_, ?_⟩
        · simp only [monoAct_cons]
          have : (sortPass k (b :: m) c).2.1 •
              ((opAct a : Module.End R (Space Nat R)) * monoAct (sortPass k (b :: m) c).1)
              = opAct a * ((sortPass k (b :: m) c).2.1 • monoAct (sortPass k (b :: m) c).1) := by
            ext f T; simp
          rw [this, h1, monoAct_cons]
          ext f T; simp
        · refine List.pairwise_cons.mpr ⟨?_, h3⟩
          intro y hy
          exact (List.pairwise_cons.mp h).1 y (h2.mem_iff.mp hy)
        · intro x hx y hy
          rcases List.mem_cons.mp hy with rfl | hy
          · exact hx _ (by simp)
          · exact hx y (List.mem_cons_of_mem _ (h2.mem_iff.mp hy))

theorem bubble_action (n : Nat) : ∀ (m : Mono Nat) (c : R), DagFirst m →
    (bubble n m c).2 • (monoAct (bubble n m c).1 : Module.End R (Space Nat R)) = c • monoAct m
    ∧ (bubble n m c).1.Perm m := by
  induction n with
  | zero => intro m c _; exact ⟨rfl, List.Perm.refl _⟩
  | succ n ih =>
    intro m c h
    obtain ⟨h1, h2, h3, _⟩ := sortPass_action n m c h
    unfold bubble
    simp only
    split
    · obtain ⟨h4, h5⟩ := ih _ (sortPass n m c).2.1 h3
      exact ⟨h4.trans h1, h5.trans h2⟩
    · exact ⟨h1, h2⟩

def le (a b : COp Nat) : Prop := greater a b = false

theorem le_total (a b : COp Nat) : le a b ∨ le b a := by
  obtain ⟨da, ia⟩ := a; obtain ⟨db, ib⟩ := b
  cases da <;> cases db <;> simp [le, greater] <;> omega

theorem le_of_greater {a b : COp Nat} (h : greater a b = true) : le b a := by
  rcases le_total a b with h' | h'
  · rw [le] at h'; rw [h] at h'; cases h'
  · exact h'

theorem le_trans {a b c : COp Nat} (h : le a b) (h' : le b c) : le a c := by
  obtain ⟨da, ia⟩ := a; obtain ⟨db, ib⟩ := b; obtain ⟨dc, ic⟩ := c
  cases da <;> cases db <;> cases dc <;> simp_all [le, greater] <;> omega

theorem le_refl (a : COp Nat) : le a a := by
  obtain ⟨da, ia⟩ := a
  cases da <;> simp [le, greater]

theorem le_ne {a b : COp Nat} (h : le a b) (hne : a ≠ b) : a.lt b = true := by
  obtain ⟨da, ia⟩ := a; obtain ⟨db, ib⟩ := b
  cases da <;> cases db <;> simp_all [le, greater, COp.lt] <;> omega

theorem sortPass_noswap (k : Nat) : ∀ (m : Mono Nat) (c : R), (sortPass k m c).2.2 = false →
    (sortPass k m c).1 = m := by
  induction k with
  | zero => intro m c _; rfl
  | succ k ih =>
    intro m c h
    match m with
    | [] => rfl
    | [a] => rfl
    | a :: b :: m =>
      unfold sortPass at h ⊢
      split
      · rename_i hg; simp [hg] at h
      · rename_i hg; simp only [hg] at h ⊢; simp at h; rw [ih _ _ h]

/-- one pass over `p` (with `s` behind it): the largest element ends up last; no swap means sorted -/
theorem sortPass_spec (k : Nat) : ∀ (p s : Mono Nat) (c : R), p.length = k + 1 →
    ∃ q x, (sortPass k (p ++ s) c).1 = q ++ x :: s ∧ q.length = k ∧ (q ++ [x]).Perm p ∧
      (∀ y ∈ q, le y x) ∧
      ((sortPass k (p ++ s) c).2.2 = false → (q ++ [x]).Pairwise le) := by
  induction k with
  | zero =>
    intro p s c hp
    obtain ⟨x, rfl⟩ := List.length_eq_one_iff.mp hp
    exact ⟨[], x, rfl, rfl, List.Perm.refl _, by simp, by simp⟩
  | succ k ih =>
    intro p s c hp
    match p, hp with
    | a :: b :: p, hp =>
      simp only [List.cons_append]
      unfold sortPass
      split
      · rename_i hg
        obtain ⟨q, x, h1, h2, h3, h4, h5⟩ := ih (a :: p) s (c * (-1)) (by simpa using hp)
        refine ⟨b :: q, x, ?_, by simp [h2], ?_, ?_, by simp⟩
        · simp only [List.cons_append] at h1 ⊢
          rw [h1]
        · exact (h3.cons b).trans (List.Perm.swap a b p)
        · intro y hy
          rcases List.mem_cons.mp hy with rfl | hy
          · have hmem : a ∈ q ++ [x] := h3.mem_iff.mpr (by simp)
            rcases List.mem_append.mp hmem with h | h
            · exact le_trans (le_of_greater hg) (h4 a h)
            · simp at h; subst h; exact le_of_greater hg
          · exact h4 y hy
      · rename_i hg
        obtain ⟨q, x, h1, h2, h3, h4, h5⟩ := ih (b :: p) s c (by simpa using hp)
        have hab : le a b := by simpa [le] using hg
        have hbx : le b x := by
          have hmem : b ∈ q ++ [x] := h3.mem_iff.mpr (by simp)
          rcases List.mem_append.mp hmem with h | h
          · exact h4 b h
          · simp at h; subst h; exact le_refl _
        refine ⟨a :: q, x, ?_, by simp [h2], h3.cons a, ?_, ?_⟩
        · simp only [List.cons_append] at h1 ⊢
          rw [h1]
        · intro y hy
          rcases List.mem_cons.mp hy with rfl | hy
          · exact le_trans hab hbx
          · exact h4 y hy
        · intro hsw
          simp only [List.cons_append] at h5
          have h6 := h5 hsw
          have hhead : ∃ t, q ++ [x] = b :: t := by
            have e := sortPass_noswap k _ _ hsw
            simp only [List.cons_append] at h1
            rw [e] at h1
            have : q ++ [x] ++ s = (b :: p) ++ s := by simpa using h1.symm
            exact ⟨p, List.append_cancel_right this⟩
          obtain ⟨t, ht⟩ := hhead
          rw [List.cons_append, ht]
          rw [ht] at h6
          refine List.pairwise_cons.mpr ⟨?_, h6⟩
          intro y hy
          rcases List.mem_cons.mp hy with rfl | hy
          · exact hab
          · exact le_trans hab ((List.pairwise_cons.mp h6).1 y hy)

theorem bubble_sorted (n : Nat) : ∀ (p s : Mono Nat) (c : R), p.length = n → s.Pairwise le →
    (∀ y ∈ p, ∀ z ∈ s, le y z) → (bubble n (p ++ s) c).1.Pairwise le := by
  induction n with
  | zero =>
    intro p s c hp hs _
    rw [List.length_eq_zero_iff] at hp; subst hp
    exact hs
  | succ n ih =>
    intro p s c hp hs hps
    obtain ⟨q, x, h1, h2, h3, h4, h5⟩ := sortPass_spec n p s c hp
    have hx : ∀ z ∈ s, le x z := fun z hz => hps x (h3.mem_iff.mp (by simp)) z hz
    have hq : ∀ y ∈ q, ∀ z ∈ s, le y z := fun y hy z hz => hps y (h3.mem_iff.mp (by simp [hy])) z hz
    unfold bubble
    simp only
    split
    · rw [h1]
      apply ih q (x :: s) _ h2
      · exact List.pairwise_cons.mpr ⟨hx, hs⟩
      · intro y hy z hz
        rcases List.mem_cons.mp hz with rfl | hz
        · exact h4 y hy
        · exact hq y hy z hz
    · rename_i hsw
      have h6 := h5 (by simpa using hsw)
      simp only [h1]
      have : q ++ x :: s = (q ++ [x]) ++ s := by simp
      rw [this, List.pairwise_append]
      refine ⟨h6, hs, ?_⟩
      intro y hy z hz
      exact hps y (h3.mem_iff.mp hy) z hz

theorem bubble_normal (m : Mono Nat) (c : R) (hd : DagFirst m) (hn : m.Nodup) :
    NormalOrdered (bubble m.length m c).1 := by
  have h1 := bubble_sorted m.length m [] c rfl List.Pairwise.nil (by simp)
  rw [List.append_nil] at h1
  have h2 : (bubble m.length m c).1.Nodup := (bubble_action m.length m c hd).2.nodup_iff.mpr hn
  exact h1.imp₂ (fun a b => le_ne) h2

/-! ### action of a normal ordered monomial on a basis state -/

theorem ann_ket (l : List Nat) (hl : l.Pairwise (· > ·)) (S : Finset Nat) :
    monoAct (l.map (fun i => (⟨false, i⟩ : COp Nat))) (ket S : Space Nat R) =
      if l.toFinset ⊆ S then
        ((-1) ^ (∑ q ∈ l.toFinset, ((S \ l.toFinset).filter (· < q)).card) : R) • ket (S \ l.toFinset)
      else 0 := by
  induction l with
  | nil => simp
  | cons q l ih =>
    have hp := List.pairwise_cons.mp hl
    have hq : q ∉ l.toFinset := by
      intro h; have := hp.1 q (by simpa using h); omega
    rw [List.map_cons, monoAct_cons, Module.End.mul_apply, ih hp.2]
    simp only [List.toFinset_cons]
    by_cases hS : l.toFinset ⊆ S
    · rw [if_pos hS, map_smul, opAct]
      simp only [Bool.false_eq_true, if_false]
      rw [annihilate_ket]
      by_cases hqS : q ∈ S
      · have h1 : q ∈ S \ l.toFinset := by simp at hq; simp [hqS, hq]
        have h2 : insert q l.toFinset ⊆ S := Finset.insert_subset hqS hS
        rw [if_pos h1, if_pos h2, smul_smul]
        have h3 : (S \ l.toFinset).erase q = S \ insert q l.toFinset := by
          ext x; simp; tauto
        rw [h3]
        congr 1
        rw [Finset.sum_insert hq, sgn, ← pow_add, add_comm]
        congr 1
        congr 1
        · congr 1
          ext x; simp; intro _ _ h; omega
        · apply Finset.sum_congr rfl
          intro x hx
          have hxq := hp.1 x (by simpa using hx)
          congr 1
          ext y; simp; intro _ _ h; omega
      · have h1 : q ∉ S \ l.toFinset := by simp [hqS]
        have h2 : ¬ insert q l.toFinset ⊆ S := fun h => hqS (h (by simp))
        rw [if_neg h1, if_neg h2, smul_zero]
    · have h2 : ¬ insert q l.toFinset ⊆ S := fun h => hS ((Finset.subset_insert _ _).trans h)
      rw [if_neg hS, if_neg h2, map_zero]

theorem cre_ket (l : List Nat) (hl : l.Pairwise (· < ·)) (S : Finset Nat) :
    monoAct (l.map (fun i => (⟨true, i⟩ : COp Nat))) (ket S : Space Nat R) =
      if Disjoint l.toFinset S then
        ((-1) ^ (∑ p ∈ l.toFinset, (S.filter (· < p)).card) : R) • ket (S ∪ l.toFinset)
      else 0 := by
  induction l with
  | nil => simp
  | cons q l ih =>
    have hp := List.pairwise_cons.mp hl
    have hq : q ∉ l.toFinset := by
      intro h; have := hp.1 q (by simpa using h); omega
    rw [List.map_cons, monoAct_cons, Module.End.mul_apply, ih hp.2]
    simp only [List.toFinset_cons]
    by_cases hS : Disjoint l.toFinset S
    · rw [if_pos hS, map_smul, opAct]
      simp only [if_true]
      rw [create_ket]
      by_cases hqS : q ∈ S
      · have h1 : q ∈ S ∪ l.toFinset := by simp [hqS]
        have h2 : ¬ Disjoint (insert q l.toFinset) S := by
          rw [Finset.disjoint_insert_left]; tauto
        rw [if_pos h1, if_neg h2, smul_zero]
      · have h1 : q ∉ S ∪ l.toFinset := by simp at hq; simp [hqS, hq]
        have h2 : Disjoint (insert q l.toFinset) S := by
          rw [Finset.disjoint_insert_left]; tauto
        rw [if_neg h1, if_pos h2, smul_smul]
        have h3 : insert q (S ∪ l.toFinset) = S ∪ insert q l.toFinset := by
          ext x; simp
        rw [h3]
        congr 1
        rw [Finset.sum_insert hq, sgn, ← pow_add, add_comm]
        congr 3
        ext x; simp
        intro h hx
        have := hp.1 x hx; omega
    · have h2 : ¬ Disjoint (insert q l.toFinset) S := by
        rw [Finset.disjoint_insert_left]; tauto
      rw [if_neg hS, if_neg h2, map_zero]

/-! ### bit masks -/

theorem bit_getLsbD (p i : Nat) (hp : p < 64) : (bit p).getLsbD i = decide (i = p) := by
  unfold bit
  rw [BitVec.getLsbD_shiftLeft]
  by_cases h : i = p
  · subst h; simp [hp]
  · by_cases h2 : i < p
    · simp [h2, h]
    · have : (1#64).getLsbD (i - p) = false := by
        rw [BitVec.getLsbD_one]; simp; omega
      simp [this, h]

theorem orBits_getLsbD (d : List Nat) (hd : ∀ p ∈ d, p < 64) (i : Nat) :
    (orBits d).getLsbD i = decide (i ∈ d) := by
  have key : ∀ (d : List Nat) (m : BitVec 64), (∀ p ∈ d, p < 64) →
      (d.foldl (fun m p => m ||| bit p) m).getLsbD i = (m.getLsbD i || decide (i ∈ d)) := by
    intro d
    induction d with
    | nil => intro m _; simp
    | cons p d ih =>
      intro m h
      rw [List.foldl_cons, ih _ (fun q hq => h q (by simp [hq])), BitVec.getLsbD_or,
        bit_getLsbD p i (h p (by simp))]
      by_cases h1 : i = p <;> simp [h1]
  simpa [orBits] using key d 0 hd

theorem countMaskLoop_getLsbD (d : List Nat) (hn : d.Nodup) (j : Nat) : ∀ (k i : Nat) (on : Bool) (mask : BitVec 64),
    i + k ≤ 64 → on = decide (d.countP (fun e => decide (i ≤ e)) % 2 = 1) →
    (countMaskLoop d k i on mask).getLsbD j =
      (mask.getLsbD j || decide (i ≤ j ∧ j < i + k ∧ j ∉ d ∧ d.countP (fun e => decide (j < e)) % 2 = 1)) := by
  intro k
  induction k with
  | zero => intro i on mask _ _; simp [countMaskLoop]; intros; omega
  | succ k ih =>
    intro i on mask hk hon
    have hstep : ∀ (i : Nat), d.countP (fun e => decide (i ≤ e)) =
        d.countP (fun e => decide (i < e)) + (if i ∈ d then 1 else 0) := by
      intro i
      clear hon ih
      induction d with
      | nil => simp
      | cons x d ihd =>
        have hx := List.nodup_cons.mp hn
        simp only [List.countP_cons, ihd hx.2, List.mem_cons]
        by_cases h1 : i = x
        · subst h1; simp [hx.1]
        · by_cases h2 : i < x
          · have : i ≤ x := by omega
            simp [h1, h2, this]; omega
          · have : ¬ i ≤ x := by omega
            simp [h1, h2, this]
    have hsucc : d.countP (fun e => decide (i + 1 ≤ e)) = d.countP (fun e => decide (i < e)) := rfl
    unfold countMaskLoop
    split
    · rename_i hi
      rw [ih (i + 1) (!on) mask (by omega) (by
        rw [hon, hsucc, hstep i, if_pos hi]
        by_cases h : d.countP (fun e => decide (i < e)) % 2 = 1
        · have : ¬ (d.countP (fun e => decide (i < e)) + 1) % 2 = 1 := by omega
          simp [h, this]
        · have : (d.countP (fun e => decide (i < e)) + 1) % 2 = 1 := by omega
          simp [h, this])]
      congr 1
      rw [decide_eq_decide]
      constructor
      · rintro ⟨h1, h2, h3⟩; exact ⟨by omega, by omega, h3⟩
      · rintro ⟨h1, h2, h3⟩
        have : j ≠ i := fun e => h3.1 (e ▸ hi)
        exact ⟨by omega, by omega, h3⟩
    · rename_i hi
      have hon' : on = decide (d.countP (fun e => decide (i + 1 ≤ e)) % 2 = 1) := by
        rw [hon, hsucc, hstep i, if_neg hi, Nat.add_zero]
      split
      · rename_i ht
        rw [ih (i + 1) on _ (by omega) hon', BitVec.getLsbD_or, bit_getLsbD i j (by omega), Bool.or_assoc]
        congr 1
        rw [ht, hsucc] at hon'
        have hodd := of_decide_eq_true hon'.symm
        rw [← Bool.decide_or, decide_eq_decide]
        constructor
        · rintro (rfl | ⟨h1, h2, h3⟩)
          · exact ⟨by omega, by omega, hi, hodd⟩
          · exact ⟨by omega, by omega, h3⟩
        · rintro ⟨h1, h2, h3⟩
          by_cases e : j = i
          · exact Or.inl e
          · exact Or.inr ⟨by omega, by omega, h3⟩
      · rename_i ht
        rw [ih (i + 1) on _ (by omega) hon']
        congr 1
        simp only [Bool.not_eq_true] at ht
        rw [ht, hsucc] at hon'
        have hodd := of_decide_eq_false hon'.symm
        rw [decide_eq_decide]
        constructor
        · rintro ⟨h1, h2, h3⟩; exact ⟨by omega, by omega, h3⟩
        · rintro ⟨h1, h2, h3, h4⟩
          have : j ≠ i := fun e => by subst e; exact hodd h4
          exact ⟨by omega, by omega, h3, h4⟩

theorem countMask_getLsbD (d : List Nat) (hn : d.Nodup) (j : Nat) :
    (countMask d).getLsbD j = decide (j < 64 ∧ j ∉ d ∧ d.countP (fun e => decide (j < e)) % 2 = 1) := by
  unfold countMask
  rw [countMaskLoop_getLsbD d hn j 64 0 _ 0 (by norm_num)]
  · simp
  · simp only [Nat.zero_le, decide_true, List.countP_true]
    rfl

/-- xor of the lowest `n` bits -/
def xorBits (v : BitVec 64) : Nat → Bool
  | 0 => false
  | n + 1 => xor (xorBits v n) (v.getLsbD n)

theorem xorBits_xor (u v : BitVec 64) (n : Nat) :
    xorBits (u ^^^ v) n = xor (xorBits u n) (xorBits v n) := by
  induction n with
  | zero => rfl
  | succ n ih =>
    simp only [xorBits, ih, BitVec.getLsbD_xor]
    cases xorBits u n <;> cases xorBits v n <;> cases u.getLsbD n <;> cases v.getLsbD n <;> rfl

theorem xorBits_sign (v : BitVec 64) (n : Nat) :
    (if xorBits v n then (-1 : R) else 1) = (-1) ^ ((Finset.range n).filter (fun i => v.getLsbD i = true)).card := by
  induction n with
  | zero => simp [xorBits]
  | succ n ih =>
    rw [Finset.range_add_one, Finset.filter_insert]
    have hx : xorBits v (n + 1) = xor (xorBits v n) (v.getLsbD n) := rfl
    rw [hx]
    by_cases h : v.getLsbD n = true
    case neg => simp [h, ih]
    · rw [if_pos h, h, Finset.card_insert_of_notMem (by simp), pow_succ, ← ih]
      cases xorBits v n <;> simp

theorem parityBits_eq (v : BitVec 64) : parityBits v = xorBits v 16 := by
  have h1 : ∀ w : BitVec 64, ((w &&& 1#64) == 1#64) = w.getLsbD 0 := by
    intro w
    cases h : w.getLsbD 0
    · apply beq_eq_false_iff_ne.mpr
      intro e
      have : (w &&& 1#64).getLsbD 0 = true := by rw [e]; rfl
      rw [BitVec.getLsbD_and, h] at this
      simp at this
    · apply beq_iff_eq.mpr
      apply BitVec.eq_of_getLsbD_eq
      intro i hi
      rw [BitVec.getLsbD_and, BitVec.getLsbD_one]
      by_cases hi0 : i = 0
      · subst hi0; simp [h]
      · simp [hi0]
  have h2 : xorBits v 16 = xor (xor (xor (xor (xor (xor (xor (xor (xor (xor (xor (xor (xor (xor (xor (xor false (v.getLsbD 0)) (v.getLsbD 1)) (v.getLsbD 2)) (v.getLsbD 3)) (v.getLsbD 4)) (v.getLsbD 5)) (v.getLsbD 6)) (v.getLsbD 7)) (v.getLsbD 8)) (v.getLsbD 9)) (v.getLsbD 10)) (v.getLsbD 11)) (v.getLsbD 12)) (v.getLsbD 13)) (v.getLsbD 14)) (v.getLsbD 15) := rfl
  unfold parityBits
  simp only [h1, BitVec.getLsbD_xor, BitVec.getLsbD_ushiftRight, h2]
  simp only [Nat.reduceAdd, Bool.false_xor]
  have : Std.Commutative Bool.xor := ⟨Bool.xor_comm⟩
  ac_rfl

end Verif.Imp
