import Verif.Hilbert.ImpLemmas
import Mathlib.Combinatorics.Enumerative.DoubleCounting
import Mathlib.Data.Nat.Bitwise
import Mathlib.Algebra.BigOperators.Group.Finset.Piecewise

/-! # From bit masks to the Fock-space action (lemmas for C13) -/

namespace Verif.Imp
open Verif.Operators Verif.Fock

variable {R : Type} [CommRing R]

/-- occupied positions of a word -/
def occ (f : BitVec 64) : Finset Nat := (Finset.range 64).filter (fun i => f.getLsbD i = true)

theorem mem_occ {f : BitVec 64} {i : Nat} : i ∈ occ f ↔ f.getLsbD i = true := by
  simp only [occ, Finset.mem_filter, Finset.mem_range, and_iff_right_iff_imp]
  intro h
  by_contra hi
  rw [BitVec.getLsbD_of_ge f i (by omega)] at h
  cases h

theorem occ_injective {f g : BitVec 64} (h : occ f = occ g) : f = g := by
  apply BitVec.eq_of_getLsbD_eq
  intro i _
  have := Finset.ext_iff.mp h i
  rw [mem_occ, mem_occ] at this
  cases h1 : f.getLsbD i <;> cases h2 : g.getLsbD i <;> simp_all

theorem count_sign (d : List Nat) (hn : d.Nodup) (h16 : ∀ e ∈ d, e ≤ 16) (f : BitVec 64) :
    (if xorBits (f &&& countMask d) 16 then (-1 : R) else 1)
      = (-1) ^ (∑ e ∈ d.toFinset, ((occ f \ d.toFinset).filter (· < e)).card) := by
  rw [xorBits_sign]
  have hcount : ∀ j, d.countP (fun e => decide (j < e)) = (d.toFinset.filter (j < ·)).card := by
    intro j
    rw [List.countP_eq_length_filter, ← List.toFinset_card_of_nodup (hn.filter _), List.toFinset_filter]
    congr 1
    ext x; simp
  have h1 : ∑ e ∈ d.toFinset, ((occ f \ d.toFinset).filter (· < e)).card
      = ∑ i ∈ occ f \ d.toFinset, (d.toFinset.filter (i < ·)).card :=
    (Finset.sum_card_bipartiteAbove_eq_sum_card_bipartiteBelow (fun (i e : Nat) => i < e)).symm
  rw [h1, ← Finset.prod_pow_eq_pow_sum]
  have h2 : ∀ i ∈ occ f \ d.toFinset, ((-1 : R)) ^ (d.toFinset.filter (i < ·)).card
      = if (d.toFinset.filter (i < ·)).card % 2 = 1 then -1 else 1 := by
    intro i _
    split
    · rename_i h; exact Odd.neg_one_pow (Nat.odd_iff.mpr h)
    · rename_i h; exact Even.neg_one_pow (Nat.even_iff.mpr (by omega))
  rw [Finset.prod_congr rfl h2, Finset.prod_ite, Finset.prod_const, Finset.prod_const_one, mul_one]
  congr 2
  ext i
  simp only [Finset.mem_filter, Finset.mem_range, BitVec.getLsbD_and, countMask_getLsbD d hn,
    Bool.and_eq_true, decide_eq_true_eq, Finset.mem_sdiff, mem_occ, List.mem_toFinset, hcount]
  constructor
  · rintro ⟨_, h1, _, h2, h3⟩; exact ⟨⟨h1, h2⟩, h3⟩
  · rintro ⟨⟨h1, h2⟩, h3⟩
    refine ⟨?_, h1, ?_, h2, h3⟩
    · by_contra hi
      have : d.toFinset.filter (i < ·) = ∅ := by
        rw [Finset.filter_eq_empty_iff]
        intro e he
        have := h16 e (by simpa using he)
        omega
      rw [this] at h3; simp at h3
    · by_contra hi
      rw [BitVec.getLsbD_of_ge f i (by omega)] at h1
      cases h1

theorem and_eq_iff (f m : BitVec 64) : f &&& m = m ↔ occ m ⊆ occ f := by
  constructor
  · intro h i hi
    rw [mem_occ] at *
    rw [← h, BitVec.getLsbD_and] at hi
    simp at hi; exact hi.1
  · intro h
    apply BitVec.eq_of_getLsbD_eq
    intro i _
    rw [BitVec.getLsbD_and]
    cases hm : m.getLsbD i
    · simp
    · simp [mem_occ.mp (h (mem_occ.mpr hm))]

theorem occ_orBits (d : List Nat) (hd : ∀ p ∈ d, p < 64) : occ (orBits d) = d.toFinset := by
  ext i; simp [mem_occ, orBits_getLsbD d hd]

theorem occ_andNot (f m : BitVec 64) : occ (f &&& ~~~ m) = occ f \ occ m := by
  ext i
  simp only [mem_occ, Finset.mem_sdiff, BitVec.getLsbD_and, BitVec.getLsbD_not, Bool.and_eq_true]
  constructor
  · rintro ⟨h1, h2, h3⟩; exact ⟨h1, by simpa using h3⟩
  · rintro ⟨h1, h2⟩
    refine ⟨h1, ?_, by simpa using h2⟩
    by_contra hi
    have h := mem_occ.mpr h1
    simp [occ] at h hi
    omega

theorem occ_notAndNot (f m : BitVec 64) : occ (~~~ (~~~ f &&& ~~~ m)) = occ f ∪ occ m := by
  have : ~~~ (~~~ f &&& ~~~ m) = f ||| m := by
    apply BitVec.eq_of_getLsbD_eq
    intro i hi
    simp only [BitVec.getLsbD_not, BitVec.getLsbD_and, BitVec.getLsbD_or, hi, decide_true, Bool.true_and]
    cases f.getLsbD i <;> cases m.getLsbD i <;> rfl
  rw [this]
  ext i; simp [mem_occ]

theorem xor_and_eq_iff (f m : BitVec 64) : (f ^^^ m) &&& m = m ↔ Disjoint (occ m) (occ f) := by
  rw [and_eq_iff, Finset.disjoint_left]
  constructor
  · intro h i hi hf
    have := mem_occ.mp (h hi)
    rw [BitVec.getLsbD_xor, mem_occ.mp hi, mem_occ.mp hf] at this
    cases this
  · intro h i hi
    rw [mem_occ, BitVec.getLsbD_xor, mem_occ.mp hi]
    have := h hi
    rw [mem_occ] at this
    simpa using this

/-- what the bit operations compute, in terms of occupied sets -/
theorem termOn_spec (c : R) (P N : List Nat) (hP : P.Nodup) (hN : N.Nodup)
    (hP16 : ∀ p ∈ P, p ≤ 16) (hN16 : ∀ p ∈ N, p ≤ 16) (f : BitVec 64) :
    let M : Term R := ⟨c, orBits N, orBits P, countMask N, countMask P⟩
    if N.toFinset ⊆ occ f ∧ Disjoint P.toFinset (occ f \ N.toFinset) then
      ∃ f3 minus, termOn M f = some (f3, minus) ∧ occ f3 = (occ f \ N.toFinset) ∪ P.toFinset ∧
        (if minus then (-1 : R) else 1)
          = (-1) ^ (∑ e ∈ N.toFinset, ((occ f \ N.toFinset).filter (· < e)).card)
          * (-1) ^ (∑ e ∈ P.toFinset, ((occ f \ N.toFinset).filter (· < e)).card)
    else termOn M f = none := by
  intro M
  have hN64 : ∀ p ∈ N, p < 64 := fun p hp => by have := hN16 p hp; omega
  have hP64 : ∀ p ∈ P, p < 64 := fun p hp => by have := hP16 p hp; omega
  have oN := occ_orBits N hN64
  have oP := occ_orBits P hP64
  have e1 : (f &&& orBits N) = orBits N ↔ N.toFinset ⊆ occ f := by rw [and_eq_iff, oN]
  have of2 : occ (f &&& ~~~ orBits N) = occ f \ N.toFinset := by rw [occ_andNot, oN]
  have e2 : (((f &&& ~~~ orBits N) ^^^ orBits P) &&& orBits P) = orBits P
      ↔ Disjoint P.toFinset (occ f \ N.toFinset) := by rw [xor_and_eq_iff, oP, of2]
  split
  · rename_i h
    refine ⟨~~~ (~~~ (f &&& ~~~ orBits N) &&& ~~~ orBits P),
      parityBits (((f &&& ~~~ orBits N) &&& countMask N) ^^^
        (~~~ (~~~ (f &&& ~~~ orBits N) &&& ~~~ orBits P) &&& countMask P)), ?_, ?_, ?_⟩
    · unfold termOn
      simp only [M]
      rw [if_neg (by simpa using e1.mpr h.1), if_neg (by simpa using e2.mpr h.2)]
    · rw [occ_notAndNot, of2, oP]
    · rw [parityBits_eq, xorBits_xor]
      have s1 := count_sign (R := R) N hN hN16 (f &&& ~~~ orBits N)
      have s2 := count_sign (R := R) P hP hP16 (~~~ (~~~ (f &&& ~~~ orBits N) &&& ~~~ orBits P))
      have o1 : (occ f \ N.toFinset) \ N.toFinset = occ f \ N.toFinset := by ext x; simp
      have o2 : ((occ f \ N.toFinset) ∪ P.toFinset) \ P.toFinset = occ f \ N.toFinset := by
        ext x
        simp only [Finset.mem_sdiff, Finset.mem_union]
        have : x ∈ P.toFinset → x ∉ occ f \ N.toFinset := fun hx => Finset.disjoint_left.mp h.2 hx
        simp only [Finset.mem_sdiff] at this
        tauto
      rw [of2, o1] at s1
      rw [occ_notAndNot, of2, oP, o2] at s2
      rw [← s1, ← s2]
      generalize xorBits (f &&& ~~~orBits N &&& countMask N) 16 = b1
      generalize xorBits (~~~(~~~(f &&& ~~~orBits N) &&& ~~~orBits P) &&& countMask P) 16 = b2
      cases b1 <;> cases b2 <;> simp
  · rename_i h
    unfold termOn
    simp only [M]
    by_cases h1 : N.toFinset ⊆ occ f
    · rw [if_neg (by simpa using e1.mpr h1)]
      have h2 : ¬ Disjoint P.toFinset (occ f \ N.toFinset) := fun h' => h ⟨h1, h'⟩
      rw [if_pos (fun h' => h2 (e2.mp h'))]
    · rw [if_pos (fun h' => h1 (e1.mp h'))]

/-- bit-level term = monomial action on a basis state -/
theorem termOn_action (m : Mono Nat) (hm : NormalOrdered m) (h16 : ∀ x ∈ m, x.idx ≤ 16) (c : R)
    (f : BitVec 64) :
    let P := (m.filter (·.dagger)).map (·.idx)
    let N := (m.filter (!·.dagger)).map (·.idx)
    let M : Term R := ⟨c, orBits N, orBits P, countMask N, countMask P⟩
    (∃ f3 minus, termOn M f = some (f3, minus) ∧ occ f3 ⊆ occ f ∪ P.toFinset ∧
      monoAct m (ket (occ f) : Space Nat R) = (if minus then (-1 : R) else 1) • ket (occ f3))
    ∨ (termOn M f = none ∧ monoAct m (ket (occ f) : Space Nat R) = 0) := by
  intro P N M
  have hPp : P.Pairwise (· < ·) := normal_nodup_cre hm
  have hNp : N.Pairwise (· > ·) := normal_nodup_ann hm
  have hP : P.Nodup := hPp.imp (fun h => Nat.ne_of_lt h)
  have hN : N.Nodup := hNp.imp (fun h => Nat.ne_of_gt h)
  have hP16 : ∀ p ∈ P, p ≤ 16 := by
    intro p hp
    obtain ⟨x, hx, rfl⟩ := List.mem_map.mp hp
    exact h16 x (List.mem_filter.mp hx).1
  have hN16 : ∀ p ∈ N, p ≤ 16 := by
    intro p hp
    obtain ⟨x, hx, rfl⟩ := List.mem_map.mp hp
    exact h16 x (List.mem_filter.mp hx).1
  have hs := termOn_spec c P N hP hN hP16 hN16 f
  have hact : monoAct m (ket (occ f) : Space Nat R) =
      if N.toFinset ⊆ occ f ∧ Disjoint P.toFinset (occ f \ N.toFinset) then
        ((-1) ^ (∑ e ∈ N.toFinset, ((occ f \ N.toFinset).filter (· < e)).card)
          * (-1) ^ (∑ e ∈ P.toFinset, ((occ f \ N.toFinset).filter (· < e)).card) : R)
          • ket ((occ f \ N.toFinset) ∪ P.toFinset)
      else 0 := by
    rw [normal_split hm, monoAct_append, Module.End.mul_apply, ann_ket _ hNp]
    by_cases h1 : N.toFinset ⊆ occ f
    · rw [if_pos h1, map_smul, cre_ket _ hPp]
      by_cases h2 : Disjoint P.toFinset (occ f \ N.toFinset)
      · rw [if_pos h2, if_pos ⟨h1, h2⟩, smul_smul]
      · rw [if_neg h2, if_neg (fun h => h2 h.2), smul_zero]
    · rw [if_neg h1, if_neg (fun h => h1 h.1), map_zero]
  by_cases h : N.toFinset ⊆ occ f ∧ Disjoint P.toFinset (occ f \ N.toFinset)
  · rw [if_pos h] at hs hact
    obtain ⟨f3, minus, h1, h2, h3⟩ := hs
    refine Or.inl ⟨f3, minus, h1, ?_, ?_⟩
    · rw [h2]; exact Finset.union_subset_union_left Finset.sdiff_subset
    · rw [hact, h2, h3]
  · rw [if_neg h] at hs hact
    exact Or.inr ⟨hs, hact⟩

end Verif.Imp
