import Mathlib.Algebra.Module.LinearMap.End
import Mathlib.Algebra.Module.Pi
import Mathlib.Data.Finset.Card
import Mathlib.Tactic.Ring
import Mathlib.Tactic.Abel

/-!
# Specification: the fermionic Fock space

Independent of the code. A basis state is a finite set `S` of occupied labels, standing for
`c†_{s₁} c†_{s₂} ⋯ c†_{s_k} |0⟩` with `s₁ < s₂ < ⋯ < s_k`; a vector is given by its amplitudes.
-/

namespace Verif.Fock

variable {ι : Type} [LinearOrder ι] {R : Type} [CommRing R]

/-- Fock-space vectors, as amplitudes on occupation sets. -/
abbrev Space (ι R : Type) := Finset ι → R

/-- Jordan-Wigner sign: parity of the number of occupied labels below `i`. -/
def sgn (i : ι) (S : Finset ι) : R := (-1) ^ (S.filter (· < i)).card

/-- creation operator: `c†_i |S⟩ = sgn_i(S) |S ∪ {i}⟩` if `i ∉ S`, else `0`. -/
def create (i : ι) : Module.End R (Space ι R) where
  toFun f T := if i ∈ T then sgn i T * f (T.erase i) else 0
  map_add' f g := by ext T; by_cases h : i ∈ T <;> simp [h, mul_add]
  map_smul' r f := by ext T; by_cases h : i ∈ T <;> simp [h]; ring

/-- annihilation operator: `c_i |S⟩ = sgn_i(S) |S \ {i}⟩` if `i ∈ S`, else `0`. -/
def annihilate (i : ι) : Module.End R (Space ι R) where
  toFun f T := if i ∈ T then 0 else sgn i T * f (insert i T)
  map_add' f g := by ext T; by_cases h : i ∈ T <;> simp [h, mul_add]
  map_smul' r f := by ext T; by_cases h : i ∈ T <;> simp [h]; ring

/-- the basis vector `|S⟩` -/
def ket (S : Finset ι) : Space ι R := fun T => if T = S then 1 else 0

/-- matrix element `⟨T| A |S⟩` -/
def melem (A : Module.End R (Space ι R)) (T S : Finset ι) : R := A (ket S) T

theorem create_apply (i : ι) (f : Space ι R) (T : Finset ι) :
    create i f T = if i ∈ T then sgn i T * f (T.erase i) else 0 := rfl

theorem annihilate_apply (i : ι) (f : Space ι R) (T : Finset ι) :
    annihilate i f T = if i ∈ T then 0 else sgn i T * f (insert i T) := rfl

theorem sgn_mul_self (i : ι) (S : Finset ι) : (sgn i S : R) * sgn i S = 1 := by
  unfold sgn
  rw [← pow_add, ← two_mul]
  simp [pow_mul]

theorem sgn_insert (i j : ι) (S : Finset ι) (h : i ∉ S) :
    (sgn j (insert i S) : R) = if i < j then - sgn j S else sgn j S := by
  unfold sgn
  rw [Finset.filter_insert]
  split
  · rw [Finset.card_insert_of_notMem (by simp [h]), pow_succ]; ring
  · rfl

theorem sgn_erase (i j : ι) (S : Finset ι) (h : i ∈ S) :
    (sgn j (S.erase i) : R) = if i < j then - sgn j S else sgn j S := by
  have h1 : insert i (S.erase i) = S := Finset.insert_erase h
  have h2 := sgn_insert (R := R) i j (S.erase i) (Finset.notMem_erase i S)
  rw [h1] at h2
  rw [h2]
  split <;> simp

/-- the operators act on basis states as documented -/
theorem create_ket (i : ι) (S : Finset ι) :
    create i (ket S : Space ι R) = if i ∈ S then 0 else (sgn i S : R) • ket (insert i S) := by
  ext T
  rw [create_apply]
  by_cases hS : i ∈ S
  · simp only [hS, if_true, Pi.zero_apply]
    split
    · have : T.erase i ≠ S := fun h => by rw [← h] at hS; simp at hS
      simp [ket, this]
    · rfl
  · simp only [hS, if_false, Pi.smul_apply, smul_eq_mul, ket]
    by_cases hT : T = insert i S
    · subst hT
      simp [hS, sgn_insert, Finset.erase_insert]
    · have : ∀ h : i ∈ T, T.erase i ≠ S := fun h he => hT (by rw [← he, Finset.insert_erase h])
      simp only [hT, if_false, mul_zero]
      split
      · rename_i h; simp [this h]
      · rfl

theorem annihilate_ket (i : ι) (S : Finset ι) :
    annihilate i (ket S : Space ι R) = if i ∈ S then (sgn i S : R) • ket (S.erase i) else 0 := by
  ext T
  rw [annihilate_apply]
  by_cases hS : i ∈ S
  · simp only [hS, if_true, Pi.smul_apply, smul_eq_mul, ket]
    by_cases hT : T = S.erase i
    · subst hT
      simp [hS, sgn_erase, Finset.insert_erase]
    · have : ∀ h : i ∉ T, insert i T ≠ S := fun h he => hT (by rw [← he, Finset.erase_insert h])
      simp only [hT, if_false, mul_zero]
      split
      · rfl
      · rename_i h; simp [this h]
  · simp only [hS, if_false, Pi.zero_apply]
    split
    · rfl
    · have : insert i T ≠ S := fun h => by rw [← h] at hS; simp at hS
      simp [ket, this]

theorem create_sq (i : ι) : (create i * create i : Module.End R (Space ι R)) = 0 := by
  ext f T
  simp [Module.End.mul_apply, create_apply]

theorem annihilate_sq (i : ι) : (annihilate i * annihilate i : Module.End R (Space ι R)) = 0 := by
  ext f T
  simp [Module.End.mul_apply, annihilate_apply]

theorem create_anti (i j : ι) :
    (create i * create j : Module.End R (Space ι R)) = - (create j * create i) := by
  by_cases hij : i = j
  · subst hij; simp [create_sq]
  ext f T
  have hji : j ≠ i := fun h => hij h.symm
  simp only [Module.End.mul_apply, LinearMap.neg_apply, Pi.neg_apply, create_apply]
  by_cases hi : i ∈ T <;> by_cases hj : j ∈ T <;> simp [hi, hj, hij, hji, sgn_erase]
  rw [Finset.erase_right_comm]
  rcases lt_trichotomy i j with h | h | h
  · simp [h, not_lt.mpr h.le]; ring
  · exact absurd h hij
  · simp [h, not_lt.mpr h.le]; ring

theorem annihilate_anti (i j : ι) :
    (annihilate i * annihilate j : Module.End R (Space ι R)) = - (annihilate j * annihilate i) := by
  by_cases hij : i = j
  · subst hij; simp [annihilate_sq]
  ext f T
  have hji : j ≠ i := fun h => hij h.symm
  simp only [Module.End.mul_apply, LinearMap.neg_apply, Pi.neg_apply, annihilate_apply]
  by_cases hi : i ∈ T <;> by_cases hj : j ∈ T <;> simp [hi, hj, hij, hji, sgn_insert]
  rw [Finset.insert_comm]
  rcases lt_trichotomy i j with h | h | h
  · simp [h, not_lt.mpr h.le]; ring
  · exact absurd h hij
  · simp [h, not_lt.mpr h.le]; ring

theorem annihilate_create_ne (i j : ι) (hij : i ≠ j) :
    (annihilate i * create j : Module.End R (Space ι R)) = - (create j * annihilate i) := by
  ext f T
  have hji : j ≠ i := fun h => hij h.symm
  simp only [Module.End.mul_apply, LinearMap.neg_apply, Pi.neg_apply, annihilate_apply, create_apply]
  by_cases hi : i ∈ T <;> by_cases hj : j ∈ T <;> simp [hi, hj, hij, hji, sgn_insert, sgn_erase]
  rw [Finset.erase_insert_of_ne hij]
  rcases lt_trichotomy i j with h | h | h
  · simp [h, not_lt.mpr h.le]; ring
  · exact absurd h hij
  · simp [h, not_lt.mpr h.le]; ring

theorem annihilate_create_self (i : ι) :
    (annihilate i * create i : Module.End R (Space ι R)) = 1 - create i * annihilate i := by
  ext f T
  simp only [Module.End.mul_apply, LinearMap.sub_apply, Pi.sub_apply, annihilate_apply, create_apply,
    Module.End.one_apply]
  by_cases hi : i ∈ T
  · simp [hi, sgn_erase, ← mul_assoc, sgn_mul_self, Finset.insert_erase hi]
  · simp [hi, sgn_insert, ← mul_assoc, sgn_mul_self]

end Verif.Fock
