import Verif.AtomDiag.Thermal
import Verif.Gfs.FourierMatsubara
import Verif.Operators.Fock
import Mathlib.Combinatorics.Colex

/-!
# Model of the Lehmann representation of the atomic Green's function

Source: `/repo/c++/triqs/atom_diag/impl/gf.cpp:48-123, 165-200, 210-242, 300-332`, one component `(n1, n2)` of one block.

Simplifications as in `Verif.AtomDiag.Thermal`; sorting and binary search of the excluded states are membership; the operators `c_{n1}`
and `c†_{n2}` are given by their monomials (their action on Fock states is the subject of the properties of
`imperative_operator`).
-/

namespace Verif.Diag

open Matrix NormedSpace

/-! ## Model -/

/-- the partition function, gf.cpp:62-72: weights are added up state by state -/
noncomputable def Sys.zSum (s : Sys ℝ ℂ) (beta : ℝ) : ℝ :=
  (List.range s.n).foldl (fun z A => (List.range (s.dim A)).foldl (fun z ia => z + Real.exp (-beta * s.E A ia)) z) 0

/-- `weights[A](ia)`, gf.cpp:67-74 -/
noncomputable def Sys.weight (s : Sys ℝ ℂ) (beta : ℝ) (A ia : ℕ) : ℝ := Real.exp (-beta * s.E A ia) / s.zSum beta

/-- `residue`, gf.cpp:94: `c_matrix(n1, B)(ia, ib)` and `cdag_matrix(n2, A)(ib, ia)` for connected blocks -/
noncomputable def Sys.residue (s : Sys ℝ ℂ) (beta : ℝ) (c cd : List (Mono ℂ)) (A ia B ib : ℕ) : ℂ :=
  ((s.weight beta A ia + s.weight beta B ib : ℝ) : ℂ) * s.makeOpMatrix c B A ia ib * s.makeOpMatrix cd A B ib ia

open Classical in
/-- the terms passed on by `atomic_g_lehmann_impl`, gf.cpp:87-102: pairs of pole and residue. `eps` is the machine precision. -/
noncomputable def Sys.lehmann (s : Sys ℝ ℂ) (beta eps : ℝ) (excl : List (ℕ × ℕ)) (n1 n2 : ℕ) (c cd : List (Mono ℂ)) : List (ℝ × ℂ) :=
  (List.range s.n).flatMap fun A => match s.crea n2 A with
    | none => []
    | some B =>
      if s.anni n1 B ≠ some A then []
      else (List.range (s.dim A)).flatMap fun ia =>
        if (A, ia) ∈ excl then []
        else (List.range (s.dim B)).filterMap fun ib =>
          if (B, ib) ∈ excl then none
          else if ‖s.residue beta c cd A ia B ib‖ < eps then none
          else some (s.E B ib - s.E A ia, s.residue beta c cd A ia B ib)

/-- one term of the imaginary-time function at `tau`, gf.cpp:171-174 -/
noncomputable def tauTerm (beta tau : ℝ) (t : ℝ × ℂ) : ℂ :=
  (-t.2 / ((if t.1 > 0 then 1 + Real.exp (-beta * t.1) else Real.exp (beta * t.1) + 1 : ℝ) : ℂ)) *
    ((if t.1 > 0 then Real.exp (-tau * t.1) else Real.exp ((beta - tau) * t.1) : ℝ) : ℂ)

/-- `atomic_g_tau`, gf.cpp:167-187, at `tau` -/
noncomputable def gTau (beta : ℝ) (l : List (ℝ × ℂ)) (tau : ℝ) : ℂ := l.foldl (fun g t => g + tauTerm beta tau t) 0

/-- `atomic_g_iw`, gf.cpp:212-229, at the frequency `z` -/
noncomputable def gIw (l : List (ℝ × ℂ)) (z : ℂ) : ℂ := l.foldl (fun g t => g + t.2 / (z - t.1)) 0

/-- `atomic_g_w`, gf.cpp:302-319, at the frequency `w` -/
noncomputable def gW (broadening : ℝ) (l : List (ℝ × ℂ)) (w : ℝ) : ℂ := l.foldl (fun g t => g + t.2 / (w + Complex.I * broadening - t.1)) 0

/-! ## Specification -/

/-- Green's function in imaginary time -/
noncomputable def greenTau {ι : Type} [Fintype ι] [DecidableEq ι] (beta : ℝ) (H c cd : Matrix ι ι ℂ) (tau : ℝ) : ℂ :=
  -(trace (exp ((-(beta - tau) : ℂ) • H) * c * exp ((-tau : ℂ) • H) * cd) / trace (exp ((-beta : ℂ) • H)))

/-- the tables contain all connections of the two operators -/
structure Sys.Conn (s : Sys ℝ ℂ) (n1 n2 : ℕ) (c cd : List (Mono ℂ)) : Prop where
  range : ∀ A < s.n, ∀ B, s.crea n2 A = some B → B < s.n
  crea : ∀ A < s.n, ∀ B < s.n, ∀ i ∈ s.sp A, ∀ f ∈ s.sp B, opEntry cd f i ≠ 0 → s.crea n2 A = some B
  anni : ∀ A < s.n, ∀ B < s.n, ∀ i ∈ s.sp B, ∀ f ∈ s.sp A, opEntry c f i ≠ 0 → s.anni n1 B = some A

/-- occupied levels of a Fock state -/
def occupied (k : ℕ) : Finset ℕ := Finset.equivBitIndices k

/-- the annihilation operator of level `n` on Fock states, with the Jordan-Wigner sign -/
noncomputable def annMono (n : ℕ) : Mono ℂ := fun k =>
  if n ∈ occupied k then some (Finset.equivBitIndices.symm ((occupied k).erase n), Fock.sgn n (occupied k)) else none

/-- the creation operator of level `n` on Fock states -/
noncomputable def creMono (n : ℕ) : Mono ℂ := fun k =>
  if n ∈ occupied k then none else some (Finset.equivBitIndices.symm (insert n (occupied k)), Fock.sgn n (occupied k))

/-! ## Proofs -/

/-- weighted sum over the terms -/
noncomputable def lsum (l : List (ℝ × ℂ)) (h : ℝ → ℂ) : ℂ := (l.map fun t => t.2 * h t.1).sum

theorem foldl_list (l : List (ℝ × ℂ)) (g : ℝ × ℂ → ℂ) : ∀ x, l.foldl (fun a t => a + g t) x = x + (l.map g).sum := by
  induction l with
  | nil => intro x; simp
  | cons t l ih => intro x; rw [List.foldl_cons, ih, List.map_cons, List.sum_cons, add_assoc]

theorem tauTerm_eq (beta tau : ℝ) (t : ℝ × ℂ) :
    tauTerm beta tau t = t.2 * ((-(Real.exp (-tau * t.1) / (1 + Real.exp (-beta * t.1))) : ℝ) : ℂ) := by
  obtain ⟨p, r⟩ := t
  unfold tauTerm
  have h1 : (1 + Real.exp (-beta * p) : ℝ) ≠ 0 := by positivity
  have h2 : (Real.exp (beta * p) + 1 : ℝ) ≠ 0 := by positivity
  by_cases h : p > 0
  · simp only [if_pos h]
    push_cast
    ring
  · simp only [if_neg h]
    have key : Real.exp ((beta - tau) * p) / (Real.exp (beta * p) + 1) = Real.exp (-tau * p) / (1 + Real.exp (-beta * p)) := by
      rw [div_eq_div_iff h2 h1, mul_add, mul_add, ← Real.exp_add, ← Real.exp_add, mul_one, mul_one]
      congr 1
      · congr 1; ring
      · congr 1; ring
    rw [← key]
    push_cast
    ring

theorem gTau_eq (beta : ℝ) (l : List (ℝ × ℂ)) (tau : ℝ) :
    gTau beta l tau = lsum l fun p => ((-(Real.exp (-tau * p) / (1 + Real.exp (-beta * p))) : ℝ) : ℂ) := by
  unfold gTau lsum
  rw [foldl_list, zero_add]
  congr 1
  exact List.map_congr_left fun t _ => tauTerm_eq beta tau t

theorem gIw_eq (l : List (ℝ × ℂ)) (z : ℂ) : gIw l z = lsum l fun p => 1 / (z - p) := by
  unfold gIw lsum
  rw [foldl_list, zero_add]
  congr 1
  exact List.map_congr_left fun t _ => by rw [mul_one_div]

theorem zSum_eq (s : Sys ℝ ℂ) (beta : ℝ) : s.zSum beta = s.partition beta := by
  unfold Sys.zSum Sys.partition
  congr 1
  funext z A
  have : ∀ (n : ℕ) (z : ℝ), (List.range n).foldl (fun z ia => z + Real.exp (-beta * s.E A ia)) z = z + ∑ a ∈ Finset.range n, Real.exp (-beta * s.E A a) := by
    intro n
    induction n with
    | zero => intro z; simp
    | succ n ih => intro z; rw [List.range_succ, List.foldl_append, ih, Finset.sum_range_succ]; simp [add_assoc]
  exact this _ z

theorem sum_flatMap' {α : Type} (l : List α) (f : α → List (ℝ × ℂ)) (g : ℝ × ℂ → ℂ) : ((l.flatMap f).map g).sum = (l.map fun a => ((f a).map g).sum).sum := by
  induction l with
  | nil => rfl
  | cons a l ih => simp [ih]

theorem sum_filterMap' {α : Type} (l : List α) (f : α → Option (ℝ × ℂ)) (g : ℝ × ℂ → ℂ) :
    ((l.filterMap f).map g).sum = (l.map fun a => ((f a).map g).getD 0).sum := by
  induction l with
  | nil => rfl
  | cons a l ih =>
    rw [List.filterMap_cons]
    cases h : f a with
    | none => simp [h, ih]
    | some t => simp [h, ih]

theorem sum_range_list (n : ℕ) (g : ℕ → ℂ) : ((List.range n).map g).sum = ∑ b ∈ Finset.range n, g b := rfl

open Classical in
/-- weighted sums over the terms as sums over pairs of states -/
theorem lsum_lehmann (s : Sys ℝ ℂ) (beta eps : ℝ) (excl : List (ℕ × ℕ)) (n1 n2 : ℕ) (c cd : List (Mono ℂ)) (hr : ∀ A < s.n, ∀ B, s.crea n2 A = some B → B < s.n)
    (h : ℝ → ℂ) : lsum (s.lehmann beta eps excl n1 n2 c cd) h =
      ∑ A ∈ Finset.range s.n, ∑ B ∈ Finset.range s.n, if s.crea n2 A = some B ∧ s.anni n1 B = some A then
        ∑ ia ∈ Finset.range (s.dim A), ∑ ib ∈ Finset.range (s.dim B),
          if (A, ia) ∈ excl ∨ (B, ib) ∈ excl ∨ ‖s.residue beta c cd A ia B ib‖ < eps then 0
          else s.residue beta c cd A ia B ib * h (s.E B ib - s.E A ia)
      else 0 := by
  unfold lsum Sys.lehmann
  rw [sum_flatMap', sum_range_list]
  apply Finset.sum_congr rfl
  intro A hA
  cases hc : s.crea n2 A with
  | none => simp
  | some B0 =>
    have hB0 := hr A (Finset.mem_range.mp hA) B0 hc
    rw [Finset.sum_eq_single B0]
    · by_cases ha : s.anni n1 B0 = some A
      · simp only [ha, ne_eq, not_true_eq_false, if_false, and_self, if_true]
        rw [sum_flatMap', sum_range_list]
        apply Finset.sum_congr rfl
        intro ia _
        by_cases he : (A, ia) ∈ excl
        · simp [he]
        · simp only [he, if_false, false_or]
          rw [sum_filterMap', sum_range_list]
          apply Finset.sum_congr rfl
          intro ib _
          by_cases he' : (B0, ib) ∈ excl
          · simp [he']
          · by_cases hn : ‖s.residue beta c cd A ia B0 ib‖ < eps
            · simp [he', hn]
            · simp [he', hn]
      · simp [ha]
    · intro B _ hne
      rw [if_neg]
      rintro ⟨h, -⟩
      exact hne (Option.some.inj h).symm
    · intro hn; exact absurd (Finset.mem_range.mpr hB0) hn

theorem elem_zero (s : Sys ℝ ℂ) (O : ℕ → ℕ → ℂ) (b b' : ℕ) (h : ∀ f ∈ s.sp b, ∀ i ∈ s.sp b', O f i = 0) (a a' : ℕ) : s.elem O b a b' a' = 0 := by
  unfold Sys.elem
  apply Finset.sum_eq_zero
  intro j hj
  apply Finset.sum_eq_zero
  intro i hi
  rw [h _ (getD_mem (Finset.mem_range.mp hj)) _ (getD_mem (Finset.mem_range.mp hi)), mul_zero, zero_mul]

open Classical in
/-- the sum over all pairs of states that are not excluded -/
noncomputable def Sys.full (s : Sys ℝ ℂ) (beta : ℝ) (excl : List (ℕ × ℕ)) (c cd : List (Mono ℂ)) (h : ℝ → ℂ) : ℂ :=
  ∑ A ∈ Finset.range s.n, ∑ ia ∈ Finset.range (s.dim A), ∑ B ∈ Finset.range s.n, ∑ ib ∈ Finset.range (s.dim B),
    if (A, ia) ∈ excl ∨ (B, ib) ∈ excl then 0
    else ((s.weight beta A ia + s.weight beta B ib : ℝ) : ℂ) * s.elem (opEntry c) A ia B ib * s.elem (opEntry cd) B ib A ia * h (s.E B ib - s.E A ia)

theorem residue_eq (s : Sys ℝ ℂ) (beta : ℝ) (c cd : List (Mono ℂ)) (A ia B ib : ℕ) : s.residue beta c cd A ia B ib =
    ((s.weight beta A ia + s.weight beta B ib : ℝ) : ℂ) * s.elem (opEntry c) A ia B ib * s.elem (opEntry cd) B ib A ia := by
  unfold Sys.residue
  rw [C88_make_op_matrix, C88_make_op_matrix]

/-- the terms that are dropped contribute little -/
theorem lsum_full (s : Sys ℝ ℂ) (beta eps : ℝ) (heps : 0 ≤ eps) (excl : List (ℕ × ℕ)) (n1 n2 : ℕ) (c cd : List (Mono ℂ)) (hc : s.Conn n1 n2 c cd) (h : ℝ → ℂ) (C : ℝ) (hC : 0 ≤ C)
    (hh : ∀ p, ‖h p‖ ≤ C) :
    ‖lsum (s.lehmann beta eps excl n1 n2 c cd) h - s.full beta excl c cd h‖ ≤ eps * C * ((∑ b ∈ Finset.range s.n, s.dim b : ℕ) : ℝ) ^ 2 := by
  classical
  rw [lsum_lehmann s beta eps excl n1 n2 c cd hc.range]
  have e1 : s.full beta excl c cd h = ∑ A ∈ Finset.range s.n, ∑ B ∈ Finset.range s.n, ∑ ia ∈ Finset.range (s.dim A), ∑ ib ∈ Finset.range (s.dim B),
      if (A, ia) ∈ excl ∨ (B, ib) ∈ excl then 0 else s.residue beta c cd A ia B ib * h (s.E B ib - s.E A ia) := by
    unfold Sys.full
    apply Finset.sum_congr rfl
    intro A _
    rw [Finset.sum_comm]
    apply Finset.sum_congr rfl; intro B _
    apply Finset.sum_congr rfl; intro ia _
    apply Finset.sum_congr rfl; intro ib _
    rw [residue_eq]
  rw [e1, ← Finset.sum_sub_distrib]
  have bound : ∀ A ∈ Finset.range s.n, ∀ B ∈ Finset.range s.n,
      ‖(if s.crea n2 A = some B ∧ s.anni n1 B = some A then
        ∑ ia ∈ Finset.range (s.dim A), ∑ ib ∈ Finset.range (s.dim B),
          if (A, ia) ∈ excl ∨ (B, ib) ∈ excl ∨ ‖s.residue beta c cd A ia B ib‖ < eps then 0
          else s.residue beta c cd A ia B ib * h (s.E B ib - s.E A ia)
      else 0) - ∑ ia ∈ Finset.range (s.dim A), ∑ ib ∈ Finset.range (s.dim B), (if (A, ia) ∈ excl ∨ (B, ib) ∈ excl then 0 else s.residue beta c cd A ia B ib * h (s.E B ib - s.E A ia))‖ ≤
        eps * C * ((s.dim A : ℝ) * s.dim B) := by
    intro A hA B hB
    rw [Finset.mem_range] at hA hB
    by_cases hg : s.crea n2 A = some B ∧ s.anni n1 B = some A
    · rw [if_pos hg, ← Finset.sum_sub_distrib]
      simp only [← Finset.sum_sub_distrib]
      have : ∀ ia ∈ Finset.range (s.dim A), ‖∑ ib ∈ Finset.range (s.dim B),
          ((if (A, ia) ∈ excl ∨ (B, ib) ∈ excl ∨ ‖s.residue beta c cd A ia B ib‖ < eps then 0
          else s.residue beta c cd A ia B ib * h (s.E B ib - s.E A ia)) - (if (A, ia) ∈ excl ∨ (B, ib) ∈ excl then 0 else s.residue beta c cd A ia B ib * h (s.E B ib - s.E A ia)))‖ ≤ (s.dim B : ℝ) * (eps * C) := by
        intro ia _
        refine (norm_sum_le_of_le (Finset.range (s.dim B)) (f := fun ib => _) (n := fun _ => eps * C) fun ib _ => ?_).trans (by simp)
        by_cases he : (A, ia) ∈ excl ∨ (B, ib) ∈ excl
        · rw [if_pos (by tauto), if_pos he, sub_self, norm_zero]; positivity
        · rw [if_neg he]
          by_cases hx : ‖s.residue beta c cd A ia B ib‖ < eps
          · rw [if_pos (by tauto), zero_sub, norm_neg, norm_mul]
            exact mul_le_mul hx.le (hh _) (norm_nonneg _) heps
          · rw [if_neg (by tauto), sub_self, norm_zero]; positivity
      refine (norm_sum_le_of_le _ this).trans ?_
      rw [Finset.sum_const, Finset.card_range, nsmul_eq_mul]
      exact le_of_eq (by ring)
    · rw [if_neg hg, zero_sub, norm_neg]
      have hz : ∀ ia ib, s.residue beta c cd A ia B ib = 0 := by
        intro ia ib
        rw [residue_eq]
        by_cases h1 : s.crea n2 A = some B
        · have h2 : s.anni n1 B ≠ some A := fun h => hg ⟨h1, h⟩
          rw [elem_zero s (opEntry c) A B, mul_zero, zero_mul]
          intro f hf i hi
          by_contra hne
          exact h2 (hc.anni A hA B hB i hi f hf hne)
        · rw [elem_zero s (opEntry cd) B A, mul_zero]
          intro f hf i hi
          by_contra hne
          exact h1 (hc.crea A hA B hB i hi f hf hne)
      simp only [hz, zero_mul, ite_self, Finset.sum_const_zero, norm_zero]
      positivity
  have b2 : ∀ A ∈ Finset.range s.n, ‖(∑ B ∈ Finset.range s.n, if s.crea n2 A = some B ∧ s.anni n1 B = some A then
        ∑ ia ∈ Finset.range (s.dim A), ∑ ib ∈ Finset.range (s.dim B),
          if (A, ia) ∈ excl ∨ (B, ib) ∈ excl ∨ ‖s.residue beta c cd A ia B ib‖ < eps then 0
          else s.residue beta c cd A ia B ib * h (s.E B ib - s.E A ia)
      else 0) - ∑ B ∈ Finset.range s.n, ∑ ia ∈ Finset.range (s.dim A), ∑ ib ∈ Finset.range (s.dim B), (if (A, ia) ∈ excl ∨ (B, ib) ∈ excl then 0 else s.residue beta c cd A ia B ib * h (s.E B ib - s.E A ia))‖ ≤
        eps * C * ((s.dim A : ℝ) * ((∑ b ∈ Finset.range s.n, s.dim b : ℕ) : ℝ)) := by
    intro A hA
    rw [← Finset.sum_sub_distrib]
    refine (norm_sum_le_of_le _ (bound A hA)).trans ?_
    rw [← Finset.mul_sum, ← Finset.mul_sum]
    push_cast
    exact le_rfl
  refine (norm_sum_le_of_le _ b2).trans ?_
  rw [← Finset.mul_sum, ← Finset.sum_mul]
  push_cast
  exact le_of_eq (by ring)

/-- without a threshold nothing is dropped -/
theorem lsum_zero (s : Sys ℝ ℂ) (beta : ℝ) (excl : List (ℕ × ℕ)) (n1 n2 : ℕ) (c cd : List (Mono ℂ)) (hc : s.Conn n1 n2 c cd) (h : ℝ → ℂ) (C : ℝ) (hC : 0 ≤ C)
    (hh : ∀ p, ‖h p‖ ≤ C) : lsum (s.lehmann beta 0 excl n1 n2 c cd) h = s.full beta excl c cd h := by
  have := lsum_full s beta 0 le_rfl excl n1 n2 c cd hc h C hC hh
  rw [zero_mul, zero_mul] at this
  exact sub_eq_zero.mp (norm_eq_zero.mp (le_antisymm this (norm_nonneg _)))

theorem weight_boltzmann (s : Sys ℝ ℂ) (beta tau : ℝ) (A ia B ib : ℕ) :
    (s.weight beta A ia + s.weight beta B ib) * -(Real.exp (-tau * (s.E B ib - s.E A ia)) / (1 + Real.exp (-beta * (s.E B ib - s.E A ia)))) =
      -(Real.exp (-(beta - tau) * s.E A ia) * Real.exp (-tau * s.E B ib) / s.partition beta) := by
  unfold Sys.weight
  rw [zSum_eq]
  have h1 : (1 + Real.exp (-beta * (s.E B ib - s.E A ia)) : ℝ) ≠ 0 := by positivity
  have h2 : Real.exp (-beta * s.E B ib) = Real.exp (-beta * s.E A ia) * Real.exp (-beta * (s.E B ib - s.E A ia)) := by
    rw [← Real.exp_add]; congr 1; ring
  have h3 : Real.exp (-(beta - tau) * s.E A ia) * Real.exp (-tau * s.E B ib) = Real.exp (-beta * s.E A ia) * Real.exp (-tau * (s.E B ib - s.E A ia)) := by
    rw [← Real.exp_add, ← Real.exp_add]; congr 1; ring
  rw [h2, h3]
  field_simp

theorem kernel_bound (beta tau : ℝ) (h0 : 0 ≤ tau) (h1 : tau ≤ beta) (p : ℝ) : ‖((-(Real.exp (-tau * p) / (1 + Real.exp (-beta * p))) : ℝ) : ℂ)‖ ≤ 1 := by
  rw [Complex.norm_real, norm_neg, Real.norm_of_nonneg (by positivity), div_le_one (by positivity)]
  rcases le_total 0 p with hp | hp
  · have : Real.exp (-tau * p) ≤ 1 := Real.exp_le_one_iff.mpr (by nlinarith)
    have := Real.exp_pos (-beta * p)
    linarith
  · have : Real.exp (-tau * p) ≤ Real.exp (-beta * p) := Real.exp_le_exp.mpr (by nlinarith)
    linarith

/-- the sum over all pairs is the Green's function -/
theorem full_tau {s : Sys ℝ ℂ} {h : ℕ → ℕ → ℂ} (hs : s.Spectral h) (beta : ℝ) (c cd : List (Mono ℂ)) (tau : ℝ) :
    s.full beta [] c cd (fun p => ((-(Real.exp (-tau * p) / (1 + Real.exp (-beta * p))) : ℝ) : ℂ)) =
      greenTau beta (s.fock h) (s.fock (opEntry c)) (s.fock (opEntry cd)) tau := by
  unfold greenTau Sys.full
  rw [trace_exp_exp hs, trace_exp hs]
  have d : ∑ b ∈ Finset.range s.n, ∑ a ∈ Finset.range (s.dim b), Complex.exp (-beta * ((s.E b a : ℂ) + s.gs)) = Complex.exp (-beta * s.gs) * s.partition beta := by
    rw [partition_eq]
    push_cast
    rw [Finset.mul_sum]
    apply Finset.sum_congr rfl; intro b _
    rw [Finset.mul_sum]
    apply Finset.sum_congr rfl; intro a _
    rw [← Complex.exp_add]; congr 1; ring
  rw [d, Finset.sum_div, ← Finset.sum_neg_distrib]
  apply Finset.sum_congr rfl; intro A _
  rw [Finset.sum_div, ← Finset.sum_neg_distrib]
  apply Finset.sum_congr rfl; intro ia _
  rw [Finset.sum_div, ← Finset.sum_neg_distrib]
  apply Finset.sum_congr rfl; intro B _
  rw [Finset.sum_div, ← Finset.sum_neg_distrib]
  apply Finset.sum_congr rfl; intro ib _
  simp only [List.not_mem_nil, or_self, if_false]
  have key := congrArg (fun x : ℝ => (x : ℂ)) (weight_boltzmann s beta tau A ia B ib)
  rw [Complex.ofReal_mul] at key
  have e1 : Complex.exp (-(beta - tau) * ((s.E A ia : ℂ) + s.gs)) * s.elem (opEntry c) A ia B ib * (Complex.exp (-tau * ((s.E B ib : ℂ) + s.gs)) * s.elem (opEntry cd) B ib A ia) /
      (Complex.exp (-beta * s.gs) * s.partition beta) =
      (Complex.exp (-(beta - tau) * s.E A ia) * Complex.exp (-tau * s.E B ib)) / s.partition beta * s.elem (opEntry c) A ia B ib * s.elem (opEntry cd) B ib A ia := by
    have e2 : Complex.exp (-(beta - tau) * ((s.E A ia : ℂ) + s.gs)) * Complex.exp (-tau * ((s.E B ib : ℂ) + s.gs)) =
        Complex.exp (-beta * s.gs) * (Complex.exp (-(beta - tau) * s.E A ia) * Complex.exp (-tau * s.E B ib)) := by
      rw [← Complex.exp_add, ← Complex.exp_add, ← Complex.exp_add]; congr 1; ring
    rw [show Complex.exp (-(beta - tau) * ((s.E A ia : ℂ) + s.gs)) * s.elem (opEntry c) A ia B ib * (Complex.exp (-tau * ((s.E B ib : ℂ) + s.gs)) * s.elem (opEntry cd) B ib A ia) =
      Complex.exp (-(beta - tau) * ((s.E A ia : ℂ) + s.gs)) * Complex.exp (-tau * ((s.E B ib : ℂ) + s.gs)) * (s.elem (opEntry c) A ia B ib * s.elem (opEntry cd) B ib A ia) from by ring,
      e2, mul_assoc, mul_div_mul_left _ _ (Complex.exp_ne_zero _)]
    ring
  rw [e1]
  have e3 : (((s.weight beta A ia + s.weight beta B ib : ℝ)) : ℂ) * s.elem (opEntry c) A ia B ib * s.elem (opEntry cd) B ib A ia *
      ((-(Real.exp (-tau * (s.E B ib - s.E A ia)) / (1 + Real.exp (-beta * (s.E B ib - s.E A ia)))) : ℝ) : ℂ) =
      ((((s.weight beta A ia + s.weight beta B ib : ℝ)) : ℂ) * ((-(Real.exp (-tau * (s.E B ib - s.E A ia)) / (1 + Real.exp (-beta * (s.E B ib - s.E A ia)))) : ℝ) : ℂ)) *
        (s.elem (opEntry c) A ia B ib * s.elem (opEntry cd) B ib A ia) := by ring
  rw [e3, key]
  push_cast
  ring

/-- **C93.** The imaginary-time function computed from the Lehmann representation is
`-Tr(exp(-(beta - tau) H) c exp(-tau H) c†) / Tr exp(-beta H)`, up to the threshold times the square of the number of states. -/
theorem C93_green {s : Sys ℝ ℂ} {h : ℕ → ℕ → ℂ} (hs : s.Spectral h) (n1 n2 : ℕ) (c cd : List (Mono ℂ)) (hc : s.Conn n1 n2 c cd) (beta eps : ℝ) (heps : 0 ≤ eps)
    (tau : ℝ) (h0 : 0 ≤ tau) (h1 : tau ≤ beta) :
    ‖gTau beta (s.lehmann beta eps [] n1 n2 c cd) tau - greenTau beta (s.fock h) (s.fock (opEntry c)) (s.fock (opEntry cd)) tau‖ ≤
      eps * ((∑ b ∈ Finset.range s.n, s.dim b : ℕ) : ℝ) ^ 2 := by
  have := lsum_full s beta eps heps [] n1 n2 c cd hc _ 1 zero_le_one (kernel_bound beta tau h0 h1)
  rw [full_tau hs, ← gTau_eq, mul_one] at this
  exact this

open Classical in
/-- **C93, excluded states.** Pairs with an excluded state are left out, the others keep their weights (the partition function is
that of all states). -/
theorem C93_excluded {s : Sys ℝ ℂ} (n1 n2 : ℕ) (c cd : List (Mono ℂ)) (hc : s.Conn n1 n2 c cd) (beta eps : ℝ) (heps : 0 ≤ eps) (excl : List (ℕ × ℕ))
    (tau : ℝ) (h0 : 0 ≤ tau) (h1 : tau ≤ beta) :
    ‖gTau beta (s.lehmann beta eps excl n1 n2 c cd) tau -
      ∑ A ∈ Finset.range s.n, ∑ ia ∈ Finset.range (s.dim A), ∑ B ∈ Finset.range s.n, ∑ ib ∈ Finset.range (s.dim B),
        if (A, ia) ∈ excl ∨ (B, ib) ∈ excl then 0
        else ((-(Real.exp (-(beta - tau) * s.E A ia) * Real.exp (-tau * s.E B ib) / s.partition beta) : ℝ) : ℂ) * (s.elem (opEntry c) A ia B ib * s.elem (opEntry cd) B ib A ia)‖ ≤
      eps * ((∑ b ∈ Finset.range s.n, s.dim b : ℕ) : ℝ) ^ 2 := by
  have := lsum_full s beta eps heps excl n1 n2 c cd hc _ 1 zero_le_one (kernel_bound beta tau h0 h1)
  rw [← gTau_eq, mul_one] at this
  convert this using 3
  unfold Sys.full
  apply Finset.sum_congr rfl; intro A _
  apply Finset.sum_congr rfl; intro ia _
  apply Finset.sum_congr rfl; intro B _
  apply Finset.sum_congr rfl; intro ib _
  split
  · rfl
  · rw [← weight_boltzmann, Complex.ofReal_mul]
    ring

/-! ### C94 -/

theorem tauTerm_oneFermion (beta tau : ℝ) (t : ℝ × ℂ) : tauTerm beta tau t = Fourier.oneFermion t.2 t.1 tau beta := by
  rw [tauTerm_eq, Fourier.fermion_form]
  push_cast
  rw [show (-(t.1 : ℂ) * tau) = -(tau : ℂ) * t.1 from by ring]
  ring

theorem continuous_oneFermion (a : ℂ) (b beta : ℝ) : Continuous fun t => Fourier.oneFermion a b t beta := by
  have : (fun t => Fourier.oneFermion a b t beta) = fun t : ℝ => -a / (1 + Complex.exp (-beta * b)) * Complex.exp (-b * t) := by
    funext t; exact Fourier.fermion_form a b t beta
  rw [this]
  fun_prop

theorem gTau_cons (beta : ℝ) (t : ℝ × ℂ) (l : List (ℝ × ℂ)) (tau : ℝ) : gTau beta (t :: l) tau = Fourier.oneFermion t.2 t.1 tau beta + gTau beta l tau := by
  unfold gTau
  rw [foldl_list, foldl_list, List.map_cons, List.sum_cons, tauTerm_oneFermion]
  ring

theorem continuous_gTau (beta : ℝ) (l : List (ℝ × ℂ)) : Continuous (gTau beta l) := by
  induction l with
  | nil => exact continuous_const
  | cons t l ih =>
    have : gTau beta (t :: l) = fun tau => Fourier.oneFermion t.2 t.1 tau beta + gTau beta l tau := funext fun tau => gTau_cons beta t l tau
    rw [this]
    exact (continuous_oneFermion _ _ _).add ih

/-- **C94.** The Matsubara function computed from the terms is the transform of the imaginary-time function computed from the same
terms. -/
theorem C94_transform (m : Matsubara.Mesh) (hst : m.stat = .fermion) (hb : 0 < m.beta) (l : List (ℝ × ℂ)) (n : ℤ) :
    Fourier.transform m.beta (Fourier.iw m n) (gTau m.beta l) = gIw l (Fourier.iw m n) := by
  induction l with
  | nil => simp [Fourier.transform, gTau, gIw]
  | cons t l ih =>
    have e1 : gIw (t :: l) (Fourier.iw m n) = t.2 / (Fourier.iw m n - t.1) + gIw l (Fourier.iw m n) := by
      unfold gIw
      rw [foldl_list, foldl_list, List.map_cons, List.sum_cons]; ring
    rw [e1, ← ih, ← Fourier.C54_fermion_pole m hst hb t.2 t.1 n]
    unfold Fourier.transform
    rw [← intervalIntegral.integral_add]
    · congr 1
      funext tau
      rw [gTau_cons]; ring
    · apply Continuous.intervalIntegrable
      have := continuous_oneFermion t.2 t.1 m.beta
      fun_prop
    · apply Continuous.intervalIntegrable
      have := continuous_gTau m.beta l
      fun_prop

theorem iw_im_ne (m : Matsubara.Mesh) (hst : m.stat = .fermion) (hb : 0 < m.beta) (n : ℤ) : (Fourier.iw m n).im ≠ 0 := by
  rw [Fourier.iw_eq, hst]
  have e : (Real.pi * Complex.I * (2 * n + ((Matsubara.Stat.fermion).toInt : ℤ)) / m.beta : ℂ) = ((Real.pi * (2 * n + 1) / m.beta : ℝ) : ℂ) * Complex.I := by
    simp only [Matsubara.Stat.toInt]
    push_cast; ring
  rw [e]
  simp only [Complex.mul_im, Complex.ofReal_re, Complex.I_im, mul_one, Complex.ofReal_im, Complex.I_re, mul_zero, add_zero]
  have h1 : (2 * (n : ℝ) + 1) ≠ 0 := by
    have : (2 * n + 1 : ℤ) ≠ 0 := by omega
    exact_mod_cast this
  exact div_ne_zero (mul_ne_zero Real.pi_ne_zero h1) hb.ne'

theorem pole_bound (z : ℂ) (hz : z.im ≠ 0) (p : ℝ) : ‖1 / (z - p)‖ ≤ 1 / |z.im| := by
  rw [norm_div, norm_one]
  apply one_div_le_one_div_of_le (abs_pos.mpr hz)
  have := Complex.abs_im_le_norm (z - p)
  simpa using this

/-- **C94, exact function.** The Matsubara function computed from the Lehmann representation is the transform of the exact
imaginary-time function, up to the threshold. -/
theorem C94_matsubara {s : Sys ℝ ℂ} {h : ℕ → ℕ → ℂ} (hs : s.Spectral h) (n1 n2 : ℕ) (c cd : List (Mono ℂ)) (hc : s.Conn n1 n2 c cd) (eps : ℝ) (heps : 0 ≤ eps)
    (m : Matsubara.Mesh) (hst : m.stat = .fermion) (hb : 0 < m.beta) (n : ℤ) :
    ‖gIw (s.lehmann m.beta eps [] n1 n2 c cd) (Fourier.iw m n) -
      Fourier.transform m.beta (Fourier.iw m n) (greenTau m.beta (s.fock h) (s.fock (opEntry c)) (s.fock (opEntry cd)))‖ ≤
      eps * (1 / |(Fourier.iw m n).im|) * ((∑ b ∈ Finset.range s.n, s.dim b : ℕ) : ℝ) ^ 2 := by
  have hz := iw_im_ne m hst hb n
  have e1 : Fourier.transform m.beta (Fourier.iw m n) (greenTau m.beta (s.fock h) (s.fock (opEntry c)) (s.fock (opEntry cd))) =
      s.full m.beta [] c cd fun p => 1 / (Fourier.iw m n - p) := by
    rw [← lsum_zero s m.beta [] n1 n2 c cd hc _ (1 / |(Fourier.iw m n).im|) (by positivity) (pole_bound _ hz), ← gIw_eq, ← C94_transform m hst hb]
    unfold Fourier.transform
    apply intervalIntegral.integral_congr
    intro tau ht
    rw [Set.uIcc_of_le hb.le] at ht
    simp only
    rw [gTau_eq, lsum_zero s m.beta [] n1 n2 c cd hc _ 1 zero_le_one (kernel_bound m.beta tau ht.1 ht.2), full_tau hs]
  rw [e1, gIw_eq]
  exact lsum_full s m.beta eps heps [] n1 n2 c cd hc _ _ (by positivity) (pole_bound _ hz)

/-- **C94, real frequencies.** They are values of the same rational function at `w + i broadening`. -/
theorem C94_real (broadening w : ℝ) (l : List (ℝ × ℂ)) : gW broadening l w = gIw l (w + Complex.I * broadening) := rfl

/-! ### C95 -/

/-- the sum of the residues of all pairs is the expectation value of the anticommutator -/
theorem full_one {s : Sys ℝ ℂ} {h : ℕ → ℕ → ℂ} (hs : s.Spectral h) (beta : ℝ) (c cd : List (Mono ℂ)) :
    s.full beta [] c cd (fun _ => 1) =
      gibbs beta (s.fock h) (s.fock (opEntry c) * s.fock (opEntry cd) + s.fock (opEntry cd) * s.fock (opEntry c)) := by
  have hexp0 : exp ((0 : ℂ) • s.fock h) = 1 := by rw [zero_smul, exp_zero]
  have t1 := trace_exp_exp hs (-beta) 0 (opEntry c) (opEntry cd)
  have t2 := trace_exp_exp hs (-beta) 0 (opEntry cd) (opEntry c)
  rw [hexp0, mul_one, mul_assoc] at t1 t2
  unfold gibbs
  rw [mul_add, trace_add, t1, t2, trace_exp hs]
  have d : ∑ b ∈ Finset.range s.n, ∑ a ∈ Finset.range (s.dim b), Complex.exp (-beta * ((s.E b a : ℂ) + s.gs)) = Complex.exp (-beta * s.gs) * s.partition beta := by
    rw [partition_eq]
    push_cast
    rw [Finset.mul_sum]
    apply Finset.sum_congr rfl; intro b _
    rw [Finset.mul_sum]
    apply Finset.sum_congr rfl; intro a _
    rw [← Complex.exp_add]; congr 1; ring
  have w : ∀ A ia, Complex.exp (-beta * ((s.E A ia : ℂ) + s.gs)) = Complex.exp (-beta * s.gs) * (s.partition beta * (s.weight beta A ia : ℂ)) ∨ s.partition beta = 0 := by
    intro A ia
    by_cases hz : s.partition beta = 0
    · exact Or.inr hz
    · left
      unfold Sys.weight
      rw [zSum_eq]
      push_cast
      rw [mul_div_cancel₀ _ (by exact_mod_cast hz), ← Complex.exp_add]
      congr 1; ring
  rw [d]
  by_cases hz : s.partition beta = 0
  · rw [hz]
    simp only [Complex.ofReal_zero, mul_zero, div_zero]
    unfold Sys.full
    apply Finset.sum_eq_zero; intro A _
    apply Finset.sum_eq_zero; intro ia _
    apply Finset.sum_eq_zero; intro B _
    apply Finset.sum_eq_zero; intro ib _
    simp [Sys.weight, zSum_eq, hz]
  have w' : ∀ A ia, Complex.exp (-beta * ((s.E A ia : ℂ) + s.gs)) = Complex.exp (-beta * s.gs) * s.partition beta * (s.weight beta A ia : ℂ) := fun A ia => by
    rw [(w A ia).resolve_right hz]; ring
  have hne : Complex.exp (-beta * s.gs) * s.partition beta ≠ 0 := mul_ne_zero (Complex.exp_ne_zero _) (by exact_mod_cast hz)
  rw [eq_div_iff hne]
  have swap : ∑ b ∈ Finset.range s.n, ∑ a ∈ Finset.range (s.dim b), ∑ b' ∈ Finset.range s.n, ∑ a' ∈ Finset.range (s.dim b'),
        Complex.exp (-beta * ((s.E b a : ℂ) + s.gs)) * s.elem (opEntry cd) b a b' a' * (Complex.exp (0 * ((s.E b' a' : ℂ) + s.gs)) * s.elem (opEntry c) b' a' b a) =
      ∑ A ∈ Finset.range s.n, ∑ ia ∈ Finset.range (s.dim A), ∑ B ∈ Finset.range s.n, ∑ ib ∈ Finset.range (s.dim B),
        Complex.exp (-beta * ((s.E B ib : ℂ) + s.gs)) * s.elem (opEntry cd) B ib A ia * s.elem (opEntry c) A ia B ib := by
    simp only [zero_mul, Complex.exp_zero, one_mul]
    have r1 : ∀ g : ℕ → ℕ → ℕ → ℕ → ℂ, ∑ b ∈ Finset.range s.n, ∑ a ∈ Finset.range (s.dim b), ∑ b' ∈ Finset.range s.n, ∑ a' ∈ Finset.range (s.dim b'), g b a b' a' =
        ∑ b ∈ Finset.range s.n, ∑ b' ∈ Finset.range s.n, ∑ a ∈ Finset.range (s.dim b), ∑ a' ∈ Finset.range (s.dim b'), g b a b' a' := fun g =>
      Finset.sum_congr rfl fun b _ => Finset.sum_comm
    rw [r1, r1, Finset.sum_comm]
    apply Finset.sum_congr rfl; intro A _
    apply Finset.sum_congr rfl; intro B _
    rw [Finset.sum_comm]
  rw [swap, ← Finset.sum_add_distrib]
  unfold Sys.full
  rw [Finset.sum_mul]
  apply Finset.sum_congr rfl; intro A _
  rw [Finset.sum_mul, ← Finset.sum_add_distrib]
  apply Finset.sum_congr rfl; intro ia _
  rw [Finset.sum_mul, ← Finset.sum_add_distrib]
  apply Finset.sum_congr rfl; intro B _
  rw [Finset.sum_mul, ← Finset.sum_add_distrib]
  apply Finset.sum_congr rfl; intro ib _
  simp only [List.not_mem_nil, or_self, if_false, zero_mul, Complex.exp_zero, one_mul]
  rw [w' A ia, w' B ib]
  push_cast
  ring

theorem mem_occupied (n k : ℕ) : n ∈ occupied k ↔ k.testBit n = true := by
  unfold occupied
  rw [Finset.equivBitIndices_apply, List.mem_toFinset, Nat.mem_bitIndices]

theorem occupied_inj {j k : ℕ} (h : occupied j = occupied k) : j = k := Finset.equivBitIndices.injective h

theorem occupied_symm (S : Finset ℕ) : occupied (Finset.equivBitIndices.symm S) = S := Finset.equivBitIndices.apply_symm_apply S

theorem lt_two_pow_iff (k N : ℕ) : k < 2 ^ N ↔ ∀ n ∈ occupied k, n < N := by
  constructor
  · intro h n hn
    rw [mem_occupied] at hn
    by_contra hc
    have := Nat.testBit_lt_two_pow (show k < 2 ^ n from lt_of_lt_of_le h (Nat.pow_le_pow_right (by norm_num) (by omega)))
    rw [this] at hn
    cases hn
  · intro h
    apply Nat.lt_pow_two_of_testBit
    intro i hi
    by_contra hc
    have := h i ((mem_occupied i k).mpr (by simpa using hc))
    omega

theorem entry_ann (n f i : ℕ) : entry (annMono n) f i = Fock.annihilate n (Fock.ket (R := ℂ) (occupied i)) (occupied f) := by
  rw [Fock.annihilate_ket]
  unfold entry annMono
  by_cases h : n ∈ occupied i
  · simp only [if_pos h, Pi.smul_apply, Fock.ket, smul_eq_mul]
    by_cases e : occupied f = (occupied i).erase n
    · rw [if_pos e, if_pos (by rw [← e]; exact Finset.equivBitIndices.symm_apply_apply f), mul_one]
    · rw [if_neg e, if_neg (fun hh => e (by rw [← hh, occupied_symm])), mul_zero]
  · simp [h]

theorem entry_cre (n f i : ℕ) : entry (creMono n) f i = Fock.create n (Fock.ket (R := ℂ) (occupied i)) (occupied f) := by
  rw [Fock.create_ket]
  unfold entry creMono
  by_cases h : n ∈ occupied i
  · simp [h]
  · simp only [if_neg h, Pi.smul_apply, Fock.ket, smul_eq_mul]
    by_cases e : occupied f = insert n (occupied i)
    · rw [if_pos e, if_pos (by rw [← e]; exact Finset.equivBitIndices.symm_apply_apply f), mul_one]
    · rw [if_neg e, if_neg (fun hh => e (by rw [← hh, occupied_symm])), mul_zero]

theorem sum_entry (t : Mono ℂ) (M i : ℕ) (hM : ∀ f x, t i = some (f, x) → f < M) (g : ℕ → ℂ) :
    ∑ k ∈ Finset.range M, g k * entry t k i = match t i with
      | none => 0
      | some (f, x) => g f * x := by
  cases h : t i with
  | none => simp [entry, h]
  | some p =>
    obtain ⟨f, x⟩ := p
    simp only [entry, h]
    rw [Finset.sum_eq_single f]
    · simp
    · intro b _ hb; rw [if_neg (Ne.symm hb), mul_zero]
    · intro hf; exact absurd (Finset.mem_range.mpr (hM f x h)) hf

theorem ann_bound (n N i : ℕ) (hi : i < 2 ^ N) (f : ℕ) (x : ℂ) (h : annMono n i = some (f, x)) : f < 2 ^ N := by
  unfold annMono at h
  split at h
  · cases h
    rw [lt_two_pow_iff, occupied_symm]
    intro k hk
    exact (lt_two_pow_iff i N).mp hi k (Finset.mem_of_mem_erase hk)
  · cases h

theorem cre_bound (n N i : ℕ) (hn : n < N) (hi : i < 2 ^ N) (f : ℕ) (x : ℂ) (h : creMono n i = some (f, x)) : f < 2 ^ N := by
  unfold creMono at h
  split at h
  · cases h
  · cases h
    rw [lt_two_pow_iff, occupied_symm]
    intro k hk
    rcases Finset.mem_insert.mp hk with rfl | hk
    · exact hn
    · exact (lt_two_pow_iff i N).mp hi k hk

/-- canonical anticommutation relations of the matrix elements -/
theorem car (n1 n2 N : ℕ) (h2 : n2 < N) (f i : ℕ) (hi : i < 2 ^ N) :
    ∑ k ∈ Finset.range (2 ^ N), (entry (annMono n1) f k * entry (creMono n2) k i + entry (creMono n2) f k * entry (annMono n1) k i) =
      if n1 = n2 ∧ f = i then 1 else 0 := by
  rw [Finset.sum_add_distrib, sum_entry (creMono n2) _ i (cre_bound n2 N i h2 hi), sum_entry (annMono n1) _ i (ann_bound n1 N i hi)]
  have e1 : (match creMono n2 i with | none => 0 | some (f', x) => entry (annMono n1) f f' * x) =
      (Fock.annihilate n1 * Fock.create n2 : Module.End ℂ (Fock.Space ℕ ℂ)) (Fock.ket (occupied i)) (occupied f) := by
    rw [Module.End.mul_apply, Fock.create_ket]
    unfold creMono
    by_cases h : n2 ∈ occupied i
    · simp [h]
    · simp only [if_neg h, map_smul, Pi.smul_apply, smul_eq_mul, entry_ann, occupied_symm]
      ring
  have e2 : (match annMono n1 i with | none => 0 | some (f', x) => entry (creMono n2) f f' * x) =
      (Fock.create n2 * Fock.annihilate n1 : Module.End ℂ (Fock.Space ℕ ℂ)) (Fock.ket (occupied i)) (occupied f) := by
    rw [Module.End.mul_apply, Fock.annihilate_ket]
    unfold annMono
    by_cases h : n1 ∈ occupied i
    · simp only [if_pos h, map_smul, Pi.smul_apply, smul_eq_mul, entry_cre, occupied_symm]
      ring
    · simp [h]
  rw [e1, e2]
  by_cases h : n1 = n2
  · subst h
    rw [Fock.annihilate_create_self]
    simp only [LinearMap.sub_apply, Pi.sub_apply, Module.End.one_apply, sub_add_cancel, Fock.ket, true_and]
    by_cases e : f = i
    · rw [if_pos e, if_pos (by rw [e])]
    · rw [if_neg e, if_neg (fun h => e (occupied_inj h))]
  · rw [Fock.annihilate_create_ne n1 n2 h]
    simp [h]

theorem opEntry_single (t : Mono ℂ) (f i : ℕ) : opEntry [t] f i = entry t f i := by simp [opEntry]

/-- the anticommutator of the Fock matrices, all states being in a block -/
theorem anticommutator (s : Sys ℝ ℂ) (hbl : s.Blocks) (N : ℕ) (hp : s.spaces.flatten.Perm (List.range (2 ^ N))) (n1 n2 : ℕ) (h2 : n2 < N) :
    s.fock (opEntry [annMono n1]) * s.fock (opEntry [creMono n2]) + s.fock (opEntry [creMono n2]) * s.fock (opEntry [annMono n1]) =
      (if n1 = n2 then 1 else 0 : ℂ) • (1 : Matrix s.I s.I ℂ) := by
  ext p q
  rw [Matrix.add_apply, mul_apply, mul_apply, ← Finset.sum_add_distrib]
  have hmem : ∀ r : s.I, s.state r ∈ s.sp r.1 := fun r => getD_mem r.2.2
  have hst : ∀ r : s.I, s.state r < 2 ^ N := by
    intro r
    have h1 : s.state r ∈ s.spaces.flatten := by
      rw [List.mem_flatten]
      refine ⟨s.sp r.1, ?_, hmem r⟩
      unfold Sys.sp
      rw [List.getD_eq_getElem?_getD, List.getElem?_eq_getElem r.1.2]
      exact List.getElem_mem _
    exact List.mem_range.mp (hp.mem_iff.mp h1)
  have hinj : s.state p = s.state q ↔ p = q := by
    constructor
    · intro h
      have hb := hbl.disjoint p.1 p.1.2 q.1 q.1.2 (s.state p) (hmem p) (h ▸ hmem q)
      obtain ⟨b, a⟩ := p
      obtain ⟨b', a'⟩ := q
      have hb : b = b' := Fin.ext hb
      subst hb
      have := congrArg (fun x => (s.sp b).idxOf x) h
      simp only [Sys.state] at this
      rw [idxOf_getD (hbl.nodup b b.2) a.2, idxOf_getD (hbl.nodup b b.2) a'.2] at this
      rw [Fin.ext this]
    · rintro rfl; rfl
  have := sum_states s (2 ^ N) hp fun k => entry (annMono n1) (s.state p) k * entry (creMono n2) k (s.state q) + entry (creMono n2) (s.state p) k * entry (annMono n1) k (s.state q)
  simp only [Sys.fock, opEntry_single]
  rw [this, car n1 n2 N h2 _ _ (hst q), Matrix.smul_apply, one_apply]
  by_cases h : n1 = n2
  · simp [h, hinj]
  · simp [h]

/-- **C95, sum rule.** For the annihilation operator of level `n1` and the creation operator of level `n2`, the residues add up to
one if `n1 = n2` and to zero otherwise, up to the threshold, if all Fock states are in a block. -/
theorem C95_sum_rule {s : Sys ℝ ℂ} (hbl : s.Blocks) {h : ℕ → ℕ → ℂ} (hs : s.Spectral h) (N : ℕ) (hp : s.spaces.flatten.Perm (List.range (2 ^ N)))
    (n1 n2 : ℕ) (h2 : n2 < N) (hc : s.Conn n1 n2 [annMono n1] [creMono n2]) (beta eps : ℝ) (heps : 0 ≤ eps) :
    ‖((s.lehmann beta eps [] n1 n2 [annMono n1] [creMono n2]).map Prod.snd).sum - (if n1 = n2 then 1 else 0)‖ ≤ eps * (2 ^ N) ^ 2 := by
  have hdim : ((∑ b ∈ Finset.range s.n, s.dim b : ℕ) : ℝ) = 2 ^ N := by
    have h1 := sum_states s (2 ^ N) hp fun _ => 1
    rw [sum_I s (fun _ => 1) (fun _ _ => 1) (fun _ => rfl)] at h1
    simp only [Finset.sum_const, Finset.card_range, nsmul_eq_mul, mul_one] at h1
    exact_mod_cast h1
  have hL := lsum_full s beta eps heps [] n1 n2 _ _ hc (fun _ => 1) 1 zero_le_one (fun _ => by simp)
  rw [full_one hs, anticommutator s hbl N hp n1 n2 h2, hdim, mul_one] at hL
  have e1 : lsum (s.lehmann beta eps [] n1 n2 [annMono n1] [creMono n2]) (fun _ => 1) = ((s.lehmann beta eps [] n1 n2 [annMono n1] [creMono n2]).map Prod.snd).sum := by
    unfold lsum
    congr 1
    exact List.map_congr_left fun t _ => mul_one _
  have e2 : gibbs beta (s.fock h) ((if n1 = n2 then 1 else 0 : ℂ) • (1 : Matrix s.I s.I ℂ)) = if n1 = n2 then 1 else 0 := by
    unfold gibbs
    rw [mul_smul_comm, mul_one, trace_smul, smul_eq_mul, mul_div_assoc, div_self, mul_one]
    have hpos : s.partition beta ≠ 0 := by
      have hne : (0 : ℕ) ∈ s.spaces.flatten := hp.mem_iff.mpr (List.mem_range.mpr (by positivity))
      obtain ⟨l, hl, h0⟩ := List.mem_flatten.mp hne
      obtain ⟨b, hb, rfl⟩ := List.mem_iff_getElem.mp hl
      have : s.sp b = s.spaces[b] := by unfold Sys.sp; rw [List.getD_eq_getElem?_getD, List.getElem?_eq_getElem hb]; rfl
      exact (partition_pos s beta b 0 hb (by unfold Sys.dim; rw [this]; exact List.length_pos_of_mem h0)).ne'
    have : trace (exp ((-beta : ℂ) • s.fock h)) = Complex.exp (-beta * s.gs) * s.partition beta := by
      rw [trace_exp hs, partition_eq]
      push_cast
      rw [Finset.mul_sum]
      apply Finset.sum_congr rfl; intro b _
      rw [Finset.mul_sum]
      apply Finset.sum_congr rfl; intro a _
      rw [← Complex.exp_add]; congr 1; ring
    rw [this]
    exact mul_ne_zero (Complex.exp_ne_zero _) (by exact_mod_cast hpos)
  rw [e1, e2] at hL
  exact hL

/-- **C95, jump.** The imaginary-time function satisfies `G(0) + G(beta) = -` sum of the residues, for any terms. -/
theorem C95_jump (beta : ℝ) (l : List (ℝ × ℂ)) : gTau beta l 0 + gTau beta l beta = -(l.map Prod.snd).sum := by
  rw [gTau_eq, gTau_eq]
  unfold lsum
  rw [← List.sum_map_add]
  have hneg : -(l.map Prod.snd).sum = (l.map fun t => -t.2).sum := by
    induction l with
    | nil => simp
    | cons t l ih => rw [List.map_cons, List.sum_cons, neg_add, ih, List.map_cons, List.sum_cons]
  rw [hneg]
  congr 1
  apply List.map_congr_left
  intro t _
  have h1 : (1 + Real.exp (-beta * t.1) : ℝ) ≠ 0 := by positivity
  rw [← mul_add, ← Complex.ofReal_add]
  have : -(Real.exp (-0 * t.1) / (1 + Real.exp (-beta * t.1))) + -(Real.exp (-beta * t.1) / (1 + Real.exp (-beta * t.1))) = -1 := by
    rw [neg_zero, zero_mul, Real.exp_zero, ← neg_add, ← add_div, div_self h1]
  rw [this]
  simp

theorem weight_nonneg (s : Sys ℝ ℂ) (beta : ℝ) (A ia : ℕ) : 0 ≤ s.weight beta A ia := by
  unfold Sys.weight
  rw [zSum_eq]
  apply div_nonneg (Real.exp_pos _).le
  rw [partition_eq]
  exact Finset.sum_nonneg fun b _ => Finset.sum_nonneg fun a _ => (Real.exp_pos _).le

theorem mem_lehmann (s : Sys ℝ ℂ) (beta eps : ℝ) (excl : List (ℕ × ℕ)) (n1 n2 : ℕ) (c cd : List (Mono ℂ)) (t : ℝ × ℂ) (ht : t ∈ s.lehmann beta eps excl n1 n2 c cd) :
    ∃ A ia B ib, s.anni n1 B = some A ∧ t = (s.E B ib - s.E A ia, s.residue beta c cd A ia B ib) := by
  classical
  unfold Sys.lehmann at ht
  rw [List.mem_flatMap] at ht
  obtain ⟨A, -, ht⟩ := ht
  split at ht
  · cases ht
  · rename_i B _
    split at ht
    · cases ht
    · rename_i hA
      rw [List.mem_flatMap] at ht
      obtain ⟨ia, -, ht⟩ := ht
      split at ht
      · cases ht
      · rw [List.mem_filterMap] at ht
        obtain ⟨ib, -, ht⟩ := ht
        split at ht
        · cases ht
        · split at ht
          · cases ht
          · exact ⟨A, ia, B, ib, by simpa using hA, (Option.some.inj ht).symm⟩

/-- **C95, positivity.** If the second operator is the adjoint of the first, the residues are non-negative numbers, and the spectral
function `-Im G / pi` above the real axis is non-negative. -/
theorem C95_positive (s : Sys ℝ ℂ) (beta eps : ℝ) (excl : List (ℕ × ℕ)) (n1 n2 : ℕ) (c cd : List (Mono ℂ)) (had : ∀ f i, opEntry cd i f = star (opEntry c f i)) :
    (∀ t ∈ s.lehmann beta eps excl n1 n2 c cd, ∃ r : ℝ, 0 ≤ r ∧ t.2 = r) ∧
    (∀ broadening : ℝ, 0 < broadening → ∀ w : ℝ, (gW broadening (s.lehmann beta eps excl n1 n2 c cd) w).im ≤ 0) := by
  have h1 : ∀ t ∈ s.lehmann beta eps excl n1 n2 c cd, ∃ r : ℝ, 0 ≤ r ∧ t.2 = r := by
    intro t ht
    obtain ⟨A, ia, B, ib, -, rfl⟩ := mem_lehmann s beta eps excl n1 n2 c cd t ht
    refine ⟨(s.weight beta A ia + s.weight beta B ib) * Complex.normSq (s.elem (opEntry c) A ia B ib),
      mul_nonneg (add_nonneg (weight_nonneg _ _ _ _) (weight_nonneg _ _ _ _)) (Complex.normSq_nonneg _), ?_⟩
    simp only
    rw [residue_eq, ← elem_star s (opEntry c) (opEntry cd) had, mul_assoc, Complex.star_def, Complex.mul_conj]
    push_cast
    rfl
  refine ⟨h1, fun broadening hb w => ?_⟩
  generalize s.lehmann beta eps excl n1 n2 c cd = l at h1
  unfold gW
  rw [foldl_list, zero_add]
  induction l with
  | nil => simp
  | cons t l ih =>
    rw [List.map_cons, List.sum_cons, Complex.add_im]
    have := ih fun t ht => h1 t (by simp [ht])
    obtain ⟨r, hr, e⟩ := h1 t (by simp)
    have h2 : (t.2 / (w + Complex.I * broadening - t.1)).im ≤ 0 := by
      rw [e, Complex.div_im]
      simp only [Complex.ofReal_im, Complex.ofReal_re, zero_mul, zero_div, zero_sub]
      rw [neg_nonpos]
      apply div_nonneg _ (Complex.normSq_nonneg _)
      simp
      positivity
    linarith

/-- **C95, hermiticity.** Exchanging the two indices conjugates the residues. -/
theorem C95_hermitian (s : Sys ℝ ℂ) (beta : ℝ) (c1 cd1 c2 cd2 : List (Mono ℂ)) (h1 : ∀ f i, opEntry cd1 i f = star (opEntry c1 f i))
    (h2 : ∀ f i, opEntry cd2 i f = star (opEntry c2 f i)) (A ia B ib : ℕ) :
    s.residue beta c2 cd1 A ia B ib = star (s.residue beta c1 cd2 A ia B ib) := by
  rw [residue_eq, residue_eq, star_mul', star_mul', elem_star s (opEntry c1) (opEntry cd1) h1,
    elem_star s (opEntry cd2) (opEntry c2) (fun f i => by rw [h2, star_star]), Complex.star_def, Complex.conj_ofReal]
  ring

/-- the creation operator is the adjoint of the annihilation operator -/
theorem cre_adjoint (n f i : ℕ) : opEntry [creMono n] i f = star (opEntry [annMono n] f i) := by
  rw [opEntry_single, opEntry_single, entry_ann, entry_cre, Fock.create_apply, Fock.annihilate_apply]
  unfold Fock.ket Fock.sgn
  by_cases h : n ∈ occupied i
  · by_cases hf : n ∈ occupied f
    · rw [if_pos h, if_pos hf, if_neg, mul_zero, star_zero]
      intro e
      rw [← e] at hf
      exact absurd hf (Finset.notMem_erase _ _)
    · rw [if_pos h, if_neg hf]
      by_cases e : (occupied i).erase n = occupied f
      · rw [if_pos e, if_pos (by rw [← e, Finset.insert_erase h]), ← e]
        rw [show ((occupied i).erase n).filter (· < n) = (occupied i).filter (· < n) from by
          ext x; simp only [Finset.mem_filter, Finset.mem_erase]; constructor
          · rintro ⟨⟨_, h⟩, h'⟩; exact ⟨h, h'⟩
          · rintro ⟨h, h'⟩; exact ⟨⟨by omega, h⟩, h'⟩]
        simp
      · rw [if_neg e, if_neg, mul_zero, mul_zero, star_zero]
        intro e'
        apply e
        rw [← e', Finset.erase_insert hf]
  · rw [if_neg h]
    by_cases hf : n ∈ occupied f
    · rw [if_pos hf, star_zero]
    · rw [if_neg hf, if_neg, mul_zero, star_zero]
      intro e
      apply h
      rw [← e]
      exact Finset.mem_insert_self _ _

/-! ### Example: one level -/

/-- one level of energy `e ≥ 0` -/
noncomputable def exLevel (e : ℝ) : Sys ℝ ℂ where
  spaces := [[0], [1]]
  E := fun b _ => if b = 1 then e else 0
  U := fun _ _ _ => 1
  gs := 0
  crea := fun n b => if n = 0 ∧ b = 0 then some 1 else none
  anni := fun n b => if n = 0 ∧ b = 1 then some 0 else none

theorem exLevel_dim (e : ℝ) (b : ℕ) (hb : b < (exLevel e).n) : (exLevel e).sp b = [b] ∧ (exLevel e).dim b = 1 := by
  have hb : b < 2 := hb
  interval_cases b <;> exact ⟨rfl, rfl⟩

theorem exLevel_blocks (e : ℝ) : (exLevel e).Blocks where
  nodup := fun b hb => by rw [(exLevel_dim e b hb).1]; simp
  disjoint := fun b hb b' hb' f h1 h2 => by
    rw [(exLevel_dim e b hb).1, List.mem_singleton] at h1
    rw [(exLevel_dim e b' hb').1, List.mem_singleton] at h2
    omega

theorem exLevel_spectral (e : ℝ) : (exLevel e).Spectral (fun f i => if f = 1 ∧ i = 1 then (e : ℂ) else 0) where
  blocks := fun b hb => by
    rw [(exLevel_dim e b hb).2, (exLevel_dim e b hb).1]
    refine ⟨fun a c _ _ => le_rfl, ?_, ?_, ?_⟩
    · intro a ha c hc; interval_cases a; interval_cases c; simp [exLevel]
    · intro a ha c hc; interval_cases a; interval_cases c; simp [exLevel]
    · intro a ha c hc; interval_cases a; interval_cases c
      by_cases h1 : b = 1 <;> simp [exLevel, h1]
  stable := fun b hb b' hb' hne f hf i hi => by
    rw [(exLevel_dim e b hb).1, List.mem_singleton] at hf
    rw [(exLevel_dim e b' hb').1, List.mem_singleton] at hi
    rw [if_neg]
    omega

theorem exLevel_conn (e : ℝ) : (exLevel e).Conn 0 0 [annMono 0] [creMono 0] where
  range := fun A _ B h => by
    simp only [exLevel] at h
    split at h
    · cases h; exact one_lt_two
    · cases h
  crea := fun A hA B hB i hi f hf h => by
    rw [(exLevel_dim e A hA).1, List.mem_singleton] at hi
    rw [(exLevel_dim e B hB).1, List.mem_singleton] at hf
    subst hi hf
    have hA : i < 2 := hA
    have hB : f < 2 := hB
    rw [opEntry_single] at h
    unfold entry creMono at h
    have h0 : (0 : ℕ) ∈ occupied 1 := by rw [mem_occupied]; decide
    interval_cases i
    · interval_cases f
      · simp only [mem_occupied] at h
        rw [if_neg (by decide)] at h
        simp only [ne_eq, ite_eq_right_iff, Classical.not_imp] at h
        have h1 := congrArg occupied h.1
        rw [occupied_symm] at h1
        have : (0 : ℕ) ∈ occupied 0 := h1 ▸ Finset.mem_insert_self _ _
        rw [mem_occupied] at this
        exact absurd this (by decide)
      · rfl
    · simp [h0] at h
  anni := fun A hA B hB i hi f hf h => by
    rw [(exLevel_dim e B hB).1, List.mem_singleton] at hi
    rw [(exLevel_dim e A hA).1, List.mem_singleton] at hf
    subst hi hf
    have hA : f < 2 := hA
    have hB : i < 2 := hB
    rw [opEntry_single] at h
    unfold entry annMono at h
    have h0 : (0 : ℕ) ∉ occupied 0 := by rw [mem_occupied]; decide
    interval_cases i
    · simp [h0] at h
    · interval_cases f
      · rfl
      · simp only [mem_occupied] at h
        rw [if_pos (by decide)] at h
        simp only [ne_eq, ite_eq_right_iff, Classical.not_imp] at h
        have h1 := congrArg occupied h.1
        rw [occupied_symm] at h1
        have : (0 : ℕ) ∈ occupied 1 := by rw [mem_occupied]; decide
        rw [← h1] at this
        exact absurd this (Finset.notMem_erase _ _)

/-- without threshold the residues of the level add up to one, and `G(0) + G(beta) = -1` -/
example (e beta : ℝ) : (((exLevel e).lehmann beta 0 [] 0 0 [annMono 0] [creMono 0]).map Prod.snd).sum = 1 ∧
    gTau beta ((exLevel e).lehmann beta 0 [] 0 0 [annMono 0] [creMono 0]) 0 + gTau beta ((exLevel e).lehmann beta 0 [] 0 0 [annMono 0] [creMono 0]) beta = -1 := by
  have h := C95_sum_rule (exLevel_blocks e) (exLevel_spectral e) 1 (List.Perm.refl _) 0 0 zero_lt_one (exLevel_conn e) beta 0 le_rfl
  rw [zero_mul, norm_le_zero_iff, sub_eq_zero] at h
  refine ⟨h, ?_⟩
  rw [C95_jump, h]
  rfl

/-- the imaginary-time function of the level is the trace formula -/
example (e beta tau : ℝ) (h0 : 0 ≤ tau) (h1 : tau ≤ beta) : gTau beta ((exLevel e).lehmann beta 0 [] 0 0 [annMono 0] [creMono 0]) tau =
    greenTau beta ((exLevel e).fock fun f i => if f = 1 ∧ i = 1 then (e : ℂ) else 0) ((exLevel e).fock (opEntry [annMono 0])) ((exLevel e).fock (opEntry [creMono 0])) tau := by
  have h := C93_green (exLevel_spectral e) 0 0 _ _ (exLevel_conn e) beta 0 le_rfl tau h0 h1
  rw [zero_mul, norm_le_zero_iff, sub_eq_zero] at h
  exact h

/-- with the occupied state excluded no term is left -/
example (e beta eps : ℝ) : (exLevel e).lehmann beta eps [(1, 0)] 0 0 [annMono 0] [creMono 0] = [] := by
  unfold Sys.lehmann
  rw [List.flatMap_eq_nil_iff]
  intro A _
  by_cases hA : A = 0
  · subst hA
    have h1 : (exLevel e).crea 0 0 = some 1 := rfl
    simp only [h1]
    split
    · rfl
    · rw [List.flatMap_eq_nil_iff]
      intro ia _
      rw [if_neg (by simp)]
      rw [List.filterMap_eq_nil_iff]
      intro ib hib
      have : ib = 0 := by
        have h2 : ib < 1 := List.mem_range.mp hib
        omega
      rw [if_pos (by simp [this])]
  · have : (exLevel e).crea 0 A = none := by simp [exLevel, hA]
    simp only [this]

end Verif.Diag
