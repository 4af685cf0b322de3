import Verif.AtomDiag.Spectral

/-!
# Model of partition function, density matrix, expectation values and quantum numbers

Source: `/repo/c++/triqs/atom_diag/impl/functions.cpp:39-94, 119-178`.

Simplifications as in `Verif.AtomDiag.Matrices`; `double` is a real number, `std::complex<double>` a complex number. The tests
`is_op_hermitian(op)` (C68) and `commutator.is_almost_zero()` are parameters.
-/

namespace Verif.Diag

open Matrix NormedSpace

/-! ## Model -/

/-- `partition_function`, functions.cpp:39-43 -/
noncomputable def Sys.partition (s : Sys ℝ ℂ) (beta : ℝ) : ℝ :=
  (List.range s.n).foldl (fun z b => z + ∑ a ∈ Finset.range (s.dim b), Real.exp (-beta * s.E b a)) 0

/-- a block of a density matrix: number of rows and elements; the blocks are square -/
abbrev DM := List (ℕ × (ℕ → ℕ → ℂ))

/-- `atomic_density_matrix`, functions.cpp:48-60 -/
noncomputable def Sys.densityMatrix (s : Sys ℝ ℂ) (beta : ℝ) : DM :=
  (List.range s.n).map fun bl => (s.dim bl, fun u v => if u = v then ((Real.exp (-beta * s.E bl u) / s.partition beta : ℝ) : ℂ) else 0)

/-- the loop over the terms of the operator, functions.cpp:74-77 -/
noncomputable def Sys.traceTerms (s : Sys ℝ ℂ) (sp : ℕ) (rho : ℕ → ℕ → ℂ) : List (ℂ × Mono ℂ) → ℂ → Out ℂ
  | [], r => .ok r
  | x :: xs, r => match s.matrixElement x.2 sp with
    | .undef => .undef
    | .exn => .exn
    | .ok none => s.traceTerms sp rho xs r
    | .ok (some (b, m)) =>
      if b = sp then s.traceTerms sp rho xs (r + x.1 * ∑ i ∈ Finset.range (s.dim sp), ∑ k ∈ Finset.range (s.dim sp), m i k * rho k i)
      else s.traceTerms sp rho xs r

/-- the loop over the blocks, functions.cpp:71-78 -/
noncomputable def Sys.traceBlocks (s : Sys ℝ ℂ) (op : List (ℂ × Mono ℂ)) (dm : DM) : List ℕ → ℂ → Out ℂ
  | [], r => .ok r
  | sp :: sps, r =>
    let blk := dm.getD sp (0, fun _ _ => 0);
    if s.dim sp ≠ blk.1 then .exn
    else match s.traceTerms sp blk.2 op r with
      | .ok r' => s.traceBlocks op dm sps r'
      | o => o

open Classical in
/-- `is_block_matrix_hermitian`, functions.cpp:80-82 -/
noncomputable def hermitianDM (dm : DM) : Bool := dm.all fun p => decide (∀ i < p.1, ∀ j < p.1, p.2 i j = star (p.2 j i))

/-- `trace_rho_op`, functions.cpp:66-94; `herm` is `is_op_hermitian(op)` -/
noncomputable def Sys.traceRhoOp (s : Sys ℝ ℂ) (herm : Bool) (dm : DM) (op : List (ℂ × Mono ℂ)) : Out ℂ :=
  if s.n ≠ dm.length then .exn
  else match s.traceBlocks op dm (List.range s.n) 0 with
    | .ok r => if herm && hermitianDM dm then .ok ((r.re : ℝ) : ℂ) else .ok r
    | o => o

/-- one block of `quantum_number_eigenvalues`, functions.cpp:130-134 -/
noncomputable def Sys.qnTerms (s : Sys ℝ ℂ) (sp : ℕ) : List (ℂ × Mono ℂ) → (ℕ → ℝ) → Out (ℕ → ℝ)
  | [], r => .ok r
  | x :: xs, r => match s.matrixElement x.2 sp with
    | .undef => .undef
    | .exn => .exn
    | .ok none => s.qnTerms sp xs r
    | .ok (some (b, m)) => if b ≠ sp then s.qnTerms sp xs r else s.qnTerms sp xs fun i => r i + (x.1 * m i i).re

/-- the blocks of `quantum_number_eigenvalues`, functions.cpp:127-135 -/
noncomputable def Sys.qnBlocks (s : Sys ℝ ℂ) (op : List (ℂ × Mono ℂ)) : List ℕ → Out (List (ℕ → ℝ))
  | [] => .ok []
  | sp :: sps => match s.qnTerms sp op (fun _ => 0) with
    | .undef => .undef
    | .exn => .exn
    | .ok r => match s.qnBlocks op sps with
      | .ok l => .ok (r :: l)
      | o => o

/-- `quantum_number_eigenvalues`, functions.cpp:119-137 -/
noncomputable def Sys.quantumNumbers (s : Sys ℝ ℂ) (commutes : Bool) (op : List (ℂ × Mono ℂ)) : Out (List (ℕ → ℝ)) :=
  if commutes = false then .exn else s.qnBlocks op (List.range s.n)

/-- the loop over the terms, functions.cpp:163-167, on the matrix `M` -/
noncomputable def Sys.qncTerms (s : Sys ℝ ℂ) (sp : ℕ) : List (ℂ × Mono ℂ) → (ℕ → ℕ → ℝ) → Out (ℕ → ℕ → ℝ)
  | [], M => .ok M
  | x :: xs, M => match s.matrixElement x.2 sp with
    | .undef => .undef
    | .exn => .exn
    | .ok none => s.qncTerms sp xs M
    | .ok (some (b, m)) => s.qncTerms sp xs fun j k =>
        if (s.first b ≤ j ∧ j < s.first b + s.dim b) ∧ s.first sp ≤ k ∧ k < s.first sp + s.dim sp then
          M j k + (x.1 * m (j - s.first b) (k - s.first sp)).re
        else M j k

/-- the loop over the blocks, functions.cpp:161-168 -/
noncomputable def Sys.qncBlocks (s : Sys ℝ ℂ) (op : List (ℂ × Mono ℂ)) : List ℕ → (ℕ → ℕ → ℝ) → Out (ℕ → ℕ → ℝ)
  | [], M => .ok M
  | sp :: sps, M => match s.qncTerms sp op M with
    | .ok M' => s.qncBlocks op sps M'
    | o => o

open Classical in
/-- `is_diagonal`, functions.cpp:144-147 -/
noncomputable def isDiagonal (d : ℕ) (M : ℕ → ℕ → ℝ) : Bool :=
  decide (abs ((∑ i ∈ Finset.range d, ∑ j ∈ Finset.range d, abs (M i j)) - ∑ i ∈ Finset.range d, abs (M i i)) < 1 / 10 ^ 11)

/-- `quantum_number_eigenvalues_checked`, functions.cpp:149-178; `d` is the dimension of the full space -/
noncomputable def Sys.quantumNumbersChecked (s : Sys ℝ ℂ) (commutes : Bool) (d : ℕ) (op : List (ℂ × Mono ℂ)) : Out (List (ℕ → ℝ)) :=
  if commutes = false then .exn
  else match s.qncBlocks op (List.range s.n) (fun _ _ => 0) with
    | .undef => .undef
    | .exn => .exn
    | .ok M =>
      if isDiagonal d M = false then .exn
      else .ok ((List.range s.n).map fun sp i => M (s.flat sp i) (s.flat sp i))

/-! ## Proofs -/

theorem foldl_add_eq_sum (g : ℕ → ℝ) (n : ℕ) : (List.range n).foldl (fun z b => z + g b) 0 = ∑ b ∈ Finset.range n, g b := by
  induction n with
  | zero => rfl
  | succ n ih => rw [List.range_succ, List.foldl_append, ih, Finset.sum_range_succ]; rfl

theorem partition_eq (s : Sys ℝ ℂ) (beta : ℝ) :
    s.partition beta = ∑ b ∈ Finset.range s.n, ∑ a ∈ Finset.range (s.dim b), Real.exp (-beta * s.E b a) := foldl_add_eq_sum _ _

/-- **C91, partition function.** It is the trace of `exp(-beta (H - E_0))`, the ground state energy being subtracted. -/
theorem C91_partition {s : Sys ℝ ℂ} {h : ℕ → ℕ → ℂ} (hs : s.Spectral h) (beta : ℝ) :
    (s.partition beta : ℂ) = trace (exp ((-beta : ℂ) • (s.fock h - (s.gs : ℂ) • 1))) := by
  have e1 : (-beta : ℂ) • (s.fock h - (s.gs : ℂ) • (1 : Matrix s.I s.I ℂ)) = s.V * diagonal (fun p => ((-beta : ℂ) * (s.E p.1 p.2 : ℂ))) * s.V⁻¹ := by
    have h2 := (V_isUnit hs.unitary).2
    rw [spectral_decomposition hs, h2, smul_sub, ← smul_mul_assoc, ← mul_smul_comm, ← diagonal_smul]
    have : (1 : Matrix s.I s.I ℂ) = s.V * 1 * s.Vᴴ := by rw [mul_one, V_mul_star hs.unitary]
    rw [this, ← diagonal_one, smul_smul, ← smul_mul_assoc, ← mul_smul_comm, ← diagonal_smul, ← sub_mul, ← mul_sub, diagonal_sub]
    congr 3
    ext p
    simp only [Sys.energy, Pi.smul_apply, smul_eq_mul]
    push_cast
    ring
  rw [e1, exp_conj _ _ (V_isUnit hs.unitary).1, exp_diagonal, (V_isUnit hs.unitary).2, mul_assoc, trace_mul_comm, mul_assoc, star_mul_V hs.unitary, mul_one,
    partition_eq]
  push_cast
  symm
  apply sum_I
  intro p
  rw [diag_apply, diagonal_apply_eq, Pi.coe_exp, Complex.exp_eq_exp_ℂ]

theorem partition_pos (s : Sys ℝ ℂ) (beta : ℝ) (b a : ℕ) (hb : b < s.n) (ha : a < s.dim b) : 0 < s.partition beta := by
  rw [partition_eq]
  apply Finset.sum_pos'
  · intro b _; exact Finset.sum_nonneg fun a _ => (Real.exp_pos _).le
  · refine ⟨b, Finset.mem_range.mpr hb, ?_⟩
    exact Finset.sum_pos' (fun a _ => (Real.exp_pos _).le) ⟨a, Finset.mem_range.mpr ha, Real.exp_pos _⟩

theorem densityMatrix_getD (s : Sys ℝ ℂ) (beta : ℝ) (b : ℕ) (hb : b < s.n) :
    (s.densityMatrix beta).getD b (0, fun _ _ => 0) = (s.dim b, fun u v => if u = v then ((Real.exp (-beta * s.E b u) / s.partition beta : ℝ) : ℂ) else 0) := by
  unfold Sys.densityMatrix
  rw [List.getD_eq_getElem?_getD, List.getElem?_map, List.getElem?_range hb]
  rfl

/-- the monomials of the operator map every block to one block -/
def Sys.OpBlocks (s : Sys ℝ ℂ) (op : List (ℂ × Mono ℂ)) : Prop := ∀ x ∈ op, ∀ b < s.n, s.OneBlock x.2 b

/-- the diagonal block of a monomial as found by the code -/
theorem diag_case (s : Sys ℝ ℂ) (hb : s.Blocks) (t : Mono ℂ) (sp : ℕ) (hsp : sp < s.n) (ht : s.OneBlock t sp) :
    (∃ b m, s.matrixElement t sp = .ok (some (b, m)) ∧ b < s.n ∧ (∀ a a', m a a' = s.elem (entry t) b a sp a') ∧
      (b ≠ sp → ∀ a a', s.elem (entry t) sp a sp a' = 0) ∧ (∀ b' < s.n, b' ≠ b → ∀ a a', s.elem (entry t) b' a sp a' = 0)) ∨
    (s.matrixElement t sp = .ok none ∧ ∀ b < s.n, ∀ a a', s.elem (entry t) b a sp a' = 0) := by
  rcases C88_monomial s hb t sp ht with ⟨h1, h2⟩ | ⟨b', m, h1, h2, h3, h4⟩
  · exact Or.inr ⟨h1, h2⟩
  · exact Or.inl ⟨b', m, h2, h1, h3, fun hne => h4 sp hsp (Ne.symm hne), fun b hb hne => h4 b hb hne⟩

theorem traceTerms_eq (s : Sys ℝ ℂ) (hb : s.Blocks) (sp : ℕ) (hsp : sp < s.n) (rho : ℕ → ℕ → ℂ) (op : List (ℂ × Mono ℂ)) :
    (∀ x ∈ op, s.OneBlock x.2 sp) → ∀ r, s.traceTerms sp rho op r =
      .ok (r + ∑ i ∈ Finset.range (s.dim sp), ∑ k ∈ Finset.range (s.dim sp), s.elem (combEntry op) sp i sp k * rho k i) := by
  induction op with
  | nil =>
    intro _ r
    rw [Sys.traceTerms]
    congr 1
    symm
    rw [add_eq_left]
    apply Finset.sum_eq_zero; intro i _
    apply Finset.sum_eq_zero; intro k _
    rw [elem_comb_nil, zero_mul]
  | cons x xs ih =>
    intro hx r
    have ih := ih (fun y hy => hx y (by simp [hy]))
    rw [Sys.traceTerms]
    have key : ∑ i ∈ Finset.range (s.dim sp), ∑ k ∈ Finset.range (s.dim sp), s.elem (combEntry (x :: xs)) sp i sp k * rho k i =
        x.1 * (∑ i ∈ Finset.range (s.dim sp), ∑ k ∈ Finset.range (s.dim sp), s.elem (entry x.2) sp i sp k * rho k i) +
        ∑ i ∈ Finset.range (s.dim sp), ∑ k ∈ Finset.range (s.dim sp), s.elem (combEntry xs) sp i sp k * rho k i := by
      rw [Finset.mul_sum, ← Finset.sum_add_distrib]
      apply Finset.sum_congr rfl; intro i _
      rw [Finset.mul_sum, ← Finset.sum_add_distrib]
      apply Finset.sum_congr rfl; intro k _
      rw [elem_comb_cons]; ring
    rcases diag_case s hb x.2 sp hsp (hx x (by simp)) with ⟨b, m, h1, h2, h3, h4, -⟩ | ⟨h1, h2⟩
    · rw [h1]
      by_cases e : b = sp
      · subst e
        simp only [if_true]
        rw [ih, key]
        congr 1
        simp only [h3]
        ring
      · simp only
        rw [if_neg e, ih, key]
        simp [h4 e]
    · rw [h1]
      simp only
      rw [ih, key]
      simp [h2 sp hsp]

theorem traceBlocks_eq (s : Sys ℝ ℂ) (hb : s.Blocks) (op : List (ℂ × Mono ℂ)) (hop : s.OpBlocks op) (dm : DM) (hdm : ∀ b < s.n, (dm.getD b (0, fun _ _ => 0)).1 = s.dim b) :
    ∀ (sps : List ℕ) (r : ℂ), (∀ b ∈ sps, b < s.n) → s.traceBlocks op dm sps r =
      .ok (r + (sps.map fun b => ∑ i ∈ Finset.range (s.dim b), ∑ k ∈ Finset.range (s.dim b), s.elem (combEntry op) b i b k * (dm.getD b (0, fun _ _ => 0)).2 k i).sum) := by
  intro sps
  induction sps with
  | nil => intro r _; rw [Sys.traceBlocks]; simp
  | cons sp sps ih =>
    intro r h
    have hsp := h sp (by simp)
    rw [Sys.traceBlocks]
    rw [hdm sp hsp, if_neg (by simp), traceTerms_eq s hb sp hsp _ op (fun x hx => hop x hx sp hsp)]
    simp only
    rw [ih _ (fun b hb => h b (by simp [hb]))]
    congr 1
    rw [List.map_cons, List.sum_cons]
    ring

/-- **C91, trace with a block matrix.** `trace_rho_op` is the sum of the products of the elements of the operator and of the
matrix; its real part if both are hermitian, which is the same number. -/
theorem C91_trace (s : Sys ℝ ℂ) (hb : s.Blocks) (op : List (ℂ × Mono ℂ)) (hop : s.OpBlocks op) (herm : Bool)
    (hh : herm = true → ∀ f i, combEntry op i f = star (combEntry op f i)) (dm : DM) (hl : dm.length = s.n) (hdm : ∀ b < s.n, (dm.getD b (0, fun _ _ => 0)).1 = s.dim b) :
    s.traceRhoOp herm dm op = .ok (∑ b ∈ Finset.range s.n, ∑ i ∈ Finset.range (s.dim b), ∑ k ∈ Finset.range (s.dim b),
      s.elem (combEntry op) b i b k * (dm.getD b (0, fun _ _ => 0)).2 k i) := by
  unfold Sys.traceRhoOp
  rw [if_neg (by simp [hl]), traceBlocks_eq s hb op hop dm hdm _ _ (fun b hb => List.mem_range.mp hb)]
  simp only [zero_add]
  have hsum : ∀ g : ℕ → ℂ, ((List.range s.n).map g).sum = ∑ b ∈ Finset.range s.n, g b := fun g => by
    rfl
  rw [hsum]
  split
  · rename_i hc
    rw [Bool.and_eq_true] at hc
    congr 1
    refine Complex.conj_eq_iff_re.mp ?_
    · have hd := hc.2
      unfold hermitianDM at hd
      rw [List.all_eq_true] at hd
      rw [map_sum]
      apply Finset.sum_congr rfl
      intro b hbm
      have hbn := Finset.mem_range.mp hbm
      have hmem : dm.getD b (0, fun _ _ => 0) ∈ dm := by
        rw [List.getD_eq_getElem?_getD, List.getElem?_eq_getElem (by omega)]; exact List.getElem_mem _
      have hdb := of_decide_eq_true (hd _ hmem)
      rw [hdm b hbn] at hdb
      rw [map_sum, Finset.sum_comm]
      simp only [map_sum]
      rw [Finset.sum_comm]
      conv_rhs => rw [Finset.sum_comm]
      apply Finset.sum_congr rfl
      intro i hi
      apply Finset.sum_congr rfl
      intro k hk
      rw [map_mul]
      have e1 := elem_star s (combEntry op) (combEntry op) (hh hc.1) b k b i
      have e2 := hdb i (Finset.mem_range.mp hi) k (Finset.mem_range.mp hk)
      rw [starRingEnd_apply, starRingEnd_apply, e1, e2, star_star]
  · rfl

/-- **C91, mismatch.** A block matrix with another number of blocks or a block of another size is refused. -/
theorem C91_mismatch (s : Sys ℝ ℂ) (herm : Bool) (dm : DM) (op : List (ℂ × Mono ℂ)) :
    (s.n ≠ dm.length → s.traceRhoOp herm dm op = .exn) ∧
    ∀ b < s.n, s.dim b ≠ (dm.getD b (0, fun _ _ => 0)).1 → ∀ r, s.traceRhoOp herm dm op ≠ .ok r := by
  constructor
  · intro h
    unfold Sys.traceRhoOp
    rw [if_pos h]
  · intro b hb hne r hr
    have key : ∀ (l : List ℕ) (z r' : ℂ), b ∈ l → s.traceBlocks op dm l z ≠ .ok r' := by
      intro l
      induction l with
      | nil => intro z r' h; cases h
      | cons a l ih =>
        intro z r' h
        unfold Sys.traceBlocks
        by_cases ha : s.dim a = (dm.getD a (0, fun _ _ => 0)).1
        · simp only [ne_eq, ha, not_true_eq_false, if_false]
          have hl : b ∈ l := by
            rcases List.mem_cons.mp h with rfl | h
            · exact absurd ha hne
            · exact h
          split
          · exact ih _ _ hl
          · rename_i h1
            exact fun h2 => h1 _ h2
        · intro hh
          simp only [ne_eq, ha, not_false_eq_true, if_true] at hh
          cases hh
    unfold Sys.traceRhoOp at hr
    by_cases h : s.n = dm.length
    · rw [if_neg (not_not.mpr h)] at hr
      cases h1 : s.traceBlocks op dm (List.range s.n) 0 with
      | ok r' => exact key _ _ _ (List.mem_range.mpr hb) h1
      | exn => rw [h1] at hr; cases hr
      | undef => rw [h1] at hr; cases hr
    · rw [if_pos h] at hr
      cases hr

/-- **C91, density matrix.** Its trace is one. -/
theorem C91_normalised (s : Sys ℝ ℂ) (beta : ℝ) (b a : ℕ) (hb : b < s.n) (ha : a < s.dim b) :
    ∑ b ∈ Finset.range s.n, ∑ u ∈ Finset.range (s.dim b), ((s.densityMatrix beta).getD b (0, fun _ _ => 0)).2 u u = 1 := by
  have h0 := partition_pos s beta b a hb ha
  have : ∀ b ∈ Finset.range s.n, ∑ u ∈ Finset.range (s.dim b), ((s.densityMatrix beta).getD b (0, fun _ _ => 0)).2 u u =
      (((∑ u ∈ Finset.range (s.dim b), Real.exp (-beta * s.E b u)) / s.partition beta : ℝ) : ℂ) := by
    intro b hb
    rw [densityMatrix_getD s beta b (Finset.mem_range.mp hb)]
    simp only [if_true]
    rw [Finset.sum_div]
    push_cast
    rfl
  rw [Finset.sum_congr rfl this, ← Complex.ofReal_sum, ← Finset.sum_div, ← partition_eq, div_self h0.ne']
  simp

/-- **C91.** The trace of the atomic density matrix with an operator is the expectation value of the operator in the canonical
ensemble of the Hamiltonian. -/
theorem C91_gibbs {s : Sys ℝ ℂ} (hb : s.Blocks) {h : ℕ → ℕ → ℂ} (hs : s.Spectral h) (beta : ℝ) (op : List (ℂ × Mono ℂ)) (hop : s.OpBlocks op) (herm : Bool)
    (hh : herm = true → ∀ f i, combEntry op i f = star (combEntry op f i)) :
    s.traceRhoOp herm (s.densityMatrix beta) op = .ok (gibbs beta (s.fock h) (s.fock (combEntry op))) := by
  rw [C91_trace s hb op hop herm hh _ (by simp [Sys.densityMatrix]) (fun b hb => by rw [densityMatrix_getD s beta b hb])]
  congr 1
  unfold gibbs
  rw [trace_exp_mul hs, trace_exp hs]
  have e : ∀ b a, Complex.exp (-beta * ((s.E b a : ℂ) + s.gs)) = Complex.exp (-beta * s.gs) * Complex.exp (-beta * s.E b a) := by
    intro b a; rw [← Complex.exp_add]; congr 1; ring
  have d : ∑ b ∈ Finset.range s.n, ∑ a ∈ Finset.range (s.dim b), Complex.exp (-beta * ((s.E b a : ℂ) + s.gs)) = Complex.exp (-beta * s.gs) * s.partition beta := by
    rw [partition_eq]
    push_cast
    rw [Finset.mul_sum]
    apply Finset.sum_congr rfl; intro b _
    rw [Finset.mul_sum]
    exact Finset.sum_congr rfl fun a _ => e b a
  rw [d]
  have n : ∑ b ∈ Finset.range s.n, ∑ a ∈ Finset.range (s.dim b), Complex.exp (-beta * ((s.E b a : ℂ) + s.gs)) * s.elem (combEntry op) b a b a =
      Complex.exp (-beta * s.gs) * ∑ b ∈ Finset.range s.n, ∑ a ∈ Finset.range (s.dim b), Complex.exp (-beta * s.E b a) * s.elem (combEntry op) b a b a := by
    rw [Finset.mul_sum]
    apply Finset.sum_congr rfl; intro b _
    rw [Finset.mul_sum]
    apply Finset.sum_congr rfl; intro a _
    rw [e]; ring
  rw [n, mul_div_mul_left _ _ (Complex.exp_ne_zero _), Finset.sum_div]
  apply Finset.sum_congr rfl
  intro b hbm
  rw [Finset.sum_div, densityMatrix_getD s beta b (Finset.mem_range.mp hbm)]
  apply Finset.sum_congr rfl
  intro i hi
  simp only
  rw [Finset.sum_eq_single i]
  · simp only [if_true]
    push_cast
    ring
  · intro k _ hk
    rw [if_neg hk, mul_zero]
  · intro h; exact absurd hi h

/-- **C91.** If the blocks contain every Fock state once, the sums over blocks are sums over all Fock states. -/
theorem C91_all_states (s : Sys ℝ ℂ) (N : ℕ) (hp : s.spaces.flatten.Perm (List.range N)) (O : ℕ → ℕ → ℂ) :
    trace (s.fock O) = ∑ f ∈ Finset.range N, O f f := sum_states s N hp fun f => O f f

/-- **C91, from the constructor.** For every hermitian Hamiltonian and disjoint stable blocks the system that is constructed gives
the expectation values of the canonical ensemble. -/
theorem C91_from_constructor (eig : Eig ℝ ℂ) (heig : EigSpec eig) (split : ℝ) (hsp : 0 ≤ split) (terms : List (Mono ℂ))
    (hH : ∀ f i, opEntry terms f i = star (opEntry terms i f)) (spaces : List (List ℕ)) (crea anni : ℕ → ℕ → Option ℕ)
    (hne : ∀ sp ∈ spaces, sp ≠ []) (hnd : ∀ sp ∈ spaces, sp.Nodup) (hst : ∀ sp ∈ spaces, Stable terms sp) (hdj : spaces.Pairwise List.Disjoint)
    (hcr : ∀ n b b', b < spaces.length → crea n b = some b' → b' < spaces.length) (han : ∀ n b b', b < spaces.length → anni n b = some b' → b' < spaces.length) :
    ∃ s, complete eig split terms spaces crea anni = some s ∧ ∀ (beta : ℝ) (op : List (ℂ × Mono ℂ)), s.OpBlocks op → ∀ herm : Bool,
      (herm = true → ∀ f i, combEntry op i f = star (combEntry op f i)) →
      s.traceRhoOp herm (s.densityMatrix beta) op = .ok (gibbs beta (s.fock (opEntry terms)) (s.fock (combEntry op))) := by
  obtain ⟨s, h1, -, h3, h4⟩ := complete_spectral eig heig split hsp terms hH spaces crea anni hne hnd hst hdj hcr han
  exact ⟨s, h1, fun beta op hop herm hh => C91_gibbs h3 h4 beta op hop herm hh⟩

/-! ### C92 -/

theorem qnTerms_eq (s : Sys ℝ ℂ) (hb : s.Blocks) (sp : ℕ) (hsp : sp < s.n) (op : List (ℂ × Mono ℂ)) :
    (∀ x ∈ op, s.OneBlock x.2 sp) → ∀ r, s.qnTerms sp op r = .ok fun i => r i + (s.elem (combEntry op) sp i sp i).re := by
  induction op with
  | nil => intro _ r; rw [Sys.qnTerms]; congr 1; funext i; rw [elem_comb_nil]; simp
  | cons x xs ih =>
    intro hx r
    have ih := ih (fun y hy => hx y (by simp [hy]))
    rw [Sys.qnTerms]
    rcases diag_case s hb x.2 sp hsp (hx x (by simp)) with ⟨b, m, h1, h2, h3, h4, -⟩ | ⟨h1, h2⟩
    · rw [h1]
      by_cases e : b = sp
      · subst e
        simp only [ne_eq, not_true_eq_false, if_false]
        rw [ih]
        congr 1
        funext i
        rw [elem_comb_cons, h3, Complex.add_re]
        ring
      · simp only
        rw [if_pos e, ih]
        congr 1
        funext i
        rw [elem_comb_cons, h4 e, Complex.add_re]
        simp
    · rw [h1]
      simp only
      rw [ih]
      congr 1
      funext i
      rw [elem_comb_cons, h2 sp hsp, Complex.add_re]
      simp

/-- **C92, values returned.** For an operator whose commutator with the Hamiltonian is accepted as zero, the real parts of the
diagonal elements in the eigenbasis are returned. -/
theorem C92_values (s : Sys ℝ ℂ) (hb : s.Blocks) (op : List (ℂ × Mono ℂ)) (hop : s.OpBlocks op) :
    s.quantumNumbers true op = .ok ((List.range s.n).map fun b i => (s.elem (combEntry op) b i b i).re) ∧ s.quantumNumbers false op = .exn := by
  refine ⟨?_, rfl⟩
  unfold Sys.quantumNumbers
  rw [if_neg (by simp)]
  have : ∀ l : List ℕ, (∀ b ∈ l, b < s.n) → s.qnBlocks op l = .ok (l.map fun b i => (s.elem (combEntry op) b i b i).re) := by
    intro l
    induction l with
    | nil => intro _; rfl
    | cons b l ih =>
      intro h
      rw [Sys.qnBlocks, qnTerms_eq s hb b (h b (by simp)) op (fun x hx => hop x hx b (h b (by simp)))]
      simp only
      rw [ih (fun b hb => h b (by simp [hb]))]
      simp
  exact this _ fun b hb => List.mem_range.mp hb

/-- **C92, refusal.** Both versions throw for an operator whose commutator with the Hamiltonian is not accepted as zero. -/
theorem C92_refused (s : Sys ℝ ℂ) (d : ℕ) (op : List (ℂ × Mono ℂ)) : s.quantumNumbers false op = .exn ∧ s.quantumNumbersChecked false d op = .exn := ⟨rfl, rfl⟩

/-- **C92.** If a hermitian operator commutes with the Hamiltonian, an eigenstate with an energy that occurs once is an eigenstate of the
operator, and the value returned for it is the eigenvalue. -/
theorem C92_nondegenerate {s : Sys ℝ ℂ} {h : ℕ → ℕ → ℂ} (hs : s.Spectral h) (O : ℕ → ℕ → ℂ) (hO : ∀ f i, O i f = star (O f i))
    (hc : s.fock O * s.fock h = s.fock h * s.fock O) (b a : ℕ) (hb : b < s.n) (ha : a < s.dim b)
    (hd : ∀ b' < s.n, ∀ a' < s.dim b', s.E b' a' = s.E b a → b' = b ∧ a' = a) (b' a' : ℕ) (hb' : b' < s.n) (ha' : a' < s.dim b') :
    s.elem O b' a' b a = if b' = b ∧ a' = a then (((s.elem O b a b a).re : ℝ) : ℂ) else 0 := by
  by_cases e : b' = b ∧ a' = a
  · rw [if_pos e, e.1, e.2]
    have := elem_star s O O hO b a b a
    exact (Complex.conj_eq_iff_re.mp this).symm
  · rw [if_neg e]
    have key : s.Vᴴ * s.fock O * s.V * diagonal (fun p => (s.energy p : ℂ)) = diagonal (fun p => (s.energy p : ℂ)) * (s.Vᴴ * s.fock O * s.V) := by
      have u1 := star_mul_V hs.unitary
      have u2 := V_mul_star hs.unitary
      have hD : diagonal (fun p => (s.energy p : ℂ)) = s.Vᴴ * s.fock h * s.V := by
        rw [spectral_decomposition hs]
        calc diagonal (fun p => (s.energy p : ℂ)) = (s.Vᴴ * s.V) * diagonal (fun p => (s.energy p : ℂ)) * (s.Vᴴ * s.V) := by rw [u1, one_mul, mul_one]
          _ = _ := by simp only [mul_assoc]
      rw [hD]
      calc s.Vᴴ * s.fock O * s.V * (s.Vᴴ * s.fock h * s.V) = s.Vᴴ * s.fock O * (s.V * s.Vᴴ) * s.fock h * s.V := by simp only [mul_assoc]
        _ = s.Vᴴ * (s.fock O * s.fock h) * s.V := by rw [u2]; simp only [mul_one, mul_assoc]
        _ = s.Vᴴ * (s.fock h * s.fock O) * s.V := by rw [hc]
        _ = s.Vᴴ * s.fock h * (s.V * s.Vᴴ) * s.fock O * s.V := by rw [u2]; simp only [mul_one, mul_assoc]
        _ = _ := by simp only [mul_assoc]
    have := congrFun (congrFun key ⟨⟨b', hb'⟩, ⟨a', ha'⟩⟩) ⟨⟨b, hb⟩, ⟨a, ha⟩⟩
    rw [mul_diagonal, diagonal_mul, elem_eq] at this
    simp only [Sys.energy] at this
    have hne : s.E b' a' ≠ s.E b a := fun h => e (hd b' hb' a' ha' h)
    have hz : s.elem O b' a' b a * (((s.E b a - s.E b' a' : ℝ)) : ℂ) = 0 := by
      push_cast
      push_cast at this
      linear_combination this
    rcases mul_eq_zero.mp hz with hz | hz
    · exact hz
    · exact absurd (Complex.ofReal_eq_zero.mp hz) (sub_ne_zero.mpr (Ne.symm hne))

theorem qncTerms_eq (s : Sys ℝ ℂ) (hb : s.Blocks) (sp : ℕ) (hsp : sp < s.n) (op : List (ℂ × Mono ℂ)) :
    (∀ x ∈ op, s.OneBlock x.2 sp) → ∀ M, ∃ M', s.qncTerms sp op M = .ok M' ∧
      (∀ b < s.n, ∀ a < s.dim b, ∀ a' < s.dim sp, M' (s.flat b a) (s.flat sp a') = M (s.flat b a) (s.flat sp a') + (s.elem (combEntry op) b a sp a').re) ∧
      (∀ j k, ¬ (s.first sp ≤ k ∧ k < s.first sp + s.dim sp) → M' j k = M j k) := by
  induction op with
  | nil => intro _ M; exact ⟨M, rfl, fun b _ a _ a' _ => by rw [elem_comb_nil]; simp, fun _ _ _ => rfl⟩
  | cons x xs ih =>
    intro hx M
    have ih := ih (fun y hy => hx y (by simp [hy]))
    rcases diag_case s hb x.2 sp hsp (hx x (by simp)) with ⟨b0, m, h1, h2, h3, -, h5⟩ | ⟨h1, h2⟩
    · obtain ⟨M', g1, g2, g3⟩ := ih (fun j k =>
        if (s.first b0 ≤ j ∧ j < s.first b0 + s.dim b0) ∧ s.first sp ≤ k ∧ k < s.first sp + s.dim sp then
          M j k + (x.1 * m (j - s.first b0) (k - s.first sp)).re
        else M j k)
      refine ⟨M', by rw [Sys.qncTerms, h1]; exact g1, fun b hbn a ha a' ha' => ?_, fun j k hk => ?_⟩
      · rw [g2 b hbn a ha a' ha', elem_comb_cons, Complex.add_re]
        beta_reduce
        by_cases e : b = b0
        · subst e
          rw [if_pos (by unfold Sys.flat; omega), show s.flat b a - s.first b = a from by unfold Sys.flat; omega,
            show s.flat sp a' - s.first sp = a' from by unfold Sys.flat; omega, h3]
          ring
        · rw [if_neg, h5 b hbn e]
          · simp
          · rintro ⟨⟨q1, q2⟩, -⟩
            unfold Sys.flat at q1 q2
            rcases Nat.lt_or_gt_of_ne e with h | h
            · have := first_mono s _ _ (show b + 1 ≤ b0 from h)
              have e2 : s.first (b + 1) = s.first b + s.dim b := rfl
              omega
            · have := first_mono s _ _ (show b0 + 1 ≤ b from h)
              have e2 : s.first (b0 + 1) = s.first b0 + s.dim b0 := rfl
              omega
      · rw [g3 j k hk]
        beta_reduce
        rw [if_neg (fun h => hk h.2)]
    · obtain ⟨M', g1, g2, g3⟩ := ih M
      refine ⟨M', by rw [Sys.qncTerms, h1]; exact g1, fun b hbn a ha a' ha' => ?_, g3⟩
      rw [g2 b hbn a ha a' ha', elem_comb_cons, h2 b hbn]
      simp

theorem qncBlocks_eq (s : Sys ℝ ℂ) (hb : s.Blocks) (op : List (ℂ × Mono ℂ)) (hop : s.OpBlocks op) :
    ∀ (l : List ℕ), l.Nodup → (∀ b ∈ l, b < s.n) → ∀ M, ∃ M', s.qncBlocks op l M = .ok M' ∧
      (∀ c ∈ l, ∀ b < s.n, ∀ a < s.dim b, ∀ a' < s.dim c, M' (s.flat b a) (s.flat c a') = M (s.flat b a) (s.flat c a') + (s.elem (combEntry op) b a c a').re) ∧
      (∀ j k, (∀ c ∈ l, ¬ (s.first c ≤ k ∧ k < s.first c + s.dim c)) → M' j k = M j k) := by
  intro l
  induction l with
  | nil => intro _ _ M; exact ⟨M, rfl, fun c hc => (by cases hc), fun _ _ _ => rfl⟩
  | cons sp l ih =>
    intro hn hl M
    obtain ⟨M1, g1, g2, g3⟩ := qncTerms_eq s hb sp (hl sp (by simp)) op (fun x hx => hop x hx sp (hl sp (by simp))) M
    obtain ⟨M2, k1, k2, k3⟩ := ih (List.nodup_cons.mp hn).2 (fun b hb => hl b (by simp [hb])) M1
    have hsep : ∀ c c' a', c ≠ c' → a' < s.dim c' → ¬ (s.first c ≤ s.flat c' a' ∧ s.flat c' a' < s.first c + s.dim c) := by
      rintro c c' a' hne ha' ⟨q1, q2⟩
      unfold Sys.flat at q1 q2
      rcases Nat.lt_or_gt_of_ne hne with h | h
      · have := first_mono s _ _ h; omega
      · have := first_mono s _ _ h; omega
    refine ⟨M2, by rw [Sys.qncBlocks, g1]; exact k1, fun c hc b hbn a ha a' ha' => ?_, fun j k hk => ?_⟩
    · rcases List.mem_cons.mp hc with rfl | hc
      · rw [k3 _ _ (fun c' hc' => hsep c' c a' (fun h => (List.nodup_cons.mp hn).1 (h ▸ hc')) ha'), g2 b hbn a ha a' ha']
      · rw [k2 c hc b hbn a ha a' ha', g3 _ _ (hsep sp c a' (fun h => (List.nodup_cons.mp hn).1 (h ▸ hc)) ha')]
    · rw [k3 j k (fun c hc => hk c (by simp [hc])), g3 j k (hk sp (by simp))]

/-- a sum of non-negative numbers without its diagonal -/
theorem off_diagonal (d : ℕ) (M : ℕ → ℕ → ℝ) : (∑ i ∈ Finset.range d, ∑ j ∈ Finset.range d, abs (M i j)) - ∑ i ∈ Finset.range d, abs (M i i) =
    ∑ i ∈ Finset.range d, ∑ j ∈ (Finset.range d).erase i, abs (M i j) := by
  rw [← Finset.sum_sub_distrib]
  apply Finset.sum_congr rfl
  intro i hi
  rw [← Finset.add_sum_erase _ _ hi]
  ring

/-- **C92, checked version.** It returns the real parts of the diagonal elements. If the operator is accepted, the real
parts of all other elements in the eigenbasis are below `10^{-11}`; if they vanish, it is accepted. -/
theorem C92_checked (s : Sys ℝ ℂ) (hb : s.Blocks) (op : List (ℂ × Mono ℂ)) (hop : s.OpBlocks op) (d : ℕ) (hd : d = ∑ b ∈ Finset.range s.n, s.dim b) :
    (∀ r, s.quantumNumbersChecked true d op = .ok r →
      (∀ b < s.n, ∀ a < s.dim b, (r.getD b fun _ => 0) a = (s.elem (combEntry op) b a b a).re) ∧
      (∀ b < s.n, ∀ a < s.dim b, ∀ b' < s.n, ∀ a' < s.dim b', ¬ (b = b' ∧ a = a') → |(s.elem (combEntry op) b a b' a').re| < 1 / 10 ^ 11)) ∧
    ((∀ b < s.n, ∀ a < s.dim b, ∀ b' < s.n, ∀ a' < s.dim b', ¬ (b = b' ∧ a = a') → (s.elem (combEntry op) b a b' a').re = 0) →
      ∃ r, s.quantumNumbersChecked true d op = .ok r) := by
  obtain ⟨f1, f2, f3⟩ := C89_flat s
  obtain ⟨M, g1, g2, -⟩ := qncBlocks_eq s hb op hop (List.range s.n) List.nodup_range (fun b hb => List.mem_range.mp hb) (fun _ _ => 0)
  have g2 : ∀ b < s.n, ∀ a < s.dim b, ∀ b' < s.n, ∀ a' < s.dim b', M (s.flat b a) (s.flat b' a') = (s.elem (combEntry op) b a b' a').re := by
    intro b hb a ha b' hb' a' ha'
    rw [g2 b' (List.mem_range.mpr hb') b hb a ha a' ha', zero_add]
  have hq : s.quantumNumbersChecked true d op = if isDiagonal d M = false then .exn else .ok ((List.range s.n).map fun sp i => M (s.flat sp i) (s.flat sp i)) := by
    unfold Sys.quantumNumbersChecked
    rw [if_neg (by simp), g1]
  constructor
  · intro r hr
    rw [hq] at hr
    split at hr
    · cases hr
    · rename_i hdi
      simp only [Bool.not_eq_false] at hdi
      cases hr
      refine ⟨fun b hb a ha => ?_, fun b hb a ha b' hb' a' ha' hne => ?_⟩
      · rw [List.getD_eq_getElem?_getD, List.getElem?_map, List.getElem?_range hb]
        exact g2 b hb a ha b hb a ha
      · unfold isDiagonal at hdi
        have := of_decide_eq_true hdi
        rw [off_diagonal] at this
        have h1 := lt_of_le_of_lt (le_abs_self _) this
        rw [← g2 b hb a ha b' hb' a' ha']
        have i1 : s.flat b a ∈ Finset.range d := by rw [Finset.mem_range, hd]; exact f3 _ b a hb ha
        have i2 : s.flat b' a' ∈ (Finset.range d).erase (s.flat b a) := by
          rw [Finset.mem_erase, Finset.mem_range, hd]
          exact ⟨fun h => hne (f1 b a b' a' ha ha' h.symm), f3 _ b' a' hb' ha'⟩
        have s1 := Finset.single_le_sum (f := fun i => ∑ j ∈ (Finset.range d).erase i, abs (M i j)) (fun i _ => Finset.sum_nonneg fun j _ => abs_nonneg _) i1
        have s2 := Finset.single_le_sum (f := fun j => abs (M (s.flat b a) j)) (fun j _ => abs_nonneg _) i2
        linarith
  · intro hz
    refine ⟨_, (hq.trans (if_neg ?_))⟩
    rw [Bool.not_eq_false]
    unfold isDiagonal
    apply decide_eq_true
    rw [off_diagonal, Finset.sum_eq_zero]
    · norm_num
    · intro i hi
      apply Finset.sum_eq_zero
      intro j hj
      rw [Finset.mem_erase] at hj
      obtain ⟨b, a, hb, ha, e1⟩ := f2 s.n i (by rw [← hd]; exact Finset.mem_range.mp hi)
      obtain ⟨b', a', hb', ha', e2⟩ := f2 s.n j (by rw [← hd]; exact Finset.mem_range.mp hj.2)
      rw [← e1, ← e2, g2 b hb a ha b' hb' a' ha', hz b hb a ha b' hb' a' ha', abs_zero]
      rintro ⟨rfl, rfl⟩
      exact hj.1 (e2.symm.trans e1)

/-! ### Witnesses: two orbitals without Hamiltonian, blocks of one Fock state -/

/-- four Fock states of energy zero -/
def exZero : Sys ℝ ℂ where
  spaces := [[0], [1], [2], [3]]
  E := fun _ _ => 0
  U := fun _ _ _ => 1
  gs := 0
  crea := fun _ _ => none
  anni := fun _ _ => none

/-- `x c†_0 c_1 + y c†_1 c_0` -/
def exHop (x y : ℂ) : List (ℂ × Mono ℂ) := [(x, fun i => if i = 2 then some (1, 1) else none), (y, fun i => if i = 1 then some (2, 1) else none)]

theorem exZero_dim (b : ℕ) (hb : b < exZero.n) : exZero.sp b = [b] ∧ exZero.dim b = 1 := by
  have hb : b < 4 := hb
  interval_cases b <;> exact ⟨rfl, rfl⟩

theorem exZero_blocks : exZero.Blocks where
  nodup := fun b hb => by rw [(exZero_dim b hb).1]; simp
  disjoint := fun b hb b' hb' f h1 h2 => by
    rw [(exZero_dim b hb).1, List.mem_singleton] at h1
    rw [(exZero_dim b' hb').1, List.mem_singleton] at h2
    omega

theorem exZero_spectral : exZero.Spectral (fun _ _ => 0) where
  blocks := fun b hb => by
    rw [(exZero_dim b hb).2]
    refine ⟨fun a c _ _ => le_rfl, ?_, ?_, ?_⟩
    · intro a ha c hc; interval_cases a; interval_cases c; simp [exZero]
    · intro a ha c hc; interval_cases a; interval_cases c; simp [exZero]
    · intro a ha c hc; interval_cases a; interval_cases c; simp [exZero]
  stable := fun _ _ _ _ _ _ _ _ _ => rfl

theorem exHop_blocks (x y : ℂ) : exZero.OpBlocks (exHop x y) := by
  intro e he b hb
  rw [Sys.OneBlock]
  simp only [exHop, List.mem_cons, List.not_mem_nil, or_false] at he
  rcases he with rfl | rfl
  · refine ⟨1, by decide, fun i _ f z h => Or.inl ?_⟩
    simp only at h
    split at h
    · cases h; decide
    · cases h
  · refine ⟨2, by decide, fun i _ f z h => Or.inl ?_⟩
    simp only at h
    split at h
    · cases h; decide
    · cases h

theorem exHop_entry (x y : ℂ) (f i : ℕ) : combEntry (exHop x y) f i = if f = 1 ∧ i = 2 then x else if f = 2 ∧ i = 1 then y else 0 := by
  simp only [combEntry, exHop, List.map_cons, List.map_nil, List.sum_cons, List.sum_nil, entry]
  by_cases h2 : i = 2
  · subst h2
    by_cases h1 : f = 1
    · subst h1; simp
    · simp [h1, Ne.symm h1]
  · by_cases h1 : i = 1
    · subst h1
      by_cases h3 : f = 2
      · subst h3; simp
      · simp [h3, Ne.symm h3]
    · simp [h1, h2]

theorem exHop_elem (x y : ℂ) (b b' : ℕ) (hb : b < exZero.n) (hb' : b' < exZero.n) (a a' : ℕ) :
    exZero.elem (combEntry (exHop x y)) b a b' a' = if b = 1 ∧ b' = 2 then x else if b = 2 ∧ b' = 1 then y else 0 := by
  unfold Sys.elem
  rw [(exZero_dim b hb).2, (exZero_dim b' hb').2, (exZero_dim b hb).1, (exZero_dim b' hb').1]
  simp only [Finset.range_one, Finset.sum_singleton, exHop_entry]
  simp [exZero]

/-- **C92, degenerate levels.** The hopping `c†_0 c_1 + c†_1 c_0` commutes with the Hamiltonian zero; zeros are returned, although
the operator has the eigenvalue one. -/
theorem C92_degenerate : exZero.Spectral (fun _ _ => 0) ∧
    (∃ r, exZero.quantumNumbers true (exHop 1 1) = .ok r ∧ ∀ b < 4, (r.getD b fun _ => 1) 0 = 0) ∧
    ∃ v : ℕ → ℂ, v 1 ≠ 0 ∧ ∀ f < 4, ∑ i ∈ Finset.range 4, combEntry (exHop 1 1) f i * v i = v f := by
  refine ⟨exZero_spectral, ⟨_, (C92_values exZero exZero_blocks (exHop 1 1) (exHop_blocks 1 1)).1, fun b hb => ?_⟩,
    fun i => if i = 1 ∨ i = 2 then 1 else 0, by simp, fun f hf => ?_⟩
  · rw [List.getD_eq_getElem?_getD, List.getElem?_map, List.getElem?_range (show b < exZero.n from hb)]
    simp only [Option.map_some, Option.getD_some]
    rw [exHop_elem 1 1 b b hb hb, if_neg (by omega), if_neg (by omega)]
    rfl
  · simp only [Finset.sum_range_succ, Finset.sum_range_zero, exHop_entry]
    interval_cases f <;> simp

/-- **C92, imaginary elements.** The current `i (c†_0 c_1 - c†_1 c_0)` is accepted as diagonal by the checked version, which looks at real
parts, with all values zero, although the operator has the eigenvalue one. -/
theorem C92_imaginary : exZero.Spectral (fun _ _ => 0) ∧
    (∃ r, exZero.quantumNumbersChecked true 4 (exHop Complex.I (-Complex.I)) = .ok r ∧ ∀ b < 4, (r.getD b fun _ => 0) 0 = 0) ∧
    ∃ v : ℕ → ℂ, v 1 ≠ 0 ∧ ∀ f < 4, ∑ i ∈ Finset.range 4, combEntry (exHop Complex.I (-Complex.I)) f i * v i = v f := by
  have hc := C92_checked exZero exZero_blocks (exHop Complex.I (-Complex.I)) (exHop_blocks _ _) 4 (by decide)
  obtain ⟨r, hr⟩ := hc.2 (fun b hb a ha b' hb' a' ha' _ => by
    rw [exHop_elem _ _ b b' hb hb']
    split
    · simp
    · split <;> simp)
  refine ⟨exZero_spectral, ⟨r, hr, fun b hb => ?_⟩, fun i => if i = 1 then 1 else if i = 2 then -Complex.I else 0, by simp, fun f hf => ?_⟩
  · rw [(hc.1 r hr).1 b hb 0 (by rw [(exZero_dim b hb).2]; omega), exHop_elem _ _ b b hb hb, if_neg (by omega), if_neg (by omega)]
    rfl
  · simp only [Finset.sum_range_succ, Finset.sum_range_zero, exHop_entry]
    interval_cases f <;> simp

/-- the hopping with amplitude one is refused by the checked version -/
example (r : List (ℕ → ℝ)) : exZero.quantumNumbersChecked true 4 (exHop 1 1) ≠ .ok r := by
  intro h
  have := ((C92_checked exZero exZero_blocks (exHop 1 1) (exHop_blocks _ _) 4 (by decide)).1 r h).2 1 (by decide) 0 (by decide) 2 (by decide) 0 (by decide) (by decide)
  rw [exHop_elem _ _ 1 2 (by decide) (by decide)] at this
  norm_num at this

/-- four states of equal weight: partition function four, the expectation value of the hopping vanishes -/
example (beta : ℝ) : exZero.partition beta = 4 ∧ ∃ r, exZero.traceRhoOp true (exZero.densityMatrix beta) (exHop 1 1) = .ok r ∧ r = 0 := by
  constructor
  · rw [partition_eq, show exZero.n = 4 from rfl]
    rw [Finset.sum_congr rfl (g := fun _ => (1 : ℝ)) (fun b hb => by
      rw [(exZero_dim b (Finset.mem_range.mp hb)).2]; simp [exZero])]
    simp
  · refine ⟨_, C91_gibbs exZero_blocks exZero_spectral beta (exHop 1 1) (exHop_blocks 1 1) true (fun _ f i => ?_), ?_⟩
    · rw [exHop_entry, exHop_entry]
      by_cases h1 : i = 1 ∧ f = 2
      · rw [if_pos h1, if_neg (by omega), if_pos ⟨h1.2, h1.1⟩]; simp
      · rw [if_neg h1]
        by_cases h2 : i = 2 ∧ f = 1
        · rw [if_pos h2, if_pos ⟨h2.2, h2.1⟩]; simp
        · rw [if_neg h2, if_neg (by omega), if_neg (by omega)]; simp
    · unfold gibbs
      rw [trace_exp_mul exZero_spectral, Finset.sum_eq_zero, zero_div]
      intro b hb
      apply Finset.sum_eq_zero
      intro a _
      rw [exHop_elem 1 1 b b (Finset.mem_range.mp hb) (Finset.mem_range.mp hb), if_neg (by omega), if_neg (by omega), mul_zero]

end Verif.Diag
