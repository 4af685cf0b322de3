import Verif.AtomDiag.Matrices
import Mathlib.Analysis.Normed.Algebra.MatrixExponential
import Mathlib.Analysis.Matrix.Spectrum
import Mathlib.Analysis.SpecialFunctions.Exp
import Mathlib.Analysis.SpecialFunctions.Exponential
import Mathlib.LinearAlgebra.Matrix.Trace

/-!
# Specification: matrices of operators between the Fock states of the blocks

Independent of the code, except for the numbering of the Fock states by block and position. The spectral decomposition of the
Hamiltonian (C87) is turned into statements about matrix exponentials.
-/

namespace Verif.Diag

open Matrix NormedSpace

/-! ## Specification -/

/-- block and position of a Fock state -/
abbrev Sys.I (s : Sys ℝ ℂ) := Σ b : Fin s.n, Fin (s.dim b)

/-- the Fock state with the given block and position -/
def Sys.state (s : Sys ℝ ℂ) (p : s.I) : ℕ := (s.sp p.1).getD p.2 0

/-- matrix of an operator between the Fock states of the blocks -/
def Sys.fock (s : Sys ℝ ℂ) (O : ℕ → ℕ → ℂ) : Matrix s.I s.I ℂ := fun p q => O (s.state p) (s.state q)

/-- the eigensystems diagonalise the Hamiltonian `h`, which does not connect different blocks (conclusion of C87) -/
structure Sys.Spectral (s : Sys ℝ ℂ) (h : ℕ → ℕ → ℂ) : Prop where
  blocks : ∀ b < s.n, Diagonalises (s.dim b) (fun j k => h ((s.sp b).getD j 0) ((s.sp b).getD k 0) - if j = k then (s.gs : ℂ) else 0) (s.E b) (s.U b)
  stable : ∀ b < s.n, ∀ b' < s.n, b ≠ b' → ∀ f ∈ s.sp b, ∀ i ∈ s.sp b', h f i = 0

/-- expectation value in the canonical ensemble -/
noncomputable def gibbs {ι : Type} [Fintype ι] [DecidableEq ι] (beta : ℝ) (H O : Matrix ι ι ℂ) : ℂ :=
  trace (exp ((-beta : ℂ) • H) * O) / trace (exp ((-beta : ℂ) • H))

/-! ## Proofs -/

theorem sum_I (s : Sys ℝ ℂ) (g : s.I → ℂ) (g' : ℕ → ℕ → ℂ) (h : ∀ p : s.I, g p = g' p.1 p.2) :
    ∑ p, g p = ∑ b ∈ Finset.range s.n, ∑ a ∈ Finset.range (s.dim b), g' b a := by
  rw [Fintype.sum_sigma, ← Fin.sum_univ_eq_sum_range (fun b => ∑ a ∈ Finset.range (s.dim b), g' b a)]
  apply Finset.sum_congr rfl
  intro b _
  rw [← Fin.sum_univ_eq_sum_range (fun a => g' b a)]
  apply Finset.sum_congr rfl
  intro a _
  exact h ⟨b, a⟩

/-- matrix of eigenvectors -/
def Sys.V (s : Sys ℝ ℂ) : Matrix s.I s.I ℂ := fun p q => if p.1 = q.1 then s.U p.1 p.2 q.2 else 0

theorem Sys.Spectral.unitary {s : Sys ℝ ℂ} {h : ℕ → ℕ → ℂ} (hs : s.Spectral h) : s.Unitary :=
  ⟨fun b hb => (hs.blocks b hb).columns, fun b hb => (hs.blocks b hb).rows⟩

theorem sum_block (s : Sys ℝ ℂ) (b : Fin s.n) (g : s.I → ℂ) (g' : ℕ → ℂ) (h0 : ∀ p : s.I, p.1 ≠ b → g p = 0) (h1 : ∀ a : Fin (s.dim b), g ⟨b, a⟩ = g' a) :
    ∑ p, g p = ∑ a ∈ Finset.range (s.dim b), g' a := by
  rw [Fintype.sum_sigma, Finset.sum_eq_single b]
  · rw [← Fin.sum_univ_eq_sum_range]
    exact Finset.sum_congr rfl fun a _ => h1 a
  · intro c _ hc
    exact Finset.sum_eq_zero fun a _ => h0 ⟨c, a⟩ hc
  · intro h; exact absurd (Finset.mem_univ _) h

theorem V_mul_star {s : Sys ℝ ℂ} (hu : s.Unitary) : s.V * s.Vᴴ = 1 := by
  ext ⟨b, j⟩ ⟨b', k⟩
  rw [mul_apply]
  have := sum_block s b (fun r => s.V ⟨b, j⟩ r * s.Vᴴ r ⟨b', k⟩) (fun a => s.U b j a * if b' = b then star (s.U b' k a) else 0)
    (fun p hp => by simp only [Sys.V]; rw [if_neg (fun h => hp h.symm), zero_mul])
    (fun a => by
      simp only [Sys.V, conjTranspose_apply, if_true]
      congr 1
      split <;> simp)
  rw [this]
  by_cases hb : b' = b
  · subst hb
    simp only [if_true]
    rw [hu.rows b' b'.2 j j.2 k k.2, one_apply]
    by_cases hjk : j = k
    · subst hjk; simp
    · rw [if_neg (fun h => hjk (Fin.ext h)), if_neg]
      intro h
      simp at h
      exact hjk h
  · rw [one_apply, if_neg]
    · apply Finset.sum_eq_zero
      intro a _
      rw [if_neg hb, mul_zero]
    · intro h
      exact hb (congrArg Sigma.fst h).symm

theorem star_mul_V {s : Sys ℝ ℂ} (hu : s.Unitary) : s.Vᴴ * s.V = 1 := mul_eq_one_comm.mp (V_mul_star hu)

theorem elem_eq (s : Sys ℝ ℂ) (O : ℕ → ℕ → ℂ) (p q : s.I) : (s.Vᴴ * s.fock O * s.V) p q = s.elem O p.1 p.2 q.1 q.2 := by
  obtain ⟨b, a⟩ := p
  obtain ⟨b', a'⟩ := q
  rw [mul_apply]
  have h1 := sum_block s b' (fun r => (s.Vᴴ * s.fock O) ⟨b, a⟩ r * s.V r ⟨b', a'⟩)
    (fun i => (∑ j ∈ Finset.range (s.dim b), star (s.U b j a) * O ((s.sp b).getD j 0) ((s.sp b').getD i 0)) * s.U b' i a')
    (fun p hp => by simp only [Sys.V]; rw [if_neg hp, mul_zero])
    (fun i => by
      have h2 := sum_block s b (fun r => s.Vᴴ ⟨b, a⟩ r * s.fock O r ⟨b', i⟩) (fun j => star (s.U b j a) * O ((s.sp b).getD j 0) ((s.sp b').getD i 0))
        (fun p hp => by simp only [Sys.V, conjTranspose_apply]; rw [if_neg hp, star_zero, zero_mul])
        (fun j => by simp only [Sys.V, conjTranspose_apply, if_true, Sys.fock, Sys.state])
      simp only [mul_apply, h2, Sys.V, if_true])
  rw [h1]
  unfold Sys.elem
  simp only
  rw [Finset.sum_comm]
  apply Finset.sum_congr rfl
  intro i _
  rw [Finset.sum_mul]

/-- energies of the unshifted Hamiltonian -/
noncomputable def Sys.energy (s : Sys ℝ ℂ) (p : s.I) : ℝ := s.E p.1 p.2 + s.gs

theorem spectral_decomposition {s : Sys ℝ ℂ} {h : ℕ → ℕ → ℂ} (hs : s.Spectral h) :
    s.fock h = s.V * diagonal (fun p => (s.energy p : ℂ)) * s.Vᴴ := by
  ext ⟨b, j⟩ ⟨b', k⟩
  rw [mul_apply]
  have := sum_block s b (fun r => (s.V * diagonal (fun p => (s.energy p : ℂ))) ⟨b, j⟩ r * s.Vᴴ r ⟨b', k⟩)
    (fun a => s.U b j a * ((s.E b a : ℂ) + s.gs) * if b' = b then star (s.U b' k a) else 0)
    (fun p hp => by rw [mul_diagonal]; simp only [Sys.V]; rw [if_neg (fun h => hp h.symm), zero_mul, zero_mul])
    (fun a => by
      rw [mul_diagonal]
      simp only [Sys.V, conjTranspose_apply, if_true, Sys.energy]
      push_cast
      congr 1
      split <;> simp)
  rw [this]
  by_cases hb : b' = b
  · subst hb
    have hsp := (hs.blocks b' b'.2).spectral j j.2 k k.2
    have hr := (hs.blocks b' b'.2).rows j j.2 k k.2
    simp only [if_true, Sys.fock, Sys.state]
    have e1 : ∀ a, s.U b' j a * ((s.E b' a : ℂ) + s.gs) * star (s.U b' k a) =
        s.U b' j a * algebraMap ℝ ℂ (s.E b' a) * star (s.U b' k a) + s.gs * (s.U b' j a * star (s.U b' k a)) := by
      intro a; simp only [Complex.coe_algebraMap]; ring
    rw [Finset.sum_congr rfl fun a _ => e1 a, Finset.sum_add_distrib, ← Finset.mul_sum, hr, ← hsp]
    split <;> simp
  · simp only [Sys.fock, Sys.state]
    rw [hs.stable b b.2 b' b'.2 (fun h => hb (Fin.ext h.symm)) _ (getD_mem j.2) _ (getD_mem k.2)]
    symm
    apply Finset.sum_eq_zero
    intro a _
    rw [if_neg hb, mul_zero]

theorem V_isUnit {s : Sys ℝ ℂ} (hu : s.Unitary) : IsUnit s.V ∧ s.V⁻¹ = s.Vᴴ :=
  ⟨IsUnit.of_mul_eq_one _ (V_mul_star hu), inv_eq_right_inv (V_mul_star hu)⟩

theorem exp_fock {s : Sys ℝ ℂ} {h : ℕ → ℕ → ℂ} (hs : s.Spectral h) (t : ℂ) :
    exp (t • s.fock h) = s.V * diagonal (fun p => Complex.exp (t * s.energy p)) * s.Vᴴ := by
  obtain ⟨h1, h2⟩ := V_isUnit hs.unitary
  have e1 : t • s.fock h = s.V * diagonal (fun p => t * (s.energy p : ℂ)) * s.V⁻¹ := by
    rw [spectral_decomposition hs, h2, ← smul_mul_assoc, ← mul_smul_comm, ← diagonal_smul]
    rfl
  rw [e1, exp_conj _ _ h1, exp_diagonal, h2]
  congr 3
  ext p
  rw [Pi.coe_exp, Complex.exp_eq_exp_ℂ]

/-- traces with one exponential -/
theorem trace_exp_mul {s : Sys ℝ ℂ} {h : ℕ → ℕ → ℂ} (hs : s.Spectral h) (t : ℂ) (O : ℕ → ℕ → ℂ) :
    trace (exp (t • s.fock h) * s.fock O) =
      ∑ b ∈ Finset.range s.n, ∑ a ∈ Finset.range (s.dim b), Complex.exp (t * ((s.E b a : ℂ) + s.gs)) * s.elem O b a b a := by
  rw [exp_fock hs, mul_assoc, mul_assoc, trace_mul_comm, mul_assoc, mul_assoc]
  apply sum_I
  intro p
  rw [diag_apply, diagonal_mul, ← mul_assoc, elem_eq]
  simp only [Sys.energy]
  push_cast
  rfl

theorem trace_exp {s : Sys ℝ ℂ} {h : ℕ → ℕ → ℂ} (hs : s.Spectral h) (t : ℂ) :
    trace (exp (t • s.fock h)) = ∑ b ∈ Finset.range s.n, ∑ a ∈ Finset.range (s.dim b), Complex.exp (t * ((s.E b a : ℂ) + s.gs)) := by
  rw [exp_fock hs, mul_assoc, trace_mul_comm, mul_assoc, star_mul_V hs.unitary, mul_one]
  apply sum_I
  intro p
  rw [diag_apply, diagonal_apply_eq]
  simp only [Sys.energy]
  push_cast
  rfl

/-- traces with two exponentials -/
theorem trace_exp_exp {s : Sys ℝ ℂ} {h : ℕ → ℕ → ℂ} (hs : s.Spectral h) (t u : ℂ) (A B : ℕ → ℕ → ℂ) :
    trace (exp (t • s.fock h) * s.fock A * exp (u • s.fock h) * s.fock B) =
      ∑ b ∈ Finset.range s.n, ∑ a ∈ Finset.range (s.dim b), ∑ b' ∈ Finset.range s.n, ∑ a' ∈ Finset.range (s.dim b'),
        Complex.exp (t * ((s.E b a : ℂ) + s.gs)) * s.elem A b a b' a' * (Complex.exp (u * ((s.E b' a' : ℂ) + s.gs)) * s.elem B b' a' b a) := by
  have e1 : trace (exp (t • s.fock h) * s.fock A * exp (u • s.fock h) * s.fock B) =
      trace ((diagonal (fun p => Complex.exp (t * s.energy p)) * (s.Vᴴ * s.fock A * s.V)) *
        (diagonal (fun p => Complex.exp (u * s.energy p)) * (s.Vᴴ * s.fock B * s.V))) := by
    rw [exp_fock hs, exp_fock hs]
    rw [show s.V * diagonal (fun p => Complex.exp (t * s.energy p)) * s.Vᴴ * s.fock A * (s.V * diagonal (fun p => Complex.exp (u * s.energy p)) * s.Vᴴ) * s.fock B =
      s.V * (diagonal (fun p => Complex.exp (t * s.energy p)) * (s.Vᴴ * s.fock A * s.V) * (diagonal (fun p => Complex.exp (u * s.energy p)) * (s.Vᴴ * s.fock B))) from by
        simp only [mul_assoc], trace_mul_comm]
    simp only [mul_assoc]
  rw [e1]
  apply sum_I s _ (fun b a => ∑ b' ∈ Finset.range s.n, ∑ a' ∈ Finset.range (s.dim b'),
        Complex.exp (t * ((s.E b a : ℂ) + s.gs)) * s.elem A b a b' a' * (Complex.exp (u * ((s.E b' a' : ℂ) + s.gs)) * s.elem B b' a' b a))
  intro p
  rw [diag_apply, mul_apply]
  apply sum_I
  intro q
  rw [diagonal_mul, diagonal_mul, elem_eq, elem_eq]
  simp only [Sys.energy]
  push_cast
  rfl

/-- a hermitian operator has a hermitian matrix in the eigenbasis -/
theorem elem_star {F K : Type} [CommRing K] [StarRing K] (s : Sys F K) (O O' : ℕ → ℕ → K) (h : ∀ f i, O' i f = star (O f i)) (b a b' a' : ℕ) :
    star (s.elem O b a b' a') = s.elem O' b' a' b a := by
  unfold Sys.elem
  rw [star_sum, Finset.sum_comm]
  simp only [star_sum]
  rw [Finset.sum_comm]
  conv_rhs => rw [Finset.sum_comm]
  apply Finset.sum_congr rfl
  intro j _
  apply Finset.sum_congr rfl
  intro i _
  rw [star_mul, star_mul, star_star, ← h]
  ring

/-- the sum over the states of the blocks is the sum over the Fock states when the blocks partition them -/
theorem sum_states (s : Sys ℝ ℂ) (N : ℕ) (hp : s.spaces.flatten.Perm (List.range N)) (g : ℕ → ℂ) :
    ∑ p : s.I, g (s.state p) = ∑ f ∈ Finset.range N, g f := by
  rw [sum_I s (fun p => g (s.state p)) (fun b a => g ((s.sp b).getD a 0)) (fun p => rfl)]
  have e1 : ∑ f ∈ Finset.range N, g f = (s.spaces.flatten.map g).sum := by
    rw [(hp.map g).sum_eq]; rfl
  rw [e1]
  have e2 : ∀ l : List ℕ, ∑ a ∈ Finset.range l.length, g (l.getD a 0) = (l.map g).sum := by
    intro l
    induction l with
    | nil => rfl
    | cons x l ih =>
      rw [List.length_cons, Finset.sum_range_succ', List.map_cons, List.sum_cons, ← ih, add_comm]
      rfl
  have e3 : ∀ l : List (List ℕ), ∑ b ∈ Finset.range l.length, ∑ a ∈ Finset.range (l.getD b []).length, g ((l.getD b []).getD a 0) = (l.flatten.map g).sum := by
    intro l
    induction l with
    | nil => rfl
    | cons x l ih =>
      rw [List.length_cons, Finset.sum_range_succ', List.flatten_cons, List.map_append, List.sum_append, ← ih, ← e2 x, add_comm]
      rfl
  exact e3 s.spaces

/-! ### The assumption on the solver can be met -/

open Classical in
/-- eigenvalues and eigenvectors of the spectral theorem, in ascending order -/
noncomputable def someEig : Eig ℝ ℂ := fun n h =>
  if hh : (Matrix.of fun j k : Fin n => h j k).IsHermitian then
    let idx := fun (a : ℕ) (ha : a < n) => (Fintype.equivOfCardEq (Fintype.card_fin (Fintype.card (Fin n)))) (Fin.cast (Fintype.card_fin n).symm (Fin.rev ⟨a, ha⟩));
    (fun a => if ha : a < n then hh.eigenvalues (idx a ha) else 0,
     fun j a => if hja : j < n ∧ a < n then (hh.eigenvectorUnitary : Matrix (Fin n) (Fin n) ℂ) ⟨j, hja.1⟩ (idx a hja.2) else 0)
  else (fun _ => 0, fun _ _ => 0)

/-- **A solver as assumed exists** for every hermitian matrix: the assumption of C87 holds for some function. -/
theorem eigSpec_exists : EigSpec someEig := by
  intro n h hh
  have hH : (Matrix.of fun j k : Fin n => h j k).IsHermitian := by
    ext j k
    simp only [conjTranspose_apply, of_apply]
    exact (hh j j.2 k k.2).symm
  have hE : someEig n h =
    (let idx := fun (a : ℕ) (ha : a < n) => (Fintype.equivOfCardEq (Fintype.card_fin (Fintype.card (Fin n)))) (Fin.cast (Fintype.card_fin n).symm (Fin.rev ⟨a, ha⟩));
    (fun a => if ha : a < n then hH.eigenvalues (idx a ha) else 0,
     fun j a => if hja : j < n ∧ a < n then (hH.eigenvectorUnitary : Matrix (Fin n) (Fin n) ℂ) ⟨j, hja.1⟩ (idx a hja.2) else 0)) := by
    unfold someEig
    rw [dif_pos hH]
  let σ : Fin n ≃ Fin n := (Fin.revPerm.trans (finCongr (Fintype.card_fin n).symm)).trans (Fintype.equivOfCardEq (Fintype.card_fin (Fintype.card (Fin n))))
  have e1 : ∀ a : Fin n, (someEig n h).1 a = hH.eigenvalues (σ a) := by
    intro a; rw [hE]; simp only; rw [dif_pos a.2]; rfl
  have e2 : ∀ j a : Fin n, (someEig n h).2 j a = (hH.eigenvectorUnitary : Matrix (Fin n) (Fin n) ℂ) j (σ a) := by
    intro j a; rw [hE]; simp only; rw [dif_pos ⟨j.2, a.2⟩]; rfl
  have hU := hH.eigenvectorUnitary.2
  have hU1 : (hH.eigenvectorUnitary : Matrix (Fin n) (Fin n) ℂ)ᴴ * hH.eigenvectorUnitary = 1 := (Matrix.mem_unitaryGroup_iff'.mp hU)
  have hU2 : (hH.eigenvectorUnitary : Matrix (Fin n) (Fin n) ℂ) * (hH.eigenvectorUnitary : Matrix (Fin n) (Fin n) ℂ)ᴴ = 1 := (Matrix.mem_unitaryGroup_iff.mp hU)
  refine ⟨?_, ?_, ?_, ?_⟩
  · intro a b hab hb
    rw [e1 ⟨a, by omega⟩, e1 ⟨b, hb⟩]
    unfold IsHermitian.eigenvalues
    apply hH.eigenvalues₀_antitone
    simp only [σ, Equiv.trans_apply, Equiv.symm_apply_apply]
    simp [Fin.le_def, Fin.val_rev]
    omega
  · intro a ha b hb
    rw [← Fin.sum_univ_eq_sum_range (fun j => star ((someEig n h).2 j a) * (someEig n h).2 j b)]
    have := congrFun (congrFun hU1 (σ ⟨a, ha⟩)) (σ ⟨b, hb⟩)
    rw [mul_apply] at this
    rw [Finset.sum_congr rfl fun j _ => by rw [e2 j ⟨a, ha⟩, e2 j ⟨b, hb⟩]]
    simp only [conjTranspose_apply] at this
    rw [this, one_apply]
    simp
  · intro j hj k hk
    rw [← Fin.sum_univ_eq_sum_range (fun a => (someEig n h).2 j a * star ((someEig n h).2 k a))]
    have := congrFun (congrFun hU2 ⟨j, hj⟩) ⟨k, hk⟩
    rw [mul_apply] at this
    rw [Finset.sum_congr rfl fun a _ => by rw [e2 ⟨j, hj⟩ a, e2 ⟨k, hk⟩ a]]
    simp only [conjTranspose_apply] at this
    rw [Equiv.sum_comp σ (fun a => (hH.eigenvectorUnitary : Matrix (Fin n) (Fin n) ℂ) ⟨j, hj⟩ a * star ((hH.eigenvectorUnitary : Matrix (Fin n) (Fin n) ℂ) ⟨k, hk⟩ a)), this, one_apply]
    simp
  · intro j hj k hk
    rw [← Fin.sum_univ_eq_sum_range (fun a => (someEig n h).2 j a * algebraMap ℝ ℂ ((someEig n h).1 a) * star ((someEig n h).2 k a))]
    have := congrFun (congrFun hH.spectral_theorem ⟨j, hj⟩) ⟨k, hk⟩
    rw [Unitary.conjStarAlgAut_apply, mul_apply] at this
    rw [Finset.sum_congr rfl fun a _ => by rw [e2 ⟨j, hj⟩ a, e2 ⟨k, hk⟩ a, e1 a]]
    rw [Equiv.sum_comp σ (fun a => (hH.eigenvectorUnitary : Matrix (Fin n) (Fin n) ℂ) ⟨j, hj⟩ a * algebraMap ℝ ℂ (hH.eigenvalues a) * star ((hH.eigenvectorUnitary : Matrix (Fin n) (Fin n) ℂ) ⟨k, hk⟩ a))]
    rw [of_apply] at this
    rw [this]
    apply Finset.sum_congr rfl
    intro a _
    rw [mul_diagonal]
    rfl

/-- **Construction of a system.** For a hermitian Hamiltonian and disjoint stable blocks, the constructor yields a system
with disjoint blocks that carries the spectral decomposition of the Hamiltonian. -/
theorem complete_spectral (eig : Eig ℝ ℂ) (heig : EigSpec eig) (split : ℝ) (hsp : 0 ≤ split) (terms : List (Mono ℂ))
    (hH : ∀ f i, opEntry terms f i = star (opEntry terms i f)) (spaces : List (List ℕ)) (crea anni : ℕ → ℕ → Option ℕ)
    (hne : ∀ sp ∈ spaces, sp ≠ []) (hnd : ∀ sp ∈ spaces, sp.Nodup) (hst : ∀ sp ∈ spaces, Stable terms sp) (hdj : spaces.Pairwise List.Disjoint)
    (hcr : ∀ n b b', b < spaces.length → crea n b = some b' → b' < spaces.length) (han : ∀ n b b', b < spaces.length → anni n b = some b' → b' < spaces.length) :
    ∃ s, complete eig split terms spaces crea anni = some s ∧ s.spaces.Perm spaces ∧ s.Blocks ∧ s.Spectral (opEntry terms) := by
  have hdist : spaces.Nodup := by
    rw [List.Nodup]
    refine hdj.imp_of_mem ?_
    intro x y hx _ hd e
    obtain ⟨z, hz⟩ := List.exists_mem_of_ne_nil x (hne x hx)
    exact hd hz (e ▸ hz)
  obtain ⟨s, h1, h2, h3, -⟩ := C87_complete eig heig split hsp terms hH spaces crea anni hne hnd hst hdist hcr han
  have hget : ∀ b (h : b < s.n), s.sp b = s.spaces[b]'h := fun b h => by
    unfold Sys.sp; rw [List.getD_eq_getElem?_getD, List.getElem?_eq_getElem h]; rfl
  have hmem : ∀ b, b < s.n → s.sp b ∈ spaces := fun b h => by
    rw [hget b h]; exact h2.subset (List.getElem_mem h)
  have hdj' : s.spaces.Pairwise List.Disjoint := (h2.pairwise_iff (fun {a b} h => h.symm)).mpr hdj
  have hB : s.Blocks := by
    refine ⟨fun b hb => hnd _ (hmem b hb), fun b hb b' hb' f hf hf' => ?_⟩
    by_contra hne'
    rw [hget b hb] at hf
    rw [hget b' hb'] at hf'
    rcases Nat.lt_or_gt_of_ne hne' with h | h
    · exact List.pairwise_iff_getElem.mp hdj' b b' hb hb' h hf hf'
    · exact List.pairwise_iff_getElem.mp hdj' b' b hb' hb h hf' hf
  refine ⟨s, h1, h2, hB, ⟨fun b hb => ?_, fun b hb b' hb' hne' f hf i hi => ?_⟩⟩
  · have := h3 b hb
    rw [← hget b hb] at this
    exact this
  · have hz : ∀ t ∈ terms, entry t f i = 0 := by
      intro t ht
      cases he : t i with
      | none => simp [entry, he]
      | some p =>
        obtain ⟨f', x⟩ := p
        have := hst _ (hmem b' hb') t ht i hi f' x he
        rw [entry_of t i f' x he, if_neg]
        rintro rfl
        exact hne' (hB.disjoint b hb b' hb' f' hf this)
    unfold opEntry
    rw [List.map_congr_left hz]
    simp

end Verif.Diag
